import Verif.Props.HutchSpecialRun

/-!
# C153: for finite observations the model with special values is the model without
-/

noncomputable section

namespace Primate

open Spec

variable {N : ℕ}

/-- The same criterion in the model without special values. -/
def Spec.toCrit : SCrit → Crit
  | .count c => .count c
  | .tol rtol atol ord => .tol rtol atol ord
  | .conf c => .conf c
  | .knee S => .knee S
  | .or a b => .or (toCrit a) (toCrit b)
  | .and a b => .and (toCrit a) (toCrit b)
  | .not a => .not (toCrit a)

/-- The same number. -/
def Spec.toFl : NumArr (Fin 1 → ℝ) → Fl
  | .val a => .fin (a 0)
  | .inf => .pinf
  | .nan => .nan

/-- The same state. -/
structure Spec.Same (e : MeanEst 1) (s : SEst) (c : Covariance ℝ 1) : Prop where
  acc : e.acc = .cov c
  nan : c.nan = false
  n : e.nSamples = s.n
  cn : c.n = s.n
  mu : s.mu = .fin (c.mu 0)
  S : s.S = .fin (c.S 0 0)
  delta : s.delta = toFl e.delta
  values : s.values = e.values.map fun v => v.map fun x => .fin (x 0)

theorem same_init (record : Bool) : Same (MeanEst.init 1 true record) (SEst.init record) (Covariance.init ℝ 1) where
  acc := rfl
  nan := rfl
  n := rfl
  cn := rfl
  mu := rfl
  S := rfl
  delta := rfl
  values := by cases record <;> rfl

theorem same_update {e : MeanEst 1} {s : SEst} {c : Covariance ℝ 1} (h : Same e s c) {X : List ℝ} (hX : X ≠ []) :
    ∃ e' s' c', e.update (.vec X) = .ok e' ∧ s.update (X.map .fin) = .ok s' ∧ Same e' s' c' := by
  obtain ⟨s', h1, h2, h3, h4, h5, h6⟩ := supdate_fin h.mu h.S hX
  have hl : X.length ≠ 0 := by simpa using hX
  have hw : (ArrayLike.vec X).promote.width = 1 := rfl
  have e1 : ∀ i, colMean (X.map fun x (_ : Fin 1) => x) i = X.sum / X.length := fun i => by simp [colMean, Function.comp_def]
  have hacc : (Acc.cov c).update (.mat (ArrayLike.vec X).promote) = .ok (.cov ⟨c.n + X.length,
      fun i => c.mu i + ((X.length : ℝ) / ((c.n + X.length : ℕ) : ℝ)) * (X.sum / X.length - c.mu i),
      fun i j => c.S i j + ((X.map fun x => (x - X.sum / X.length) * (x - X.sum / X.length)).sum +
        (c.n : ℝ) * (X.length : ℝ) / ((c.n + X.length : ℕ) : ℝ) * ((X.sum / X.length - c.mu i) * (X.sum / X.length - c.mu j))), c.nan⟩) := by
    show Except.map _ (c.updateRows (X.map fun x _ => x)) = _
    unfold Covariance.updateRows
    simp only [List.length_map]
    rw [if_neg (by omega), if_neg hl]
    simp only [e1, List.map_map, Function.comp_def]
    rfl
  unfold MeanEst.update
  simp only
  rw [h.acc, hacc]
  refine ⟨_, s', _, rfl, h1, ⟨rfl, h.nan, ?_, ?_, ?_, ?_, ?_, ?_⟩⟩
  · simp [ArrayLike.promote, h2, h.n]
  · simp [h2, h.cn]
  · rw [h3, h.cn]
  · rw [h4, h.cn]
  · rw [h5]
    simp only [Acc.nan, h.nan, Acc.mu, Bool.or_self, Bool.false_eq_true, if_false, toFl, h.cn]
  · rw [h6, h.values]
    cases e.values with
    | none => rfl
    | some v =>
      simp [ArrayLike.promote, Function.comp_def]

theorem same_estimate {e : MeanEst 1} {s : SEst} {c : Covariance ℝ 1} (h : Same e s c) : s.estimate = toFl e.estimate := by
  unfold SEst.estimate MeanEst.estimate
  rw [h.acc]
  simp only [Covariance.mean, h.cn, h.nan, Bool.false_eq_true, if_false]
  split_ifs
  · rfl
  · rw [h.mu]
    rfl

theorem norm_toFl (ord : NormOrd) (a : NumArr (Fin 1 → ℝ)) : sNorm ord (toFl a) = arrNorm ord a := by
  unfold sNorm
  cases a <;> cases ord <;> simp [arrNorm, toFl, vecNorm, Except.map, Fl.abs, Real.sqrt_sq_eq_abs]

theorem arrMax_fin {f : ℕ → ℝ} (m : ℕ) (h : 0 < m + 1) : Fl.arrMax (fun k => .fin (f k)) m = .fin (arrMax f (m + 1) h) := by
  induction m with
  | zero => simp [Fl.arrMax, arrMax]
  | succ m ih =>
    rw [Fl.arrMax, ih (by omega)]
    have e : arrMax f (m + 1 + 1) h = max (f (m + 1)) (arrMax f (m + 1) (by omega)) := by
      unfold arrMax
      rw [Finset.sup'_congr _ (Finset.range_add_one) fun _ _ => rfl, Finset.sup'_insert]
    rw [e]
    unfold Fl.max
    rw [if_neg (by simp)]
    by_cases hlt : arrMax f (m + 1) (by omega) < f (m + 1)
    · rw [max_eq_left hlt.le]
      exact if_pos hlt
    · rw [max_eq_right (not_lt.1 hlt)]
      exact if_neg hlt

theorem arrMin_fin {f : ℕ → ℝ} (m : ℕ) (h : 0 < m + 1) : Fl.arrMin (fun k => .fin (f k)) m = .fin (arrMin f (m + 1) h) := by
  induction m with
  | zero => simp [Fl.arrMin, arrMin]
  | succ m ih =>
    rw [Fl.arrMin, ih (by omega)]
    have e : arrMin f (m + 1 + 1) h = min (f (m + 1)) (arrMin f (m + 1) (by omega)) := by
      unfold arrMin
      rw [Finset.inf'_congr _ (Finset.range_add_one) fun _ _ => rfl, Finset.inf'_insert]
    rw [e]
    unfold Fl.min
    rw [if_neg (by simp)]
    by_cases hlt : f (m + 1) < arrMin f (m + 1) (by omega)
    · rw [min_eq_left hlt.le]
      exact if_pos hlt
    · rw [min_eq_right (not_lt.1 hlt)]
      exact if_neg hlt

theorem knee_fin (S : ℝ) (s : SEst) (mv : List ℝ) (hv : s.values = some (mv.map .fin)) : (.ok (sKnee S s) : Py Bool) = if mv.length < 3 then .ok false else kneeDecide S (kneeCurve mv) mv.length := by
  unfold sKnee
  rw [hv]
  simp only [List.length_map]
  by_cases hl : mv.length < 3
  · rw [if_pos hl, if_pos hl]
  · rw [if_neg hl, if_neg hl]
    obtain ⟨m, hm⟩ : ∃ m, mv.length = m + 3 := ⟨mv.length - 3, by omega⟩
    have hc : (fun i : ℕ => ((mv.map Fl.fin).getD i (.fin 0)).div (.fin ((i : ℝ) + 1))) = fun i => .fin (kneeCurve mv i) := by
      funext i
      have : (mv.map Fl.fin).getD i (.fin 0) = .fin (mv.getD i 0) := by
        simp only [List.getD_eq_getElem?_getD, List.getElem?_map]
        cases mv[i]? <;> rfl
      rw [this, Fl.div_fin (by positivity)]
      rfl
    rw [hc]
    have hy : sKneeY (fun i => .fin (kneeCurve mv i)) = fun k => .fin (kneeY (kneeCurve mv) k) := by
      funext k
      unfold sKneeY kneeY
      rw [← Fl.sum_fin, List.map_map]
      refine congrArg Fl.sum (List.map_congr_left fun i _ => ?_)
      simp [Fl.sub_fin, Fl.abs]
    rw [hy]
    unfold kneeDecide
    have hL : mv.length - 1 = m + 1 + 1 := by omega
    simp only [hL, Nat.add_sub_cancel]
    rw [dif_pos (by omega), arrMin_fin (m + 1) (by omega), arrMax_fin (m + 1) (by omega), Fl.sub_fin]
    have hM : kneeY (kneeCurve mv) 0 ≤ arrMax (kneeY (kneeCurve mv)) (m + 1 + 1) (by omega) := Finset.le_sup' (kneeY (kneeCurve mv)) (Finset.mem_range.2 (by omega))
    have hμ : arrMin (kneeY (kneeCurve mv)) (m + 1 + 1) (by omega) ≤ kneeY (kneeCurve mv) 0 := Finset.inf'_le (kneeY (kneeCurve mv)) (Finset.mem_range.2 (by omega))
    generalize arrMax (kneeY (kneeCurve mv)) (m + 1 + 1) _ = M at hM
    generalize arrMin (kneeY (kneeCurve mv)) (m + 1 + 1) _ = μ at hμ
    by_cases h0 : M - μ = 0
    · rw [if_pos h0, h0]
      congr 1
      rw [truth_eq_false]
      have hmax := arrMax_nan (f := fun k : ℕ => ((Fl.sub (.fin (kneeY (kneeCurve mv) k)) (.fin μ)).div (.fin 0)).sub (.fin ((k : ℝ) / (((m + 1 + 1 : ℕ) : ℝ) - 1))))
        (k := 0) (by
          have : kneeY (kneeCurve mv) 0 - μ = 0 := by linarith
          rw [Fl.sub_fin, this]
          simp [Fl.div, Fl.divFin, Fl.nan_sub]) (m + 1) (by omega)
      rw [hmax, Fl.nan_sub]
      simp [Fl.lt]
    · rw [if_neg h0]
      have hd : (fun k : ℕ => ((Fl.sub (.fin (kneeY (kneeCurve mv) k)) (.fin μ)).div (.fin (M - μ))).sub (.fin ((k : ℝ) / (((m + 1 + 1 : ℕ) : ℝ) - 1)))) =
          fun k : ℕ => .fin ((kneeY (kneeCurve mv) k - μ) / (M - μ) - (k : ℝ) / (((m + 1 + 1 : ℕ) : ℝ) - 1)) := by
        funext k
        rw [Fl.sub_fin, Fl.div_fin h0, Fl.sub_fin]
      rw [hd, arrMax_fin (m + 1) (by omega), Fl.sub_fin, Fl.sub_fin, Fl.div_fin h0, Fl.sub_fin]
      rfl

theorem same_eval {e : MeanEst 1} {s : SEst} {c : Covariance ℝ 1} (h : Same e s c) (k : SCrit) : k.eval s = (toCrit k).eval e.view := by
  induction k with
  | count n => simp [SCrit.eval, toCrit, Crit.eval, MeanEst.view, h.n]
  | tol rtol atol ord =>
    simp only [SCrit.eval, toCrit, Crit.eval, sTolerance, toleranceCall, MeanEst.view, deltaNorm, h.delta, same_estimate h, norm_toFl]
    rfl
  | conf k =>
    have hn : e.nSamples = s.n := h.n
    simp only [SCrit.eval, toCrit, Crit.eval, ConfCrit.sCall, ConfCrit.sError, ConfCrit.call, ConfCrit.error, MeanEst.view, if_true, hn, h.acc]
    by_cases h3 : s.n < 3
    · simp [h3, bind, Except.bind, pure, Except.pure]
    · have e1 : e.estimate = .val c.mu := by
        unfold MeanEst.estimate
        rw [h.acc]
        simp only [Covariance.mean, h.cn, h.nan, Bool.false_eq_true, if_false]
        rw [if_neg (by omega)]
      have e2 : c.covariance 1 = .ok (.val fun i j => c.S i j / (((s.n : ℤ) - 1 : ℤ) : ℝ)) := by
        unfold Covariance.covariance
        rw [h.cn, if_neg (by omega), h.nan]
        rfl
      have hn1 : ((s.n : ℝ) - 1) ≠ 0 := by
        have : (3 : ℝ) ≤ s.n := by exact_mod_cast not_lt.1 h3
        linarith
      have hsq : Real.sqrt s.n ≠ 0 := Real.sqrt_ne_zero'.2 (by
        have : (3 : ℝ) ≤ s.n := by exact_mod_cast not_lt.1 h3
        linarith)
      have e3 : s.covariance = .fin (c.S 0 0 / ((s.n : ℝ) - 1)) := by
        unfold SEst.covariance
        rw [if_neg (by omega), h.S, Fl.div_fin hn1]
      have e4 : s.estimate = .fin (c.mu 0) := by rw [same_estimate h, e1]; rfl
      simp only [if_neg h3, e1, e2, e3, e4, Fl.sqrt, Fl.div_fin hsq, bind, Except.bind, pure, Except.pure, dif_pos]
      push_cast
      rfl
  | knee S =>
    simp only [SCrit.eval, toCrit, Crit.eval, kneeCall, MeanEst.view]
    cases hv : e.values with
    | none =>
      have : s.values = none := by rw [h.values, hv]; rfl
      simp [sKnee, this]
    | some v =>
      have : s.values = some ((v.map fun x => x 0).map .fin) := by rw [h.values, hv]; simp [Function.comp_def]
      rw [knee_fin S s _ this]
      have e1 : (v.flatMap fun row => List.ofFn row) = v.map fun x => x 0 := by
        clear hv this
        induction v with
        | nil => rfl
        | cons a v ih => rw [List.flatMap_cons, ih]; simp
      simp only [e1, List.length_map]
  | or a b ha hb => simp only [SCrit.eval, toCrit, Crit.eval, ha, hb]
  | and a b ha hb => simp only [SCrit.eval, toCrit, Crit.eval, ha, hb]
  | not a ha => simp only [SCrit.eval, toCrit, Crit.eval, ha]

/-- The operator with values in the extended numbers. -/
def Spec.toSOperand (A : Operand N) : SOperand N := ⟨fun v i => .fin (A.apply v i), A.quad.map fun q v => .fin (q v)⟩

theorem quadForm_fin (A : Operand N) (v : Vec N) : (toSOperand A).quadForm v = .fin (A.quadForm v) := by
  unfold SOperand.quadForm Operand.quadForm toSOperand
  cases A.quad with
  | some q => rfl
  | none =>
    simp only [Option.map_none, Fl.scale]
    have : (List.ofFn fun i => Fl.fin (v i * A.apply v i)) = (List.ofFn fun i => v i * A.apply v i).map .fin := by
      rw [List.map_ofFn]
      rfl
    rw [this, Fl.sum_fin, List.sum_ofFn]

/-- The loops do the same. -/
theorem loop_fin (A : Operand N) (pdf : Pdf N) {b : ℕ} (hb : b ≠ 0) (k : SCrit) (fuel : ℕ) : ∀ (st : HutchState) (s : SEst) (c : Covariance ℝ 1), Same st.est s c →
    (hutchLoopS (toSOperand A) pdf b k fuel st.history s).map (Except.map SEst.estimate) =
      (hutchLoop A pdf b (toCrit k) fuel st).map (Except.map fun t => toFl t.est.estimate) := by
  induction fuel with
  | zero => exact fun _ _ _ _ => rfl
  | succ fuel ih =>
    intro st s c h
    rw [hutchLoopS, hutchLoop, same_eval h]
    cases (toCrit k).eval st.est.view with
    | error e => rfl
    | ok v =>
      cases v with
      | true => simp [Except.map, same_estimate h]
      | false =>
        simp only [quadForm_fin]
        have hX : (List.ofFn fun j => A.quadForm (pdf st.history b j)) ≠ [] := fun hh => by
          have := congrArg List.length hh
          simp at this
          exact hb this
        obtain ⟨e', s', c', h1, h2, h3⟩ := same_update h hX
        have e1 : (List.ofFn fun j => Fl.fin (A.quadForm (pdf st.history b j))) = (List.ofFn fun j => A.quadForm (pdf st.history b j)).map .fin := by
          rw [List.map_ofFn]
          rfl
        rw [e1]
        simp only [h2, hutchBody, h1]
        exact ih ⟨st.history ++ [b], e', st.calls ++ [e']⟩ s' c' h3

/-- **C153**: for operators with finite values this model of `hutch` is the other one. -/
theorem C153_finite (tppf : ℝ → ℕ → ℝ) (zscore : ℝ → ℝ) (rng : Rng) (a : HutchArgs N) (hb : a.batch ≠ 0) (pdf : Pdf N) (hp : a.pdf.resolve rng = .ok pdf) (k : SCrit)
    (hk : hutchCriterion tppf zscore a.converge a.kw = .ok (toCrit k)) (fuel : ℕ) :
    hutchS (toSOperand a.A) a.batch pdf k (a.full || a.callback) a.record fuel =
      (hutch tppf zscore rng a fuel).map (Except.map fun o => toFl o.1.estimate) := by
  unfold hutchS hutch
  rw [hp]
  simp only [hk]
  by_cases hN : N = 0
  · rw [if_pos hN, if_pos hN]
    cases a.full <;> rfl
  · rw [if_neg hN, if_neg hN]
    by_cases hf : (a.full || a.callback) = true
    · rw [if_pos hf, if_pos hf]
      have := loop_fin a.A pdf hb k fuel ⟨[], MeanEst.init 1 true a.record, []⟩ _ _ (same_init a.record)
      revert this
      simp only
      generalize hutchLoopS (toSOperand a.A) pdf a.batch k fuel [] (SEst.init a.record) = x
      generalize hutchLoop a.A pdf a.batch (toCrit k) fuel ⟨[], MeanEst.init 1 true a.record, []⟩ = y
      intro h
      rcases x with _ | _ | x <;> rcases y with _ | _ | y <;> simp [Except.map] at h ⊢ <;> exact h
    · rw [if_neg hf, if_neg hf]
      have := loop_fin a.A pdf one_ne_zero k fuel ⟨[], MeanEst.init 1 true a.record, []⟩ _ _ (same_init a.record)
      revert this
      simp only
      generalize hutchLoopS (toSOperand a.A) pdf 1 k fuel [] (SEst.init a.record) = x
      generalize hutchLoop a.A pdf 1 (toCrit k) fuel ⟨[], MeanEst.init 1 true a.record, []⟩ = y
      intro h
      rcases x with _ | _ | x <;> rcases y with _ | _ | y <;> simp [Except.map] at h ⊢ <;> exact h

end Primate
