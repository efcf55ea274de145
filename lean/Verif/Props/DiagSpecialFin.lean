import Verif.Props.DiagSpecial
import Verif.Props.HutchSpecialFin

/-!
# C154: for finite values the model of `diag` with special values is the model without
-/

noncomputable section

namespace Primate

open Spec

variable {N : ℕ}

/-- The same array. -/
def Spec.toFlV : NumArr (Fin N → ℝ) → Fin N → Fl
  | .val a => fun i => .fin (a i)
  | .inf => fun _ => .pinf
  | .nan => fun _ => .nan

/-- The same state. -/
structure Spec.SameD (e : MeanEst N) (d : DEst N) (m : Mean ℝ N) : Prop where
  acc : e.acc = .mean m
  nan : m.nan = false
  n : e.nSamples = d.n
  mn : m.n = d.n
  mu : d.mu = fun i => .fin (m.mu i)
  delta : d.delta = toFlV e.delta
  values : d.values = e.values.map fun v => v.map fun x i => .fin (x i)

theorem sameD_init (record : Bool) : SameD (MeanEst.init N false record) (DEst.init N record) (Mean.init ℝ N) where
  acc := rfl
  nan := rfl
  n := rfl
  mn := rfl
  mu := rfl
  delta := rfl
  values := by cases record <;> rfl

theorem sameD_update {e : MeanEst N} {d : DEst N} {m : Mean ℝ N} (h : SameD e d m) (x : Vec N) :
    ∃ e' m', e.update (.mat ⟨N, [x]⟩) = .ok e' ∧ SameD e' (d.update fun i => .fin (x i)) m' := by
  have hacc : (Acc.mean m).update (.mat (ArrayLike.mat ⟨N, [x]⟩).promote) = .ok (.mean ⟨m.n + 1, fun i => m.mu i + ((1 : ℝ) / ((m.n + 1 : ℕ) : ℝ)) * (x i - m.mu i), m.nan⟩) := by
    have e1 : m.update (.mat ⟨N, [x]⟩) = m.updateRows [x] := by simp [Mean.update, ArrayLike.promote]
    show Except.map _ (m.update (.mat ⟨N, [x]⟩)) = _
    rw [e1]
    unfold Mean.updateRows
    simp [colMean, Except.map]
  unfold MeanEst.update
  simp only
  rw [h.acc, hacc]
  refine ⟨_, _, rfl, ⟨rfl, h.nan, ?_, ?_, ?_, ?_, ?_⟩⟩
  · simp [ArrayLike.promote, h.n, DEst.update]
  · simp [DEst.update, h.mn]
  · simp only [DEst.update, h.mu, h.mn, Fl.sub_fin, Fl.scale, Fl.add]
  · simp only [DEst.update, h.mu, h.mn, Fl.sub_fin, Fl.scale, Fl.add, Acc.nan, h.nan, Acc.mu, Bool.or_self, Bool.false_eq_true, if_false, toFlV]
  · simp only [DEst.update, h.values]
    cases e.values with
    | none => rfl
    | some v => simp [ArrayLike.promote]

theorem sameD_estimate {e : MeanEst N} {d : DEst N} {m : Mean ℝ N} (h : SameD e d m) : d.estimate = toFlV e.estimate := by
  funext i
  unfold DEst.estimate MeanEst.estimate
  rw [h.acc]
  simp only [Mean.mean, h.mn, h.nan, Bool.false_eq_true, if_false]
  split_ifs
  · rfl
  · rw [h.mu]
    rfl

theorem sum_ofFn_const_nan (hN : N ≠ 0) : Fl.sum (List.ofFn fun _ : Fin N => Fl.nan) = .nan := by
  obtain ⟨n, rfl⟩ := Nat.exists_eq_succ_of_ne_zero hN
  simp [List.ofFn_succ, Fl.sum, Fl.add]

theorem sum_ofFn_const_inf (hN : N ≠ 0) : Fl.sum (List.ofFn fun _ : Fin N => Fl.pinf) = .pinf := by
  obtain ⟨n, rfl⟩ := Nat.exists_eq_succ_of_ne_zero hN
  induction n with
  | zero => simp [Fl.sum, Fl.add]
  | succ n ih =>
    rw [List.ofFn_succ, Fl.sum, ih (by omega)]
    rfl

theorem arrMax_const {x : Fl} (hx : x = .pinf ∨ x = .nan) {f : ℕ → Fl} : ∀ m, (∀ k ≤ m, f k = x) → Fl.arrMax f m = x := by
  intro m
  induction m with
  | zero => exact fun h => h 0 le_rfl
  | succ m ih =>
    intro h
    rw [Fl.arrMax, ih fun k hk => h k (by omega), h (m + 1) le_rfl]
    unfold Fl.max
    rcases hx with rfl | rfl <;> simp [Fl.lt]

theorem arrMax_sup' (hN : N ≠ 0) (a : Fin N → ℝ) (h : (Finset.univ : Finset (Fin N)).Nonempty) :
    Fl.arrMax (fun k => ((List.ofFn fun i => Fl.fin (a i)).getD k (.fin 0)).abs) (N - 1) = .fin (Finset.univ.sup' h fun i => |a i|) := by
  obtain ⟨n, rfl⟩ := Nat.exists_eq_succ_of_ne_zero hN
  have e1 : (fun k => ((List.ofFn fun i => Fl.fin (a i)).getD k (.fin 0)).abs) = fun k => .fin |if hk : k < n.succ then a ⟨k, hk⟩ else 0| := by
    funext k
    rw [List.getD_eq_getElem?_getD, List.getElem?_ofFn]
    split_ifs with hk <;> simp [Fl.abs]
  rw [e1, Nat.succ_sub_one, arrMax_fin n (by omega)]
  congr 1
  unfold arrMax
  refine le_antisymm (Finset.sup'_le _ _ fun k hk => ?_) (Finset.sup'_le _ _ fun i _ => ?_)
  · have hk' : k < n.succ := Finset.mem_range.1 hk
    rw [dif_pos hk']
    exact Finset.le_sup' (fun i => |a i|) (Finset.mem_univ (⟨k, hk'⟩ : Fin n.succ))
  · have := Finset.le_sup' (fun k : ℕ => |if hk : k < n.succ then a ⟨k, hk⟩ else 0|) (Finset.mem_range.2 i.2)
    rw [dif_pos i.2] at this
    exact this

theorem dNorm_toFl (hN : N ≠ 0) (ord : NormOrd) (a : NumArr (Fin N → ℝ)) : dNorm ord (toFlV a) = arrNorm ord a := by
  have hne : (Finset.univ : Finset (Fin N)).Nonempty := ⟨⟨0, Nat.pos_of_ne_zero hN⟩, Finset.mem_univ _⟩
  have hlist : ∀ f : Fin N → ℝ, Fl.sum (List.ofFn fun i => Fl.fin (f i)) = .fin (∑ i, f i) := fun f => by
    rw [← List.sum_ofFn, ← Fl.sum_fin, List.map_ofFn]
    rfl
  unfold dNorm
  cases a with
  | val a =>
    cases ord with
    | none =>
      simp only [toFlV, Fl.mul, Fl.scale, hlist, arrNorm, vecNorm, Except.map, Fl.sqrt, pow_two]
    | two =>
      simp only [toFlV, Fl.mul, Fl.scale, hlist, arrNorm, vecNorm, Except.map, Fl.sqrt, pow_two]
    | one =>
      simp only [toFlV, Fl.abs, hlist, arrNorm, vecNorm, Except.map]
    | inf =>
      simp only [toFlV, arrNorm, vecNorm, dif_pos hne, Except.map, arrMax_sup' hN a hne]
    | str => rfl
  | inf =>
    have e1 : Fl.arrMax (fun k => ((List.ofFn fun _ : Fin N => Fl.pinf).getD k (.fin 0)).abs) (N - 1) = .pinf :=
      arrMax_const (.inl rfl) _ fun k hk => by
        rw [List.getD_eq_getElem?_getD, List.getElem?_ofFn, dif_pos (by omega)]
        rfl
    have e2 := sum_ofFn_const_inf hN
    cases ord <;> simp only [toFlV, arrNorm, vecNorm, dif_pos hne, Except.map, Fl.mul, Fl.abs, e2, Fl.sqrt]
    exact congrArg Except.ok e1
  | nan =>
    have e1 : Fl.arrMax (fun k => ((List.ofFn fun _ : Fin N => Fl.nan).getD k (.fin 0)).abs) (N - 1) = .nan :=
      arrMax_const (.inr rfl) _ fun k hk => by
        rw [List.getD_eq_getElem?_getD, List.getElem?_ofFn, dif_pos (by omega)]
        rfl
    have e2 := sum_ofFn_const_nan hN
    cases ord <;> simp only [toFlV, arrNorm, vecNorm, dif_pos hne, Except.map, Fl.mul, Fl.abs, e2, Fl.sqrt]
    exact congrArg Except.ok e1

theorem sameD_eval (hN : N ≠ 0) {e : MeanEst N} {d : DEst N} {m : Mean ℝ N} (h : SameD e d m) (k : SCrit) : k.dEval d = (toCrit k).eval e.view := by
  induction k with
  | count n => simp [SCrit.dEval, toCrit, Crit.eval, MeanEst.view, h.n]
  | tol rtol atol ord =>
    simp only [SCrit.dEval, toCrit, Crit.eval, dTolerance, toleranceCall, MeanEst.view, deltaNorm, h.delta, sameD_estimate h, dNorm_toFl hN]
    rfl
  | conf k =>
    simp only [SCrit.dEval, toCrit, Crit.eval, ConfCrit.call, ConfCrit.error, MeanEst.view, if_true, h.n, h.acc]
    by_cases h3 : d.n < 3
    · simp [h3, bind, Except.bind, pure, Except.pure, Fl.le, truth]
    · simp [h3, bind, Except.bind]
  | knee S =>
    simp only [SCrit.dEval, toCrit, Crit.eval, kneeCall, MeanEst.view, dKnee, h.values]
    cases hv : e.values with
    | none => rfl
    | some v =>
      simp only [Option.map_some, List.length_map]
      by_cases h3 : v.length < 3
      · rw [if_pos h3, if_pos h3]
      · rw [if_neg h3, if_neg h3]
        have e1 : ((v.map fun x i => Fl.fin (x i)).flatMap fun x => List.ofFn x) = (v.flatMap fun row => List.ofFn row).map .fin := by
          clear hv h3
          induction v with
          | nil => rfl
          | cons a v ih => rw [List.map_cons, List.flatMap_cons, List.flatMap_cons, ih, List.map_append, List.map_ofFn]; rfl
        have hlen : ¬ (v.flatMap fun row => List.ofFn row).length < 3 := by
          have : (v.flatMap fun row => List.ofFn row).length = v.length * N := by
            clear hv h3 e1
            induction v with
            | nil => simp
            | cons a v ih => rw [List.flatMap_cons, List.length_append, ih]; simp; ring
          rw [this]
          have := Nat.le_mul_of_pos_right v.length (Nat.pos_of_ne_zero hN)
          omega
        rw [knee_fin S _ (v.flatMap fun row => List.ofFn row) (by rw [e1]), if_neg hlen]
  | or a b ha hb => simp only [SCrit.dEval, toCrit, Crit.eval, ha, hb]
  | and a b ha hb => simp only [SCrit.dEval, toCrit, Crit.eval, ha, hb]
  | not a ha => simp only [SCrit.dEval, toCrit, Crit.eval, ha]

/-- The loops do the same as long as the denominators are positive or the next vector has no zero entry. -/
theorem dloop_fin (hN : N ≠ 0) (A : Operand N) (pdf : Pdf N) (hv : ∀ i, pdf [] 1 0 i ≠ 0) (k : SCrit) (fuel : ℕ) : ∀ (st : DiagState N) (s : SDiagState N) (m : Mean ℝ N), SameD st.est s.est m →
    s.history = st.history → s.numer = (fun i => .fin (st.numer i)) → s.denom = (fun i => .fin (st.denom i)) → (∀ i, 0 ≤ st.denom i) → (st.history = [] ∨ ∀ i, 0 < st.denom i) →
    (sDiagLoop (toSOperand A) pdf k fuel s).map (Except.map fun t => t.est.estimate) = (diagLoop A pdf (toCrit k) fuel st).map (Except.map fun t => toFlV t.est.estimate) := by
  induction fuel with
  | zero => exact fun _ _ _ _ _ _ _ _ _ => rfl
  | succ fuel ih =>
    intro st s m h hh hn hd h0 h1
    rw [sDiagLoop, diagLoop, sameD_eval hN h]
    cases (toCrit k).eval st.est.view with
    | error e => rfl
    | ok v =>
      cases v with
      | true => simp [Except.map, sameD_estimate h]
      | false =>
        have hpos : ∀ i, 0 < st.denom i + pdf st.history 1 0 i ^ 2 := fun i => by
          rcases h1 with h1 | h1
          · have := hv i
            rw [h1]
            have := h0 i
            positivity
          · have := h1 i
            positivity
        obtain ⟨e', m', hu, hs⟩ := sameD_update h fun i => (st.numer i + A.apply (pdf st.history 1 0) i * pdf st.history 1 0 i) / (st.denom i + pdf st.history 1 0 i ^ 2)
        have hb : diagBody A pdf st = .ok ⟨st.history ++ [1], fun i => st.numer i + A.apply (pdf st.history 1 0) i * pdf st.history 1 0 i,
            fun i => st.denom i + pdf st.history 1 0 i ^ 2, e', st.calls ++ [e']⟩ := by
          unfold diagBody
          simp only [hu]
        have hb' : sDiagBody (toSOperand A) pdf s = ⟨st.history ++ [1], fun i => .fin (st.numer i + A.apply (pdf st.history 1 0) i * pdf st.history 1 0 i),
            fun i => .fin (st.denom i + pdf st.history 1 0 i ^ 2), s.est.update fun i =>
              .fin ((st.numer i + A.apply (pdf st.history 1 0) i * pdf st.history 1 0 i) / (st.denom i + pdf st.history 1 0 i ^ 2))⟩ := by
          unfold sDiagBody
          simp only [hh, hn, hd, toSOperand, Fl.mul, Fl.scale, Fl.add, Fl.div_fin (hpos _).ne']
        simp only [hb, hb']
        exact ih _ _ m' hs rfl rfl rfl (fun i => (hpos i).le) (.inr hpos)

/-- **C154**: for operators with finite values and a first vector without zero entries this model of `diag` is the other one, with every criterion. -/
theorem C154_agree (tppf : ℝ → ℕ → ℝ) (zscore : ℝ → ℝ) (rng : Rng) (a : DiagArgs N) (hN : N ≠ 0) {s : String} (hp : a.pdf = .name s) (pdf : Pdf N) (hs : isotropicPdf s rng N = .ok pdf)
    (hv : ∀ i, pdf [] 1 0 i ≠ 0) (k : SCrit) (hk : convergenceCriterion tppf zscore a.converge a.kw = .ok (toCrit k)) (fuel : ℕ) :
    diagS (toSOperand a.A) pdf k a.record fuel = (diag tppf zscore rng a fuel).map (Except.map fun o => toFlV o.1.estimate) := by
  unfold diagS diag
  rw [hp]
  simp only [hs, hk]
  rw [if_neg hN]
  have := dloop_fin hN a.A pdf hv k fuel ⟨[], fun _ => 0, fun _ => 0, MeanEst.init N false a.record, []⟩ ⟨[], fun _ => .fin 0, fun _ => .fin 0, DEst.init N a.record⟩ (Mean.init ℝ N)
    (sameD_init a.record) rfl rfl rfl (fun _ => le_rfl) (.inl rfl)
  revert this
  generalize sDiagLoop (toSOperand a.A) pdf k fuel ⟨[], fun _ => .fin 0, fun _ => .fin 0, DEst.init N a.record⟩ = x
  generalize diagLoop a.A pdf (toCrit k) fuel ⟨[], fun _ => 0, fun _ => 0, MeanEst.init N false a.record, []⟩ = y
  intro h
  by_cases hf : (a.full || a.callback) = true
  · simp only [hf, if_true]
    rcases x with _ | _ | x <;> rcases y with _ | _ | y <;> simp [Except.map] at h ⊢ <;> exact h
  · simp only [hf]
    rcases x with _ | _ | x <;> rcases y with _ | _ | y <;> simp [Except.map] at h ⊢ <;> exact h

/-- With Rademacher vectors, for a criterion that stops by count or by tolerance. -/
example (tppf : ℝ → ℕ → ℝ) (zscore : ℝ → ℝ) (rng : Rng) (hu : ∀ p, 0 ≤ rng.unif p ∧ rng.unif p < 1) (A : Operand 3) (fuel : ℕ) : ∃ pdf : Pdf 3, isotropicPdf "rademacher" rng 3 = .ok pdf ∧
    diagS (toSOperand A) pdf (.or (.count 50) (.tol (1/10) (1/100) .inf)) true fuel =
      (diag tppf zscore rng ⟨A, .name "rademacher", .obj (.or (.count 50) (.tol (1/10) (1/100) .inf)), false, true, true, []⟩ fuel).map (Except.map fun o => toFlV o.1.estimate) := by
  obtain ⟨pdf, hp⟩ : ∃ pdf : Pdf 3, isotropicPdf "rademacher" rng 3 = .ok pdf := ⟨_, rfl⟩
  have hd := rademacher_draw1 rng hu pdf hp
  exact ⟨pdf, hp, C154_agree tppf zscore rng ⟨A, .name "rademacher", .obj (.or (.count 50) (.tol (1/10) (1/100) .inf)), false, true, true, []⟩ (by norm_num) rfl pdf hp
    (fun i => by rcases hd 0 i with h | h <;> rw [show pdf [] 1 0 i = Spec.draw1 pdf 0 i from rfl, h] <;> norm_num) (.or (.count 50) (.tol (1/10) (1/100) .inf)) rfl fuel⟩

end Primate
