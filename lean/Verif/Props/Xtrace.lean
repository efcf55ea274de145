import Verif.Lemmas.Xtrace

/-! # Properties C31-C34, C78: xtrace -/

namespace Primate

open Matrix

variable {n : ℕ} (tppf : ℝ → ℕ → ℝ) (zscore : ℝ → ℝ)

/-! ## C34 over a sequence of insertions -/

/-- **C34**: after any sequence of insertions from the empty factorization the maintained matrix is
the inverse of `R`, and `Q R` reproduces the inserted vectors. -/
theorem C34_sequence (qrInsert : QRInsert n) (hq : QRInsertOk qrInsert) (us : List (Vec n))
    (record : Bool) (s : QRState n)
    (h : xtraceInsert qrInsert us (XState.init n record).qr = .ok s) :
    s.k = us.length ∧ s.Rinv * s.R = 1 ∧ s.R * s.Rinv = 1 ∧ s.Qᵀ * s.Q = 1 ∧
      ∀ (j : Fin s.k) i, (s.Q * s.R) i j = us.getD j 0 i := by
  have h0 : QInv (XState.init n record).qr ([] : List (Vec n)) := by
    refine ⟨rfl, ?_, fun j => j.elim0, ?_⟩ <;> funext i <;> exact i.elim0
  obtain ⟨hi, -⟩ := xtraceInsert_ok hq us h0 h
  rw [List.nil_append] at hi
  exact ⟨hi.k_eq, hi.inv, mul_eq_one_comm.mp hi.inv, hi.orth, fun j i => (hi.fact j i).symm⟩

/-! ## The contract of qr_insert is satisfiable -/

theorem gs_dot {k : ℕ} (Q : Matrix (Fin n) (Fin k) ℝ) (hQ : Qᵀ * Q = 1) (u : Vec n) :
    Qᵀ *ᵥ (u - Q *ᵥ (Qᵀ *ᵥ u)) = 0 := by
  rw [mulVec_sub, mulVec_mulVec _ Qᵀ Q, hQ, one_mulVec, sub_self]

theorem exists_qrInsertOk (n : ℕ) : ∃ qrInsert : QRInsert n, QRInsertOk qrInsert := by
  classical
  refine ⟨fun k Q R u =>
    let v := u - Q *ᵥ (Qᵀ *ᵥ u)
    let ρ := Real.sqrt (v ⬝ᵥ v)
    if v = 0 then none else
    some (Matrix.of fun i j => Fin.lastCases (v i / ρ) (fun j => Q i j) j,
      Spec.border R (Fin.lastCases ρ (Qᵀ *ᵥ u))), ?_, ?_⟩
  · intro k Q R u Q' R' hQ h
    simp only at h
    split_ifs at h with hv
    set v := u - Q *ᵥ (Qᵀ *ᵥ u) with hvdef
    simp only [Option.some.injEq, Prod.mk.injEq] at h
    obtain ⟨rfl, rfl⟩ := h
    have hpos : 0 < v ⬝ᵥ v := by
      have h0 : 0 ≤ v ⬝ᵥ v := Finset.sum_nonneg fun i _ => mul_self_nonneg _
      rcases h0.lt_or_eq with h | h
      · exact h
      · exact absurd (dotProduct_self_eq_zero.mp h.symm) hv
    have hρ : Real.sqrt (v ⬝ᵥ v) ≠ 0 := (Real.sqrt_pos.mpr hpos).ne'
    have hρ2 : Real.sqrt (v ⬝ᵥ v) * Real.sqrt (v ⬝ᵥ v) = v ⬝ᵥ v := Real.mul_self_sqrt hpos.le
    have horth := gs_dot Q hQ u
    rw [← hvdef] at horth
    have horth' : ∀ j, ∑ i, Q i j * v i = 0 := fun j => congrFun horth j
    refine ⟨?_, ?_, ?_, ?_, ?_, ?_⟩
    · funext i j
      rw [mul_apply]
      simp only [transpose_apply, of_apply]
      refine Fin.lastCases ?_ (fun j => ?_) j <;> refine Fin.lastCases ?_ (fun i => ?_) i
      · simp only [Fin.lastCases_last, one_apply_eq, div_mul_div_comm, hρ2]
        rw [← Finset.sum_div]; exact div_self hpos.ne'
      · simp only [Fin.lastCases_last, Fin.lastCases_castSucc]
        rw [one_apply_ne (Fin.castSucc_lt_last i).ne]
        simp only [← mul_div_assoc]
        rw [← Finset.sum_div, horth', zero_div]
      · simp only [Fin.lastCases_last, Fin.lastCases_castSucc]
        rw [one_apply_ne (Fin.castSucc_lt_last j).ne']
        simp only [div_mul_eq_mul_div]
        rw [← Finset.sum_div]
        simp only [mul_comm (v _)]
        rw [horth', zero_div]
      · simp only [Fin.lastCases_castSucc]
        have := congrFun (congrFun hQ i) j
        rw [mul_apply] at this
        simp only [one_apply, Fin.castSucc_inj] at this ⊢
        exact this
    · intro i j; simp
    · intro i j; simp [Spec.border]
    · intro j; simp [Spec.border]
    · simpa [Spec.border] using hρ
    · intro i
      rw [Fin.sum_univ_castSucc]
      simp only [Spec.border, of_apply, Fin.lastCases_last, Fin.lastCases_castSucc]
      rw [div_mul_cancel₀ _ hρ]
      have : ∑ x, Q i x * (Qᵀ *ᵥ u) x = (Q *ᵥ (Qᵀ *ᵥ u)) i := rfl
      rw [this, hvdef, Pi.sub_apply]; ring
  · intro k Q R u hQ h
    simp only at h
    split_ifs at h with hv
    exact ⟨Qᵀ *ᵥ u, by rw [← sub_eq_zero]; exact hv⟩

/-! ## C31 -/

variable (rng : Rng) (A : Operand n) (batch : ℕ) (pdf : PdfArg n) (converge : CritArg)
  (full record : Bool) (kw : Kwargs)

theorem xtraceCriterion_eval :
    ∃ crit, xtraceCriterion tppf zscore n converge kw = .ok crit ∧
      ∀ e : MeanEst 1, crit.eval e.view = .ok (truth ((n : ℤ) ≤ (e.nSamples : ℤ))) := by
  unfold xtraceCriterion
  split
  · exact ⟨_, rfl, fun e => rfl⟩
  · refine ⟨_, rfl, fun e => ?_⟩
    simp [Crit.eval, MeanEst.view, bind, Except.bind, pure, Except.pure]

/-- The number of passes: `ceil(n / batch)`. -/
theorem rounds_eq {K : ℕ} (hb : 1 ≤ batch) (h1 : n ≤ K * batch) (h2 : ∀ u < K, u * batch < n) :
    K = (n + batch - 1) / batch := by
  symm
  rw [Nat.div_eq_iff (by omega)]
  rcases Nat.eq_zero_or_pos K with rfl | hK
  · simp at h1; subst h1; constructor <;> omega
  · have := h2 (K - 1) (by omega)
    have e : K * batch = (K - 1) * batch + batch := by
      rw [← Nat.succ_mul]; congr 1; omega
    constructor <;> omega

theorem xtrace_run (qrInsert : QRInsert n) (hq : QRInsertOk qrInsert) (hb : 1 ≤ batch)
    (pd : Pdf n) (hp : pdf.resolve rng = .ok pd) (fuel : ℕ) (hf : n < fuel) :
    (∃ crit s, xtraceCriterion tppf zscore n converge kw = .ok crit ∧
      xtrace tppf zscore qrInsert rng A batch pdf converge full record kw fuel =
        some (.ok (s.est.estimate,
          if full then some ⟨some s.est, some crit, s.est.estimate, 0⟩ else none, s)) ∧
      XInv A pd batch record ((n + batch - 1) / batch) s) ∨
    (xtrace tppf zscore qrInsert rng A batch pdf converge full record kw fuel =
        some (.error .linAlg) ∧
      ¬ Spec.NoDependent ((Spec.xdrawn pd batch ((n + batch - 1) / batch)).map A.apply)) := by
  obtain ⟨crit, hc, he⟩ := xtraceCriterion_eval (n := n) tppf zscore converge kw
  obtain ⟨f, rfl⟩ : ∃ f, fuel = n + 1 + f := ⟨fuel - (n + 1), by omega⟩
  have hun : xtrace tppf zscore qrInsert rng A batch pdf converge full record kw (n + 1 + f) =
      match xtraceLoop qrInsert A pd batch record crit (n + 1 + f) (XState.init n record) with
        | none => none
        | some (.error e) => some (.error e)
        | some (.ok s) =>
          some (.ok (s.est.estimate,
            if full then some ⟨some s.est, some crit, s.est.estimate, 0⟩ else none, s)) := by
    unfold xtrace
    rw [if_neg (by omega), hc]
    simp only [hp]
    rfl
  rw [hun]
  rcases xtraceLoop_spec hq hb he n 0 _ (XInv.init A pd batch record) (by omega) with
    ⟨s, t, h1, h2, h3⟩ | ⟨t, h1, h2, h3⟩
  · left
    refine ⟨crit, s, hc, ?_, ?_⟩
    · rw [xtraceLoop_mono h1 f]
    · rw [← rounds_eq batch hb h3 h2.need]; exact h2
  · right
    rw [xtraceLoop_mono h1 f]
    refine ⟨rfl, fun hd => h3 ?_⟩
    have hle : t + 1 ≤ (n + batch - 1) / batch := by
      rw [Nat.le_div_iff_mul_le (by omega), Nat.succ_mul]; omega
    obtain ⟨rest, hr⟩ := xdrawn_prefix pd batch hle
    rw [hr, List.map_append] at hd
    exact noDependent_prefix hd

/-- **C31**: `xtrace` always ends; either it made `ceil(n/batch)` passes and drew exactly `n`
vectors (the `t`-th pass requesting `min(n - t batch, batch)`), or it raised LinAlgError, which
happens only if the images of these vectors are linearly dependent. -/
theorem C31_terminates (qrInsert : QRInsert n) (hq : QRInsertOk qrInsert) (hb : 1 ≤ batch)
    (pd : Pdf n) (hp : pdf.resolve rng = .ok pd) (fuel : ℕ) (hf : n < fuel) :
    (∃ est res s, xtrace tppf zscore qrInsert rng A batch pdf converge full record kw fuel =
        some (.ok (est, res, s)) ∧
      s.history = (List.range ((n + batch - 1) / batch)).map
        (fun t => min (n - min n (t * batch)) batch) ∧
      s.W = Spec.xdrawn pd batch ((n + batch - 1) / batch) ∧ s.W.length = n ∧
      s.est.nSamples = n ∧ est = s.est.estimate ∧ (res.isSome = full)) ∨
    (xtrace tppf zscore qrInsert rng A batch pdf converge full record kw fuel =
        some (.error .linAlg) ∧
      ¬ Spec.NoDependent ((Spec.xdrawn pd batch ((n + batch - 1) / batch)).map A.apply)) := by
  rcases xtrace_run tppf zscore rng A batch pdf converge full record kw qrInsert hq hb pd hp fuel hf
    with ⟨crit, s, -, h2, h3⟩ | h
  · left
    have hmin : min n ((n + batch - 1) / batch * batch) = n := by
      rw [min_eq_left]
      have := Nat.div_add_mod (n + batch - 1) batch
      have h' := Nat.mod_lt (n + batch - 1) (show batch > 0 by omega)
      rw [mul_comm]; omega
    refine ⟨_, _, s, h2, h3.hist, h3.W, ?_, ?_, rfl, by cases full <;> rfl⟩
    · rw [h3.W, xdrawn_length, hmin]
    · rw [h3.nSamples, hmin]
  · exact .inr h

theorem xtrace_estimate (M : Matrix (Fin n) (Fin n) ℝ)
    (qrInsert : QRInsert n) (hq : QRInsertOk qrInsert) (hb : 1 ≤ batch)
    (pd : Pdf n) (hp : pdf.resolve rng = .ok pd) (fuel : ℕ) (hf : n < fuel)
    (W : Matrix (Fin n) (Fin n) ℝ)
    (hW : ∀ i j, W i j = (Spec.xdrawn pd batch ((n + batch - 1) / batch)).getD j 0 i) :
    (∃ est res s, xtrace tppf zscore qrInsert rng (.ofMatrix M) batch pdf converge full record kw
        fuel = some (.ok (est, res, s)) ∧
      (n = 0 → est = .nan) ∧ (∃ Q R Rinv, XData M W Q R Rinv) ∧
      (0 < n → ∀ P : Fin n → Matrix (Fin n) (Fin n) ℝ,
        (∀ i, Spec.IsProjOn (P i) (M * W) (fun j => j ≠ i)) →
        est = .val fun _ => (∑ i, Spec.looValue M (P i) (fun k => W k i) 1) / n)) ∨
    (xtrace tppf zscore qrInsert rng (.ofMatrix M) batch pdf converge full record kw fuel =
        some (.error .linAlg) ∧
      ¬ Spec.NoDependent ((Spec.xdrawn pd batch ((n + batch - 1) / batch)).map M.mulVec)) := by
  rcases xtrace_run tppf zscore rng (.ofMatrix M) batch pdf converge full record kw qrInsert hq hb
    pd hp fuel hf with ⟨crit, s, -, h2, h3⟩ | h
  · left
    refine ⟨_, _, s, h2, ?_⟩
    have hmin : min n ((n + batch - 1) / batch * batch) = n := by
      rw [min_eq_left]
      have := Nat.div_add_mod (n + batch - 1) batch
      have h' := Nat.mod_lt (n + batch - 1) (show batch > 0 by omega)
      rw [mul_comm]; omega
    have hk := h3.len
    rw [hmin] at hk
    obtain ⟨hist, W0, Z0, ⟨k, Q, R, Rinv⟩, est, calls⟩ := s
    obtain ⟨Wm, Zm, h4, h5, h6⟩ := h3.est
    have h7 := h3.qr
    simp only at hk h4 h5 h6 Wm Zm
    clear h2 h3
    subst hk
    have hWm : Wm = W := by
      funext i j; rw [h4, hW]
    subst hWm
    have hZ : Zm = M * Q := by
      funext i j
      rw [h5]; rfl
    subst hZ
    have hx : XData M Wm Q R Rinv := by
      refine ⟨h7.orth, ?_, h7.inv⟩
      funext i j
      have := h7.fact j i
      simp only at this
      rw [← this]
      have hlen := h7.k_eq
      rw [List.getD_eq_getElem _ _ (by rw [← hlen]; exact j.2), List.getElem_map]
      have e : (fun k => Wm k j) = (Spec.xdrawn pd batch ((k + batch - 1) / batch))[(j : ℕ)]'(by
          rw [List.length_map] at hlen; rw [← hlen]; exact j.2) := by
        funext l
        rw [h4, List.getD_eq_getElem]
      rw [← e]; rfl
    refine ⟨?_, ⟨Q, R, Rinv, hx⟩, ?_⟩
    · intro h0
      subst h0
      exact h6.estimate_nil
    · intro hn P hP
      rw [h6.estimate_eq (by simp; omega)]
      congr 1
      funext x
      simp only [Spec.sampleMean, List.map_map, Function.comp_def, List.length_map, List.length_ofFn,
        List.map_id']
      rw [List.sum_ofFn]
      congr 1
      exact Finset.sum_congr rfl fun i _ => C30_leave_one_out hx i (P i) (hP i)
  · exact .inr h

/-- **C31**: what is returned on a matrix is the mean of the leave-one-out values of the `n` drawn
vectors (NaN for `n = 0`). -/
theorem C31_estimate (M : Matrix (Fin n) (Fin n) ℝ)
    (qrInsert : QRInsert n) (hq : QRInsertOk qrInsert) (hb : 1 ≤ batch)
    (pd : Pdf n) (hp : pdf.resolve rng = .ok pd) (fuel : ℕ) (hf : n < fuel)
    (W : Matrix (Fin n) (Fin n) ℝ)
    (hW : ∀ i j, W i j = (Spec.xdrawn pd batch ((n + batch - 1) / batch)).getD j 0 i)
    (hind : Spec.NoDependent ((Spec.xdrawn pd batch ((n + batch - 1) / batch)).map M.mulVec)) :
    ∃ est res s, xtrace tppf zscore qrInsert rng (.ofMatrix M) batch pdf converge full record kw
        fuel = some (.ok (est, res, s)) ∧
      (n = 0 → est = .nan) ∧
      (0 < n → ∀ P : Fin n → Matrix (Fin n) (Fin n) ℝ,
        (∀ i, Spec.IsProjOn (P i) (M * W) (fun j => j ≠ i)) →
        est = .val fun _ => (∑ i, Spec.looValue M (P i) (fun k => W k i) 1) / n) := by
  rcases xtrace_estimate tppf zscore rng batch pdf converge full record kw M
    qrInsert hq hb pd hp fuel hf W hW with ⟨est, res, s, h1, h2, -, h3⟩ | h
  · exact ⟨est, res, s, h1, h2, h3⟩
  · exact absurd hind h.2

theorem noDependent_of_xdata {M W Q R Rinv : Matrix (Fin n) (Fin n) ℝ} (h : XData M W Q R Rinv)
    (l : List (Vec n)) (hl : l.length = n) (hW : ∀ i j, W i j = l.getD j 0 i) :
    Spec.NoDependent (l.map M.mulVec) := by
  rintro pre u post hsplit ⟨c, hc⟩
  have hlen : pre.length < n := by
    have := congrArg List.length hsplit
    simp only [List.length_map, List.length_append, List.length_cons] at this
    omega
  have hcol : ∀ (j : Fin n) (i : Fin n), (M * W) i j = (l.map M.mulVec).getD j 0 i := by
    intro j i
    have hj : (j : ℕ) < l.length := by rw [hl]; exact j.2
    rw [List.getD_eq_getElem _ _ (by simpa using hj), List.getElem_map]
    have : (fun k => W k j) = l[(j : ℕ)] := by
      funext k; rw [hW, List.getD_eq_getElem _ _ hj]
    rw [← this]; rfl
  -- the dependency as a vector annihilated by `M W`
  set d : Vec n := fun j => if hj : (j : ℕ) < pre.length then c ⟨j, hj⟩ else
    if (j : ℕ) = pre.length then -1 else 0 with hd
  have hz : (M * W) *ᵥ d = 0 := by
    funext i
    simp only [mulVec, dotProduct, hcol, hsplit, Pi.zero_apply]
    have hterm : ∀ j : Fin n, (pre ++ u :: post).getD j 0 i * d j =
        (if hj : (j : ℕ) < pre.length then c ⟨j, hj⟩ * pre.get ⟨j, hj⟩ i else 0) -
          (if (j : ℕ) = pre.length then u i else 0) := by
      intro j
      simp only [hd]
      by_cases hj : (j : ℕ) < pre.length
      · rw [dif_pos hj, dif_pos hj, if_neg (by omega), List.getD_append _ _ _ _ hj,
          List.getD_eq_getElem _ _ hj, sub_zero, mul_comm]
        rfl
      · rw [dif_neg hj, dif_neg hj]
        by_cases hj' : (j : ℕ) = pre.length
        · rw [if_pos hj', if_pos hj', List.getD_append_right _ _ _ _ (by omega), hj']
          simp
        · rw [if_neg hj', if_neg hj']; simp
    simp only [hterm, Finset.sum_sub_distrib]
    have e1 : ∑ j : Fin n, (if (j : ℕ) = pre.length then u i else 0) = u i := by
      rw [Finset.sum_eq_single ⟨pre.length, hlen⟩]
      · simp
      · intro b _ hb; rw [if_neg]; intro h; exact hb (Fin.ext h)
      · simp
    have e2 : ∑ j : Fin n, (if hj : (j : ℕ) < pre.length then c ⟨j, hj⟩ * pre.get ⟨j, hj⟩ i else 0) = u i := by
      rw [hc, Finset.sum_apply]
      rw [Fin.sum_univ_eq_sum_range (fun j => if hj : j < pre.length then c ⟨j, hj⟩ * pre.get ⟨j, hj⟩ i else 0) n,
        ← Finset.sum_subset (Finset.range_mono hlen.le), ← Fin.sum_univ_eq_sum_range
          (fun j => if hj : j < pre.length then c ⟨j, hj⟩ * pre.get ⟨j, hj⟩ i else 0)]
      · refine Finset.sum_congr rfl fun j _ => ?_
        rw [dif_pos j.2]; rfl
      · intro j _ hj
        rw [Finset.mem_range] at hj
        rw [dif_neg hj]
    rw [e1, e2, sub_self]
  have hd0 : d = 0 := by
    have h1 : (Rinv * (Qᵀ * (M * W))) *ᵥ d = 0 := by
      rw [← Matrix.mul_assoc, ← mulVec_mulVec, hz, mulVec_zero]
    rwa [h.fact, ← Matrix.mul_assoc Qᵀ, h.orth, Matrix.one_mul, h.inv, one_mulVec] at h1
  have := congrFun hd0 ⟨pre.length, hlen⟩
  simp [hd] at this

/-- **C31**: `xtrace` on a matrix raises LinAlgError exactly when the images of the `n` vectors are
linearly dependent. -/
theorem C31_raises_iff (M : Matrix (Fin n) (Fin n) ℝ)
    (qrInsert : QRInsert n) (hq : QRInsertOk qrInsert) (hb : 1 ≤ batch)
    (pd : Pdf n) (hp : pdf.resolve rng = .ok pd) (fuel : ℕ) (hf : n < fuel) :
    xtrace tppf zscore qrInsert rng (.ofMatrix M) batch pdf converge full record kw fuel =
        some (.error .linAlg) ↔
      ¬ Spec.NoDependent ((Spec.xdrawn pd batch ((n + batch - 1) / batch)).map M.mulVec) := by
  have hlen : (Spec.xdrawn pd batch ((n + batch - 1) / batch)).length = n := by
    rw [xdrawn_length, min_eq_left]
    have := Nat.div_add_mod (n + batch - 1) batch
    have h' := Nat.mod_lt (n + batch - 1) (show batch > 0 by omega)
    rw [mul_comm]; omega
  rcases xtrace_estimate tppf zscore rng batch pdf converge full record kw M
    qrInsert hq hb pd hp fuel hf
    (Matrix.of fun i j => (Spec.xdrawn pd batch ((n + batch - 1) / batch)).getD j 0 i) (fun _ _ => rfl)
    with ⟨est, res, s, h1, -, ⟨Q, R, Rinv, hx⟩, -⟩ | h
  · rw [h1]
    simp only [Option.some.injEq, reduceCtorEq, false_iff, not_not]
    exact noDependent_of_xdata hx _ hlen fun _ _ => rfl
  · exact ⟨fun _ => h.2, fun _ => h.1⟩

/-- **C31**: a non-positive batch size is rejected. -/
theorem C31_batch (qrInsert : QRInsert n) (fuel : ℕ) :
    xtrace tppf zscore qrInsert rng A 0 pdf converge full record kw fuel =
      some (.error .assertion) := rfl

/-! ## C32 -/

/-- **C32** fails: the vectors drawn, the number of passes, the estimate and any exception are the
same whatever criterion and keyword arguments the caller passes. -/
theorem C32_ignored (qrInsert : QRInsert n) (converge' : CritArg) (kw' : Kwargs) (fuel : ℕ) :
    (xtrace tppf zscore qrInsert rng A batch pdf converge full record kw fuel).map
        (fun r => r.map fun o => (o.1, o.2.2)) =
      (xtrace tppf zscore qrInsert rng A batch pdf converge' full record kw' fuel).map
        (fun r => r.map fun o => (o.1, o.2.2)) := by
  obtain ⟨c, hc, he⟩ := xtraceCriterion_eval (n := n) tppf zscore converge kw
  obtain ⟨c', hc', he'⟩ := xtraceCriterion_eval (n := n) tppf zscore converge' kw'
  have key : ∀ pd fuel s, xtraceLoop qrInsert A pd batch record c fuel s =
      xtraceLoop qrInsert A pd batch record c' fuel s := by
    intro pd fuel
    induction fuel with
    | zero => intro s; rfl
    | succ fuel ih =>
      intro s
      unfold xtraceLoop
      rw [he, he']
      rcases truth ((n : ℤ) ≤ (s.est.nSamples : ℤ)) with _ | _
      · simp only
        rcases xtraceBody qrInsert A pd batch record s with e | s'
        · rfl
        · exact ih s'
      · rfl
  unfold xtrace
  by_cases hb : batch < 1
  · rw [if_pos hb, if_pos hb]
  · rw [if_neg hb, if_neg hb, hc, hc']
    simp only
    rcases pdf.resolve rng with e | pd
    · rfl
    · simp only [key]
      rcases xtraceLoop qrInsert A pd batch record c' fuel (XState.init n record) with _ | ⟨e | s⟩ <;> rfl

/-- The 1x1 identity with a sampler that always returns the vector (1). -/
noncomputable def onePdf : Pdf 1 := fun _ _ _ _ => 1

theorem noDependent_singleton (v : Vec n) (hv : v ≠ 0) : Spec.NoDependent [v] := by
  rintro pre u post h ⟨c, hc⟩
  rcases pre with _ | ⟨p, pre⟩
  · simp only [List.nil_append, List.cons.injEq] at h
    simp only [List.length_nil, Finset.univ_eq_empty, Finset.sum_empty] at hc
    exact hv (h.1.trans hc)
  · simp at h

/-- **C32** counterexample: `converge = CountCriterion(0)` already holds before the first pass
(and `hutch` returns without drawing anything), yet `xtrace` draws a vector. -/
theorem C32_counterexample (qrInsert : QRInsert 1) (hq : QRInsertOk qrInsert) :
    ∃ est res s, xtrace tppf zscore qrInsert rng (.ofMatrix 1) 1 (.callable onePdf)
        (.obj (.count 0)) false false [] 2 = some (.ok (est, res, s)) ∧ s.W.length = 1 ∧
      (∀ e : MeanEst 1, (Crit.count 0).eval e.view = .ok true) := by
  rcases C31_terminates tppf zscore rng (.ofMatrix 1) 1 (.callable onePdf) (.obj (.count 0)) false
    false [] qrInsert hq le_rfl onePdf rfl 2 (by norm_num) with ⟨est, res, s, h, -, -, hl, -⟩ | ⟨-, h⟩
  · refine ⟨est, res, s, h, hl, fun e => ?_⟩
    rw [eval_count_eq, (truth_eq_true _).mpr (Int.natCast_nonneg _)]
  · exfalso
    apply h
    have : (Spec.xdrawn onePdf 1 ((1 + 1 - 1) / 1)).map (Operand.ofMatrix (1 : Matrix (Fin 1) (Fin 1) ℝ)).apply =
        [fun _ => 1] := by
      simp [Spec.xdrawn, Spec.xsize, Spec.xhist, Operand.ofMatrix]
      rfl
    rw [this]
    exact noDependent_singleton _ fun h => one_ne_zero (congrFun h 0)

/-! ## C78 -/

/-- **C78** fails: during every pass the callback receives a result object without estimator, whose
estimate is the default 0.0. -/
theorem C78_callback_unfilled (qrInsert : QRInsert n) (hq : QRInsertOk qrInsert) (hb : 1 ≤ batch)
    (pd : Pdf n) (hp : pdf.resolve rng = .ok pd) (fuel : ℕ) (hf : n < fuel)
    (est : NumArr (Fin 1 → ℝ)) (res : Option EstResult) (s : XState n)
    (h : xtrace tppf zscore qrInsert rng A batch pdf converge full record kw fuel =
      some (.ok (est, res, s))) :
    s.calls.length = (n + batch - 1) / batch ∧
      ∀ r ∈ s.calls, r.estimator = none ∧ r.criterion = none ∧ r.estimate = .val fun _ => 0 := by
  rcases xtrace_run tppf zscore rng A batch pdf converge full record kw qrInsert hq hb pd hp fuel hf
    with ⟨crit, s', -, h2, h3⟩ | h'
  · rw [h] at h2
    simp only [Option.some.injEq, Except.ok.injEq, Prod.mk.injEq] at h2
    obtain ⟨-, -, rfl⟩ := h2
    rw [h3.calls]
    refine ⟨List.length_replicate, fun r hr => ?_⟩
    obtain rfl := (List.mem_replicate.mp hr).2
    exact ⟨rfl, rfl, rfl⟩
  · rw [h'.1] at h; cases h

/-- **C78**, what holds: the result object returned with `full=True` is filled in. -/
theorem C78_result_partial (qrInsert : QRInsert n) (hq : QRInsertOk qrInsert) (hb : 1 ≤ batch)
    (pd : Pdf n) (hp : pdf.resolve rng = .ok pd) (fuel : ℕ) (hf : n < fuel)
    (est : NumArr (Fin 1 → ℝ)) (res : Option EstResult) (s : XState n)
    (h : xtrace tppf zscore qrInsert rng A batch pdf converge true record kw fuel =
      some (.ok (est, res, s))) :
    ∃ r, res = some r ∧ r.estimator = some s.est ∧ r.estimate = est ∧ s.est.nSamples = n := by
  rcases C31_terminates tppf zscore rng A batch pdf converge true record kw qrInsert hq hb pd hp fuel hf
    with ⟨est', res', s', h1, -, -, -, hn, -⟩ | h'
  · rcases xtrace_run tppf zscore rng A batch pdf converge true record kw qrInsert hq hb pd hp fuel hf
      with ⟨crit, s'', -, h2, -⟩ | h'
    · rw [h] at h1 h2
      simp only [Option.some.injEq, Except.ok.injEq, Prod.mk.injEq, if_true] at h1 h2
      obtain ⟨-, -, rfl⟩ := h1
      obtain ⟨e1, e2, rfl⟩ := h2
      exact ⟨_, e2, rfl, e1.symm, hn⟩
    · rw [h'.1] at h; cases h
  · rw [h'.1] at h; cases h

/-! ## C33 -/

/-- **C33**, what holds of the helper: with the sphere rescaling applied, each leave-one-out value
is exactly the trace as soon as `n` vectors of squared length `n` are used.  Missing: `xtrace`
never applies the rescaling, because it compares a callable with the string "sphere". -/
theorem C33_exact_partial {M W Q R R_inv : Matrix (Fin n) (Fin n) ℝ} (h : XData M W Q R R_inv)
    (i : Fin n) (hw : ∑ k, W k i ^ 2 = n)
    (P : Matrix (Fin n) (Fin n) ℝ) (hP : Spec.IsProjOn P (M * W) (fun j => j ≠ i))
    (hne : (1 - P) *ᵥ (fun k => W k i) ≠ 0) :
    xtraceEsts W (M * Q) Q R R_inv true i = M.trace := by
  rw [C30_leave_one_out_sphere h i hw P hP]
  obtain rfl := isProjOn_unique hP (looProj h i)
  set s := sVec R_inv i with hs
  set w : Vec n := fun k => W k i with hwdef
  have hQQ : Q * Qᵀ = 1 := mul_eq_one_comm.mp h.orth
  set u : Vec n := Q *ᵥ s with hu
  have hPu : Q * (1 - vecMulVec s s) * Qᵀ = 1 - vecMulVec u u := by
    rw [Matrix.mul_sub, Matrix.mul_one, Matrix.sub_mul, hQQ, mul_vecMulVec, vecMulVec_mul, hu]
    congr 2
    rw [vecMul_transpose]
  rw [hPu] at hne hP ⊢
  have huu : u ⬝ᵥ u = 1 := by
    rw [hu, dotProduct_mulVec, vecMul_mulVec, h.orth, vecMul_one, sVec_unit h i]
  have h1 : (1 - (1 - vecMulVec u u)) *ᵥ w = (u ⬝ᵥ w) • u := by
    rw [sub_sub_cancel, vecMulVec_mulVec, op_smul_eq_smul]
  rw [h1] at hne ⊢
  set c := u ⬝ᵥ w with hc
  have hc0 : c ≠ 0 := by rintro h0; rw [h0, zero_smul] at hne; exact hne rfl
  have h2 : ∑ k, (c • u) k ^ 2 = c ^ 2 := by
    have : ∑ k, (c • u) k ^ 2 = c ^ 2 * (u ⬝ᵥ u) := by
      simp only [Pi.smul_apply, smul_eq_mul, dotProduct, Finset.mul_sum]
      exact Finset.sum_congr rfl fun k _ => by ring
    rw [this, huu, mul_one]
  unfold Spec.looValue
  rw [h1, h2, mulVec_smul, smul_dotProduct, dotProduct_smul, smul_eq_mul, smul_eq_mul]
  have h3 : ((1 - vecMulVec u u) * M * (1 - vecMulVec u u)).trace = M.trace - u ⬝ᵥ M *ᵥ u := by
    rw [trace_mul_comm, ← Matrix.mul_assoc, hP.idem, Matrix.sub_mul, Matrix.one_mul, trace_sub]
    congr 1
    rw [trace_mul_comm, mul_vecMulVec, trace_vecMulVec, dotProduct_comm]
  rw [h3]
  field_simp
  ring

/-- Non-vacuity of `C33_exact_partial`: `M = [[1, 1], [0, 1]]`-like data with `W = √2 I`. -/
example : ∃ (M W Q R R_inv P : Matrix (Fin 2) (Fin 2) ℝ), XData M W Q R R_inv ∧
    (∑ k, W k 0 ^ 2 = (2 : ℕ)) ∧ Spec.IsProjOn P (M * W) (fun j => j ≠ 0) ∧
    (1 - P) *ᵥ (fun k => W k 0) ≠ 0 ∧ M 0 1 ≠ 0 := by
  have hs2 : Real.sqrt 2 ≠ 0 := by positivity
  have hss : Real.sqrt 2 ^ 2 = 2 := Real.sq_sqrt (by norm_num)
  have hx : XData (!![1, 1; 0, 1] : Matrix (Fin 2) (Fin 2) ℝ) !![Real.sqrt 2, 0; 0, Real.sqrt 2] 1
      !![Real.sqrt 2, Real.sqrt 2; 0, Real.sqrt 2]
      !![1 / Real.sqrt 2, - 1 / Real.sqrt 2; 0, 1 / Real.sqrt 2] := by
    refine ⟨by simp, ?_, ?_⟩ <;> funext i j <;> fin_cases i <;> fin_cases j <;>
      simp [mul_apply, Fin.sum_univ_two, hs2, neg_div]
  refine ⟨_, _, _, _, _, _, hx, ?_, looProj hx 0, ?_, by simp⟩
  · simp [Fin.sum_univ_two, hss]
  · intro h
    have hq : Real.sqrt ((Real.sqrt 2)⁻¹ ^ 2 + (-1 / Real.sqrt 2) ^ 2) = 1 := by
      rw [div_pow, inv_pow, hss]; norm_num
    have := congrFun h 0
    simp [mulVec, dotProduct, Fin.sum_univ_two, sVec, vecMulVec_apply] at this
    rw [inv_pow, hss] at hq
    rw [hq] at this
    norm_num at this

/-- The stream 1, 0, 0, 1 used by the counterexample. -/
noncomputable def unitRng : Rng := ⟨fun _ => 0, fun p => if p = 0 ∨ p = 3 then 1 else 0⟩

/-- **C33** counterexample: on the 2x2 identity, with `pdf = "sphere"`, the default criterion, any
batch of at least two, and the two orthogonal vectors `√2 e₁, √2 e₂`, `xtrace` returns 3. -/
theorem C33_counterexample (qrInsert : QRInsert 2) (hq : QRInsertOk qrInsert) (hb : 2 ≤ batch) :
    ∃ res s, xtrace tppf zscore qrInsert unitRng (.ofMatrix 1) batch (.name "sphere")
        (.str "default") full record kw 3 = some (.ok (.val fun _ => 3, res, s)) ∧
      (1 : Matrix (Fin 2) (Fin 2) ℝ).trace = 2 := by
  have hr : (2 + batch - 1) / batch = 1 := by
    rw [Nat.div_eq_iff (by omega)]; constructor <;> omega
  have hp : (PdfArg.name "sphere" : PdfArg 2).resolve unitRng =
      .ok fun history b => IsoDist.sphere.fill 2 b unitRng (history.sum * 2) := rfl
  have hx0 : Spec.xsize 2 batch 0 = 2 := by simp [Spec.xsize, hb]
  have hd : Spec.xdrawn (fun history b => IsoDist.sphere.fill 2 b unitRng (history.sum * 2)) batch
      ((2 + batch - 1) / batch) = [![Real.sqrt 2, 0], ![0, Real.sqrt 2]] := by
    rw [hr]
    simp only [Spec.xdrawn, List.range_one, List.flatMap_cons, List.flatMap_nil, List.append_nil]
    rw [hx0]
    simp only [List.ofFn_succ, List.ofFn_zero, List.cons.injEq, and_true]
    have e1 : Real.sqrt (∑ x : Fin 2, (if (x = 0 ∨ (x : ℕ) = 3) then (1 : ℝ) else 0) ^ 2) = 1 := by
      rw [Fin.sum_univ_two]; norm_num
    have e2 : Real.sqrt (∑ x : Fin 2, (if (2 + (x : ℕ) = 3) then (1 : ℝ) else 0) ^ 2) = 1 := by
      rw [Fin.sum_univ_two]; norm_num
    constructor <;> funext i <;> fin_cases i <;>
      simp only [IsoDist.fill, sphereCol, rawCols, unitRng, Spec.xhist] <;> simp_all
  have hs2 : Real.sqrt 2 ≠ 0 := by positivity
  have hss : Real.sqrt 2 * Real.sqrt 2 = 2 := Real.mul_self_sqrt (by norm_num)
  obtain ⟨est, res, s, h1, -, h3⟩ := C31_estimate tppf zscore unitRng batch (.name "sphere")
    (.str "default") full record kw (1 : Matrix (Fin 2) (Fin 2) ℝ) qrInsert hq (by omega) _ hp 3
    (by norm_num) !![Real.sqrt 2, 0; 0, Real.sqrt 2] (by
      rw [hd]; intro i j; fin_cases i <;> fin_cases j <;> simp) (by
      rw [hd]
      simp only [List.map_cons, List.map_nil, one_mulVec]
      rintro pre u post h ⟨c, hc⟩
      rcases pre with _ | ⟨p, _ | ⟨p', pre⟩⟩
      · simp only [List.nil_append, List.cons.injEq] at h
        have := congrFun (h.1.trans hc) 0
        simp at this
      · simp only [List.cons_append, List.nil_append, List.cons.injEq] at h
        obtain ⟨rfl, rfl, -⟩ := h
        have := congrFun hc 1
        simp at this
      · have := congrArg List.length h
        simp at this)
  refine ⟨res, s, ?_, by simp⟩
  rw [h1]
  have := h3 (by norm_num) ![!![0, 0; 0, 1], !![1, 0; 0, 0]] (by
    intro i
    fin_cases i
    · refine ⟨?_, ?_, ?_, !![0, 0; 0, 1 / Real.sqrt 2], ?_, ?_⟩
      · funext i j; fin_cases i <;> fin_cases j <;> simp
      · funext i j; fin_cases i <;> fin_cases j <;> simp [mul_apply, Fin.sum_univ_two]
      · intro j hj i; fin_cases j <;> fin_cases i <;> simp_all [mul_apply, Fin.sum_univ_two]
      · funext i j; fin_cases i <;> fin_cases j <;> simp [mul_apply, Fin.sum_univ_two]
      · intro j hj i; fin_cases j <;> fin_cases i <;> simp_all
    · refine ⟨?_, ?_, ?_, !![1 / Real.sqrt 2, 0; 0, 0], ?_, ?_⟩
      · funext i j; fin_cases i <;> fin_cases j <;> simp
      · funext i j; fin_cases i <;> fin_cases j <;> simp [mul_apply, Fin.sum_univ_two]
      · intro j hj i; fin_cases j <;> fin_cases i <;> simp_all [mul_apply, Fin.sum_univ_two]
      · funext i j; fin_cases i <;> fin_cases j <;> simp [mul_apply, Fin.sum_univ_two]
      · intro j hj i; fin_cases j <;> fin_cases i <;> simp_all)
  rw [this]
  congr 5
  funext _
  simp [Fin.sum_univ_two, Spec.looValue, trace, diag, mul_apply, mulVec, dotProduct]
  nlinarith

end Primate
