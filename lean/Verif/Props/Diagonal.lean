import Verif.Lemmas.Diagonal
import Verif.Props.HutchMoments
import Verif.Props.Trinv
import Verif.Lemmas.QR

/-! # Properties C35-C37, C74, C79, C26 (diagonal estimators) -/

namespace Primate

variable {N : ℕ} (tppf : ℝ → ℕ → ℝ) (zscore : ℝ → ℝ) (rng : Rng)

theorem diag_unfold (a : DiagArgs N) (hN : N ≠ 0) (name : String) (hname : a.pdf = .name name)
    (pdf : Pdf N) (hp : isotropicPdf name rng N = .ok pdf) (crit : Crit)
    (hc : convergenceCriterion tppf zscore a.converge a.kw = .ok crit) (fuel : ℕ) :
    diag tppf zscore rng a fuel =
      (diagLoop a.A pdf crit fuel (dstateAt a.A pdf a.record 0)).map fun r =>
        r.map fun s => if a.full || a.callback then
          (.pair s.est.estimate s.est crit s.est.estimate, if a.callback then s.calls else [])
          else (.arr s.est.estimate, []) := by
  have hs : (⟨[], fun _ => 0, fun _ => 0, MeanEst.init N false a.record, []⟩ : DiagState N) =
      dstateAt a.A pdf a.record 0 := by
    simp [dstateAt, destAt]
  unfold diag
  rw [hname]
  simp only [hp, hc, hs]
  rw [if_neg hN]
  rcases diagLoop a.A pdf crit fuel (dstateAt a.A pdf a.record 0) with _ | ⟨e | s⟩
  · rfl
  · rfl
  · simp only [Option.map_some, Except.map]
    split_ifs <;> rfl

/-! ## C35 -/

/-- **C35**, what the code computes: whenever `diag` returns, the criterion held for the first time
after some number `k` of vectors, and the estimate is the average over `j = 1..k` of the ratio
estimators of the first `j` vectors (NaN for `k = 0`). -/
theorem C35_running_mean (a : DiagArgs N) (hN : N ≠ 0) (name : String) (hname : a.pdf = .name name)
    (pdf : Pdf N) (hp : isotropicPdf name rng N = .ok pdf) (fuel : ℕ) (out : DiagOut N)
    (calls : List (MeanEst N)) (h : diag tppf zscore rng a fuel = some (.ok (out, calls))) :
    ∃ k, k < fuel ∧ (k = 0 → out.estimate = .nan) ∧
      (0 < k → out.estimate = .val fun i =>
        (∑ j ∈ Finset.range k, Spec.bks a.A.apply (Spec.draw1 pdf) (j + 1) i) / k) ∧
      (a.callback = true → calls.length = k) := by
  rcases hc : convergenceCriterion tppf zscore a.converge a.kw with e | crit
  · unfold diag at h
    rw [hname] at h
    simp only [hp, hc] at h
    cases h
  rw [diag_unfold tppf zscore rng a hN name hname pdf hp crit hc] at h
  rcases hl : diagLoop a.A pdf crit fuel (dstateAt a.A pdf a.record 0) with _ | ⟨e | s⟩ <;>
    rw [hl] at h
  · cases h
  · cases h
  · obtain ⟨k, -, hk, rfl, -, -⟩ := (diagLoop_ok a.A pdf a.record crit fuel 0 s).mp hl
    simp only [Option.map_some, Except.map, Option.some.injEq, Except.ok.injEq] at h
    have he := destAt_estimate a.A pdf a.record k
    have hout : out.estimate = (destAt a.A pdf a.record k).estimate := by
      split_ifs at h <;> (simp only [Prod.mk.injEq] at h; rw [← h.1]; rfl)
    refine ⟨k, by omega, ?_, ?_, ?_⟩
    · rintro rfl; rw [hout, he, if_pos rfl]
    · intro hk; rw [hout, he, if_neg (by omega)]
    · intro hcb
      rw [hcb] at h
      simp only [Bool.or_true, if_true, Prod.mk.injEq] at h
      rw [← h.2]
      simp [dstateAt]

/-- With `CountCriterion(k)` exactly `k` vectors are used. -/
theorem diag_count (a : DiagArgs N) (hN : N ≠ 0) (name : String) (hname : a.pdf = .name name)
    (pdf : Pdf N) (hp : isotropicPdf name rng N = .ok pdf) (k : ℕ)
    (hc : a.converge = .obj (.count k)) (hf : a.full = false) (hcb : a.callback = false) :
    diag tppf zscore rng a (k + 1) =
      some (.ok (.arr (destAt a.A pdf a.record k).estimate, [])) := by
  rw [diag_unfold tppf zscore rng a hN name hname pdf hp (.count k) (by rw [hc]; rfl)]
  have : diagLoop a.A pdf (.count k) (k + 1) (dstateAt a.A pdf a.record 0) =
      some (.ok (dstateAt a.A pdf a.record k)) := by
    rw [diagLoop_ok]
    refine ⟨k, by omega, by omega, rfl, ?_, fun j _ hj => ?_⟩
    · have : (destAt a.A pdf a.record k).view.len = k := destAt_n _ _ _ _
      simp [Crit.eval, this]
    · have : (destAt a.A pdf a.record j).view.len = j := destAt_n _ _ _ _
      simp [Crit.eval, this, hj]
  rw [this]
  simp [hf, hcb, Except.map, dstateAt]

/-- **C35**, the part that holds: after a single vector the result is the ratio estimator. Missing:
more than one vector, where `C35_running_mean` applies instead. -/
theorem C35_first_partial (a : DiagArgs N) (hN : N ≠ 0) (name : String) (hname : a.pdf = .name name)
    (pdf : Pdf N) (hp : isotropicPdf name rng N = .ok pdf)
    (hc : a.converge = .obj (.count (1 : ℕ))) (hf : a.full = false) (hcb : a.callback = false) :
    diag tppf zscore rng a 2 =
      some (.ok (.arr (.val (Spec.bks a.A.apply (Spec.draw1 pdf) 1)), [])) := by
  rw [diag_count tppf zscore rng a hN name hname pdf hp 1 hc hf hcb, destAt_estimate]
  simp

/-- The vectors (1,1), (1,-1). -/
noncomputable def flipRng : Rng := ⟨fun p => if p = 3 then 1/4 else 3/4, fun _ => 0⟩

/-- Plain call with a count criterion. -/
noncomputable def diagArgs (A : Matrix (Fin N) (Fin N) ℝ) (name : String) (k : ℕ) : DiagArgs N :=
  ⟨.ofMatrix A, .name name, .obj (.count k), false, false, false, []⟩

theorem rademacherEntry_quarter : rademacherEntry (1/4) = -1 :=
  (rademacherEntry_half _).1 (by norm_num) (by norm_num)

theorem rademacherEntry_three_quarter : rademacherEntry (3/4) = 1 :=
  (rademacherEntry_half _).2 (by norm_num) (by norm_num)

/-- **C35** counterexample: with `A = [[0,1],[1,0]]` and the Rademacher vectors (1,1), (1,-1) the
ratio estimator is (0,0) (the exact diagonal), but `diag` returns (1/2, 1/2). -/
theorem C35_counterexample :
    ∃ pdf, isotropicPdf "rademacher" flipRng 2 = .ok pdf ∧
      diag tppf zscore flipRng (diagArgs !![0, 1; 1, 0] "rademacher" 2) 3 =
        some (.ok (.arr (.val fun _ => 1/2), [])) ∧
      Spec.bks (Matrix.mulVec !![0, 1; 1, 0]) (Spec.draw1 pdf) 2 = fun _ => 0 := by
  refine ⟨_, rfl, ?_, ?_⟩
  all_goals
    set pdf : Pdf 2 := fun history b => IsoDist.rademacher.fill 2 b flipRng (history.sum * 2) with hpdf
    have h0 : Spec.draw1 pdf 0 = ![1, 1] := by
      funext i
      fin_cases i <;> simp [Spec.draw1, hpdf, IsoDist.fill, rawCols, flipRng,
        rademacherEntry_three_quarter]
    have h1 : Spec.draw1 pdf 1 = ![1, -1] := by
      funext i
      fin_cases i
      · simp [Spec.draw1, hpdf, IsoDist.fill, rawCols, flipRng, rademacherEntry_three_quarter]
      · have := rademacherEntry_quarter
        simp only [one_div] at this
        simp [Spec.draw1, hpdf, IsoDist.fill, rawCols, flipRng, this]
  · rw [diag_count tppf zscore flipRng _ (by norm_num) "rademacher" rfl pdf rfl 2 rfl rfl rfl,
      destAt_estimate]
    simp only [OfNat.ofNat_ne_zero, if_false]
    congr 5
    funext i
    fin_cases i <;>
      simp [diagArgs, Spec.bks, Finset.sum_range_succ, h0, h1, Operand.ofMatrix, Matrix.mulVec,
        dotProduct, Fin.sum_univ_two]
  · funext i
    fin_cases i <;>
      simp [Spec.bks, Finset.sum_range_succ, h0, h1, Matrix.mulVec, dotProduct, Fin.sum_univ_two]

/-! ## C36 -/

theorem bks_diagonal (d : Fin N → ℝ) (v : ℕ → Vec N) (hv : ∀ t i, v t i ≠ 0) (k : ℕ) (i : Fin N) :
    Spec.bks (Matrix.diagonal d).mulVec v (k + 1) i = d i := by
  have h1 : ∀ t, (Matrix.diagonal d).mulVec (v t) i * v t i = d i * v t i ^ 2 := by
    intro t; rw [Matrix.mulVec_diagonal]; ring
  have h2 : ∑ t ∈ Finset.range (k + 1), v t i ^ 2 ≠ 0 := by
    apply ne_of_gt
    exact Finset.sum_pos (fun t _ => by have := hv t i; positivity) (by simp)
  simp only [Spec.bks, h1, ← Finset.mul_sum]
  field_simp

/-- **C36**: on a diagonal matrix, if no drawn vector has a zero entry, whatever the criterion and
mode, `diag` returns nothing but the diagonal (or NaN when it stopped before drawing). -/
theorem C36_exact (d : Fin N → ℝ) (a : DiagArgs N) (hN : N ≠ 0) (hA : a.A = .ofMatrix (Matrix.diagonal d))
    (name : String) (hname : a.pdf = .name name)
    (pdf : Pdf N) (hp : isotropicPdf name rng N = .ok pdf) (hv : ∀ t i, Spec.draw1 pdf t i ≠ 0)
    (fuel : ℕ) (out : DiagOut N)
    (calls : List (MeanEst N)) (h : diag tppf zscore rng a fuel = some (.ok (out, calls))) :
    out.estimate = .nan ∨ out.estimate = .val d := by
  obtain ⟨k, -, h0, h1, -⟩ := C35_running_mean tppf zscore rng a hN name hname pdf hp fuel out calls h
  rcases Nat.eq_zero_or_pos k with hk | hk
  · exact .inl (h0 hk)
  · right
    rw [h1 hk]
    congr 1
    funext i
    rw [hA]
    have : ∀ j, Spec.bks (Operand.ofMatrix (Matrix.diagonal d)).apply (Spec.draw1 pdf) (j + 1) i = d i :=
      fun j => bks_diagonal d _ hv j i
    simp only [this, Finset.sum_const, Finset.card_range, nsmul_eq_mul]
    have : (k : ℝ) ≠ 0 := by exact_mod_cast hk.ne'
    field_simp

/-- Non-vacuity of `C36_exact`: Rademacher vectors have no zero entry, and the run with a count
criterion returns. -/
theorem rademacher_draw1 (hu : ∀ p, 0 ≤ rng.unif p ∧ rng.unif p < 1) (pdf : Pdf N)
    (hp : isotropicPdf "rademacher" rng N = .ok pdf) (t : ℕ) (i : Fin N) :
    Spec.draw1 pdf t i = 1 ∨ Spec.draw1 pdf t i = -1 := by
  obtain rfl := Except.ok.inj hp
  simp only [Spec.draw1, IsoDist.fill]
  obtain ⟨h1, h2⟩ := hu (List.sum (List.replicate t 1) * N + ((0 : Fin 1) : ℕ) * N + i)
  by_cases h : rng.unif (List.sum (List.replicate t 1) * N + ((0 : Fin 1) : ℕ) * N + i) < 1/2
  · exact .inr ((rademacherEntry_half _).1 h1 h)
  · exact .inl ((rademacherEntry_half _).2 (not_lt.mp h) h2)

/-- **C36**: with Rademacher vectors and a count criterion `diag` returns the diagonal of a
diagonal matrix exactly. -/
theorem C36_exact_rademacher (hu : ∀ p, 0 ≤ rng.unif p ∧ rng.unif p < 1) (d : Fin N → ℝ)
    (hN : N ≠ 0) (k : ℕ) (hk : 0 < k) :
    diag tppf zscore rng (diagArgs (Matrix.diagonal d) "rademacher" k) (k + 1) =
      some (.ok (.arr (.val d), [])) := by
  have hp : isotropicPdf "rademacher" rng N = .ok _ := rfl
  have hv : ∀ t i, Spec.draw1 _ t i ≠ 0 := fun t i => by
    rcases rademacher_draw1 rng hu _ hp t i with h | h <;> rw [h] <;> norm_num
  have h := diag_count tppf zscore rng (diagArgs (Matrix.diagonal d) "rademacher" k) hN "rademacher"
    rfl _ hp k rfl rfl rfl
  rw [h]
  have he := destAt_estimate (Operand.ofMatrix (Matrix.diagonal d))
    (fun history b => IsoDist.rademacher.fill N b rng (history.sum * N)) false k
  rw [if_neg hk.ne'] at he
  rcases C36_exact tppf zscore rng d _ hN rfl "rademacher" rfl _ hp hv _ _ _ h with h' | h'
  · simp only [DiagOut.estimate] at h'
    exact absurd (he.symm.trans h') (by simp)
  · simp only [DiagOut.estimate] at h'
    rw [h']

theorem sum_row_signs (k : ℕ) (A : Matrix (Fin N) (Fin N) ℝ) (t : Fin k) (i : Fin N) :
    ∑ ω : Fin k × Fin N → Bool, (A.mulVec fun j => sgn (ω (t, j))) i * sgn (ω (t, i)) =
      2 ^ (k * N) * A i i := by
  simp only [Matrix.mulVec, dotProduct, Finset.sum_mul]
  rw [Finset.sum_comm]
  have : ∀ j : Fin N, ∑ ω : Fin k × Fin N → Bool, A i j * sgn (ω (t, j)) * sgn (ω (t, i)) =
      if j = i then 2 ^ (k * N) * A i i else 0 := by
    intro j
    simp only [mul_assoc, ← Finset.mul_sum, sum_signs, Prod.mk.injEq, true_and,
      Fintype.card_prod, Fintype.card_fin]
    split_ifs with h
    · subst h; ring
    · ring
  simp [this]

/-- **C36**: averaged over all `2^(kN)` equally likely Rademacher outcomes, `diag` with `k` vectors
returns exactly the diagonal of `A`, for every `A`. -/
theorem C36_unbiased (A : Matrix (Fin N) (Fin N) ℝ) (hN : N ≠ 0) (k : ℕ) (hk : 0 < k)
    (rngs : (Fin k × Fin N → Bool) → Rng)
    (hu : ∀ ω (t : Fin k) (i : Fin N),
      if ω (t, i) then 1/2 ≤ (rngs ω).unif (t * N + i) ∧ (rngs ω).unif (t * N + i) < 1
      else 0 ≤ (rngs ω).unif (t * N + i) ∧ (rngs ω).unif (t * N + i) < 1/2) :
    ∃ est : (Fin k × Fin N → Bool) → Fin N → ℝ,
      (∀ ω, diag tppf zscore (rngs ω) (diagArgs A "rademacher" k) (k + 1) =
        some (.ok (.arr (.val (est ω)), []))) ∧
      ∀ i, (∑ ω, est ω i) / 2 ^ (k * N) = A i i := by
  have hk' : (k : ℝ) ≠ 0 := by exact_mod_cast hk.ne'
  refine ⟨fun ω i => (∑ t : Fin k, (∑ s : Fin k, if (s : ℕ) ≤ t then
      (A.mulVec fun j => sgn (ω (s, j))) i * sgn (ω (s, i)) else 0) / ((t : ℝ) + 1)) / k,
    fun ω => ?_, fun i => ?_⟩
  · rw [diag_count tppf zscore (rngs ω) (diagArgs A "rademacher" k) hN "rademacher" rfl _ rfl k rfl
      rfl rfl, destAt_estimate, if_neg hk.ne']
    congr 5
    funext i
    congr 1
    set pdf : Pdf N := fun history b => IsoDist.rademacher.fill N b (rngs ω) (history.sum * N) with hpdf
    have hd : ∀ t : Fin k, Spec.draw1 pdf t = fun j => sgn (ω (t, j)) := by
      intro t
      funext j
      have h := hu ω t j
      simp only [Spec.draw1, hpdf, IsoDist.fill, rawCols, List.sum_replicate, smul_eq_mul, mul_one,
        Fin.val_zero, zero_mul, add_zero]
      cases hω : ω (t, j) with
      | true => rw [hω] at h; exact (rademacherEntry_half _).2 h.1 h.2
      | false => rw [hω] at h; exact (rademacherEntry_half _).1 h.1 h.2
    rw [← Fin.sum_univ_eq_sum_range (fun j => Spec.bks _ (Spec.draw1 pdf) (j + 1) i) k]
    refine Finset.sum_congr rfl fun t _ => ?_
    have hsplit : ∀ f : ℕ → ℝ, ∑ s ∈ Finset.range ((t : ℕ) + 1), f s =
        ∑ s : Fin k, if (s : ℕ) ≤ t then f s else 0 := by
      intro f
      rw [Fin.sum_univ_eq_sum_range (fun s => if s ≤ (t : ℕ) then f s else 0) k,
        ← Finset.sum_filter]
      refine Finset.sum_congr ?_ fun _ _ => rfl
      ext s
      simp only [Finset.mem_range, Finset.mem_filter]
      have := t.2
      omega
    unfold Spec.bks
    congr 1
    · rw [hsplit]
      refine Finset.sum_congr rfl fun s _ => ?_
      rw [hd s]
      rfl
    · rw [hsplit fun s => Spec.draw1 pdf s i ^ 2]
      have : ∀ s : Fin k, (if (s : ℕ) ≤ t then Spec.draw1 pdf s i ^ 2 else 0) =
          if (s : ℕ) ≤ t then (1 : ℝ) else 0 := by
        intro s
        rw [hd s]
        simp only [pow_two, sgn_mul_self]
      rw [Finset.sum_congr rfl fun s _ => this s]
      have := hsplit fun _ => (1 : ℝ)
      rw [← this]
      simp
  · rw [← Finset.sum_div, Finset.sum_comm]
    have inner : ∀ t : Fin k, ∑ ω : Fin k × Fin N → Bool, (∑ s : Fin k, if (s : ℕ) ≤ t then
        (A.mulVec fun j => sgn (ω (s, j))) i * sgn (ω (s, i)) else 0) / ((t : ℝ) + 1) =
        2 ^ (k * N) * A i i := by
      intro t
      rw [← Finset.sum_div, Finset.sum_comm]
      have : ∀ s : Fin k, ∑ ω : Fin k × Fin N → Bool, (if (s : ℕ) ≤ t then
          (A.mulVec fun j => sgn (ω (s, j))) i * sgn (ω (s, i)) else 0) =
          if (s : ℕ) ≤ t then 2 ^ (k * N) * A i i else 0 := by
        intro s
        split_ifs
        · exact sum_row_signs k A s i
        · simp
      simp only [this]
      rw [Fin.sum_univ_eq_sum_range (fun s => if s ≤ (t : ℕ) then 2 ^ (k * N) * A i i else 0) k,
        ← Finset.sum_filter]
      have hset : (Finset.range k).filter (fun s => s ≤ (t : ℕ)) = Finset.range (t + 1) := by
        ext s
        simp only [Finset.mem_range, Finset.mem_filter]
        have := t.2
        omega
      rw [hset]
      simp only [Finset.sum_const, Finset.card_range, nsmul_eq_mul]
      push_cast
      have : (t : ℝ) + 1 ≠ 0 := by positivity
      field_simp
    simp only [inner, Finset.sum_const, Finset.card_univ, Fintype.card_fin, nsmul_eq_mul]
    field_simp

/-! ## C26 -/

/-- **C26**: `diag` of a 0x0 operator returns 0.0 and draws nothing, for every valid setting. -/
theorem C26_diag (a : DiagArgs 0) (name : String) (hname : a.pdf = .name name)
    (pdf : Pdf 0) (hp : isotropicPdf name rng 0 = .ok pdf) (crit : Crit)
    (hc : convergenceCriterion tppf zscore a.converge a.kw = .ok crit) (fuel : ℕ) :
    diag tppf zscore rng a fuel = some (.ok (if a.full then .zeroPair else .zero, [])) := by
  unfold diag
  rw [hname]
  simp only [hp, hc]
  rfl

/-! ## C74 -/

/-- **C74** fails on every non-empty operator and every stream: with any confidence criterion `diag`
raises AttributeError at the third vector (its estimator does not track the covariance). -/
theorem C74_always_raises (a : DiagArgs N) (hN : N ≠ 0) (name : String) (hname : a.pdf = .name name)
    (pdf : Pdf N) (hp : isotropicPdf name rng N = .ok pdf) (c : ConfCrit)
    (hc : convergenceCriterion tppf zscore a.converge a.kw = .ok (.conf c)) (fuel : ℕ) (hf : 4 ≤ fuel) :
    diag tppf zscore rng a fuel = some (.error .attribute) := by
  rw [diag_unfold tppf zscore rng a hN name hname pdf hp _ hc]
  have : diagLoop a.A pdf (.conf c) fuel (dstateAt a.A pdf a.record 0) = some (.error .attribute) := by
    rw [diagLoop_error]
    refine ⟨3, by omega, by omega, ?_, fun j _ hj => ?_⟩
    · refine (C11_unsupported c _ (by rw [destAt_n])).1 ?_
      exact (destAt_inv a.A pdf a.record 3).1.isCov
    · have hv : (destAt a.A pdf a.record j).view.nSamples = j := destAt_n _ _ _ _
      have hm : (destAt a.A pdf a.record j).view.isMean = true := rfl
      simp [Crit.eval, ConfCrit.call, ConfCrit.error, hv, hm, hj, bind, Except.bind, pure, Except.pure,
        Fl.le]
  rw [this]; rfl

/-- Non-vacuity of `C74_always_raises`: the string "confidence" gives such a criterion. -/
example : ∃ c, convergenceCriterion tppf zscore (.str "confidence") [] = .ok (.conf c) := by
  obtain ⟨c, hc⟩ : ∃ c, ConfCrit.init tppf zscore 0.95 (some 0) (some 0.01) = .ok c := by
    unfold ConfCrit.init
    rw [if_pos (by norm_num)]
    exact ⟨_, rfl⟩
  refine ⟨c, ?_⟩
  simp [convergenceCriterion, pyLower, CRITERIA, List.lookup,
    CritClass.signature, restrictKwargs, CritClass.construct, bindParam, KwVal.toReal,
    KwVal.toOptReal, Except.map, bind, Except.bind, pure, Except.pure, hc]

/-! ## C79 -/

theorem bks_bound (A : Matrix (Fin N) (Fin N) ℝ) (v : ℕ → Vec N) (hv : ∀ t i, v t i = 1 ∨ v t i = -1)
    (C : ℝ) (hC : ∀ i, ∑ j, |A i j| ≤ C) (k : ℕ) (i : Fin N) :
    |Spec.bks A.mulVec v (k + 1) i| ≤ C := by
  have habs : ∀ t i, |v t i| = 1 := by
    intro t i; rcases hv t i with h | h <;> rw [h] <;> norm_num
  have hsq : ∀ t, v t i ^ 2 = 1 := by
    intro t; rcases hv t i with h | h <;> rw [h] <;> norm_num
  have hterm : ∀ t, |A.mulVec (v t) i * v t i| ≤ C := by
    intro t
    rw [abs_mul, habs, mul_one]
    have hm : A.mulVec (v t) i = ∑ j, A i j * v t j := rfl
    rw [hm]
    refine le_trans (Finset.abs_sum_le_sum_abs _ _) (le_trans (le_of_eq ?_) (hC i))
    exact Finset.sum_congr rfl fun j _ => by rw [abs_mul, habs, mul_one]
  simp only [Spec.bks, hsq, Finset.sum_const, Finset.card_range, nsmul_eq_mul, mul_one]
  have hk : (0 : ℝ) < ((k + 1 : ℕ) : ℝ) := by positivity
  rw [abs_div, abs_of_pos hk, div_le_iff₀ hk]
  refine le_trans (Finset.abs_sum_le_sum_abs _ _) ?_
  refine le_trans (Finset.sum_le_sum fun t _ => hterm t) ?_
  simp [mul_comm]

/-- Each vector norm the criterion accepts is at most `N` times the largest entry. -/
theorem vecNorm_bound {d : ℕ} (hd : d ≠ 0) (ord : NormOrd) (ho : ord ≠ .str) (x : Fin d → ℝ) (B : ℝ)
    (hB : 0 ≤ B) (hx : ∀ i, |x i| ≤ B) : ∃ r, vecNorm ord x = .ok r ∧ r ≤ d * B := by
  have hd1 : (1 : ℝ) ≤ d := by exact_mod_cast Nat.one_le_iff_ne_zero.mpr hd
  have hsqrt : Real.sqrt (∑ i, x i ^ 2) ≤ d * B := by
    refine Real.sqrt_le_iff.mpr ⟨by positivity, ?_⟩
    calc ∑ i, x i ^ 2 ≤ ∑ _i : Fin d, B ^ 2 := Finset.sum_le_sum fun i _ => by
          rw [← sq_abs]; exact pow_le_pow_left₀ (abs_nonneg _) (hx i) 2
      _ = d * B ^ 2 := by simp
      _ ≤ (d * B) ^ 2 := by rw [mul_pow]; exact mul_le_mul_of_nonneg_right (by nlinarith) (sq_nonneg B)
  cases ord with
  | none => exact ⟨_, rfl, hsqrt⟩
  | two => exact ⟨_, rfl, hsqrt⟩
  | one =>
    refine ⟨_, rfl, ?_⟩
    refine le_trans (Finset.sum_le_sum fun i _ => hx i) ?_
    simp
  | inf =>
    have hne : (Finset.univ : Finset (Fin d)).Nonempty :=
      ⟨⟨0, Nat.pos_of_ne_zero hd⟩, Finset.mem_univ _⟩
    simp only [vecNorm]
    rw [dif_pos hne]
    refine ⟨_, rfl, Finset.sup'_le hne _ fun i _ => le_trans (hx i) ?_⟩
    nlinarith
  | str => exact absurd rfl ho

/-- **C79**: with Rademacher vectors and a tolerance criterion with positive `atol` (the default),
`diag` terminates on every matrix and every stream, after at most `⌈2 N C / atol⌉ + 1` vectors,
`C` a bound on the absolute row sums. -/
theorem C79_terminates (hu : ∀ p, 0 ≤ rng.unif p ∧ rng.unif p < 1)
    (A : Matrix (Fin N) (Fin N) ℝ) (hN : N ≠ 0) (a : DiagArgs N) (hA : a.A = .ofMatrix A)
    (hpdf : a.pdf = .name "rademacher") (rtol atol : ℝ) (ord : NormOrd) (ho : ord ≠ .str)
    (hc : convergenceCriterion tppf zscore a.converge a.kw = .ok (.tol rtol atol ord))
    (hat : 0 < atol) (C : ℝ) (hC : ∀ i, ∑ j, |A i j| ≤ C) :
    ∃ (k : ℕ) (out : DiagOut N) (calls : List (MeanEst N)), k ≤ ⌈2 * N * C / atol⌉₊ + 1 ∧
      ∀ fuel, k < fuel → diag tppf zscore rng a fuel = some (.ok (out, calls)) := by
  classical
  have hp : isotropicPdf "rademacher" rng N = .ok _ := rfl
  set pdf : Pdf N := fun history b => IsoDist.rademacher.fill N b rng (history.sum * N) with hpd
  have hv := rademacher_draw1 rng hu pdf hp
  have hC0 : 0 ≤ C := le_trans (Finset.sum_nonneg fun j _ => abs_nonneg _)
    (hC ⟨0, Nat.pos_of_ne_zero hN⟩)
  have hb : ∀ k i, |Spec.bks a.A.apply (Spec.draw1 pdf) (k + 1) i| ≤ C := by
    rw [hA]; exact bks_bound A _ hv C hC
  -- the estimates stay bounded
  have hmu : ∀ k i, |(destAt a.A pdf a.record k).acc.mu i| ≤ C := by
    intro k i
    rw [destAt_mu]
    rcases Nat.eq_zero_or_pos k with rfl | hk
    · simpa using hC0
    · have hk' : (0 : ℝ) < k := by exact_mod_cast hk
      rw [abs_div, abs_of_pos hk', div_le_iff₀ hk']
      refine le_trans (Finset.abs_sum_le_sum_abs _ _) ?_
      refine le_trans (Finset.sum_le_sum fun t _ => hb t i) ?_
      simp [mul_comm]
  -- the step sizes shrink
  have hdelta : ∀ k i, |(destAt a.A pdf a.record (k + 1)).acc.mu i -
      (destAt a.A pdf a.record k).acc.mu i| ≤ 2 * C / (k + 1) := by
    intro k i
    have hk : (0 : ℝ) < (k : ℝ) + 1 := by positivity
    have key : (destAt a.A pdf a.record (k + 1)).acc.mu i - (destAt a.A pdf a.record k).acc.mu i =
        (Spec.bks a.A.apply (Spec.draw1 pdf) (k + 1) i - (destAt a.A pdf a.record k).acc.mu i) / (k + 1) := by
      rw [destAt_mu, destAt_mu, Finset.sum_range_succ]
      push_cast
      rcases Nat.eq_zero_or_pos k with rfl | hk0
      · simp
      · have hk' : (k : ℝ) ≠ 0 := by exact_mod_cast hk0.ne'
        field_simp
        ring
    rw [key, abs_div, abs_of_pos hk, div_le_div_iff_of_pos_right hk]
    calc |_ - _| ≤ |Spec.bks a.A.apply (Spec.draw1 pdf) (k + 1) i| +
          |(destAt a.A pdf a.record k).acc.mu i| := abs_sub _ _
      _ ≤ C + C := add_le_add (hb k i) (hmu k i)
      _ = 2 * C := by ring
  -- the criterion never raises
  have hev : ∀ k, ∃ b, (Crit.tol rtol atol ord).eval (destAt a.A pdf a.record k).view = .ok b := by
    intro k
    have hno : ∀ x : NumArr (Fin N → ℝ), ∃ r, arrNorm ord x = .ok r := by
      intro x
      have : ∀ y : Fin N → ℝ, ∃ r, vecNorm ord y = .ok r := by
        intro y
        obtain ⟨r, hr, -⟩ := vecNorm_bound hN ord ho y (∑ i, |y i|)
          (Finset.sum_nonneg fun i _ => abs_nonneg _) fun i =>
            Finset.single_le_sum (f := fun i => |y i|) (fun i _ => abs_nonneg _) (Finset.mem_univ i)
        exact ⟨r, hr⟩
      cases x with
      | val y => obtain ⟨r, hr⟩ := this y; exact ⟨.fin r, by simp [arrNorm, hr, Except.map]⟩
      | inf => obtain ⟨r, hr⟩ := this 0; exact ⟨.pinf, by simp [arrNorm, hr, Except.map]⟩
      | nan => obtain ⟨r, hr⟩ := this 0; exact ⟨.nan, by simp [arrNorm, hr, Except.map]⟩
    obtain ⟨r1, h1⟩ := hno (destAt a.A pdf a.record k).delta
    obtain ⟨r2, h2⟩ := hno (destAt a.A pdf a.record k).estimate
    have e1 : (destAt a.A pdf a.record k).view.estimate = .ok (destAt a.A pdf a.record k).estimate := rfl
    have e2 : (destAt a.A pdf a.record k).view.delta = .arr (destAt a.A pdf a.record k).delta := rfl
    simp only [Crit.eval, toleranceCall, e1, e2, deltaNorm, h1, h2, bind, Except.bind, pure, Except.pure]
    split_ifs
    · exact ⟨_, rfl⟩
    · exact ⟨_, rfl⟩
  -- it holds at the announced index
  set K := ⌈2 * N * C / atol⌉₊ + 1 with hK
  have hstop : (Crit.tol rtol atol ord).eval (destAt a.A pdf a.record K).view = .ok true := by
    have hd := (destAt_inv a.A pdf a.record ⌈2 * N * C / atol⌉₊).2.2
    rw [← hK] at hd
    have hKp : (0 : ℝ) < (⌈2 * N * C / atol⌉₊ : ℝ) + 1 := by positivity
    obtain ⟨r, hr, hle⟩ := vecNorm_bound hN ord ho (fun i =>
      (destAt a.A pdf a.record K).acc.mu i - (destAt a.A pdf a.record ⌈2 * N * C / atol⌉₊).acc.mu i)
      (2 * C / ((⌈2 * N * C / atol⌉₊ : ℝ) + 1)) (by positivity) (fun i => hdelta _ i)
    have hlt : r < atol := by
      refine lt_of_le_of_lt hle ?_
      have h3 : 2 * N * C / atol < (⌈2 * N * C / atol⌉₊ : ℝ) + 1 :=
        lt_of_le_of_lt (Nat.le_ceil _) (lt_add_one _)
      rw [div_lt_iff₀ hat] at h3
      rw [← mul_div_assoc, div_lt_iff₀ hKp]
      linarith
    have e1 : (destAt a.A pdf a.record K).view.estimate = .ok (destAt a.A pdf a.record K).estimate := rfl
    have e2 : (destAt a.A pdf a.record K).view.delta = .arr (destAt a.A pdf a.record K).delta := rfl
    have htr : truth ((Fl.fin r).lt (.fin atol)) = true := by
      rw [truth_eq_true]; exact hlt
    simp only [Crit.eval, toleranceCall, e1, e2, deltaNorm, hd, arrNorm, hr, Except.map, bind,
      Except.bind, pure, Except.pure, htr, if_true]
  have hex : ∃ k, (Crit.tol rtol atol ord).eval (destAt a.A pdf a.record k).view = .ok true := ⟨K, hstop⟩
  obtain ⟨p, hpe⟩ : ∃ p : DiagOut N × List (MeanEst N),
      p = (if a.full || a.callback then
        (.pair (destAt a.A pdf a.record (Nat.find hex)).estimate (destAt a.A pdf a.record (Nat.find hex))
          (.tol rtol atol ord) (destAt a.A pdf a.record (Nat.find hex)).estimate,
          if a.callback then (dstateAt a.A pdf a.record (Nat.find hex)).calls else [])
        else (.arr (destAt a.A pdf a.record (Nat.find hex)).estimate, [])) := ⟨_, rfl⟩
  refine ⟨Nat.find hex, p.1, p.2, Nat.find_min' hex hstop, fun fuel hf => ?_⟩
  rw [diag_unfold tppf zscore rng a hN "rademacher" hpdf pdf hp _ hc]
  have hl : diagLoop a.A pdf (.tol rtol atol ord) fuel (dstateAt a.A pdf a.record 0) =
      some (.ok (dstateAt a.A pdf a.record (Nat.find hex))) := by
    rw [diagLoop_ok]
    refine ⟨_, by omega, by omega, rfl, Nat.find_spec hex, fun j _ hj => ?_⟩
    obtain ⟨b, hb⟩ := hev j
    cases b with
    | false => exact hb
    | true => exact absurd hb (Nat.find_min hex hj)
  rw [hl]
  simp only [Option.map_some, Except.map]
  rw [Prod.mk.eta, hpe]
  rfl

/-! ## C37 -/

open Matrix

/-- Contract assumed of `np.linalg.qr(Y, mode="reduced")` on matrices with at most as many columns
as rows. -/
def QRKernelOk {n : ℕ} (qr : QRKernel n) : Prop :=
  ∀ m (Y : Matrix (Fin n) (Fin m) ℝ), m ≤ n →
    (qr m Y).1ᵀ * (qr m Y).1 = 1 ∧ Y = (qr m Y).1 * (qr m Y).2

theorem exists_qrKernelOk (n : ℕ) : ∃ qr : QRKernel n, QRKernelOk qr := by
  have h : ∀ m (Y : Matrix (Fin n) (Fin m) ℝ), ∃ p : Matrix (Fin n) (Fin m) ℝ × Matrix (Fin m) (Fin m) ℝ,
      m ≤ n → p.1ᵀ * p.1 = 1 ∧ Y = p.1 * p.2 := by
    intro m Y
    by_cases hm : m ≤ n
    · obtain ⟨Q, hQ⟩ := exists_isQR (N := n) (nb := m) (fun j i => Y i j)
      have hmin : min n m = m := min_eq_right hm
      obtain ⟨R, hR⟩ := hQ.span
      refine ⟨(Matrix.of fun i j => Q (Fin.cast hmin.symm j) i,
        Matrix.of fun i j => R (Fin.cast hmin.symm i) j), fun _ => ⟨?_, ?_⟩⟩
      · funext a b
        rw [mul_apply]
        simp only [transpose_apply, of_apply]
        rw [hQ.orth, one_apply]
        simp [Fin.ext_iff]
      · funext i j
        rw [mul_apply]
        simp only [of_apply]
        rw [hR j i, ← Equiv.sum_comp (finCongr hmin.symm)]
        rfl
    · exact ⟨(0, 0), fun h => absurd h hm⟩
  choose qr hqr using h
  exact ⟨qr, hqr⟩

/-- **C37**: the result is the average over `i` of `diag(P_i A) + w_i * (I - P_i) A w_i`, with `P_i`
the orthogonal projector on the images of all test vectors but the `i`-th; LinAlgError exactly
when the triangular factor is singular. -/
theorem C37_leave_one_out {n m : ℕ} (qr : QRKernel n) (hq : QRKernelOk qr) (hm : 0 < m) (hmn : m ≤ n)
    (A : Matrix (Fin n) (Fin n) ℝ) (W : Matrix (Fin n) (Fin m) ℝ) (d : Vec n)
    (h : xdiagCore qr A W = .ok d) (P : Fin m → Matrix (Fin n) (Fin n) ℝ)
    (hP : ∀ i, Spec.IsProjOn (P i) (A * W) (fun j => j ≠ i)) (k : Fin n) :
    d k = (∑ i, ((P i * A) k k + W k i * ((1 - P i) *ᵥ (A *ᵥ fun l => W l i)) k)) / m := by
  obtain ⟨horth, hfact⟩ := hq m (A * W) hmn
  set Q := (qr m (A * W)).1 with hQ
  set R := (qr m (A * W)).2 with hR
  unfold xdiagCore at h
  simp only [← hQ, ← hR] at h
  split_ifs at h with hdet
  have hinv : R⁻¹ * R = 1 := nonsing_inv_mul R (Ne.isUnit hdet)
  have hx : XData A W Q R R⁻¹ := ⟨horth, hfact, hinv⟩
  have hd := congrFun (Except.ok.inj h) k
  rw [← hd]
  have hm0 : (m : ℝ) ≠ 0 := by exact_mod_cast hm.ne'
  have hterm : ∀ i, (P i * A) k k + W k i * ((1 - P i) *ᵥ (A *ᵥ fun l => W l i)) k =
      (∑ j, Q k j * (Aᵀ * Q) k j) - (Q * Matrix.of fun j i => R⁻¹ i j / Real.sqrt (∑ k, R⁻¹ i k ^ 2)) k i *
        ((Aᵀ * Q) * Matrix.of fun j i => R⁻¹ i j / Real.sqrt (∑ k, R⁻¹ i k ^ 2)) k i +
      W k i * (A * W) k i - W k i * (Q * ((Aᵀ * Q)ᵀ * W)) k i +
      W k i * (diagProd (Matrix.of fun j i => R⁻¹ i j / Real.sqrt (∑ k, R⁻¹ i k ^ 2)) ((Aᵀ * Q)ᵀ * W) i *
        (Q * Matrix.of fun j i => R⁻¹ i j / Real.sqrt (∑ k, R⁻¹ i k ^ 2)) k i) := by
    intro i
    obtain heq := isProjOn_unique (hP i) (looProj hx i)
    rw [heq]
    set s := sVec R⁻¹ i with hs
    have hcol : ∀ (B : Matrix (Fin n) (Fin m) ℝ) k, (B * Matrix.of fun j i => R⁻¹ i j /
        Real.sqrt (∑ k, R⁻¹ i k ^ 2)) k i = (B *ᵥ s) k := fun B k => rfl
    have hT : (Aᵀ * Q)ᵀ * W = Qᵀ * (A * W) := by
      rw [transpose_mul, transpose_transpose, Matrix.mul_assoc]
    have hdp : diagProd (Matrix.of fun j i => R⁻¹ i j / Real.sqrt (∑ k, R⁻¹ i k ^ 2)) ((Aᵀ * Q)ᵀ * W) i =
        s ⬝ᵥ (Qᵀ *ᵥ (A *ᵥ fun l => W l i)) := by
      rw [hT, mulVec_mulVec]
      have : Qᵀ * (A * W) = (Qᵀ * A) * W := by rw [Matrix.mul_assoc]
      rw [this]
      rfl
    rw [hdp, hcol, hcol, hT]
    have e1 : Q * (1 - vecMulVec s s) * Qᵀ * A = Q * (Aᵀ * Q)ᵀ - vecMulVec (Q *ᵥ s) ((Aᵀ * Q) *ᵥ s) := by
      rw [Matrix.mul_sub, Matrix.mul_one, Matrix.sub_mul, Matrix.sub_mul, mul_vecMulVec, vecMulVec_mul,
        vecMulVec_mul, transpose_mul, transpose_transpose, Matrix.mul_assoc]
      congr 2
      rw [vecMul_transpose, ← mulVec_transpose, mulVec_mulVec]
    have e2 : ((1 - Q * (1 - vecMulVec s s) * Qᵀ) *ᵥ (A *ᵥ fun l => W l i)) k =
        (A * W) k i - (Q * (Qᵀ * (A * W))) k i + (Q *ᵥ s) k * (s ⬝ᵥ (Qᵀ *ᵥ (A *ᵥ fun l => W l i))) := by
      rw [sub_mulVec, one_mulVec, ← mulVec_mulVec, ← mulVec_mulVec, sub_mulVec, one_mulVec,
        vecMulVec_mulVec, mulVec_sub, op_smul_eq_smul, mulVec_smul]
      simp only [Pi.sub_apply, Pi.smul_apply, smul_eq_mul]
      have c1 : (A *ᵥ fun l => W l i) k = (A * W) k i := rfl
      have c2 : (Q *ᵥ (Qᵀ *ᵥ (A *ᵥ fun l => W l i))) k = (Q * (Qᵀ * (A * W))) k i := by
        rw [mulVec_mulVec, mulVec_mulVec, ← Matrix.mul_assoc Qᵀ, ← Matrix.mul_assoc Q,
          ← Matrix.mul_assoc Q]
        rfl
      rw [c1, c2]
      ring
    rw [e1, e2, Matrix.sub_apply, vecMulVec_apply, mul_apply]
    simp only [transpose_apply]
    ring
  simp only [rowProd, of_apply]
  rw [Finset.sum_congr rfl fun i _ => hterm i]
  simp only [Finset.sum_add_distrib, Finset.sum_sub_distrib, Finset.sum_const, Finset.card_univ,
    Fintype.card_fin, nsmul_eq_mul]
  field_simp
  ring

/-- **C37**: LinAlgError is raised iff the triangular factor is singular. -/
theorem C37_singular {n m : ℕ} (qr : QRKernel n) (A : Matrix (Fin n) (Fin n) ℝ)
    (W : Matrix (Fin n) (Fin m) ℝ) :
    xdiagCore qr A W = .error .linAlg ↔ (qr m (A * W)).2.det = 0 := by
  unfold xdiagCore
  dsimp only
  split_ifs with h <;> simp [h]

/-- **C37**: for every `m >= 1` and every non-empty matrix, the number of test vectors is
`min(ceil(m/2), n)`, hence between 1 and `n`; without `m` it is `n`. -/
theorem C37_budget (n : ℕ) (hn : 1 ≤ n) :
    xdiagBudget n none = n ∧
    ∀ m : ℤ, 1 ≤ m → xdiagBudget n (some m) = min ((m + 1) / 2) n ∧
      1 ≤ xdiagBudget n (some m) ∧ xdiagBudget n (some m) ≤ n := by
  constructor
  · simp [xdiagBudget]
  · intro m hm
    simp only [xdiagBudget]
    omega

/-- **C37**: the whole call, for a named distribution and any budget `m >= 1` (or none). -/
theorem C37_call {n : ℕ} (hn : 1 ≤ n) (qr : QRKernel n) (A : Matrix (Fin n) (Fin n) ℝ)
    (name : String) (pdf : Pdf n) (hp : isotropicPdf name rng n = .ok pdf) (m : Option ℤ)
    (hm : ∀ z, m = some z → 1 ≤ z) :
    ∃ b : ℕ, 1 ≤ b ∧ b ≤ n ∧ xdiagBudget n m = b ∧
      xdiag qr rng A m (.name name) =
        (xdiagCore qr A (Matrix.of fun i (j : Fin b) => pdf [] b j i)).map .val := by
  have hb : 1 ≤ xdiagBudget n m ∧ xdiagBudget n m ≤ n := by
    rcases m with _ | z
    · rw [(C37_budget n hn).1]; omega
    · exact ((C37_budget n hn).2 z (hm z rfl)).2
  obtain ⟨b, hbe⟩ : ∃ b : ℕ, xdiagBudget n m = b := ⟨(xdiagBudget n m).toNat, by omega⟩
  refine ⟨b, by omega, by omega, hbe, ?_⟩
  unfold xdiag
  simp only [hp, hbe]
  rw [if_neg (by omega), if_neg (by omega)]
  obtain rfl : b = (xdiagBudget n m).toNat := by omega
  rfl

/-- **C37**: budgets below one.  `m = 0` and `m = -1` (which is rounded up to the even number 0) give
NaN, as does an empty operator with any `m >= -1`; `m < -1` raises ValueError. -/
theorem C37_no_budget {n : ℕ} (qr : QRKernel n) (A : Matrix (Fin n) (Fin n) ℝ) (name : String)
    (pdf : Pdf n) (hp : isotropicPdf name rng n = .ok pdf) (m : ℤ) :
    (m = 0 ∨ m = -1 ∨ (n = 0 ∧ -1 ≤ m) → xdiag qr rng A (some m) (.name name) = .ok .nan) ∧
    (m < -1 → xdiag qr rng A (some m) (.name name) = .error .value) := by
  have hm2 : m % 2 = 0 ∨ m % 2 = 1 := by omega
  constructor
  · intro h
    have hb : xdiagBudget n (some m) = 0 := by
      simp only [xdiagBudget]
      rcases h with rfl | rfl | ⟨rfl, h⟩ <;> omega
    unfold xdiag
    simp [hp, hb]
  · intro h
    have hb : xdiagBudget n (some m) < 0 := by
      simp only [xdiagBudget]
      omega
    unfold xdiag
    simp [hp, hb]

/-- Non-vacuity of `C37_leave_one_out`: some kernel meets the contract, and with it the identity
matrix with test vectors `I` does not raise. -/
example : ∃ qr : QRKernel 2, QRKernelOk qr ∧ ∃ d, xdiagCore qr 1 (1 : Matrix (Fin 2) (Fin 2) ℝ) = .ok d := by
  obtain ⟨qr, hq⟩ := exists_qrKernelOk 2
  refine ⟨qr, hq, ?_⟩
  rcases h : xdiagCore qr 1 (1 : Matrix (Fin 2) (Fin 2) ℝ) with e | d
  · exfalso
    have he : e = .linAlg := by
      unfold xdiagCore at h
      dsimp only at h
      split_ifs at h
      exact (Except.error.inj h).symm
    rw [he, C37_singular] at h
    have := (hq 2 (1 * 1) le_rfl).2
    have h2 := congrArg Matrix.det this
    rw [det_mul, det_mul, h] at h2
    simp at h2
  · exact ⟨d, rfl⟩

/-! ## C80 -/

/-- **C80** fails: a callable `pdf` (which the signature of `diag` allows) is rejected with
AssertionError by `diag` and by `xdiag`, whatever the sampler and the other arguments. -/
theorem C80_callable_rejected (f : Pdf N) (a : DiagArgs N) (ha : a.pdf = .callable f) (fuel : ℕ)
    (qr : QRKernel N) (A : Matrix (Fin N) (Fin N) ℝ) (m : Option ℤ) :
    diag tppf zscore rng a fuel = some (.error .assertion) ∧
      xdiag qr rng A m (.callable f) = .error .assertion := by
  constructor
  · unfold diag; rw [ha]
  · rfl

end Primate
