import Verif.Props.Xtrace
import Verif.Props.HutchMoments
import Mathlib.Algebra.BigOperators.Pi
import Mathlib.Logic.Equiv.Fin.Basic
import Mathlib.LinearAlgebra.Matrix.Notation

/-! # Property C97: the values averaged by xtrace are unbiased for independent isotropic vectors -/

namespace Primate

open Matrix

variable {n : ℕ} {κ : Type} [Fintype κ]

/-- Replacing the `i`-th draw by an independent copy does not change an expectation. -/
theorem sum_resample [DecidableEq κ] (p : Fin n → κ → ℝ) (i : Fin n) (hp : ∑ s, p i s = 1)
    (g : (Fin n → κ) → ℝ) :
    ∑ ω : Fin n → κ, (∏ j, p j (ω j)) * g ω =
      ∑ ω : Fin n → κ, (∏ j, p j (ω j)) * ∑ s, p i s * g (Function.update ω i s) := by
  classical
  have hsplit : ∀ f : (Fin n → κ) → ℝ, ∑ ω, f ω =
      ∑ y : ({j : Fin n // j ≠ i} → κ), ∑ s : κ, f ((Equiv.funSplitAt i κ).symm (s, y)) := by
    intro f
    rw [← Equiv.sum_comp (Equiv.funSplitAt i κ).symm f, Fintype.sum_prod_type, Finset.sum_comm]
  have hval : ∀ (s : κ) (y : {j : Fin n // j ≠ i} → κ) (j : Fin n),
      (Equiv.funSplitAt i κ).symm (s, y) j = if h : j = i then s else y ⟨j, h⟩ := by
    intro s y j
    rw [Equiv.funSplitAt_symm_apply]
  have hprod : ∀ (s : κ) (y : {j : Fin n // j ≠ i} → κ),
      ∏ j, p j ((Equiv.funSplitAt i κ).symm (s, y) j) =
      p i s * ∏ j ∈ Finset.univ.erase i, p j ((Equiv.funSplitAt i κ).symm (s, y) j) := by
    intro s y
    rw [← Finset.mul_prod_erase _ _ (Finset.mem_univ i), hval, dif_pos rfl]
  have hprod' : ∀ (s s' : κ) (y : {j : Fin n // j ≠ i} → κ),
      ∏ j ∈ Finset.univ.erase i, p j ((Equiv.funSplitAt i κ).symm (s, y) j) =
      ∏ j ∈ Finset.univ.erase i, p j ((Equiv.funSplitAt i κ).symm (s', y) j) := by
    intro s s' y
    refine Finset.prod_congr rfl fun j hj => ?_
    have hj' := Finset.ne_of_mem_erase hj
    rw [hval, hval, dif_neg hj', dif_neg hj']
  have hupd : ∀ (s s' : κ) (y : {j : Fin n // j ≠ i} → κ),
      Function.update ((Equiv.funSplitAt i κ).symm (s, y)) i s' = (Equiv.funSplitAt i κ).symm (s', y) := by
    intro s s' y
    funext j
    by_cases h : j = i
    · subst h; rw [Function.update_self, hval, dif_pos rfl]
    · rw [Function.update_of_ne h, hval, hval, dif_neg h, dif_neg h]
  rw [hsplit, hsplit (fun ω => (∏ j, p j (ω j)) * ∑ s, p i s * g (Function.update ω i s))]
  refine Finset.sum_congr rfl fun y _ => ?_
  simp only [hupd, hprod]
  rcases isEmpty_or_nonempty κ with hE | ⟨⟨s0⟩⟩
  · simp
  simp only [hprod' _ s0 y]
  set c := ∏ j ∈ Finset.univ.erase i, p j ((Equiv.funSplitAt i κ).symm (s0, y) j)
  rw [← Finset.sum_mul, ← Finset.sum_mul, hp, one_mul, Finset.mul_sum]
  exact Finset.sum_congr rfl fun s _ => by ring

/-- The expectation of a leave-one-out value over its own vector is the trace. -/
theorem looValue_expect (M P : Matrix (Fin n) (Fin n) ℝ) (hs : Pᵀ = P) (hP : P * P = P) (q : κ → ℝ)
    (x : κ → Vec n) (hq : ∑ s, q s = 1)
    (hiso : ∀ a b, ∑ s, q s * (x s a * x s b) = if a = b then 1 else 0) :
    ∑ s, q s * Spec.looValue M P (x s) 1 = M.trace := by
  have hquad : ∀ B : Matrix (Fin n) (Fin n) ℝ, ∑ s, q s * (x s ⬝ᵥ (B *ᵥ x s)) = B.trace := by
    intro B
    have : ∀ s, q s * (x s ⬝ᵥ (B *ᵥ x s)) = ∑ a, ∑ b, B a b * (q s * (x s a * x s b)) := by
      intro s
      simp only [dotProduct, mulVec, Finset.mul_sum]
      exact Finset.sum_congr rfl fun a _ => Finset.sum_congr rfl fun b _ => by ring
    simp only [this]
    rw [Finset.sum_comm]
    simp only [Matrix.trace, Matrix.diag]
    refine Finset.sum_congr rfl fun a _ => ?_
    rw [Finset.sum_comm]
    simp only [← Finset.mul_sum, hiso]
    simp
  have h1 : ∀ s, q s * Spec.looValue M P (x s) 1 =
      q s * (P * M * P).trace + q s * (x s ⬝ᵥ (((1 - P) * M * (1 - P)) *ᵥ x s)) := by
    intro s
    unfold Spec.looValue
    rw [one_mul, mul_add]
    congr 2
    rw [← mulVec_mulVec, ← mulVec_mulVec, dotProduct_mulVec (x s) (1 - P)]
    congr 1
    rw [← mulVec_transpose, transpose_sub, hs, transpose_one]
  simp only [h1, Finset.sum_add_distrib, ← Finset.sum_mul, hq, hquad]
  have h2 : ((1 - P) * M * (1 - P)).trace = M.trace - (P * M).trace := by
    rw [trace_mul_comm, ← Matrix.mul_assoc]
    have : (1 - P) * (1 - P) = 1 - P := by
      rw [Matrix.sub_mul, Matrix.mul_sub, Matrix.mul_sub, hP]; simp
    rw [this, Matrix.sub_mul, Matrix.one_mul, trace_sub]
  have h3 : (P * M * P).trace = (P * M).trace := by
    rw [trace_mul_comm, ← Matrix.mul_assoc, hP]
  rw [h2, h3]; ring

theorem isProjOn_congr {P : Matrix (Fin n) (Fin n) ℝ} {Y Y' : Matrix (Fin n) (Fin n) ℝ}
    {keep : Fin n → Prop} (h : Spec.IsProjOn P Y keep) (hY : ∀ j, keep j → ∀ i, Y i j = Y' i j) :
    Spec.IsProjOn P Y' keep := by
  obtain ⟨C, hC, hC0⟩ := h.range
  refine ⟨h.symm, h.idem, fun j hj i => ?_, C, ?_, hC0⟩
  · rw [← hY j hj, ← h.fixes j hj, mul_apply, mul_apply]
    exact Finset.sum_congr rfl fun k _ => by rw [hY j hj]
  · rw [hC]
    funext i k
    rw [mul_apply, mul_apply]
    refine Finset.sum_congr rfl fun j _ => ?_
    by_cases hk : keep j
    · rw [hY j hk]
    · rw [hC0 j hk, mul_zero, mul_zero]

/-- **C97**: let the `n` vectors drawn by `xtrace` be independent, the `j`-th with finite distribution `p j` on the
vectors `x j s` and `E[x xᵀ] = I`, such that all possible draws give linearly independent images.  Then every run
succeeds and the expected value of what `xtrace` returns is exactly the trace, for any batch size,
criterion and mode. -/
theorem C97_unbiased [DecidableEq κ] (tppf : ℝ → ℕ → ℝ) (zscore : ℝ → ℝ) (rng : Rng) (hn : 0 < n) (batch : ℕ) (hb : 1 ≤ batch)
    (converge : CritArg) (full record : Bool) (kw : Kwargs)
    (M : Matrix (Fin n) (Fin n) ℝ) (qrInsert : QRInsert n) (hq : QRInsertOk qrInsert)
    (p : Fin n → κ → ℝ) (x : Fin n → κ → Vec n) (hp : ∀ j, ∑ s, p j s = 1)
    (hiso : ∀ j a b, ∑ s, p j s * (x j s a * x j s b) = if a = b then 1 else 0)
    (pdfs : (Fin n → κ) → Pdf n)
    (hdraw : ∀ ω : Fin n → κ, Spec.xdrawn (pdfs ω) batch ((n + batch - 1) / batch) = List.ofFn fun j => x j (ω j))
    (hind : ∀ ω : Fin n → κ, Spec.NoDependent ((List.ofFn fun j => x j (ω j)).map M.mulVec))
    (fuel : ℕ) (hf : n < fuel) :
    ∃ est : (Fin n → κ) → ℝ,
      (∀ ω, ∃ res s, xtrace tppf zscore qrInsert rng (.ofMatrix M) batch (.callable (pdfs ω)) converge full record kw
        fuel = some (.ok (.val fun _ => est ω, res, s))) ∧
      ∑ ω : Fin n → κ, (∏ j, p j (ω j)) * est ω = M.trace := by
  classical
  set W : (Fin n → κ) → Matrix (Fin n) (Fin n) ℝ := fun ω => Matrix.of fun a j => x j (ω j) a with hWdef
  have hrun := fun ω => (xtrace_estimate tppf zscore rng batch (.callable (pdfs ω)) converge full record kw M
    qrInsert hq hb (pdfs ω) rfl fuel hf (W ω)
    (by intro a j; rw [hdraw, List.getD_eq_getElem _ _ (by simp)]; simp [hWdef])).resolve_right
    (fun h => h.2 (by rw [hdraw]; exact hind ω))
  have hproj : ∀ ω i, ∃ P, Spec.IsProjOn P (M * W ω) (fun j => j ≠ i) := by
    intro ω i
    obtain ⟨-, -, -, -, -, ⟨Q, R, Rinv, hx⟩, -⟩ := hrun ω
    exact ⟨_, looProj hx i⟩
  choose P hP using hproj
  refine ⟨fun ω => (∑ i, Spec.looValue M (P ω i) (x i (ω i)) 1) / n, fun ω => ?_, ?_⟩
  · obtain ⟨est, res, s, h1, -, -, h2⟩ := hrun ω
    refine ⟨res, s, ?_⟩
    rw [h1, h2 hn (P ω) (hP ω)]
    rfl
  · have hn' : (n : ℝ) ≠ 0 := by exact_mod_cast hn.ne'
    have hP' : ∀ ω i s, P (Function.update ω i s) i = P ω i := by
      intro ω i s
      refine isProjOn_unique (hP _ i) (isProjOn_congr (hP ω i) fun j hj a => ?_)
      rw [mul_apply, mul_apply]
      refine Finset.sum_congr rfl fun k _ => ?_
      simp only [hWdef, Matrix.of_apply, Function.update_of_ne hj]
    have hone : ∑ ω : Fin n → κ, ∏ j, p j (ω j) = 1 := by
      rw [← Fintype.prod_sum]
      exact Finset.prod_eq_one fun j _ => hp j
    have hi : ∀ i, ∑ ω : Fin n → κ, (∏ j, p j (ω j)) * Spec.looValue M (P ω i) (x i (ω i)) 1 = M.trace := by
      intro i
      rw [sum_resample p i (hp i)]
      have : ∀ ω, ∑ s, p i s * Spec.looValue M (P (Function.update ω i s) i)
          (x i (Function.update ω i s i)) 1 = M.trace := by
        intro ω
        simp only [hP', Function.update_self]
        exact looValue_expect M _ (hP ω i).symm (hP ω i).idem _ _ (hp i) (hiso i)
      simp only [this, ← Finset.sum_mul, hone, one_mul]
    simp only [mul_div_assoc', ← Finset.sum_div, Finset.mul_sum]
    rw [Finset.sum_comm]
    simp only [hi, Finset.sum_const, Finset.card_univ, Fintype.card_fin, nsmul_eq_mul]
    field_simp

/-- Non-vacuity of `C97_unbiased`: for `n = 2` let the first vector be `√2 e₁` or `√2 e₂` and the second `(1, 1)` or
`(1, -1)`, each with probability 1/2; the operator is `[[1, 1], [0, 1]]`. -/
example (rng : Rng) : ∃ (x : Fin 2 → Bool → Vec 2) (pdfs : (Fin 2 → Bool) → Pdf 2),
    (∀ j a b, ∑ s : Bool, (1/2 : ℝ) * (x j s a * x j s b) = if a = b then 1 else 0) ∧
    (∀ ω : Fin 2 → Bool, Spec.xdrawn (pdfs ω) 2 ((2 + 2 - 1) / 2) = List.ofFn fun j => x j (ω j)) ∧
    (∀ ω : Fin 2 → Bool, Spec.NoDependent ((List.ofFn fun j => x j (ω j)).map
      (!![1, 1; 0, 1] : Matrix (Fin 2) (Fin 2) ℝ).mulVec)) := by
  have hss : Real.sqrt 2 * Real.sqrt 2 = 2 := Real.mul_self_sqrt (by norm_num)
  have hs : Real.sqrt 2 ≠ 0 := by positivity
  set x : Fin 2 → Bool → Vec 2 := fun j s =>
    if j = 0 then (if s then ![Real.sqrt 2, 0] else ![0, Real.sqrt 2]) else (if s then ![1, 1] else ![1, -1]) with hx
  refine ⟨x, fun ω _ b j => if h : (j : ℕ) < 2 then x ⟨j, h⟩ (ω ⟨j, h⟩) else 0, ?_, ?_, ?_⟩
  · intro j a b
    fin_cases j <;> fin_cases a <;> fin_cases b <;> simp [hx, hss] <;> norm_num
  · intro ω
    simp [Spec.xdrawn, Spec.xsize]
  · intro ω
    rintro pre u post hsplit ⟨c, hc⟩
    rw [List.ofFn_succ, List.ofFn_succ, List.ofFn_zero] at hsplit
    rcases pre with _ | ⟨a, _ | ⟨b, pre⟩⟩
    · simp only [List.map_cons, List.nil_append, List.cons.injEq] at hsplit
      have h1 := hsplit.1.trans hc
      cases h0 : ω 0
      · have := congrFun h1 1; simp [hx, h0, mulVec, dotProduct, Fin.sum_univ_two, hs] at this
      · have := congrFun h1 0; simp [hx, h0, mulVec, dotProduct, Fin.sum_univ_two, hs] at this
    · simp only [List.map_cons, List.cons_append, List.nil_append, List.cons.injEq] at hsplit
      obtain ⟨rfl, h1, -⟩ := hsplit
      have h2 := h1.trans hc
      have h3 := congrFun h2 0
      have h4 := congrFun h2 1
      cases h0 : ω 0 <;> cases h5 : ω 1 <;>
        simp [hx, h0, h5, mulVec, dotProduct, Fin.sum_univ_two, hs] at h3 h4 <;>
        first
        | nlinarith
        | (rw [h3, zero_mul] at h4; linarith)
    · simp at hsplit

/-- **C97**, limits: for `n ≥ 2` and the built-in Rademacher vectors there are streams of uniforms in `[0, 1)` (the first
`n²` of them below 1/2, which has positive probability) for which `xtrace` raises LinAlgError, whatever the operator. -/
theorem C97_rademacher_raises (tppf : ℝ → ℕ → ℝ) (zscore : ℝ → ℝ) (hn : 2 ≤ n) (batch : ℕ) (hb : 1 ≤ batch)
    (converge : CritArg) (full record : Bool) (kw : Kwargs) (M : Matrix (Fin n) (Fin n) ℝ) (qrInsert : QRInsert n)
    (hq : QRInsertOk qrInsert) (rng : Rng) (hu : ∀ q < n * n, 0 ≤ rng.unif q ∧ rng.unif q < 1/2) (fuel : ℕ)
    (hf : n < fuel) :
    xtrace tppf zscore qrInsert rng (.ofMatrix M) batch (.name "rademacher") converge full record kw fuel =
      some (.error .linAlg) := by
  rw [C31_raises_iff tppf zscore rng batch (.name "rademacher") converge full record kw M qrInsert hq hb _ rfl fuel hf]
  set pd : Pdf n := fun history b => IsoDist.rademacher.fill n b rng (history.sum * n) with hpd
  have hsum : ∀ t, (Spec.xhist n batch t).sum = min n (t * batch) := by
    intro t
    induction t with
    | zero => simp [Spec.xhist]
    | succ t ih =>
      rw [xhist_succ, List.sum_append, ih, List.sum_singleton, Spec.xsize, Nat.succ_mul]
      omega
  have hall : ∀ v ∈ Spec.xdrawn pd batch ((n + batch - 1) / batch), v = fun _ => -1 := by
    intro v hv
    simp only [Spec.xdrawn, List.mem_flatMap, List.mem_range, List.mem_ofFn] at hv
    obtain ⟨t, -, j, rfl⟩ := hv
    funext a
    simp only [hpd, IsoDist.fill, rawCols, hsum]
    have hj := j.2
    have hlt : min n (t * batch) + j < n := by unfold Spec.xsize at hj; omega
    have : min n (t * batch) * n + j * n + a < n * n := by
      have h1 : (min n (t * batch) + j + 1) * n ≤ n * n := Nat.mul_le_mul_right n hlt
      have h2 := a.2
      nlinarith
    obtain ⟨h1, h2⟩ := hu _ this
    exact (rademacherEntry_half _).1 h1 h2
  have hlen : (Spec.xdrawn pd batch ((n + batch - 1) / batch)).length = n := by
    rw [xdrawn_length, min_eq_left]
    have := Nat.div_add_mod (n + batch - 1) batch
    have h' := Nat.mod_lt (n + batch - 1) (show batch > 0 by omega)
    rw [mul_comm]; omega
  change ¬ Spec.NoDependent ((Spec.xdrawn pd batch ((n + batch - 1) / batch)).map M.mulVec)
  revert hall hlen
  generalize Spec.xdrawn pd batch ((n + batch - 1) / batch) = l
  intro hall hlen hd
  obtain ⟨v, w, l, rfl⟩ : ∃ v w l', l = v :: w :: l' := by
    rcases l with _ | ⟨v, _ | ⟨w, l⟩⟩
    · simp at hlen; omega
    · simp at hlen; omega
    · exact ⟨v, w, l, rfl⟩
  refine hd [M.mulVec v] (M.mulVec w) (l.map M.mulVec) rfl ⟨fun _ => 1, ?_⟩
  rw [hall v (by simp), hall w (by simp)]
  simp

end Primate
