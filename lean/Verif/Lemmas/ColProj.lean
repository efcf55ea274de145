import Verif.Spec.Xtrace
import Verif.Props.Trinv
import Mathlib.LinearAlgebra.Matrix.NonsingularInverse
import Mathlib.LinearAlgebra.Matrix.ToLinearEquiv
import Mathlib.MeasureTheory.Constructions.BorelSpace.Metrizable
import Mathlib.MeasureTheory.Constructions.BorelSpace.Real

/-!
# The orthogonal projector on the span of some columns, as a measurable function of the columns
-/

noncomputable section

namespace Primate

open Matrix MeasureTheory

variable {n m : ℕ}

theorem dotSelf_nonneg (v : Fin n → ℝ) : 0 ≤ v ⬝ᵥ v := Finset.sum_nonneg fun _ _ => mul_self_nonneg _

theorem vecMulVec_mul_self (r : Fin n → ℝ) : vecMulVec r r * vecMulVec r r = (r ⬝ᵥ r) • vecMulVec r r := by
  ext a b
  simp only [mul_apply, vecMulVec_apply, Matrix.smul_apply, smul_eq_mul, dotProduct, Finset.sum_mul]
  exact Finset.sum_congr rfl fun k _ => by ring

/-- One step of Gram-Schmidt. -/
theorem isProjOn_insert {P : Matrix (Fin n) (Fin n) ℝ} {Y : Matrix (Fin n) (Fin m) ℝ} {keep : Fin m → Prop} (h : Spec.IsProjOn P Y keep)
    (l : Fin m) : ∃ P', Spec.IsProjOn P' Y fun j => keep j ∨ j = l := by
  classical
  obtain ⟨C, hC, hC0⟩ := h.range
  set r : Fin n → ℝ := (1 - P) *ᵥ fun i => Y i l with hr
  by_cases hl : r ⬝ᵥ r = 0
  · have hr0 : r = 0 := dotProduct_self_eq_zero.1 hl
    refine ⟨P, h.symm, h.idem, ?_, C, hC, fun j hj => hC0 j fun hk => hj (Or.inl hk)⟩
    rintro j (hj | rfl) i
    · exact h.fixes j hj i
    · have := congrFun hr0 i
      rw [hr, sub_mulVec, one_mulVec, Pi.sub_apply, Pi.zero_apply, sub_eq_zero] at this
      rw [this]
      rfl
  · have hPr : P *ᵥ r = 0 := by
      rw [hr, mulVec_mulVec, Matrix.mul_sub, Matrix.mul_one, h.idem, sub_self, zero_mulVec]
    have hPv : P * vecMulVec r r = 0 := by rw [mul_vecMulVec, hPr, zero_vecMulVec]
    have hvP : vecMulVec r r * P = 0 := by
      have := congrArg transpose hPv
      rwa [transpose_mul, h.symm, transpose_vecMulVec, transpose_zero] at this
    refine ⟨P + (r ⬝ᵥ r)⁻¹ • vecMulVec r r, ?_, ?_, ?_, ?_⟩
    · rw [transpose_add, h.symm, transpose_smul, transpose_vecMulVec]
    · rw [Matrix.add_mul, Matrix.mul_add, Matrix.mul_add, h.idem, Matrix.mul_smul, hPv, Matrix.smul_mul, hvP, Matrix.smul_mul, Matrix.mul_smul,
        vecMulVec_mul_self, smul_smul, smul_smul, mul_assoc, inv_mul_cancel₀ hl, mul_one]
      simp
    · have hry : vecMulVec r r * Y = vecMulVec r (r ᵥ* Y) := vecMulVec_mul _ _ _
      have hrv : ∀ j, keep j → (r ᵥ* Y) j = 0 := by
        intro j hj
        have h1 : (r ᵥ* Y) j = r ⬝ᵥ (P *ᵥ fun i => Y i j) := by
          show r ⬝ᵥ (fun i => Y i j) = _
          congr 1
          funext i
          exact (h.fixes j hj i).symm
        rw [h1, dotProduct_mulVec, ← mulVec_transpose, h.symm, hPr, zero_dotProduct]
      have hrl : (r ᵥ* Y) l = r ⬝ᵥ r := by
        have h1 : (fun i => Y i l) = r + P *ᵥ fun i => Y i l := by rw [hr, sub_mulVec, one_mulVec, sub_add_cancel]
        show r ⬝ᵥ (fun i => Y i l) = _
        rw [h1, dotProduct_add, dotProduct_mulVec r P, ← mulVec_transpose, h.symm, hPr, zero_dotProduct, add_zero]
      rintro j (hj | rfl) i
      · rw [Matrix.add_mul, Matrix.smul_mul, hry, Matrix.add_apply, h.fixes j hj, Matrix.smul_apply, vecMulVec_apply, hrv j hj]
        simp
      · rw [Matrix.add_mul, Matrix.smul_mul, hry, Matrix.add_apply, Matrix.smul_apply, vecMulVec_apply, hrl, smul_eq_mul]
        have h1 : r i = Y i j - (P * Y) i j := by
          rw [hr, sub_mulVec, one_mulVec]; rfl
        have h2 : (r ⬝ᵥ r)⁻¹ * (r i * (r ⬝ᵥ r)) = r i := by field_simp
        rw [h2, h1]; ring
    · refine ⟨C + (r ⬝ᵥ r)⁻¹ • (vecMulVec (Pi.single l 1) r - (C * vecMulVec (fun i => Y i l) r)), ?_, ?_⟩
      · have h1 : Y * vecMulVec (Pi.single l 1) r = vecMulVec (fun i => Y i l) r := by
          rw [mul_vecMulVec, mulVec_single_one]; rfl
        rw [Matrix.mul_add, ← hC, Matrix.mul_smul, Matrix.mul_sub, h1, ← Matrix.mul_assoc, ← hC, mul_vecMulVec, ← sub_vecMulVec]
        congr 3
        rw [hr, sub_mulVec, one_mulVec]
      · intro j hj i
        have hj1 : ¬ keep j := fun h => hj (Or.inl h)
        have hj2 : j ≠ l := fun h => hj (Or.inr h)
        simp only [Matrix.add_apply, Matrix.smul_apply, Matrix.sub_apply, vecMulVec_apply, mul_apply, hC0 j hj1, Pi.single_apply, if_neg hj2, zero_mul, Finset.sum_const_zero]
        simp

theorem isProjOn_exists (Y : Matrix (Fin n) (Fin m) ℝ) (keep : Fin m → Prop) : ∃ P, Spec.IsProjOn P Y keep := by
  classical
  have h : ∀ s : Finset (Fin m), ∃ P, Spec.IsProjOn P Y fun j => j ∈ s := by
    intro s
    induction s using Finset.induction_on with
    | empty =>
      refine ⟨0, by simp, by simp, fun j hj => absurd hj (by simp), 0, by simp, fun j _ i => rfl⟩
    | insert l s _ ih =>
      obtain ⟨P, hP⟩ := ih
      obtain ⟨P', hP'⟩ := isProjOn_insert hP l
      refine ⟨P', ?_⟩
      have : (fun j => j ∈ insert l s) = fun j => j ∈ s ∨ j = l := by
        funext j; rw [Finset.mem_insert]; exact propext or_comm
      rw [this]; exact hP'
  obtain ⟨P, hP⟩ := h (Finset.univ.filter keep)
  refine ⟨P, ?_⟩
  have : (fun j => j ∈ Finset.univ.filter keep) = keep := by funext j; simp
  rwa [this] at hP

/-- The orthogonal projector on the span of the columns `j` of `Y` with `keep j`. -/
def colProj (Y : Matrix (Fin n) (Fin m) ℝ) (keep : Fin m → Prop) : Matrix (Fin n) (Fin n) ℝ := (isProjOn_exists Y keep).choose

theorem colProj_spec (Y : Matrix (Fin n) (Fin m) ℝ) (keep : Fin m → Prop) : Spec.IsProjOn (colProj Y keep) Y keep :=
  (isProjOn_exists Y keep).choose_spec

theorem proj_entry_le {P : Matrix (Fin n) (Fin n) ℝ} (hs : Pᵀ = P) (hi : P * P = P) (a b : Fin n) : |P a b| ≤ 1 := by
  have h1 : ∀ a, P a a = ∑ c, P a c ^ 2 := by
    intro a
    conv_lhs => rw [← hi, mul_apply]
    refine Finset.sum_congr rfl fun c _ => ?_
    have : P c a = P a c := congrFun (congrFun hs a) c
    rw [this]; ring
  have h2 : ∀ a b, P a b ^ 2 ≤ P a a := fun a b => by
    rw [h1 a]; exact Finset.single_le_sum (f := fun c => P a c ^ 2) (fun _ _ => sq_nonneg _) (Finset.mem_univ b)
  have h3 : P a a ≤ 1 := by nlinarith [h2 a a]
  rw [abs_le_one_iff_mul_self_le_one]
  nlinarith [h2 a b]

/-- The kept columns; the others are replaced by zero. -/
def keptCols (Y : Matrix (Fin n) (Fin m) ℝ) (keep : Fin m → Prop) [DecidablePred keep] : Matrix (Fin n) (Fin m) ℝ :=
  Matrix.of fun i j => if keep j then Y i j else 0

theorem ridge_det (Z : Matrix (Fin n) (Fin m) ℝ) {ε : ℝ} (hε : 0 < ε) : (Zᵀ * Z + ε • 1).det ≠ 0 := by
  rw [ne_eq, ← exists_mulVec_eq_zero_iff, not_exists]
  rintro v ⟨hv, h0⟩
  have h1 : v ⬝ᵥ ((Zᵀ * Z + ε • 1) *ᵥ v) = (Z *ᵥ v) ⬝ᵥ (Z *ᵥ v) + ε * (v ⬝ᵥ v) := by
    rw [add_mulVec, dotProduct_add, ← mulVec_mulVec, dotProduct_mulVec, vecMul_transpose, smul_mulVec, one_mulVec, dotProduct_smul, smul_eq_mul]
  rw [h0, dotProduct_zero] at h1
  have h2 : 0 ≤ (Z *ᵥ v) ⬝ᵥ (Z *ᵥ v) := dotSelf_nonneg _
  have h3 : 0 < v ⬝ᵥ v := lt_of_le_of_ne (dotSelf_nonneg _) fun h => hv (dotProduct_self_eq_zero.1 h.symm)
  nlinarith [mul_pos hε h3]

/-- The regularised projector is close to the projector. -/
theorem ridge_close {P : Matrix (Fin n) (Fin n) ℝ} {Z : Matrix (Fin n) (Fin m) ℝ} (C : Matrix (Fin m) (Fin n) ℝ) (hPZ : P * Z = Z) (hs : Pᵀ = P)
    (hC : P = Z * C) {ε : ℝ} (hε : 0 < ε) (a b : Fin n) :
    (P a b - (Z * (Zᵀ * Z + ε • (1 : Matrix (Fin m) (Fin m) ℝ))⁻¹ * Zᵀ) a b) ^ 2 ≤ ε * ∑ j, C j b ^ 2 := by
  obtain ⟨G, hG⟩ : ∃ G, G = Zᵀ * Z + ε • (1 : Matrix (Fin m) (Fin m) ℝ) := ⟨_, rfl⟩
  have hu : IsUnit G.det := (hG ▸ ridge_det Z hε : G.det ≠ 0).isUnit
  rw [← hG]
  have hZP : Zᵀ * P = Zᵀ := by
    have := congrArg transpose hPZ
    rwa [transpose_mul, hs] at this
  have h1 : P - Z * G⁻¹ * Zᵀ = ε • (Z * (G⁻¹ * C)) := by
    have h2 : Z * G⁻¹ * Zᵀ = Z * (G⁻¹ * ((G - ε • 1) * C)) := by
      rw [hG, add_sub_cancel_right, Matrix.mul_assoc Zᵀ, ← hC, hZP, Matrix.mul_assoc]
    rw [h2, Matrix.sub_mul, Matrix.mul_sub, ← Matrix.mul_assoc G⁻¹ G, nonsing_inv_mul _ hu, Matrix.one_mul, Matrix.mul_sub, ← hC, sub_sub_cancel,
      Matrix.smul_mul, Matrix.one_mul, Matrix.mul_smul, Matrix.mul_smul]
  have h3 : P a b - (Z * G⁻¹ * Zᵀ) a b = ε * (Z *ᵥ (G⁻¹ *ᵥ fun j => C j b)) a := by
    have := congrFun (congrFun h1 a) b
    rw [Matrix.sub_apply, Matrix.smul_apply, smul_eq_mul] at this
    rw [this]
    rfl
  rw [h3]
  obtain ⟨c, hc⟩ : ∃ c : Fin m → ℝ, c = fun j => C j b := ⟨_, rfl⟩
  obtain ⟨v, hv⟩ : ∃ v, v = G⁻¹ *ᵥ c := ⟨_, rfl⟩
  rw [← hc, ← hv]
  have h4 : G *ᵥ v = c := by rw [hv, mulVec_mulVec, mul_nonsing_inv _ hu, one_mulVec]
  have h5 : (Z *ᵥ v) ⬝ᵥ (Z *ᵥ v) + ε * (v ⬝ᵥ v) = v ⬝ᵥ c := by
    rw [← h4, hG, add_mulVec, dotProduct_add, ← mulVec_mulVec, dotProduct_mulVec v Zᵀ, vecMul_transpose, smul_mulVec, one_mulVec, dotProduct_smul, smul_eq_mul]
  have h6 : (v ⬝ᵥ c) ^ 2 ≤ (v ⬝ᵥ v) * (c ⬝ᵥ c) := by
    have := Finset.sum_mul_sq_le_sq_mul_sq Finset.univ v c
    simp only [dotProduct]
    simpa only [sq] using this
  have h7 : ((Z *ᵥ v) a) ^ 2 ≤ (Z *ᵥ v) ⬝ᵥ (Z *ᵥ v) := by
    rw [sq]
    exact Finset.single_le_sum (f := fun i => (Z *ᵥ v) i * (Z *ᵥ v) i) (fun _ _ => mul_self_nonneg _) (Finset.mem_univ a)
  have h8 : ∑ j, C j b ^ 2 = c ⬝ᵥ c := by rw [hc]; simp only [dotProduct, sq]
  rw [h8]
  generalize (Z *ᵥ v) ⬝ᵥ (Z *ᵥ v) = p at *
  generalize hvv : v ⬝ᵥ v = q at *
  have hq : 0 ≤ q := hvv ▸ dotSelf_nonneg v
  generalize v ⬝ᵥ c = s at *
  generalize hcc : c ⬝ᵥ c = t at *
  have ht : 0 ≤ t := hcc ▸ dotSelf_nonneg c
  generalize (Z *ᵥ v) a = y at *
  have hp : 0 ≤ p := le_trans (sq_nonneg y) h7
  have h9 : (ε * y) ^ 2 ≤ ε ^ 2 * p := by rw [mul_pow]; exact mul_le_mul_of_nonneg_left h7 (sq_nonneg _)
  -- `4 ε p q ≤ (p + ε q)² ≤ q t`
  have h10 : (p + ε * q) ^ 2 ≤ q * t := by rw [h5]; exact h6
  rcases eq_or_lt_of_le hq with h0 | h0
  · rw [← h0] at h10
    have : p = 0 := by nlinarith [sq_nonneg p]
    rw [this, mul_zero] at h9
    have := mul_nonneg hε.le ht
    linarith
  · have h11 : ε * p * q ≤ q * t := by nlinarith [mul_nonneg hε.le (mul_nonneg hp hq), sq_nonneg p, sq_nonneg (ε * q)]
    have h12 : ε * p ≤ t := le_of_mul_le_mul_right (by linarith) h0
    nlinarith

theorem isProjOn_kept {P : Matrix (Fin n) (Fin n) ℝ} {Y : Matrix (Fin n) (Fin m) ℝ} {keep : Fin m → Prop} [DecidablePred keep]
    (h : Spec.IsProjOn P Y keep) : P * keptCols Y keep = keptCols Y keep ∧ ∃ C, P = keptCols Y keep * C := by
  obtain ⟨C, hC, hC0⟩ := h.range
  constructor
  · ext i j
    by_cases hj : keep j
    · have := h.fixes j hj i
      rw [mul_apply] at this ⊢
      simp only [keptCols, of_apply, if_pos hj]
      exact this
    · simp [mul_apply, keptCols, hj]
  · refine ⟨C, ?_⟩
    conv_lhs => rw [hC]
    ext i k
    rw [mul_apply, mul_apply]
    refine Finset.sum_congr rfl fun j _ => ?_
    by_cases hj : keep j
    · simp [keptCols, hj]
    · rw [hC0 j hj, mul_zero, mul_zero]

theorem det_measurable {Ω : Type*} [MeasurableSpace Ω] {k : ℕ} (Z : Ω → Matrix (Fin k) (Fin k) ℝ) (hZ : ∀ i j, Measurable fun ω => Z ω i j) :
    Measurable fun ω => (Z ω).det := by
  simp only [det_apply']
  fun_prop

theorem inv_measurable {Ω : Type*} [MeasurableSpace Ω] {k : ℕ} (Z : Ω → Matrix (Fin k) (Fin k) ℝ) (hZ : ∀ i j, Measurable fun ω => Z ω i j) (a b : Fin k) :
    Measurable fun ω => (Z ω)⁻¹ a b := by
  simp only [inv_def, Ring.inverse_eq_inv', Matrix.smul_apply, smul_eq_mul]
  simp only [adjugate_apply]
  refine (det_measurable Z hZ).inv.mul (det_measurable _ fun i j => ?_)
  by_cases h : i = b
  · subst h; simp only [updateRow_self]; exact measurable_const
  · simp only [updateRow_ne h]; exact hZ i j

theorem mul_entry_measurable {Ω : Type*} [MeasurableSpace Ω] {k l r : ℕ} {Z : Ω → Matrix (Fin k) (Fin l) ℝ} {Z' : Ω → Matrix (Fin l) (Fin r) ℝ}
    (hZ : ∀ i j, Measurable fun ω => Z ω i j) (hZ' : ∀ i j, Measurable fun ω => Z' ω i j) (a : Fin k) (b : Fin r) :
    Measurable fun ω => (Z ω * Z' ω) a b := by
  simp only [mul_apply]
  fun_prop

/-- The entries of the projector are measurable functions of the columns. -/
theorem colProj_measurable {Ω : Type*} [MeasurableSpace Ω] (Y : Ω → Matrix (Fin n) (Fin m) ℝ) (keep : Fin m → Prop)
    (hY : ∀ i j, Measurable fun ω => Y ω i j) (a b : Fin n) : Measurable fun ω => colProj (Y ω) keep a b := by
  classical
  obtain ⟨Z, hZ⟩ : ∃ Z : Ω → Matrix (Fin n) (Fin m) ℝ, Z = fun ω => keptCols (Y ω) keep := ⟨_, rfl⟩
  have hZm : ∀ i j, Measurable fun ω => Z ω i j := by
    intro i j
    rw [hZ]
    simp only [keptCols, of_apply]
    split_ifs
    · exact hY i j
    · exact measurable_const
  have hm : ∀ k : ℕ, Measurable fun ω => (Z ω * ((Z ω)ᵀ * Z ω + (1 / ((k : ℝ) + 1)) • (1 : Matrix (Fin m) (Fin m) ℝ))⁻¹ * (Z ω)ᵀ) a b := by
    intro k
    refine mul_entry_measurable (mul_entry_measurable hZm (inv_measurable _ fun i j => ?_)) (fun i j => hZm j i) a b
    simp only [Matrix.add_apply]
    exact (mul_entry_measurable (fun i j => hZm j i) hZm i j).add measurable_const
  refine measurable_of_tendsto_metrizable hm ?_
  rw [tendsto_pi_nhds]
  intro ω
  have hp := colProj_spec (Y ω) keep
  obtain ⟨h1, C, h2⟩ := isProjOn_kept hp
  have hb : ∀ k : ℕ, |(Z ω * ((Z ω)ᵀ * Z ω + (1 / ((k : ℝ) + 1)) • (1 : Matrix (Fin m) (Fin m) ℝ))⁻¹ * (Z ω)ᵀ) a b - colProj (Y ω) keep a b| ≤
      Real.sqrt (1 / ((k : ℝ) + 1) * ∑ j, C j b ^ 2) := by
    intro k
    rw [abs_sub_comm]
    refine Real.abs_le_sqrt ?_
    rw [hZ]
    exact ridge_close C h1 hp.symm h2 (by positivity) a b
  have hlim : Filter.Tendsto (fun k : ℕ => Real.sqrt (1 / ((k : ℝ) + 1) * ∑ j, C j b ^ 2)) Filter.atTop (nhds 0) := by
    have h3 := (tendsto_one_div_add_atTop_nhds_zero_nat (𝕜 := ℝ)).mul_const (∑ j, C j b ^ 2)
    rw [zero_mul] at h3
    have h4 := (Real.continuous_sqrt.tendsto 0).comp h3
    rwa [Real.sqrt_zero] at h4
  rw [tendsto_iff_dist_tendsto_zero]
  refine squeeze_zero (fun _ => dist_nonneg) (fun k => ?_) hlim
  rw [Real.dist_eq]
  exact hb k

end Primate
