import Verif.Lemmas.Perturb
import Verif.Lemmas.Ritz

/-! The iteration stopped at a small residual: the value computed from stale trailing entries, and where the Ritz values
lie after any history of calls. -/

noncomputable section

namespace Primate

open Matrix

variable {n : ℕ}

/-! ## Values -/

theorem nrm_single {m : ℕ} (i : Fin m) (c : ℝ) : nrm (Pi.single i c : Vec m) = |c| := by
  unfold nrm
  rw [single_dotProduct, Pi.single_eq_same, Real.sqrt_mul_self_eq_abs]

/-- Cutting one coupling. -/
theorem triMat_cut {deg J : ℕ} (hJ : J + 1 < deg) (d e : ℕ → ℝ) :
    frobSq (triMat deg d e - triMat deg d (Function.update e (J + 1) 0)) = 2 * e (J + 1) ^ 2 := by
  have h : triMat deg d e - triMat deg d (Function.update e (J + 1) 0) =
      vecMulVec (Pi.single ⟨J + 1, hJ⟩ (e (J + 1)) : Vec deg) (Pi.single ⟨J, by omega⟩ 1) +
        vecMulVec (Pi.single ⟨J, by omega⟩ 1) (Pi.single ⟨J + 1, hJ⟩ (e (J + 1)) : Vec deg) := by
    ext i j
    rw [Matrix.sub_apply, Matrix.add_apply, vecMulVec_apply, vecMulVec_apply, triMat_apply, triMat_apply]
    simp only [Pi.single_apply, Fin.ext_iff, Function.update_apply]
    split_ifs <;> first | omega | simp_all
  rw [h, frobSq_rank2]
  · rw [single_dotProduct, Pi.single_eq_same]
    ring
  · rw [single_dotProduct, Pi.single_eq_of_ne, mul_zero]
    simp [Fin.ext_iff]
  · rw [single_one_dotProduct, Pi.single_eq_same]

/-- Whatever the trailing entries are, the first column of `f(T)` is that of the leading block up to the coupling. -/
theorem early_tri {deg J : ℕ} (hJ : J + 1 < deg) (d e : ℕ → ℝ) (he : 0 ≤ e (J + 1)) {theta : Fin deg → ℝ}
    {Y : Matrix (Fin deg) (Fin deg) ℝ} (hY : IsEigh (triMat deg d e) theta Y) {w : Fin (J + 1) → ℝ}
    {V : Matrix (Fin (J + 1)) (Fin (J + 1)) ℝ} (hV : IsEigh (triMat (J + 1) d e) w V) (f : ℝ → ℝ) (L : ℝ) (hL0 : 0 ≤ L)
    (hL : ∀ s t, |f s - f t| ≤ L * |s - t|) :
    nrm (Spec.matFun theta Y f *ᵥ (Pi.single ⟨0, by omega⟩ 1) -
      incl deg (J + 1) *ᵥ (Spec.matFun w V f *ᵥ (Pi.single ⟨0, by omega⟩ 1))) ≤ L * (Real.sqrt 2 * e (J + 1)) := by
  obtain ⟨w', V', hV'⟩ := exists_isEigh _ (triMat_symm deg d (Function.update e (J + 1) 0))
  have hT : triMat (J + 1) d (Function.update e (J + 1) 0) = triMat (J + 1) d e :=
    triMat_congr (fun _ _ => rfl) fun i _ hi => Function.update_of_ne (by omega) _ _
  have hk := kdata_incl (k := J + 1) (m := deg) (by omega) hJ.le d (Function.update e (J + 1) 0) fun _ => Function.update_self _ _ _
  rw [hT] at hk
  have h1 := hk.matvec_exact hV' hV rfl f
  have h2 : (fun i => ∑ a, V i a * (f (w a) * V ⟨0, by omega⟩ a)) = Spec.matFun w V f *ᵥ (Pi.single ⟨0, by omega⟩ 1) :=
    funext fun i => (IsEigh.matFun_single (w := w) (V := V) (by omega) f i).symm
  rw [h2] at h1
  rw [h1]
  have := matFun_lip hY hV' f L (e (J + 1)) hL0 he hL (triMat_cut hJ d e).le (Pi.single ⟨0, by omega⟩ 1)
  rwa [nrm_single, abs_one, mul_one] at this

/-- The first column of `f` of the leading block against `f(A)`. -/
theorem early_block (B : Matrix (Fin n) (Fin n) ℝ) (hB : B.IsSymm) {lam : Fin n → ℝ} {U : Matrix (Fin n) (Fin n) ℝ}
    (hU : IsEigh B lam U) (x : Vec n) (hx : x ≠ 0) (J : ℕ) (hb : ∀ i < J, lzb B.mulVec x (i + 1) ≠ 0)
    (d e : ℕ → ℝ) (ha : ∀ i ≤ J, d i = lza B.mulVec x i) (hbe : ∀ i ≤ J + 1, e i = lzb B.mulVec x i)
    {w : Fin (J + 1) → ℝ} {V : Matrix (Fin (J + 1)) (Fin (J + 1)) ℝ} (hV : IsEigh (triMat (J + 1) d e) w V)
    (f : ℝ → ℝ) (L : ℝ) (hL0 : 0 ≤ L) (hL : ∀ s t, |f s - f t| ≤ L * |s - t|) :
    nrm (qcols B.mulVec x J (J + 1) *ᵥ (Spec.matFun w V f *ᵥ (Pi.single ⟨0, by omega⟩ 1)) -
        Spec.matFun lam U f *ᵥ normalized x) ≤ L * (Real.sqrt 2 * e (J + 1)) ∧
      (Spec.matFun w V f *ᵥ (Pi.single ⟨0, by omega⟩ 1)) ⟨0, by omega⟩ =
        normalized x ⬝ᵥ (qcols B.mulVec x J (J + 1) *ᵥ (Spec.matFun w V f *ᵥ (Pi.single ⟨0, by omega⟩ 1))) := by
  have hk := kdata_of_final B hB x hx (J + 1) J d e (by omega) hb ha hbe (Or.inl rfl)
  rw [if_pos rfl] at hk
  obtain ⟨A', hA', hk', hf⟩ := hk.deflate hB
  obtain ⟨w', V', hV'⟩ := exists_isEigh A' hA'
  have h1 := hk'.matvec_exact hV' hV rfl f
  have h2 : (fun i => ∑ a, V i a * (f (w a) * V ⟨0, by omega⟩ a)) = Spec.matFun w V f *ᵥ (Pi.single ⟨0, by omega⟩ 1) :=
    funext fun i => (IsEigh.matFun_single (w := w) (V := V) (by omega) f i).symm
  rw [h2] at h1
  have he : 0 ≤ e (J + 1) := by rw [hbe _ le_rfl]; exact lzb_nonneg _ _ _
  have hr : lzb B.mulVec x (J + 1) • lzq B.mulVec x (J + 1) ⬝ᵥ lzb B.mulVec x (J + 1) • lzq B.mulVec x (J + 1) = e (J + 1) ^ 2 := by
    rw [← lzr_eq, ← nrm_sq, ← lzb_succ, hbe _ le_rfl, sq]
  rw [hr] at hf
  refine ⟨?_, (hk'.q0Q _).symm⟩
  rw [h1, ← nrm_neg, neg_sub]
  have := matFun_lip hU hV' f L (e (J + 1)) hL0 he hL hf (normalized x)
  have hn : nrm (normalized x) = 1 := by
    unfold nrm
    rw [normalized_unit hx, Real.sqrt_one]
  rwa [hn, mul_one] at this

theorem qcols_contract (B : Matrix (Fin n) (Fin n) ℝ) (hB : B.IsSymm) (x : Vec n) (hx : x ≠ 0) (J deg : ℕ) (hJ : J < deg)
    (hb : ∀ i < J, lzb B.mulVec x (i + 1) ≠ 0) (y : Vec deg) : nrm (qcols B.mulVec x J deg *ᵥ y) ≤ nrm y := by
  have e1 : qcols B.mulVec x J deg *ᵥ y = ∑ j ∈ Finset.range (J + 1), ofFin y j • lzq B.mulVec x j := by
    have h1 : ∀ j : Fin deg, y j • (qcols B.mulVec x J deg).col j =
        (fun j : ℕ => if j ≤ J then ofFin y j • lzq B.mulVec x j else 0) j := by
      intro j
      rw [qcols_col]
      show _ = if (j : ℕ) ≤ J then _ else _
      split_ifs
      · rw [ofFin, dif_pos j.2]
      · rw [smul_zero]
    rw [mulVec_cols, Finset.sum_congr rfl fun j _ => h1 j,
      Fin.sum_univ_eq_sum_range (fun j : ℕ => if j ≤ J then ofFin y j • lzq B.mulVec x j else 0)]
    symm
    have h2 : ∀ j ∈ Finset.range (J + 1), ofFin y j • lzq B.mulVec x j =
        if j ≤ J then ofFin y j • lzq B.mulVec x j else 0 := fun j hj => by
      rw [if_pos (by have := Finset.mem_range.mp hj; omega)]
    rw [Finset.sum_congr rfl h2]
    refine Finset.sum_subset (fun i hi => ?_) fun i hi hi' => ?_
    · simp only [Finset.mem_range] at hi ⊢
      omega
    · simp only [Finset.mem_range] at hi hi'
      rw [if_neg (by omega)]
  obtain ⟨h1, -⟩ := lz_quad B hB x hx J hb (ofFin y) _ rfl
  unfold nrm
  refine Real.sqrt_le_sqrt ?_
  rw [e1, h1]
  have e2 : y ⬝ᵥ y = ∑ i ∈ Finset.range deg, ofFin y i ^ 2 := by
    rw [← Fin.sum_univ_eq_sum_range fun j => ofFin y j ^ 2]
    refine Finset.sum_congr rfl fun j _ => ?_
    rw [ofFin, dif_pos j.2, sq]
  rw [e2]
  exact Finset.sum_le_sum_of_subset_of_nonneg (fun i hi => by simp only [Finset.mem_range] at hi ⊢; omega) fun _ _ _ => sq_nonneg _

/-- Both values after an early stop, against the leading block. -/
theorem early_block_value (B : Matrix (Fin n) (Fin n) ℝ) (hB : B.IsSymm) (x : Vec n) (hx : x ≠ 0) {deg J : ℕ} (hJ : J + 1 < deg)
    (hb : ∀ i < J, lzb B.mulVec x (i + 1) ≠ 0)
    (d e : ℕ → ℝ) (hbe : ∀ i ≤ J + 1, e i = lzb B.mulVec x i)
    {theta : Fin deg → ℝ} {Y : Matrix (Fin deg) (Fin deg) ℝ} (hY : IsEigh (triMat deg d e) theta Y)
    {w : Fin (J + 1) → ℝ} {V : Matrix (Fin (J + 1)) (Fin (J + 1)) ℝ} (hV : IsEigh (triMat (J + 1) d e) w V)
    (f : ℝ → ℝ) (L : ℝ) (hL0 : 0 ≤ L) (hL : ∀ s t, |f s - f t| ≤ L * |s - t|) :
    |∑ a, f (theta a) * Y ⟨0, by omega⟩ a ^ 2 - (Spec.matFun w V f *ᵥ (Pi.single ⟨0, by omega⟩ 1)) ⟨0, by omega⟩| ≤
        L * (Real.sqrt 2 * e (J + 1)) ∧
      nrm ((qcols B.mulVec x J deg *ᵥ fun i => ∑ a, Y i a * (f (theta a) * Y ⟨0, by omega⟩ a)) -
        qcols B.mulVec x J (J + 1) *ᵥ (Spec.matFun w V f *ᵥ (Pi.single ⟨0, by omega⟩ 1))) ≤ L * (Real.sqrt 2 * e (J + 1)) := by
  have he : 0 ≤ e (J + 1) := by rw [hbe _ le_rfl]; exact lzb_nonneg _ _ _
  have h := early_tri hJ d e he hY hV f L hL0 hL
  constructor
  · rw [← IsEigh.matFun_zero_zero (w := theta) (V := Y) (by omega) f]
    have e1 : (Spec.matFun w V f *ᵥ (Pi.single ⟨0, by omega⟩ 1)) ⟨0, by omega⟩ =
        (incl deg (J + 1) *ᵥ (Spec.matFun w V f *ᵥ (Pi.single ⟨0, by omega⟩ 1))) ⟨0, by omega⟩ := by
      rw [incl_mulVec, dif_pos (by show 0 < J + 1; omega)]
    rw [e1, ← Pi.sub_apply]
    have e2 : ∀ v : Vec deg, |v ⟨0, by omega⟩| ≤ nrm v := by
      intro v
      have := abs_dot_le (Pi.single ⟨0, by omega⟩ 1 : Vec deg) v
      rwa [single_one_dotProduct, nrm_single, abs_one, one_mul] at this
    exact (e2 _).trans h
  · have e1 : (fun i => ∑ a, Y i a * (f (theta a) * Y ⟨0, by omega⟩ a)) = Spec.matFun theta Y f *ᵥ (Pi.single ⟨0, by omega⟩ 1) :=
      funext fun i => (IsEigh.matFun_single (w := theta) (V := Y) (by omega) f i).symm
    have e2 : qcols B.mulVec x J (J + 1) = qcols B.mulVec x J deg * incl deg (J + 1) := by
      ext i j
      rw [mul_incl hJ.le]
      rfl
    rw [e1, e2, ← mulVec_mulVec, ← mulVec_sub]
    exact (qcols_contract B hB x hx J deg (by omega) hb _).trans h

/-- Both values after an early stop, against `f(A)`. -/
theorem early_value (B : Matrix (Fin n) (Fin n) ℝ) (hB : B.IsSymm) {lam : Fin n → ℝ} {U : Matrix (Fin n) (Fin n) ℝ}
    (hU : IsEigh B lam U) (x : Vec n) (hx : x ≠ 0) {deg J : ℕ} (hJ : J + 1 < deg) (hb : ∀ i < J, lzb B.mulVec x (i + 1) ≠ 0)
    (d e : ℕ → ℝ) (ha : ∀ i ≤ J, d i = lza B.mulVec x i) (hbe : ∀ i ≤ J + 1, e i = lzb B.mulVec x i)
    {theta : Fin deg → ℝ} {Y : Matrix (Fin deg) (Fin deg) ℝ} (hY : IsEigh (triMat deg d e) theta Y)
    (f : ℝ → ℝ) (L : ℝ) (hL0 : 0 ≤ L) (hL : ∀ s t, |f s - f t| ≤ L * |s - t|) :
    |∑ a, f (theta a) * Y ⟨0, by omega⟩ a ^ 2 - Spec.quadForm (Spec.matFun lam U f) (normalized x)| ≤
        2 * (L * (Real.sqrt 2 * e (J + 1))) ∧
      nrm ((qcols B.mulVec x J deg *ᵥ fun i => ∑ a, Y i a * (f (theta a) * Y ⟨0, by omega⟩ a)) -
        Spec.matFun lam U f *ᵥ normalized x) ≤ 2 * (L * (Real.sqrt 2 * e (J + 1))) := by
  obtain ⟨w, V, hV⟩ := exists_isEigh _ (triMat_symm (J + 1) d e)
  obtain ⟨h1, h2⟩ := early_block_value B hB x hx hJ hb d e hbe hY hV f L hL0 hL
  obtain ⟨h3, h4⟩ := early_block B hB hU x hx J hb d e ha hbe hV f L hL0 hL
  have hn : nrm (normalized x) = 1 := by
    unfold nrm
    rw [normalized_unit hx, Real.sqrt_one]
  constructor
  · have h5 : |(Spec.matFun w V f *ᵥ (Pi.single ⟨0, by omega⟩ 1)) ⟨0, by omega⟩ - Spec.quadForm (Spec.matFun lam U f) (normalized x)| ≤
        L * (Real.sqrt 2 * e (J + 1)) := by
      rw [h4, Spec.quadForm, ← dotProduct_sub]
      refine (abs_dot_le _ _).trans ?_
      rw [hn, one_mul]
      exact h3
    have := abs_sub_le (∑ a, f (theta a) * Y ⟨0, by omega⟩ a ^ 2)
      ((Spec.matFun w V f *ᵥ (Pi.single ⟨0, by omega⟩ 1)) ⟨0, by omega⟩) (Spec.quadForm (Spec.matFun lam U f) (normalized x))
    linarith
  · have := nrm_add_le ((qcols B.mulVec x J deg *ᵥ fun i => ∑ a, Y i a * (f (theta a) * Y ⟨0, by omega⟩ a)) -
        qcols B.mulVec x J (J + 1) *ᵥ (Spec.matFun w V f *ᵥ (Pi.single ⟨0, by omega⟩ 1)))
      (qcols B.mulVec x J (J + 1) *ᵥ (Spec.matFun w V f *ᵥ (Pi.single ⟨0, by omega⟩ 1)) - Spec.matFun lam U f *ᵥ normalized x)
    rw [sub_add_sub_cancel] at this
    linarith

/-! ## Where the Ritz values lie -/

/-- The quadratic form of a tridiagonal matrix. -/
def triForm (k : ℕ) (d e y : ℕ → ℝ) : ℝ :=
  (∑ i ∈ Finset.range k, d i * y i ^ 2) + 2 * ∑ i ∈ Finset.range (k - 1), e (i + 1) * y i * y (i + 1)

/-- Off-diagonal entries below the tolerance set to zero. -/
def cut (tol : ℝ) (e : ℕ → ℝ) (i : ℕ) : ℝ := if e i < tol then 0 else e i

/-- What every history of calls keeps: without the off-diagonal entries below the tolerance, the stored tridiagonal matrix
has its numerical range in `[lo, hi]`. -/
structure RangeOk (deg : ℕ) (tol lo hi : ℝ) (d e : ℕ → ℝ) : Prop where
  nonneg : ∀ i, 1 ≤ i → i < deg → 0 ≤ e i
  range : ∀ y : ℕ → ℝ, lo * ∑ i ∈ Finset.range deg, y i ^ 2 ≤ triForm deg d (cut tol e) y ∧
    triForm deg d (cut tol e) y ≤ hi * ∑ i ∈ Finset.range deg, y i ^ 2

theorem RangeOk.zero (deg : ℕ) (tol lo hi : ℝ) (hlo : lo ≤ 0) (hhi : 0 ≤ hi) :
    RangeOk deg tol lo hi (fun _ => 0) (fun _ => 0) := by
  refine ⟨fun _ _ _ => le_rfl, fun y => ?_⟩
  have h0 : ∑ i ∈ Finset.range deg, y i ^ 2 ≥ 0 := Finset.sum_nonneg fun _ _ => sq_nonneg _
  have : triForm deg (fun _ => 0) (cut tol fun _ => 0) y = 0 := by
    unfold triForm cut
    simp
  rw [this]
  exact ⟨mul_nonpos_of_nonpos_of_nonneg hlo h0, mul_nonneg hhi h0⟩

theorem sum_split (deg J : ℕ) (hJ : J < deg) (g : ℕ → ℝ) :
    ∑ i ∈ Finset.range deg, g i = ∑ i ∈ Finset.range (J + 1), g i + ∑ i ∈ Finset.range deg, if i ≤ J then 0 else g i := by
  have h1 : ∑ i ∈ Finset.range (J + 1), g i = ∑ i ∈ Finset.range deg, if i ≤ J then g i else 0 := by
    have : ∀ i ∈ Finset.range (J + 1), g i = if i ≤ J then g i else 0 := fun i hi => by
      rw [if_pos (by have := Finset.mem_range.mp hi; omega)]
    rw [Finset.sum_congr rfl this]
    refine Finset.sum_subset (fun i hi => ?_) fun i hi hi' => ?_
    · simp only [Finset.mem_range] at hi ⊢
      omega
    · simp only [Finset.mem_range] at hi hi'
      rw [if_neg (by omega)]
  rw [h1, ← Finset.sum_add_distrib]
  refine Finset.sum_congr rfl fun i _ => ?_
  split_ifs <;> ring

theorem RangeOk.step_aux {deg J : ℕ} {tol lo hi : ℝ} (hJ : J < deg) {d0 e0 d e : ℕ → ℝ} (h0 : RangeOk deg tol lo hi d0 e0)
    (hform : ∀ y : ℕ → ℝ, lo * ∑ i ∈ Finset.range (J + 1), y i ^ 2 ≤ triForm (J + 1) d e y ∧
      triForm (J + 1) d e y ≤ hi * ∑ i ∈ Finset.range (J + 1), y i ^ 2)
    (ha' : ∀ i, J < i → d i = d0 i) (hnn : ∀ i, 1 ≤ i → i ≤ J + 1 → 0 ≤ e i) (hJ1 : ∀ i < J, tol ≤ e (i + 1))
    (hJ2 : e (J + 1) < tol ∨ J + 1 = deg) (hbe' : ∀ i, J + 1 < i → e i = e0 i) : RangeOk deg tol lo hi d e := by
  refine ⟨fun i h1 h2 => ?_, fun y => ?_⟩
  · by_cases hi : i ≤ J + 1
    · exact hnn i h1 hi
    · rw [hbe' i (by omega)]; exact h0.nonneg i h1 h2
  · obtain ⟨h3, h4⟩ := hform y
    obtain ⟨z, hz⟩ : ∃ z : ℕ → ℝ, z = fun i => if i ≤ J then 0 else y i := ⟨_, rfl⟩
    obtain ⟨h5, h6⟩ := h0.range z
    have s0 : ∑ i ∈ Finset.range deg, y i ^ 2 = ∑ i ∈ Finset.range (J + 1), y i ^ 2 + ∑ i ∈ Finset.range deg, z i ^ 2 := by
      rw [sum_split deg J hJ]
      congr 1
      refine Finset.sum_congr rfl fun i _ => ?_
      rw [hz]
      show _ = (if i ≤ J then (0 : ℝ) else y i) ^ 2
      split_ifs
      · ring
      · rfl
    have s1 : triForm deg d (cut tol e) y = triForm (J + 1) d e y + triForm deg d0 (cut tol e0) z := by
      have t1 : ∑ i ∈ Finset.range deg, d i * y i ^ 2 = (∑ i ∈ Finset.range (J + 1), d i * y i ^ 2) +
          ∑ i ∈ Finset.range deg, d0 i * z i ^ 2 := by
        rw [sum_split deg J hJ]
        congr 1
        refine Finset.sum_congr rfl fun i _ => ?_
        rw [hz]
        show _ = _ * (if i ≤ J then (0 : ℝ) else y i) ^ 2
        split_ifs with h
        · ring
        · rw [ha' i (by omega)]
      have t2 : ∑ i ∈ Finset.range (deg - 1), cut tol e (i + 1) * y i * y (i + 1) =
          (∑ i ∈ Finset.range J, e (i + 1) * y i * y (i + 1)) +
            ∑ i ∈ Finset.range (deg - 1), cut tol e0 (i + 1) * z i * z (i + 1) := by
        have t3 : ∑ i ∈ Finset.range J, e (i + 1) * y i * y (i + 1) =
            ∑ i ∈ Finset.range (deg - 1), if i < J then cut tol e (i + 1) * y i * y (i + 1) else 0 := by
          have : ∀ i ∈ Finset.range J, e (i + 1) * y i * y (i + 1) =
              if i < J then cut tol e (i + 1) * y i * y (i + 1) else 0 := fun i hi => by
            have hi' := Finset.mem_range.mp hi
            rw [if_pos hi', cut, if_neg (not_lt.mpr (hJ1 i hi'))]
          rw [Finset.sum_congr rfl this]
          refine Finset.sum_subset (fun i hi => ?_) fun i hi hi' => ?_
          · simp only [Finset.mem_range] at hi ⊢
            omega
          · simp only [Finset.mem_range] at hi hi'
            rw [if_neg (by omega)]
        rw [t3, ← Finset.sum_add_distrib]
        refine Finset.sum_congr rfl fun i hi => ?_
        have hi' := Finset.mem_range.mp hi
        rw [hz]
        show _ = _ + _ * (if i ≤ J then (0 : ℝ) else y i) * (if i + 1 ≤ J then (0 : ℝ) else y (i + 1))
        rcases lt_trichotomy i J with h | h | h
        · rw [if_pos h, if_pos h.le]
          ring
        · subst h
          have hlt : e (i + 1) < tol := by
            rcases hJ2 with h | h
            · exact h
            · omega
          rw [if_neg (lt_irrefl i), if_pos le_rfl, cut, if_pos hlt]
          ring
        · rw [if_neg (by omega), if_neg (by omega), if_neg (by omega), cut, cut, hbe' (i + 1) (by omega)]
          ring
      unfold triForm
      rw [t1, t2, Nat.add_sub_cancel]
      ring
    rw [s0, s1, mul_add, mul_add]
    exact ⟨add_le_add h3 h5, add_le_add h4 h6⟩

/-- One run of the recurrence keeps the range. -/
theorem RangeOk.step (B : Matrix (Fin n) (Fin n) ℝ) (hB : B.IsSymm) {lam : Fin n → ℝ} {U : Matrix (Fin n) (Fin n) ℝ}
    (hU : IsEigh B lam U) (x : Vec n) {deg J : ℕ} {tol lo hi : ℝ} (htol : 0 < tol) (hJ : J < deg)
    (hJ1 : ∀ i < J, tol ≤ lzb B.mulVec x (i + 1)) (hJ2 : lzb B.mulVec x (J + 1) < tol ∨ J + 1 = deg)
    (hlo : ∀ a, lo ≤ lam a) (hhi : ∀ a, lam a ≤ hi) (hlo0 : lo ≤ 0) (hhi0 : 0 ≤ hi) {d0 e0 d e : ℕ → ℝ}
    (h0 : RangeOk deg tol lo hi d0 e0)
    (ha : ∀ i ≤ J, d i = lza B.mulVec x i) (ha' : ∀ i, J < i → d i = d0 i)
    (hbe : ∀ i ≤ J + 1, e i = lzb B.mulVec x i) (hbe' : ∀ i, J + 1 < i → e i = e0 i) : RangeOk deg tol lo hi d e := by
  have hb0 : ∀ i < J, lzb B.mulVec x (i + 1) ≠ 0 := fun i hi => (lt_of_lt_of_le htol (hJ1 i hi)).ne'
  refine RangeOk.step_aux hJ h0 (fun y => ?_) ha' (fun i _ hi => by rw [hbe i hi]; exact lzb_nonneg _ _ _)
    (fun i hi => by rw [hbe (i + 1) (by omega)]; exact hJ1 i hi) (by rw [hbe _ le_rfl]; exact hJ2) hbe'
  by_cases hx : x = 0
  · subst hx
    have hq : lzq B.mulVec 0 0 = 0 := by rw [lzq_zero, normalized_zero]
    have hw : lzw B.mulVec (0 : Vec n) 0 = 0 := by rw [lzw, hq, mulVec_zero, lzb_zero, zero_smul, sub_zero]
    have hb1 : lzb B.mulVec (0 : Vec n) 1 = 0 := by rw [lzb_succ, lzr, hw, hq, smul_zero, sub_zero, nrm_zero]
    obtain rfl : J = 0 := by
      by_contra hne
      have := hJ1 0 (by omega)
      rw [hb1] at this
      linarith
    have hd : d 0 = 0 := by rw [ha 0 le_rfl, lza, hq, zero_dotProduct]
    have hs := sq_nonneg (y 0)
    unfold triForm
    simp only [zero_add, Finset.sum_range_one, hd, Nat.sub_self, Finset.range_zero, Finset.sum_empty, zero_mul, mul_zero, add_zero]
    exact ⟨mul_nonpos_of_nonpos_of_nonneg hlo0 hs, mul_nonneg hhi0 hs⟩
  · obtain ⟨h1, h2⟩ := lz_quad B hB x hx J hb0 y _ rfl
    obtain ⟨h3, h4⟩ := quadForm_bounds hU lo hi hlo hhi (∑ j ∈ Finset.range (J + 1), y j • lzq B.mulVec x j)
    have e1 : triForm (J + 1) d e y = (∑ i ∈ Finset.range (J + 1), lza B.mulVec x i * y i ^ 2) +
        2 * ∑ i ∈ Finset.range J, lzb B.mulVec x (i + 1) * y i * y (i + 1) := by
      unfold triForm
      rw [Nat.add_sub_cancel]
      congr 1
      · exact Finset.sum_congr rfl fun i hi => by rw [ha i (by have := Finset.mem_range.mp hi; omega)]
      · congr 1
        exact Finset.sum_congr rfl fun i hi => by rw [hbe (i + 1) (by have := Finset.mem_range.mp hi; omega)]
    rw [e1, ← h2, ← h1]
    exact ⟨h3, h4⟩

/-- Where the eigenvalues are. -/
theorem RangeOk.eigen {deg : ℕ} {tol lo hi : ℝ} (htol : 0 < tol) {d e : ℕ → ℝ} (h : RangeOk deg tol lo hi d e)
    {theta : Fin deg → ℝ} {Y : Matrix (Fin deg) (Fin deg) ℝ} (hY : IsEigh (triMat deg d e) theta Y) (a : Fin deg) :
    lo - 2 * tol ≤ theta a ∧ theta a ≤ hi + 2 * tol := by
  obtain ⟨y, hy⟩ : ∃ y : ℕ → ℝ, y = ofFin (Y.col a) := ⟨_, rfl⟩
  have hyv : (fun i : Fin deg => y i) = Y.col a := by
    funext i
    rw [hy, ofFin, dif_pos i.2]
  have hunit : ∑ i ∈ Finset.range deg, y i ^ 2 = 1 := by
    rw [← hY.unit_col a, ← hyv, ← Fin.sum_univ_eq_sum_range fun j => y j ^ 2]
    exact Finset.sum_congr rfl fun j _ => by ring
  have hth : theta a = triForm deg d e y := by
    unfold triForm
    rw [← triMat_quad, hyv, hY.col_eq, dotProduct_smul, hY.unit_col, smul_eq_mul, mul_one]
  obtain ⟨h1, h2⟩ := h.range y
  rw [hunit, mul_one] at h1 h2
  have hdiff : |triForm deg d e y - triForm deg d (cut tol e) y| ≤ 2 * tol := by
    have e1 : triForm deg d e y - triForm deg d (cut tol e) y =
        ∑ i ∈ Finset.range (deg - 1), 2 * ((e (i + 1) - cut tol e (i + 1)) * (y i * y (i + 1))) := by
      unfold triForm
      rw [add_sub_add_left_eq_sub, ← mul_sub, ← Finset.sum_sub_distrib, Finset.mul_sum]
      exact Finset.sum_congr rfl fun i _ => by ring
    rw [e1]
    refine (Finset.abs_sum_le_sum_abs _ _).trans ?_
    have e2 : ∀ i ∈ Finset.range (deg - 1), |2 * ((e (i + 1) - cut tol e (i + 1)) * (y i * y (i + 1)))| ≤
        tol * (y i ^ 2 + y (i + 1) ^ 2) := by
      intro i hi
      have hi' := Finset.mem_range.mp hi
      have c0 := h.nonneg (i + 1) (by omega) (by omega)
      have c1 : 0 ≤ e (i + 1) - cut tol e (i + 1) ∧ e (i + 1) - cut tol e (i + 1) ≤ tol := by
        unfold cut
        split_ifs with hlt
        · exact ⟨by linarith, by linarith⟩
        · exact ⟨by linarith, by linarith⟩
      generalize e (i + 1) - cut tol e (i + 1) = c at c1
      have p1 : |2 * (y i * y (i + 1))| ≤ y i ^ 2 + y (i + 1) ^ 2 := by
        rw [abs_le]
        constructor <;> nlinarith [sq_nonneg (y i + y (i + 1)), sq_nonneg (y i - y (i + 1))]
      calc |2 * (c * (y i * y (i + 1)))| = c * |2 * (y i * y (i + 1))| := by
            rw [show 2 * (c * (y i * y (i + 1))) = c * (2 * (y i * y (i + 1))) by ring, abs_mul, abs_of_nonneg c1.1]
        _ ≤ tol * (y i ^ 2 + y (i + 1) ^ 2) := mul_le_mul c1.2 p1 (abs_nonneg _) htol.le
    refine (Finset.sum_le_sum e2).trans ?_
    rw [← Finset.mul_sum, Finset.sum_add_distrib]
    have q1 : ∑ i ∈ Finset.range (deg - 1), y i ^ 2 ≤ 1 := by
      rw [← hunit]
      exact Finset.sum_le_sum_of_subset_of_nonneg (fun i hi => by simp only [Finset.mem_range] at hi ⊢; omega) fun _ _ _ => sq_nonneg _
    have q2 : ∑ i ∈ Finset.range (deg - 1), y (i + 1) ^ 2 ≤ 1 := by
      rw [← hunit]
      have ha := a.2
      obtain ⟨m, rfl⟩ : ∃ m, deg = m + 1 := ⟨deg - 1, by omega⟩
      rw [Nat.add_sub_cancel, Finset.sum_range_succ' (fun i => y i ^ 2)]
      have := sq_nonneg (y 0)
      linarith
    nlinarith
  obtain ⟨d1, d2⟩ := abs_le.mp hdiff
  rw [hth]
  constructor <;> linarith

/-! ## Functions that are Lipschitz on an interval -/

/-- The function outside the interval continued by its values at the end points. -/
def clamp (a c : ℝ) (f : ℝ → ℝ) (t : ℝ) : ℝ := f (max a (min c t))

theorem clamp_eq {a c : ℝ} (f : ℝ → ℝ) {t : ℝ} (h1 : a ≤ t) (h2 : t ≤ c) : clamp a c f t = f t := by
  unfold clamp
  rw [min_eq_right h2, max_eq_right h1]

theorem clamp_lip {a c : ℝ} (hac : a ≤ c) (f : ℝ → ℝ) (L : ℝ) (hL0 : 0 ≤ L)
    (hL : ∀ s ∈ Set.Icc a c, ∀ t ∈ Set.Icc a c, |f s - f t| ≤ L * |s - t|) (s t : ℝ) :
    |clamp a c f s - clamp a c f t| ≤ L * |s - t| := by
  unfold clamp
  refine (hL _ ⟨le_max_left _ _, max_le hac (min_le_left _ _)⟩ _ ⟨le_max_left _ _, max_le hac (min_le_left _ _)⟩).trans ?_
  refine mul_le_mul_of_nonneg_left ?_ hL0
  calc |max a (min c s) - max a (min c t)| ≤ |min c s - min c t| := by
        rw [max_comm a, max_comm a]
        exact abs_max_sub_max_le_abs _ _ _
    _ ≤ |s - t| := by
        have := abs_min_sub_min_le_max c s c t
        rwa [sub_self, abs_zero, max_eq_right (abs_nonneg _)] at this

end Primate
