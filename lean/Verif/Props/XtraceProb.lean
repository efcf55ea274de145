import Verif.Lemmas.GaussIndep
import Verif.Lemmas.ColProj
import Verif.Props.Prob
import Verif.Props.XdiagMoments

/-! # Property C117: `xtrace` and `xdiag` with ideal random number generators -/

noncomputable section

namespace Primate

open MeasureTheory ProbabilityTheory Matrix

variable {n : ℕ} {Ω : Type*} [MeasurableSpace Ω] {P : Measure Ω}

/-- What the samplers based on normal numbers make of one raw vector. -/
def gaussVec (d : IsoDist) (x : Vec n) : Vec n :=
  match d with
  | .sphere => sphereCol x
  | _ => x

theorem gaussVec_measurable (d : IsoDist) (t : ℕ) (i : Fin n) : Measurable fun z : ℕ → ℝ => gaussVec d (streamCol n z t) i := by
  cases d
  · exact measurable_pi_apply _
  · exact measurable_pi_apply _
  · exact sphereCol_measurable t i

theorem gaussVec_pair (d : IsoDist) (t : ℕ) (i j : Fin n) :
    Integrable (fun z => gaussVec d (streamCol n z t) i * gaussVec d (streamCol n z t) j) gaussStream ∧
    ∫ z, gaussVec d (streamCol n z t) i * gaussVec d (streamCol n z t) j ∂gaussStream = if i = j then 1 else 0 := by
  have h : Integrable (fun z => streamCol n z t i * streamCol n z t j) gaussStream ∧
      ∫ z, streamCol n z t i * streamCol n z t j ∂gaussStream = if i = j then 1 else 0 := by
    refine ⟨gauss_integrable2 _ _, ?_⟩
    refine (gauss_two (t * n + i) (t * n + j)).trans ?_
    by_cases hij : i = j
    · rw [if_pos hij, if_pos (by rw [hij])]
    · rw [if_neg hij, if_neg fun h => hij (Fin.ext (by omega))]
  cases d
  · exact h
  · exact h
  · exact sphere_pair t i j

/-- The matrix of the first `b` vectors. -/
def gaussMat (d : IsoDist) (n b : ℕ) (z : ℕ → ℝ) : Matrix (Fin n) (Fin b) ℝ := Matrix.of fun i j => gaussVec d (streamCol n z j) i

/-- The images of the vectors are almost surely linearly independent, if there are at most `rank A` of them. -/
theorem gaussMat_indep (d : IsoDist) (A : Matrix (Fin n) (Fin n) ℝ) (b : ℕ) (hb : b ≤ A.rank) :
    ∀ᵐ z ∂gaussStream, (∀ j < b, streamCol n z j ≠ 0) ∧ ∀ c, (A * gaussMat d n b z) *ᵥ c = 0 → c = 0 := by
  filter_upwards [gauss_indep_cols A b hb] with z hz
  have hne : ∀ j < b, streamCol n z j ≠ 0 := by
    intro j hj h0
    have h1 := hz (Pi.single ⟨j, hj⟩ 1) (by
      funext i
      rw [mulVec_single_one]
      show ∑ k, A i k * z (j * n + k) = 0
      refine Finset.sum_eq_zero fun k _ => ?_
      have := congrFun h0 k
      rw [show z (j * n + k) = 0 from this, mul_zero])
    have := congrFun h1 ⟨j, hj⟩
    simp at this
  refine ⟨hne, fun c hc => ?_⟩
  have hplain : (∀ c, (A * Matrix.of fun i (j : Fin b) => streamCol n z j i) *ᵥ c = 0 → c = 0) := hz
  cases d
  · exact hplain c hc
  · exact hplain c hc
  · have hs : ∀ j : Fin b, ∃ s : ℝ, s ≠ 0 ∧ sphereCol (streamCol n z j) = s • streamCol n z j := by
      intro j
      have hx := hne j j.2
      obtain ⟨i, hi⟩ := Function.ne_iff.1 hx
      have hpos : 0 < ∑ i, streamCol n z j i ^ 2 := lt_of_lt_of_le (lt_of_le_of_ne (sq_nonneg _) (Ne.symm (pow_ne_zero 2 hi)))
        (Finset.single_le_sum (f := fun i => streamCol n z j i ^ 2) (fun _ _ => sq_nonneg _) (Finset.mem_univ i))
      have hnpos : (0 : ℝ) < n := by exact_mod_cast i.pos
      refine ⟨(Real.sqrt (∑ i, streamCol n z j i ^ 2))⁻¹ * Real.sqrt n, mul_ne_zero (inv_ne_zero (Real.sqrt_pos.2 hpos).ne') (Real.sqrt_pos.2 hnpos).ne', ?_⟩
      funext k
      simp only [sphereCol, Pi.smul_apply, smul_eq_mul]
      ring
    choose s hs0 hs1 using hs
    have h1 := hplain (fun j => s j * c j) (by
      rw [← hc]
      funext i
      simp only [mulVec, dotProduct, mul_apply, gaussMat, gaussVec, of_apply]
      refine Finset.sum_congr rfl fun j _ => ?_
      rw [hs1 j]
      simp only [Pi.smul_apply, smul_eq_mul]
      rw [← mul_assoc, Finset.sum_mul]
      congr 1
      exact Finset.sum_congr rfl fun k _ => by ring)
    funext j
    exact (mul_eq_zero.1 (congrFun h1 j)).resolve_left (hs0 j)

theorem colProj_congr {m : ℕ} {Y Y' : Matrix (Fin n) (Fin m) ℝ} {keep : Fin m → Prop} (h : ∀ j, keep j → ∀ i, Y i j = Y' i j) :
    colProj Y keep = colProj Y' keep :=
  isProjOn_unique (colProj_spec Y keep) (isProjOn_congr' (colProj_spec Y' keep) fun j hj i => (h j hj i).symm)

/-- A quadratic function of one vector, whose coefficients are functions of the projector on the images of the others, has the
mean that it has for fixed coefficients. -/
theorem loo_quad_mean (d : IsoDist) (A : Matrix (Fin n) (Fin n) ℝ) (b : ℕ) (i : Fin b) (c : Matrix (Fin n) (Fin n) ℝ → ℝ)
    (R : Matrix (Fin n) (Fin n) ℝ → Fin n → Fin n → ℝ) (K T : ℝ)
    (hcm : Measurable fun z => c (colProj (A * gaussMat d n b z) fun j => j ≠ i))
    (hRm : ∀ p q, Measurable fun z => R (colProj (A * gaussMat d n b z) fun j => j ≠ i) p q)
    (hcb : ∀ Q : Matrix (Fin n) (Fin n) ℝ, Qᵀ = Q → Q * Q = Q → |c Q| ≤ K)
    (hRb : ∀ (Q : Matrix (Fin n) (Fin n) ℝ) p q, Qᵀ = Q → Q * Q = Q → |R Q p q| ≤ K)
    (hT : ∀ Q : Matrix (Fin n) (Fin n) ℝ, Qᵀ = Q → Q * Q = Q → c Q + ∑ p, R Q p p = T) :
    Integrable (fun z => c (colProj (A * gaussMat d n b z) fun j => j ≠ i) + ∑ p, ∑ q, R (colProj (A * gaussMat d n b z) fun j => j ≠ i) p q *
      (gaussVec d (streamCol n z i) p * gaussVec d (streamCol n z i) q)) gaussStream ∧
    ∫ z, (c (colProj (A * gaussMat d n b z) fun j => j ≠ i) + ∑ p, ∑ q, R (colProj (A * gaussMat d n b z) fun j => j ≠ i) p q *
      (gaussVec d (streamCol n z i) p * gaussVec d (streamCol n z i) q)) ∂gaussStream = T := by
  obtain ⟨Q, hQ⟩ : ∃ Q : (ℕ → ℝ) → Matrix (Fin n) (Fin n) ℝ, Q = fun z => colProj (A * gaussMat d n b z) fun j => j ≠ i := ⟨_, rfl⟩
  obtain ⟨x, hx⟩ : ∃ x : (ℕ → ℝ) → Vec n, x = fun z => gaussVec d (streamCol n z i) := ⟨_, rfl⟩
  have hQs : ∀ z, (Q z)ᵀ = Q z ∧ Q z * Q z = Q z := fun z => by
    rw [hQ]; exact ⟨(colProj_spec _ _).symm, (colProj_spec _ _).idem⟩
  have hxm : ∀ p, Measurable fun z => x z p := fun p => by rw [hx]; exact gaussVec_measurable d i p
  have hxp : ∀ p q, Integrable (fun z => x z p * x z q) gaussStream ∧ ∫ z, x z p * x z q ∂gaussStream = if p = q then 1 else 0 :=
    fun p q => by rw [hx]; exact gaussVec_pair d i p q
  have hsx : ∀ z w, x (splice (inBlock n i) z w) = x w := fun z w => by
    rw [hx]
    show gaussVec d (streamCol n (splice (inBlock n i) z w) i) = _
    unfold streamCol
    rw [splice_same]
  have hsQ : ∀ z w, Q (splice (inBlock n i) z w) = Q z := fun z w => by
    rw [hQ]
    refine colProj_congr fun j hj k => ?_
    rw [mul_apply, mul_apply]
    refine Finset.sum_congr rfl fun l _ => ?_
    congr 1
    have h1 : streamCol n (splice (inBlock n i) z w) j = streamCol n z j := splice_other i j (fun h => hj (Fin.ext h)) z w
    simp only [gaussMat, of_apply, h1]
  replace hcm : Measurable fun z => c (Q z) := by rw [hQ]; exact hcm
  replace hRm : ∀ p q, Measurable fun z => R (Q z) p q := by rw [hQ]; exact hRm
  have e : ∀ z, c (colProj (A * gaussMat d n b z) fun j => j ≠ i) + ∑ p, ∑ q, R (colProj (A * gaussMat d n b z) fun j => j ≠ i) p q *
      (gaussVec d (streamCol n z i) p * gaussVec d (streamCol n z i) q) = c (Q z) + ∑ p, ∑ q, R (Q z) p q * (x z p * x z q) := by
    intro z; rw [hQ, hx]
  simp only [e]
  obtain ⟨F, hF⟩ : ∃ F : (ℕ → ℝ) → ℝ, F = fun z => c (Q z) + ∑ p, ∑ q, R (Q z) p q * (x z p * x z q) := ⟨_, rfl⟩
  have hFm : Measurable F := by
    rw [hF]
    exact hcm.add (Finset.measurable_sum _ fun p _ => Finset.measurable_sum _ fun q _ => (hRm p q).mul ((hxm p).mul (hxm q)))
  have hint1 : Integrable (fun z => c (Q z)) gaussStream :=
    Integrable.of_bound hcm.aestronglyMeasurable K (Filter.Eventually.of_forall fun z => hcb _ (hQs z).1 (hQs z).2)
  have hint2 : ∀ p q, Integrable (fun z => R (Q z) p q * (x z p * x z q)) gaussStream := fun p q =>
    (hxp p q).1.bdd_mul (c := K) (hRm p q).aestronglyMeasurable (Filter.Eventually.of_forall fun z => hRb _ _ _ (hQs z).1 (hQs z).2)
  have hFi : Integrable F gaussStream := by
    rw [hF]
    exact hint1.add (integrable_finsetSum _ fun p _ => integrable_finsetSum _ fun q _ => hint2 p q)
  rw [← hF]
  refine ⟨hFi, ?_⟩
  have hmp := gauss_splice (inBlock n i)
  have h1 : ∫ z, F z ∂gaussStream = ∫ p : (ℕ → ℝ) × (ℕ → ℝ), F (splice (inBlock n i) p.1 p.2) ∂(gaussStream.prod gaussStream) := by
    conv_lhs => rw [← hmp.map_eq]
    exact integral_map hmp.measurable.aemeasurable hFm.aestronglyMeasurable
  have h2 : Integrable (fun p : (ℕ → ℝ) × (ℕ → ℝ) => F (splice (inBlock n i) p.1 p.2)) (gaussStream.prod gaussStream) :=
    hmp.integrable_comp_of_integrable hFi
  rw [h1, integral_prod _ h2]
  have h3 : ∀ z, ∫ w, F (splice (inBlock n i) z w) ∂gaussStream = T := by
    intro z
    have e2 : ∀ w, F (splice (inBlock n i) z w) = c (Q z) + ∑ p, ∑ q, R (Q z) p q * (x w p * x w q) := by
      intro w; rw [hF]; simp only [hsx, hsQ]
    have i2 : ∀ p q, Integrable (fun w => R (Q z) p q * (x w p * x w q)) gaussStream := fun p q => (hxp p q).1.const_mul _
    simp only [e2]
    rw [integral_add (integrable_const _) (integrable_finsetSum _ fun p _ => integrable_finsetSum _ fun q _ => i2 p q),
      integral_finsetSum _ fun p _ => integrable_finsetSum _ fun q _ => i2 p q]
    simp only [fun p => integral_finsetSum (μ := gaussStream) Finset.univ fun q _ => i2 p q, integral_const_mul, (hxp _ _).2]
    rw [← hT (Q z) (hQs z).1 (hQs z).2]
    simp
  simp only [h3]
  simp

theorem mul_const_measurable {k l r : ℕ} {Z : Ω → Matrix (Fin k) (Fin l) ℝ} (hZ : ∀ i j, Measurable fun ω => Z ω i j) (A : Matrix (Fin l) (Fin r) ℝ)
    (a : Fin k) (b : Fin r) : Measurable fun ω => (Z ω * A) a b :=
  mul_entry_measurable (Z' := fun _ => A) hZ (fun _ _ => measurable_const) a b

theorem const_mul_measurable {k l r : ℕ} {Z : Ω → Matrix (Fin l) (Fin r) ℝ} (hZ : ∀ i j, Measurable fun ω => Z ω i j) (A : Matrix (Fin k) (Fin l) ℝ)
    (a : Fin k) (b : Fin r) : Measurable fun ω => (A * Z ω) a b :=
  mul_entry_measurable (Z := fun _ => A) (fun _ _ => measurable_const) hZ a b

theorem gaussMat_measurable (d : IsoDist) (b : ℕ) (i : Fin n) (j : Fin b) : Measurable fun z => gaussMat d n b z i j :=
  gaussVec_measurable d j i

theorem colProj_gauss_measurable (d : IsoDist) (A : Matrix (Fin n) (Fin n) ℝ) (b : ℕ) (keep : Fin b → Prop) (p q : Fin n) :
    Measurable fun z => colProj (A * gaussMat d n b z) keep p q :=
  colProj_measurable (fun z => A * gaussMat d n b z) keep (const_mul_measurable (gaussMat_measurable d b) A) p q

/-- Sum of the absolute values of the entries. -/
def absSum (A : Matrix (Fin n) (Fin n) ℝ) : ℝ := ∑ p, ∑ q, |A p q|

theorem absSum_nonneg (A : Matrix (Fin n) (Fin n) ℝ) : 0 ≤ absSum A :=
  Finset.sum_nonneg fun _ _ => Finset.sum_nonneg fun _ _ => abs_nonneg _

theorem sandwich_le (A : Matrix (Fin n) (Fin n) ℝ) (S T : Matrix (Fin n) (Fin n) ℝ) (hS : ∀ p q, |S p q| ≤ 1) (hT : ∀ p q, |T p q| ≤ 1) (p q : Fin n) :
    |(S * A * T) p q| ≤ absSum A := by
  rw [Matrix.mul_assoc, mul_apply]
  refine (Finset.abs_sum_le_sum_abs _ _).trans ?_
  unfold absSum
  refine Finset.sum_le_sum fun k _ => ?_
  rw [abs_mul]
  refine (mul_le_of_le_one_left (abs_nonneg _) (hS p k)).trans ?_
  rw [mul_apply]
  refine (Finset.abs_sum_le_sum_abs _ _).trans (Finset.sum_le_sum fun l _ => ?_)
  rw [abs_mul]
  exact mul_le_of_le_one_right (abs_nonneg _) (hT l q)

theorem compl_proj {Q : Matrix (Fin n) (Fin n) ℝ} (hs : Qᵀ = Q) (hi : Q * Q = Q) : (1 - Q)ᵀ = 1 - Q ∧ (1 - Q) * (1 - Q) = 1 - Q := by
  constructor
  · rw [transpose_sub, transpose_one, hs]
  · rw [Matrix.sub_mul, Matrix.mul_sub, Matrix.mul_sub, hi]; simp

theorem looValue_expand (M Q : Matrix (Fin n) (Fin n) ℝ) (hs : Qᵀ = Q) (x : Vec n) :
    Spec.looValue M Q x 1 = (Q * M * Q).trace + ∑ p, ∑ q, ((1 - Q) * M * (1 - Q)) p q * (x p * x q) := by
  unfold Spec.looValue
  rw [one_mul]
  congr 1
  have h : ((1 - Q) *ᵥ x) ⬝ᵥ (M *ᵥ ((1 - Q) *ᵥ x)) = x ⬝ᵥ (((1 - Q) * M * (1 - Q)) *ᵥ x) := by
    rw [← mulVec_mulVec, ← mulVec_mulVec, dotProduct_mulVec x (1 - Q)]
    congr 1
    rw [← mulVec_transpose, transpose_sub, hs, transpose_one]
  rw [h]
  simp only [dotProduct, mulVec, Finset.mul_sum]
  exact Finset.sum_congr rfl fun p _ => Finset.sum_congr rfl fun q _ => by ring

theorem looValue_mean (d : IsoDist) (M : Matrix (Fin n) (Fin n) ℝ) (b : ℕ) (i : Fin b) :
    Integrable (fun z => Spec.looValue M (colProj (M * gaussMat d n b z) fun j => j ≠ i) (gaussVec d (streamCol n z i)) 1) gaussStream ∧
    ∫ z, Spec.looValue M (colProj (M * gaussMat d n b z) fun j => j ≠ i) (gaussVec d (streamCol n z i)) 1 ∂gaussStream = M.trace := by
  have hm := colProj_gauss_measurable d M b fun j => j ≠ i
  have hm1 : ∀ p q, Measurable fun z => (1 - colProj (M * gaussMat d n b z) fun j => j ≠ i) p q := fun p q => by
    simp only [Matrix.sub_apply]; exact measurable_const.sub (hm p q)
  have h := loo_quad_mean d M b i (fun Q => (Q * M * Q).trace) (fun Q p q => ((1 - Q) * M * (1 - Q)) p q) ((n + 1) * absSum M) M.trace
    (by
      simp only [Matrix.trace, Matrix.diag]
      exact Finset.measurable_sum _ fun p _ => mul_entry_measurable (mul_const_measurable hm M) hm p p)
    (fun p q => mul_entry_measurable (mul_const_measurable hm1 M) hm1 p q)
    (fun Q hs hi => by
      simp only [Matrix.trace, Matrix.diag]
      refine (Finset.abs_sum_le_sum_abs _ _).trans ((Finset.sum_le_sum fun p _ => sandwich_le M Q Q (proj_entry_le hs hi) (proj_entry_le hs hi) p p).trans ?_)
      simp only [Finset.sum_const, Finset.card_univ, Fintype.card_fin, nsmul_eq_mul]
      nlinarith [absSum_nonneg M])
    (fun Q p q hs hi => by
      obtain ⟨h1, h2⟩ := compl_proj hs hi
      refine (sandwich_le M _ _ (proj_entry_le h1 h2) (proj_entry_le h1 h2) p q).trans ?_
      nlinarith [absSum_nonneg M, mul_nonneg (Nat.cast_nonneg (α := ℝ) n) (absSum_nonneg M)])
    (fun Q hs hi => by
      have h1 : ∑ p, ((1 - Q) * M * (1 - Q)) p p = ((1 - Q) * M * (1 - Q)).trace := rfl
      rw [h1, trace_mul_comm (Q * M), trace_mul_comm ((1 - Q) * M), ← Matrix.mul_assoc, ← Matrix.mul_assoc, hi, (compl_proj hs hi).2, Matrix.sub_mul,
        Matrix.one_mul, trace_sub]
      ring)
  simp only [looValue_expand M _ (colProj_spec _ _).symm]
  exact h

theorem looDiag_mean (d : IsoDist) (A : Matrix (Fin n) (Fin n) ℝ) (b : ℕ) (i : Fin b) (k : Fin n) :
    Integrable (fun z => ((colProj (A * gaussMat d n b z) fun j => j ≠ i) * A) k k + gaussVec d (streamCol n z i) k *
      ((1 - colProj (A * gaussMat d n b z) fun j => j ≠ i) *ᵥ (A *ᵥ gaussVec d (streamCol n z i))) k) gaussStream ∧
    ∫ z, (((colProj (A * gaussMat d n b z) fun j => j ≠ i) * A) k k + gaussVec d (streamCol n z i) k *
      ((1 - colProj (A * gaussMat d n b z) fun j => j ≠ i) *ᵥ (A *ᵥ gaussVec d (streamCol n z i))) k) ∂gaussStream = A k k := by
  have hm := colProj_gauss_measurable d A b fun j => j ≠ i
  have hm1 : ∀ p q, Measurable fun z => (1 - colProj (A * gaussMat d n b z) fun j => j ≠ i) p q := fun p q => by
    simp only [Matrix.sub_apply]; exact measurable_const.sub (hm p q)
  have hone : ∀ p q : Fin n, |(1 : Matrix (Fin n) (Fin n) ℝ) p q| ≤ 1 := proj_entry_le (by simp) (by simp)
  have h := loo_quad_mean d A b i (fun Q => (Q * A) k k) (fun Q p q => if p = k then ((1 - Q) * A) k q else 0) (absSum A) (A k k)
    (mul_const_measurable hm A k k)
    (fun p q => by
      split_ifs
      · exact mul_const_measurable hm1 A k q
      · exact measurable_const)
    (fun Q hs hi => by
      have := sandwich_le A Q 1 (proj_entry_le hs hi) hone k k
      rwa [Matrix.mul_one] at this)
    (fun Q p q hs hi => by
      obtain ⟨h1, h2⟩ := compl_proj hs hi
      split_ifs
      · have := sandwich_le A (1 - Q) 1 (proj_entry_le h1 h2) hone k q
        rwa [Matrix.mul_one] at this
      · rw [abs_zero]; exact absSum_nonneg A)
    (fun Q hs hi => by
      simp only [Finset.sum_ite_eq', Finset.mem_univ, if_true]
      rw [Matrix.sub_mul, Matrix.one_mul, Matrix.sub_apply]
      ring)
  have e : ∀ (Q : Matrix (Fin n) (Fin n) ℝ) (x : Vec n), x k * ((1 - Q) *ᵥ (A *ᵥ x)) k = ∑ p, ∑ q, (if p = k then ((1 - Q) * A) k q else 0) * (x p * x q) := by
    intro Q x
    rw [mulVec_mulVec, Finset.sum_eq_single k]
    · simp only [if_true, mulVec, dotProduct, Finset.mul_sum]
      exact Finset.sum_congr rfl fun q _ => by ring
    · intro p _ hp
      simp [hp]
    · simp
  simp only [e]
  exact h

/-! ## What `xtrace` and `xdiag` draw -/

/-- The documented names of the samplers based on normal numbers. -/
theorem gauss_pdf (name : String) (d : IsoDist) (hd : ISO_DISTRIBUTIONS.lookup name = some d) (hr : d ≠ .rademacher) (u z : ℕ → ℝ) :
    ∃ pd, isotropicPdf name ⟨u, z⟩ n = .ok pd ∧ ∀ h b (j : Fin b), pd h b j = gaussVec d (streamCol n z (h.sum + j)) := by
  unfold isotropicPdf
  rw [hd]
  refine ⟨_, rfl, fun h b j => ?_⟩
  have e : rawCols n b z (h.sum * n) j = streamCol n z (h.sum + j) := by
    funext i
    unfold rawCols streamCol
    rw [Nat.add_mul]
  cases d
  · exact absurd rfl hr
  · exact e
  · show sphereCol (rawCols n b z (h.sum * n) j) = _
    rw [e]; rfl

theorem xhist_sum (batch t : ℕ) : (Spec.xhist n batch t).sum = min n (t * batch) := by
  induction t with
  | zero => simp [Spec.xhist]
  | succ t ih =>
    rw [xhist_succ, List.sum_append, ih, List.sum_singleton, Spec.xsize, Nat.succ_mul]
    omega

theorem xdrawn_stream (pd : Pdf n) (col : ℕ → Vec n) (hpd : ∀ h b (j : Fin b), pd h b j = col (h.sum + j)) (batch t : ℕ) :
    Spec.xdrawn pd batch t = (List.range (min n (t * batch))).map col := by
  induction t with
  | zero => simp [Spec.xdrawn]
  | succ t ih =>
    rw [xdrawn_succ, ih]
    have h1 : List.ofFn (pd (Spec.xhist n batch t) (Spec.xsize n batch t)) =
        (List.range (Spec.xsize n batch t)).map fun j => col (min n (t * batch) + j) := by
      refine List.ext_getElem (by simp) fun j h2 h3 => ?_
      rw [List.getElem_ofFn, hpd, xhist_sum, List.getElem_map, List.getElem_range]
    rw [h1]
    have h2 : min n ((t + 1) * batch) = min n (t * batch) + Spec.xsize n batch t := by
      rw [Spec.xsize, Nat.succ_mul]; omega
    rw [h2, List.range_add, List.map_append, List.map_map]
    rfl

theorem xdrawn_all (pd : Pdf n) (col : ℕ → Vec n) (hpd : ∀ h b (j : Fin b), pd h b j = col (h.sum + j)) (batch : ℕ) (hb : 1 ≤ batch) :
    Spec.xdrawn pd batch ((n + batch - 1) / batch) = (List.range n).map col := by
  rw [xdrawn_stream pd col hpd, min_eq_left]
  have := Nat.div_add_mod (n + batch - 1) batch
  have h' := Nat.mod_lt (n + batch - 1) (show batch > 0 by omega)
  rw [mul_comm]; omega

theorem rank_of_det_ne_zero {M : Matrix (Fin n) (Fin n) ℝ} (hM : M.det ≠ 0) : n ≤ M.rank := by
  rw [rank_of_isUnit M ((isUnit_iff_isUnit_det M).2 hM.isUnit), Fintype.card_fin]

/-- The samplers based on normal numbers, by name. -/
theorem gauss_name {name : String} (h : name = "normal" ∨ name = "gaussian" ∨ name = "sphere") :
    ∃ d, ISO_DISTRIBUTIONS.lookup name = some d ∧ d ≠ .rademacher := by
  rcases h with rfl | rfl | rfl
  · exact ⟨.normal, rfl, by decide⟩
  · exact ⟨.normal, rfl, by decide⟩
  · exact ⟨.sphere, rfl, by decide⟩

/-- **C117**: for a non-singular matrix and independent standard normal numbers, `xtrace` with normal or sphere vectors almost surely returns
a number, and the expected value of this number is the trace, for every batch size, criterion and mode.  No vector drawn is zero (the sphere
sampler would divide by zero). -/
theorem C117_xtrace [IsProbabilityMeasure P] (tppf : ℝ → ℕ → ℝ) (zscore : ℝ → ℝ) (hn : 0 < n) (batch : ℕ) (hb : 1 ≤ batch) (converge : CritArg)
    (full record : Bool) (kw : Kwargs) (M : Matrix (Fin n) (Fin n) ℝ) (hM : M.det ≠ 0) (qrInsert : QRInsert n) (hq : QRInsertOk qrInsert) (name : String)
    (hname : name = "normal" ∨ name = "gaussian" ∨ name = "sphere") (u X : ℕ → Ω → ℝ) (hX : Spec.IidNormal P X) (fuel : ℕ) (hf : n < fuel) :
    ∃ est : Ω → ℝ,
      (∀ᵐ ω ∂P, (∀ j < n, (fun i : Fin n => X (j * n + i) ω) ≠ 0) ∧
        ∃ res s, xtrace tppf zscore qrInsert ⟨fun q => u q ω, fun q => X q ω⟩ (.ofMatrix M) batch (.name name) converge full record kw fuel =
          some (.ok (.val fun _ => est ω, res, s))) ∧
      Integrable est P ∧ ∫ ω, est ω ∂P = M.trace := by
  obtain ⟨d, hd, hr⟩ := gauss_name hname
  have hn' : (n : ℝ) ≠ 0 := by exact_mod_cast hn.ne'
  obtain ⟨F, hF⟩ : ∃ F : (ℕ → ℝ) → ℝ, F = fun z =>
    (∑ i : Fin n, Spec.looValue M (colProj (M * gaussMat d n n z) fun j => j ≠ i) (gaussVec d (streamCol n z i)) 1) / n := ⟨_, rfl⟩
  have h1 : Integrable F gaussStream := by
    rw [hF]
    exact (integrable_finsetSum _ fun i _ => (looValue_mean d M n i).1).div_const _
  have h2 : ∫ z, F z ∂gaussStream = M.trace := by
    rw [hF, integral_div, integral_finsetSum _ fun i _ => (looValue_mean d M n i).1]
    simp only [(looValue_mean d M n _).2, Finset.sum_const, Finset.card_univ, Fintype.card_fin, nsmul_eq_mul]
    field_simp
  refine ⟨fun ω => F fun q => X q ω, ?_, iidNormal_integrable hX F h1, ?_⟩
  · have h3 := gaussMat_indep d M n (rank_of_det_ne_zero hM)
    rw [← iidNormal_law hX] at h3
    filter_upwards [ae_of_ae_map (iidNormal_aemeasurable hX) h3] with ω hω
    obtain ⟨hne, hind⟩ := hω
    refine ⟨hne, ?_⟩
    obtain ⟨z, hz⟩ : ∃ z : ℕ → ℝ, z = fun q => X q ω := ⟨_, rfl⟩
    rw [← hz] at hind ⊢
    obtain ⟨pd, hpd, hcol⟩ := gauss_pdf (n := n) name d hd hr (fun q => u q ω) z
    have hdraw := xdrawn_all pd (fun t => gaussVec d (streamCol n z t)) hcol batch hb
    have hWl : ∀ i j : Fin n, gaussMat d n n z i j = (Spec.xdrawn pd batch ((n + batch - 1) / batch)).getD j 0 i := by
      intro i j
      rw [hdraw, List.getD_eq_getElem _ _ (by simp)]
      simp [gaussMat]
    have hdet : (M * gaussMat d n n z).det ≠ 0 := by
      intro h0
      obtain ⟨c, hc0, hc⟩ := exists_mulVec_eq_zero_iff.2 h0
      exact hc0 (hind c hc)
    have hxd : XData M (gaussMat d n n z) 1 (M * gaussMat d n n z) (M * gaussMat d n n z)⁻¹ :=
      ⟨by simp, by simp, nonsing_inv_mul _ hdet.isUnit⟩
    have hnd := noDependent_of_xdata hxd _ (by rw [hdraw]; simp) hWl
    obtain ⟨est, res, s, h4, -, -, h5⟩ := (xtrace_estimate tppf zscore ⟨fun q => u q ω, z⟩ batch (.name name) converge full record kw M qrInsert hq hb pd hpd fuel hf
      (gaussMat d n n z) hWl).resolve_right fun h => h.2 hnd
    refine ⟨res, s, ?_⟩
    rw [h4, h5 hn (fun i => colProj (M * gaussMat d n n z) fun j => j ≠ i) fun i => colProj_spec _ _, hF]
    rfl
  · have hae : AEStronglyMeasurable F (P.map fun ω q => X q ω) := by rw [iidNormal_law hX]; exact h1.aestronglyMeasurable
    rw [← integral_map (iidNormal_aemeasurable hX) hae, iidNormal_law hX, h2]

/-- **C117**, the condition on the matrix is necessary: for a singular matrix `xtrace` raises LinAlgError, whatever is drawn. -/
theorem C117_xtrace_singular (tppf : ℝ → ℕ → ℝ) (zscore : ℝ → ℝ) (rng : Rng) (batch : ℕ) (hb : 1 ≤ batch) (pdf : PdfArg n) (pd : Pdf n)
    (hp : pdf.resolve rng = .ok pd) (converge : CritArg) (full record : Bool) (kw : Kwargs) (M : Matrix (Fin n) (Fin n) ℝ) (hM : M.det = 0)
    (qrInsert : QRInsert n) (hq : QRInsertOk qrInsert) (fuel : ℕ) (hf : n < fuel) :
    xtrace tppf zscore qrInsert rng (.ofMatrix M) batch pdf converge full record kw fuel = some (.error .linAlg) := by
  rcases xtrace_estimate tppf zscore rng batch pdf converge full record kw M qrInsert hq hb pd hp fuel hf
    (Matrix.of fun i j => (Spec.xdrawn pd batch ((n + batch - 1) / batch)).getD j 0 i) (fun _ _ => rfl) with ⟨est, res, s, -, -, ⟨Q, R, Rinv, hx⟩, -⟩ | h
  · exfalso
    have h1 := congrArg det hx.fact
    have h2 := congrArg det hx.orth
    have h3 := congrArg det hx.inv
    rw [det_mul, hM, zero_mul, det_mul] at h1
    rw [det_mul, det_transpose, det_one] at h2
    rw [det_mul, det_one] at h3
    rcases mul_eq_zero.1 h1.symm with h | h
    · rw [h, mul_zero] at h2; exact zero_ne_one h2
    · rw [h, mul_zero] at h3; exact zero_ne_one h3
  · exact h.1

/-- **C117**: for independent standard normal numbers and a matrix whose rank is at least the number `b` of vectors, `xdiag` with normal or sphere
vectors almost surely returns a vector, and its expected value is the diagonal. -/
theorem C117_xdiag [IsProbabilityMeasure P] (hn : 1 ≤ n) (A : Matrix (Fin n) (Fin n) ℝ) (qr : QRKernel n) (hq : QRKernelOk qr) (m : Option ℤ)
    (hm : ∀ z, m = some z → 1 ≤ z) (b : ℕ) (hb : xdiagBudget n m = b) (hA : b ≤ A.rank) (name : String)
    (hname : name = "normal" ∨ name = "gaussian" ∨ name = "sphere") (u X : ℕ → Ω → ℝ) (hX : Spec.IidNormal P X) :
    ∃ est : Ω → Vec n,
      (∀ᵐ ω ∂P, (∀ j < b, (fun i : Fin n => X (j * n + i) ω) ≠ 0) ∧
        xdiag qr ⟨fun q => u q ω, fun q => X q ω⟩ A m (.name name) = .ok (.val (est ω))) ∧
      ∀ k, Integrable (fun ω => est ω k) P ∧ ∫ ω, est ω k ∂P = A k k := by
  obtain ⟨d, hd, hr⟩ := gauss_name hname
  have hb1 : 1 ≤ b ∧ b ≤ n := by
    obtain ⟨pd, hpd, -⟩ := gauss_pdf (n := n) name d hd hr (fun _ => 0) (fun _ => 0)
    obtain ⟨b', h1, h2, h3, -⟩ := C37_call ⟨fun _ => 0, fun _ => 0⟩ hn qr A name pd hpd m hm
    obtain rfl : b' = b := by omega
    exact ⟨h1, h2⟩
  have hb' : (b : ℝ) ≠ 0 := by
    have : 0 < b := hb1.1
    exact_mod_cast this.ne'
  obtain ⟨F, hF⟩ : ∃ F : (ℕ → ℝ) → Vec n, F = fun z k =>
    (∑ i : Fin b, (((colProj (A * gaussMat d n b z) fun j => j ≠ i) * A) k k + gaussVec d (streamCol n z i) k *
      ((1 - colProj (A * gaussMat d n b z) fun j => j ≠ i) *ᵥ (A *ᵥ gaussVec d (streamCol n z i))) k)) / b := ⟨_, rfl⟩
  have h1 : ∀ k, Integrable (fun z => F z k) gaussStream := by
    intro k
    rw [hF]
    exact (integrable_finsetSum _ fun i _ => (looDiag_mean d A b i k).1).div_const _
  have h2 : ∀ k, ∫ z, F z k ∂gaussStream = A k k := by
    intro k
    rw [hF]
    simp only
    rw [integral_div, integral_finsetSum _ fun i _ => (looDiag_mean d A b i k).1]
    simp only [(looDiag_mean d A b _ k).2, Finset.sum_const, Finset.card_univ, Fintype.card_fin, nsmul_eq_mul]
    field_simp
  refine ⟨fun ω => F fun q => X q ω, ?_, fun k => ⟨iidNormal_integrable hX (fun z => F z k) (h1 k), ?_⟩⟩
  · have h3 := gaussMat_indep d A b hA
    rw [← iidNormal_law hX] at h3
    filter_upwards [ae_of_ae_map (iidNormal_aemeasurable hX) h3] with ω hω
    obtain ⟨hne, hind⟩ := hω
    refine ⟨hne, ?_⟩
    obtain ⟨z, hz⟩ : ∃ z : ℕ → ℝ, z = fun q => X q ω := ⟨_, rfl⟩
    rw [← hz] at hind ⊢
    obtain ⟨pd, hpd, hcol⟩ := gauss_pdf (n := n) name d hd hr (fun q => u q ω) z
    obtain ⟨b', -, -, h4, h5⟩ := C37_call ⟨fun q => u q ω, z⟩ hn qr A name pd hpd m hm
    obtain rfl : b' = b := by omega
    have hW : (Matrix.of fun i (j : Fin b') => pd [] b' j i) = gaussMat d n b' z := by
      ext i j
      simp only [of_apply, gaussMat, hcol, List.sum_nil, zero_add]
    obtain ⟨⟨est, hest⟩, -⟩ := xdiagCore_ok qr hq hb1.2 A (gaussMat d n b' z) hind
    rw [h5, hW, hest]
    have hv : est = F z := by
      funext k
      rw [hF]
      exact C37_leave_one_out qr hq (by omega) hb1.2 A (gaussMat d n b' z) est hest (fun i => colProj (A * gaussMat d n b' z) fun j => j ≠ i)
        (fun i => colProj_spec _ _) k
    rw [hv]
    rfl
  · have hae : AEStronglyMeasurable (fun z => F z k) (P.map fun ω q => X q ω) := by rw [iidNormal_law hX]; exact (h1 k).aestronglyMeasurable
    rw [← integral_map (iidNormal_aemeasurable hX) hae, iidNormal_law hX, h2]

/-- **C117**, the condition on the rank is necessary: with more vectors than the rank of the matrix `xdiag` raises LinAlgError, whatever is drawn. -/
theorem C117_xdiag_rank (hn : 1 ≤ n) (A : Matrix (Fin n) (Fin n) ℝ) (qr : QRKernel n) (hq : QRKernelOk qr) (m : Option ℤ)
    (hm : ∀ z, m = some z → 1 ≤ z) (b : ℕ) (hb : xdiagBudget n m = b) (hA : A.rank < b) (name : String) (rng : Rng) (pd : Pdf n)
    (hpd : isotropicPdf name rng n = .ok pd) : xdiag qr rng A m (.name name) = .error .linAlg := by
  obtain ⟨c, hc, h0⟩ : ∃ c : Fin b → ℝ, c ≠ 0 ∧ (A * Matrix.of fun i (j : Fin b) => pd [] b j i) *ᵥ c = 0 := by
    by_contra hcon
    push Not at hcon
    have h1 : (A * Matrix.of fun i (j : Fin b) => pd [] b j i).rank = b := by
      have h2 : Function.Injective (A * Matrix.of fun i (j : Fin b) => pd [] b j i).mulVecLin := by
        rw [← LinearMap.ker_eq_bot, LinearMap.ker_eq_bot']
        intro c hc
        by_contra h
        exact hcon c h hc
      unfold Matrix.rank
      rw [LinearMap.finrank_range_of_inj h2]
      simp
    have := rank_mul_le_left A (Matrix.of fun i (j : Fin b) => pd [] b j i)
    omega
  refine C109_dependent_raises hn A qr hq m hm hb name rng pd hpd c hc ?_
  rw [← h0]
  funext i
  simp only [mulVec, dotProduct, mul_apply, Finset.sum_apply, Pi.smul_apply, smul_eq_mul, of_apply]
  exact Finset.sum_congr rfl fun j _ => by ring

/-- **C117**, limits: for `n ≥ 2` and independent uniform numbers, `xtrace` with Rademacher vectors raises LinAlgError with probability at least `2⁻ⁿ`,
whatever the matrix. -/
theorem C117_rademacher [IsProbabilityMeasure P] (tppf : ℝ → ℕ → ℝ) (zscore : ℝ → ℝ) (hn : 2 ≤ n) (batch : ℕ) (hb : 1 ≤ batch) (converge : CritArg)
    (full record : Bool) (kw : Kwargs) (M : Matrix (Fin n) (Fin n) ℝ) (qrInsert : QRInsert n) (hq : QRInsertOk qrInsert)
    (u X : ℕ → Ω → ℝ) (hu : Spec.IidUniform P u) (fuel : ℕ) (hf : n < fuel) :
    1 / 2 ^ n ≤ P.real {ω | xtrace tppf zscore qrInsert ⟨fun q => u q ω, fun q => X q ω⟩ (.ofMatrix M) batch (.name "rademacher") converge full record kw
      fuel = some (.error .linAlg)} := by
  classical
  have hcard : 2 ^ n ≤ (Finset.univ.filter fun b : Fin 2 × Fin n → Bool => ∀ i, b (0, i) = b (1, i)).card := by
    have h1 : Fintype.card (Fin n → Bool) = 2 ^ n := by simp
    rw [← h1, ← Finset.card_univ]
    refine Finset.card_le_card_of_injOn (fun (v : Fin n → Bool) (a : Fin 2 × Fin n) => v a.2) (fun v _ => ?_) fun v _ w _ h => ?_
    · simp
    · funext i
      exact congrFun h (0, i)
  have hshare := bitsOf_share hu 2 n fun b => ∀ i, b (0, i) = b (1, i)
  have hr : ∀ᵐ ω ∂P, ∀ q, u q ω ∈ Set.Ico (0 : ℝ) 1 := by
    rw [ae_all_iff]
    intro q
    have h1 : ∀ᵐ x ∂(P.map (u q)), x ∈ Set.Ico (0 : ℝ) 1 := by
      rw [(hu.law q).map_eq]
      exact ae_restrict_mem measurableSet_Ico
    exact ae_of_ae_map (hu.law q).aemeasurable h1
  have hsub : P.real {ω | ∀ i, bitsOf 2 n u ω (0, i) = bitsOf 2 n u ω (1, i)} ≤
      P.real {ω | xtrace tppf zscore qrInsert ⟨fun q => u q ω, fun q => X q ω⟩ (.ofMatrix M) batch (.name "rademacher") converge full record kw
        fuel = some (.error .linAlg)} := by
    rw [measureReal_def, measureReal_def]
    refine ENNReal.toReal_mono (measure_ne_top _ _) (measure_mono_ae ?_)
    filter_upwards [hr] with ω hω hbits
    have hent : ∀ i : Fin n, rademacherEntry (u i ω) = rademacherEntry (u (n + i) ω) := by
      intro i
      have h1 : decide (1/2 ≤ u i ω) = decide (1/2 ≤ u (n + i) ω) := by
        have := hbits i
        simpa [bitsOf] using this
      have h2 := hω i
      have h3 := hω (n + i)
      by_cases h4 : 1/2 ≤ u i ω
      · have h5 : 1/2 ≤ u (n + i) ω := by rw [decide_eq_true h4] at h1; exact of_decide_eq_true h1.symm
        rw [(rademacherEntry_half _).2 h4 h2.2, (rademacherEntry_half _).2 h5 h3.2]
      · have h5 : ¬ 1/2 ≤ u (n + i) ω := by rw [decide_eq_false h4] at h1; exact of_decide_eq_false h1.symm
        rw [(rademacherEntry_half _).1 h2.1 (not_le.1 h4), (rademacherEntry_half _).1 h3.1 (not_le.1 h5)]
    show xtrace _ _ _ _ _ _ _ _ _ _ _ _ = _
    rw [C31_raises_iff tppf zscore _ batch (.name "rademacher") converge full record kw M qrInsert hq hb _ rfl fuel hf]
    obtain ⟨col, hcol⟩ : ∃ col : ℕ → Vec n, col = fun t (i : Fin n) => rademacherEntry (u (t * n + i) ω) := ⟨_, rfl⟩
    have hdraw := xdrawn_all (n := n) (fun history b => IsoDist.rademacher.fill n b ⟨fun q => u q ω, fun q => X q ω⟩ (history.sum * n)) col (fun h b j => by
      rw [hcol]
      funext i
      simp only [IsoDist.fill, rawCols, Nat.add_mul]) batch hb
    rw [hdraw]
    obtain ⟨k, rfl⟩ : ∃ k, n = k + 2 := ⟨n - 2, by omega⟩
    intro hd
    rw [List.range_succ_eq_map, List.range_succ_eq_map] at hd
    refine hd [M.mulVec (col 0)] (M.mulVec (col 1)) _ (by simp only [List.map_cons]; rfl) ⟨fun _ => 1, ?_⟩
    have h01 : col 1 = col 0 := by
      rw [hcol]
      funext i
      have := hent i
      simp only [one_mul, zero_mul, zero_add]
      exact this.symm
    rw [h01]
    simp
  refine le_trans ?_ hsub
  have hc : (2 : ℝ) ^ n ≤ ((Finset.univ.filter fun b : Fin 2 × Fin n → Bool => ∀ i, b (0, i) = b (1, i)).card : ℝ) := by exact_mod_cast hcard
  refine le_trans ?_ (le_of_eq hshare.symm)
  rw [div_le_div_iff₀ (by positivity) (by positivity), two_mul, pow_add]
  nlinarith [pow_pos (two_pos : (0 : ℝ) < 2) n]

/-- Non-vacuity of C117: for the matrix `[[2, 1], [0, 3]]` and the stream of independent standard normal numbers, with routines that satisfy the contracts. -/
example (tppf : ℝ → ℕ → ℝ) (zscore : ℝ → ℝ) : ∃ (qrInsert : QRInsert 2) (qr : QRKernel 2) (t : (ℕ → ℝ) → ℝ) (v : (ℕ → ℝ) → Vec 2),
    (∀ᵐ z ∂gaussStream, ∃ res s, xtrace tppf zscore qrInsert ⟨fun _ => 0, z⟩ (.ofMatrix !![(2 : ℝ), 1; 0, 3]) 1 (.name "sphere") (.str "count") false false {}
      3 = some (.ok (.val fun _ => t z, res, s))) ∧ ∫ z, t z ∂gaussStream = 5 ∧
    (∀ᵐ z ∂gaussStream, xdiag qr ⟨fun _ => 0, z⟩ !![(2 : ℝ), 1; 0, 3] (some 2) (.name "normal") = .ok (.val (v z))) ∧ ∫ z, v z 0 ∂gaussStream = 2 := by
  obtain ⟨qi, hqi⟩ := exists_qrInsertOk 2
  obtain ⟨qr, hqr⟩ := exists_qrKernelOk 2
  have hdet : (!![(2 : ℝ), 1; 0, 3]).det ≠ 0 := by simp [det_fin_two]
  have htr : Matrix.trace !![(2 : ℝ), 1; 0, 3] = 5 := by simp [Matrix.trace, Fin.sum_univ_two]; norm_num
  obtain ⟨t, h1, -, h2⟩ := C117_xtrace tppf zscore (by norm_num) 1 le_rfl (.str "count") false false {} !![(2 : ℝ), 1; 0, 3] hdet qi hqi "sphere" (by simp)
    (fun _ _ => 0) _ iidNormal_exists 3 (by norm_num)
  have hbud := ((C37_budget 2 (by norm_num)).2 2 (by norm_num)).2
  obtain ⟨b, hb⟩ : ∃ b : ℕ, xdiagBudget 2 (some 2) = b := ⟨(xdiagBudget 2 (some 2)).toNat, by omega⟩
  obtain ⟨v, h3, h4⟩ := C117_xdiag (by norm_num) !![(2 : ℝ), 1; 0, 3] qr hqr (some 2) (by intro z hz; cases hz; norm_num) b hb
    (by have := rank_of_det_ne_zero hdet; omega) "normal" (by simp) (fun _ _ => 0) _ iidNormal_exists
  refine ⟨qi, qr, t, v, h1.mono fun z hz => hz.2, by rw [h2, htr], h3.mono fun z hz => hz.2, by rw [(h4 0).2]; rfl⟩

end Primate
