import Verif.Lemmas.Asymp
import Verif.Props.SphereVar
import Mathlib.MeasureTheory.Function.Floor

/-!
# The samples of `hutch` are independent and identically distributed
-/

noncomputable section

namespace Primate

open MeasureTheory ProbabilityTheory

variable {N : ℕ} {Ω : Type*} [MeasurableSpace Ω] {P : Measure Ω}

/-- The variance of one sample `x ↦ x ⬝ A x` with the three distributions of `pdf`. -/
def Spec.isoVar (A : Matrix (Fin N) (Fin N) ℝ) (s : String) : ℝ :=
  if s = "rademacher" then ∑ i, ∑ j, if i = j then 0 else A i j * (A i j + A j i)
  else if s = "normal" then ∑ i, ∑ j, A i j * (A i j + A j i)
  else Spec.sphereVar A

/-- The vector made from a block of uniform and a block of normal numbers. -/
def isoVec (s : String) (u x : Vec N) : Vec N :=
  if s = "rademacher" then fun i => rademacherEntry (u i) else if s = "normal" then x else sphereCol x

/-- Sample `t`. -/
def isoSample (A : Matrix (Fin N) (Fin N) ℝ) (s : String) (u X : ℕ → Ω → ℝ) (t : ℕ) (ω : Ω) : ℝ :=
  Spec.quad A (isoVec s (fun i => u (t * N + i) ω) fun i => X (t * N + i) ω)

/-- The names of the three distributions. -/
def IsIso (s : String) : Prop := s = "rademacher" ∨ s = "normal" ∨ s = "sphere"

theorem isoPdf {s : String} (hs : IsIso s) (rng : Rng) : ∃ pdf : Pdf N, (PdfArg.name s).resolve rng = .ok pdf ∧
    ∀ t, pdf (List.replicate t 1) 1 0 = isoVec s (fun i => rng.unif (t * N + i)) fun i => rng.norm (t * N + i) := by
  rcases hs with rfl | rfl | rfl
  · refine ⟨_, rfl, fun t => ?_⟩
    funext i
    simp only [IsoDist.fill, rawCols, List.sum_replicate, smul_eq_mul, mul_one, Fin.val_zero, zero_mul, add_zero, isoVec, if_true]
  · refine ⟨_, rfl, fun t => ?_⟩
    funext i
    simp only [IsoDist.fill, rawCols, List.sum_replicate, smul_eq_mul, mul_one, Fin.val_zero, zero_mul, add_zero, isoVec, if_true]
    rfl
  · refine ⟨_, rfl, fun t => ?_⟩
    simp only [IsoDist.fill, List.sum_replicate, smul_eq_mul, mul_one, isoVec]
    show sphereCol _ = sphereCol _
    congr 1
    funext i
    simp only [rawCols, Fin.val_zero, zero_mul, add_zero]

omit [MeasurableSpace Ω] in
theorem hutch_isoSample (tppf : ℝ → ℕ → ℝ) (zscore : ℝ → ℝ) (A : Matrix (Fin N) (Fin N) ℝ) (hN : N ≠ 0) {s : String} (hs : IsIso s) (u X : ℕ → Ω → ℝ)
    (k : ℕ) (hk : 0 < k) (ω : Ω) :
    hutch tppf zscore ⟨fun q => u q ω, fun q => X q ω⟩ (scalarArgs A (.name s) k) (k + 1) =
      some (.ok (.scalar (.val fun _ => smean (isoSample A s u X · ω) k), [])) := by
  obtain ⟨pdf, h1, h2⟩ := isoPdf (N := N) hs ⟨fun q => u q ω, fun q => X q ω⟩
  rw [hutch_scalar tppf zscore _ A hN (.name s) pdf h1 k hk]
  simp only [h2]
  rfl

theorem quad_measurable (A : Matrix (Fin N) (Fin N) ℝ) : Measurable fun x : Vec N => Spec.quad A x := by
  unfold Spec.quad
  fun_prop

theorem rademacherEntry_measurable : Measurable rademacherEntry := by
  have h1 : Measurable fun u : ℝ => ⌊u * 2⌋ := Int.measurable_floor.comp (measurable_id.mul_const 2)
  have h2 : Measurable fun n : ℤ => 2 * (n : ℝ) - 1 := measurable_from_top
  exact h2.comp h1

theorem sphereCol_meas : Measurable fun x : Vec N => sphereCol x := by
  unfold sphereCol
  fun_prop

theorem IidUniform_ident {u : ℕ → Ω → ℝ} (hu : Spec.IidUniform P u) (q : ℕ) : IdentDistrib (u q) (u 0) P P :=
  ⟨(hu.law q).aemeasurable, (hu.law 0).aemeasurable, by rw [(hu.law q).map_eq, (hu.law 0).map_eq]⟩

theorem IidNormal_ident {X : ℕ → Ω → ℝ} (hX : Spec.IidNormal P X) (q : ℕ) : IdentDistrib (X q) (X 0) P P :=
  ⟨(hX.law q).aemeasurable, (hX.law 0).aemeasurable, by rw [(hX.law q).map_eq, (hX.law 0).map_eq]⟩

theorem iid_blocks [IsProbabilityMeasure P] {X : ℕ → Ω → ℝ} (hX : iIndepFun X P) (hid : ∀ q, IdentDistrib (X q) (X 0) P P)
    (F : Vec N → ℝ) (hF : Measurable F) {Y : ℕ → Ω → ℝ} (hY : ∀ t ω, Y t ω = F fun i => X (t * N + i) ω) :
    iIndepFun Y P ∧ ∀ t, IdentDistrib (Y t) (Y 0) P P := by
  have e : Y = fun t ω => F fun i : Fin N => X (t * N + i) ω := funext fun t => funext fun ω => hY t ω
  rw [e]
  exact ⟨(blocks_indep hX fun q => (hid q).aemeasurable_fst).comp (fun _ => F) fun _ => hF,
    fun t => (blocks_ident hX hid t).comp hF⟩

theorem memLp_of_sq [IsProbabilityMeasure P] {Y : Ω → ℝ} {m : ℝ} (hm : AEMeasurable Y P) (h : Integrable (fun ω => (Y ω - m) ^ 2) P) : MemLp Y 2 P := by
  have h1 : MemLp (fun ω => Y ω - m) 2 P := (memLp_two_iff_integrable_sq (hm.sub_const m).aestronglyMeasurable).2 h
  have h2 := h1.add (memLp_const m)
  have e : (fun ω => Y ω - m) + (fun _ => m) = Y := by funext ω; simp
  rwa [e] at h2

/-- The samples of `hutch`. -/
theorem isoSample_iid [IsProbabilityMeasure P] (A : Matrix (Fin N) (Fin N) ℝ) (hN : N ≠ 0) {s : String} (hs : IsIso s) {u X : ℕ → Ω → ℝ}
    (hu : Spec.IidUniform P u) (hX : Spec.IidNormal P X) : IidSamples P (isoSample A s u X) A.trace (Spec.isoVar A s) := by
  have hone : ∀ est : Ω → ℝ, ∀ ω, hutch (fun _ _ => 0) (fun _ => 0) ⟨fun q => u q ω, fun q => X q ω⟩ (scalarArgs A (.name s) 1) (1 + 1) =
      some (.ok (.scalar (.val fun _ => est ω), [])) → est ω = isoSample A s u X 0 ω := by
    intro est ω h
    rw [hutch_isoSample _ _ A hN hs u X 1 one_pos ω] at h
    simp only [Option.some.injEq, Except.ok.injEq, Prod.mk.injEq, HutchOut.scalar.injEq, NumArr.val.injEq, and_true] at h
    have := congrFun h 0
    rw [← this]
    simp [smean]
  have hii : iIndepFun (isoSample A s u X) P ∧ ∀ t, IdentDistrib (isoSample A s u X t) (isoSample A s u X 0) P P := by
    rcases hs with rfl | rfl | rfl
    · exact iid_blocks hu.indep (IidUniform_ident hu) (fun x => Spec.quad A fun i => rademacherEntry (x i))
        ((quad_measurable A).comp (measurable_pi_lambda _ fun i => rademacherEntry_measurable.comp (measurable_pi_apply i))) fun t ω => rfl
    · exact iid_blocks hX.indep (IidNormal_ident hX) (fun x => Spec.quad A x) (quad_measurable A) fun t ω => rfl
    · exact iid_blocks hX.indep (IidNormal_ident hX) (fun x => Spec.quad A (sphereCol x)) ((quad_measurable A).comp sphereCol_meas) fun t ω => rfl
  have hmom : ∫ ω, isoSample A s u X 0 ω ∂P = A.trace ∧ Integrable (fun ω => (isoSample A s u X 0 ω - A.trace) ^ 2) P ∧
      ∫ ω, (isoSample A s u X 0 ω - A.trace) ^ 2 ∂P = Spec.isoVar A s := by
    rcases hs with rfl | rfl | rfl
    · obtain ⟨est, h1, -, h3, h4, h5, -⟩ := C112_rademacher (fun _ _ => 0) (fun _ => 0) A hN 1 one_pos u X hu
      have he : est =ᵐ[P] isoSample A "rademacher" u X 0 := by filter_upwards [h1] with ω hω using hone est ω hω
      refine ⟨by rw [← h3]; exact integral_congr_ae he.symm, h4.congr ?_, ?_⟩
      · filter_upwards [he] with ω hω
        simp only [hω]
      · rw [← integral_congr_ae (f := fun ω => (est ω - A.trace) ^ 2), h5]
        · simp [Spec.isoVar]
        · filter_upwards [he] with ω hω
          simp only [hω]
    · obtain ⟨est, h1, -, h3, h4, h5⟩ := C112_normal (fun _ _ => 0) (fun _ => 0) A hN 1 one_pos u X hX
      have he : est = isoSample A "normal" u X 0 := funext fun ω => hone est ω (h1 ω)
      rw [← he]
      refine ⟨h3, h4, ?_⟩
      rw [h5]
      simp [Spec.isoVar]
    · obtain ⟨⟨est, h1, -, h3⟩, -⟩ := C112_sphere (fun _ _ => 0) (fun _ => 0) A hN 1 one_pos u X hX
      obtain ⟨est', h1', h4, h5, -⟩ := C119_hutch (fun _ _ => 0) (fun _ => 0) A hN 1 one_pos u X hX
      have he : est = isoSample A "sphere" u X 0 := funext fun ω => hone est ω (h1 ω)
      have he' : est' = isoSample A "sphere" u X 0 := funext fun ω => hone est' ω (h1' ω)
      refine ⟨by rw [← he]; exact h3, by rw [← he']; exact h4, ?_⟩
      rw [← he', h5]
      simp [Spec.isoVar, Spec.sphereVar]
  refine ⟨hii.1, hii.2, memLp_of_sq (hii.2 0).aemeasurable_fst hmom.2.1, hmom.1, ?_⟩
  rw [variance_eq_integral (hii.2 0).aemeasurable_fst, hmom.1, hmom.2.2]

end Primate
