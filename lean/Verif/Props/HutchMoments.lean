import Verif.Props.Hutch
import Verif.Lemmas.Signs
import Mathlib.MeasureTheory.Integral.Bochner.Basic

/-! # Properties C22-C26: moments, exactness, batches, results of hutch -/

namespace Primate

variable {N : ℕ} (tppf : ℝ → ℕ → ℝ) (zscore : ℝ → ℝ) (rng : Rng)

theorem count_eval_estAt (A : Operand N) (pdf : Pdf N) {b : ℕ} (hb : 0 < b) (record : Bool)
    (c : ℤ) (j : ℕ) : (Crit.count c).eval (estAt A pdf b record j).view =
      .ok (truth (c ≤ ((j * b : ℕ) : ℤ))) := by
  have : (estAt A pdf b record j).view.len = j * b := estAt_n A pdf hb record j
  simp [Crit.eval, this]

/-- `hutch` with a count criterion that is a multiple of the number of columns. -/
theorem hutch_count (a : HutchArgs N) (hN : N ≠ 0) (hb : 0 < a.cols) (pdf : Pdf N)
    (hp : a.pdf.resolve rng = .ok pdf) (k : ℕ) (hk : 0 < k)
    (hc : a.converge = .obj (.count ((k * a.cols : ℕ) : ℤ))) :
    hutch tppf zscore rng a (k + 1) = some (.ok
      (if a.full || a.callback then
        .pair (.val fun _ => Spec.mean ((Spec.drawn pdf a.cols k).map a.A.quadForm))
          (.mk2 (some (estAt a.A pdf a.cols a.record k)) (some (.count ((k * a.cols : ℕ) : ℤ))))
        else .scalar (.val fun _ => Spec.mean ((Spec.drawn pdf a.cols k).map a.A.quadForm)),
       if a.callback then
          (List.range k).map fun t => estAt a.A pdf a.cols a.record (t + 1) else [])) := by
  rw [hutch_ok_iff tppf zscore rng a hN hb]
  have he := estAt_estimate a.A pdf hb a.record k
  rw [if_neg (by omega)] at he
  refine ⟨pdf, _, k, hp, by rw [hc]; rfl, by omega, ?_, ?_, rfl⟩
  · rw [stopsAt_iff a.A pdf hb]
    refine ⟨rfl, ?_, fun j hj => ?_⟩
    · rw [count_eval_estAt a.A pdf hb]; simp
    · rw [count_eval_estAt a.A pdf hb, Except.ok.injEq, truth_eq_false]
      have : j * a.cols < k * a.cols := Nat.mul_lt_mul_of_pos_right hj hb
      omega
  · rw [he]

theorem drawn_one (pdf : Pdf N) (k : ℕ) :
    Spec.drawn pdf 1 k = (List.range k).map fun i => pdf (List.replicate i 1) 1 0 := by
  unfold Spec.drawn
  induction k with
  | zero => rfl
  | succ k ih => rw [List.range_succ, List.flatMap_append, ih, List.map_append]; simp

theorem mean_range (k : ℕ) (f : ℕ → ℝ) :
    Spec.mean ((List.range k).map f) = (∑ i ∈ Finset.range k, f i) / k := by
  unfold Spec.mean
  rw [List.length_map, List.length_range]
  rfl

/-- The scalar call of `hutch` with `CountCriterion(k)`. -/
def scalarArgs (A : Matrix (Fin N) (Fin N) ℝ) (pdf : PdfArg N) (k : ℕ) : HutchArgs N :=
  ⟨.ofMatrix A, 32, pdf, .obj (.count k), false, false, false, []⟩

theorem hutch_scalar (A : Matrix (Fin N) (Fin N) ℝ) (hN : N ≠ 0) (p : PdfArg N) (pdf : Pdf N)
    (hp : p.resolve rng = .ok pdf) (k : ℕ) (hk : 0 < k) :
    hutch tppf zscore rng (scalarArgs A p k) (k + 1) = some (.ok (.scalar (.val fun _ =>
      (∑ t ∈ Finset.range k, Spec.quad A (pdf (List.replicate t 1) 1 0)) / k), [])) := by
  have hcols : (scalarArgs A p k).cols = 1 := rfl
  have h := hutch_count tppf zscore rng (scalarArgs A p k) hN (by rw [hcols]; omega) pdf hp k hk
    (by rw [hcols, mul_one]; rfl)
  rw [h, hcols, drawn_one, List.map_map, mean_range]
  simp only [scalarArgs, Bool.or_false, Bool.false_eq_true, if_false, Function.comp_def,
    (C20_quadForm A (fun _ => 0) id _).1]

/-! ## C22 -/

theorem rademacherEntry_half (u : ℝ) :
    (0 ≤ u → u < 1/2 → rademacherEntry u = -1) ∧ (1/2 ≤ u → u < 1 → rademacherEntry u = 1) := by
  constructor
  · intro h1 h2
    have : ⌊u * 2⌋ = 0 := by rw [Int.floor_eq_iff]; constructor <;> norm_num <;> linarith
    simp [rademacherEntry, this]
  · intro h1 h2
    have : ⌊u * 2⌋ = 1 := by rw [Int.floor_eq_iff]; constructor <;> norm_num <;> linarith
    norm_num [rademacherEntry, this]

theorem sum_quad_signs (k : ℕ) (A : Matrix (Fin N) (Fin N) ℝ) (t : Fin k) :
    ∑ ω : Fin k × Fin N → Bool, Spec.quad A (fun i => sgn (ω (t, i))) = 2 ^ (k * N) * A.trace := by
  unfold Spec.quad
  rw [Finset.sum_comm]
  simp only [Matrix.trace, Matrix.diag, Finset.mul_sum]
  refine Finset.sum_congr rfl fun i _ => ?_
  rw [Finset.sum_comm]
  have : ∀ j : Fin N, ∑ ω : Fin k × Fin N → Bool, A i j * sgn (ω (t, i)) * sgn (ω (t, j)) =
      if i = j then 2 ^ (k * N) * A i i else 0 := by
    intro j
    simp only [mul_assoc, ← Finset.mul_sum, sum_signs, Prod.mk.injEq, true_and,
      Fintype.card_prod, Fintype.card_fin]
    split_ifs with h
    · subst h; ring
    · ring
  simp [this]

/-- With uniforms whose halves follow the bit pattern `ω`, `hutch` returns the mean of the quadratic forms at
the sign vectors of `ω`. -/
theorem hutch_rademacher_signs (A : Matrix (Fin N) (Fin N) ℝ) (hN : N ≠ 0) (k : ℕ) (hk : 0 < k)
    (rngs : (Fin k × Fin N → Bool) → Rng)
    (hu : ∀ ω (t : Fin k) (i : Fin N),
      if ω (t, i) then 1/2 ≤ (rngs ω).unif (t * N + i) ∧ (rngs ω).unif (t * N + i) < 1
      else 0 ≤ (rngs ω).unif (t * N + i) ∧ (rngs ω).unif (t * N + i) < 1/2)
    (ω : Fin k × Fin N → Bool) :
    hutch tppf zscore (rngs ω) (scalarArgs A (.name "rademacher") k) (k + 1) =
      some (.ok (.scalar (.val fun _ => (∑ t : Fin k, Spec.quad A fun i => sgn (ω (t, i))) / k), [])) := by
  rw [hutch_scalar tppf zscore (rngs ω) A hN (.name "rademacher") _ rfl k hk]
  rw [← Fin.sum_univ_eq_sum_range (fun t => Spec.quad A _)]
  congr 6
  funext _
  congr 1
  refine Finset.sum_congr rfl fun t _ => ?_
  congr 1
  funext i
  have h := hu ω t i
  simp only [IsoDist.fill, rawCols, List.sum_replicate, smul_eq_mul, mul_one, Fin.val_zero,
    zero_mul, add_zero]
  cases hω : ω (t, i) with
  | true => rw [hω] at h; exact (rademacherEntry_half _).2 h.1 h.2
  | false => rw [hω] at h; exact (rademacherEntry_half _).1 h.1 h.2

/-- **C22**: let `rng ω` produce uniforms whose halves follow the bit pattern `ω` (all
`2^(kN)` patterns are equally likely).  Averaged over all patterns, `hutch` with
`CountCriterion(k)` returns exactly the trace. -/
theorem C22_unbiased (A : Matrix (Fin N) (Fin N) ℝ) (hN : N ≠ 0) (k : ℕ) (hk : 0 < k)
    (rngs : (Fin k × Fin N → Bool) → Rng)
    (hu : ∀ ω (t : Fin k) (i : Fin N),
      if ω (t, i) then 1/2 ≤ (rngs ω).unif (t * N + i) ∧ (rngs ω).unif (t * N + i) < 1
      else 0 ≤ (rngs ω).unif (t * N + i) ∧ (rngs ω).unif (t * N + i) < 1/2) :
    ∃ est : (Fin k × Fin N → Bool) → ℝ,
      (∀ ω, hutch tppf zscore (rngs ω) (scalarArgs A (.name "rademacher") k) (k + 1) =
        some (.ok (.scalar (.val fun _ => est ω), []))) ∧
      (∑ ω, est ω) / 2 ^ (k * N) = A.trace := by
  refine ⟨fun ω => (∑ t : Fin k, Spec.quad A fun i => sgn (ω (t, i))) / k, fun ω =>
    hutch_rademacher_signs tppf zscore A hN k hk rngs hu ω, ?_⟩
  · have hk' : (k : ℝ) ≠ 0 := by exact_mod_cast hk.ne'
    rw [← Finset.sum_div, Finset.sum_comm]
    simp only [sum_quad_signs, Finset.sum_const, Finset.card_univ, Fintype.card_fin, nsmul_eq_mul]
    field_simp

/-- Non-vacuity of `C22_unbiased`: such generators exist. -/
example (k : ℕ) : ∃ rngs : (Fin k × Fin N → Bool) → Rng, ∀ ω (t : Fin k) (i : Fin N),
      if ω (t, i) then 1/2 ≤ (rngs ω).unif (t * N + i) ∧ (rngs ω).unif (t * N + i) < 1
      else 0 ≤ (rngs ω).unif (t * N + i) ∧ (rngs ω).unif (t * N + i) < 1/2 := by
  classical
  refine ⟨fun ω => ⟨fun p => if ∃ (t : Fin k) (i : Fin N), p = t * N + i ∧ ω (t, i) = true
    then 3/4 else 1/4, fun _ => 0⟩, fun ω t i => ?_⟩
  have huniq : ∀ (t' : Fin k) (i' : Fin N), (t : ℕ) * N + i = t' * N + i' → t = t' ∧ i = i' := by
    intro t' i' h
    have hpos : 0 < N := Fin.pos i
    have h1 : ((t : ℕ) * N + i) / N = t := by
      rw [mul_comm, Nat.mul_add_div hpos, Nat.div_eq_of_lt i.2, add_zero]
    have h2 : ((t' : ℕ) * N + i') / N = t' := by
      rw [mul_comm, Nat.mul_add_div hpos, Nat.div_eq_of_lt i'.2, add_zero]
    have h3 : (t : ℕ) = t' := by rw [← h1, ← h2, h]
    rw [h3] at h
    exact ⟨Fin.ext h3, Fin.ext (by omega)⟩
  cases hω : ω (t, i) with
  | true =>
    rw [if_pos rfl]
    dsimp only
    rw [if_pos ⟨t, i, rfl, hω⟩]; norm_num
  | false =>
    rw [if_neg (by simp)]
    dsimp only
    rw [if_neg]
    · norm_num
    · rintro ⟨t', i', h, h'⟩
      obtain ⟨rfl, rfl⟩ := huniq t' i' h
      rw [hω] at h'; cases h'

open MeasureTheory in
/-- **C22**: the same for any isotropic distribution: if every drawn vector satisfies
`E[w w^T] = I`, the expectation of what `hutch` returns is the trace. -/
theorem C22_isotropic {Ω : Type} [MeasurableSpace Ω] (P : Measure Ω)
    (A : Matrix (Fin N) (Fin N) ℝ) (hN : N ≠ 0) (k : ℕ) (hk : 0 < k)
    (pdf : Ω → Pdf N)
    (hint : ∀ t i j, Integrable (fun ω => pdf ω (List.replicate t 1) 1 0 i *
      pdf ω (List.replicate t 1) 1 0 j) P)
    (hiso : ∀ t i j, ∫ ω, pdf ω (List.replicate t 1) 1 0 i * pdf ω (List.replicate t 1) 1 0 j ∂P =
      if i = j then 1 else 0) :
    ∃ est : Ω → ℝ,
      (∀ ω, hutch tppf zscore rng (scalarArgs A (.callable (pdf ω)) k) (k + 1) =
        some (.ok (.scalar (.val fun _ => est ω), []))) ∧
      ∫ ω, est ω ∂P = A.trace := by
  refine ⟨fun ω => (∑ t ∈ Finset.range k, Spec.quad A (pdf ω (List.replicate t 1) 1 0)) / k,
    fun ω => hutch_scalar tppf zscore rng A hN (.callable (pdf ω)) _ rfl k hk, ?_⟩
  have hk' : (k : ℝ) ≠ 0 := by exact_mod_cast hk.ne'
  rw [integral_div]
  have hq : ∀ t, ∀ i j, Integrable (fun ω => A i j * pdf ω (List.replicate t 1) 1 0 i *
      pdf ω (List.replicate t 1) 1 0 j) P := by
    intro t i j
    simp only [mul_assoc]
    exact (hint t i j).const_mul _
  have key : ∀ t, ∫ ω, Spec.quad A (pdf ω (List.replicate t 1) 1 0) ∂P = A.trace := by
    intro t
    unfold Spec.quad
    rw [integral_finsetSum _ fun i _ => integrable_finsetSum _ fun j _ => hq t i j]
    refine Finset.sum_congr rfl fun i _ => ?_
    rw [integral_finsetSum _ fun j _ => hq t i j]
    simp only [mul_assoc, integral_const_mul, hiso]
    simp [Matrix.diag]
  rw [integral_finsetSum]
  · simp only [key, Finset.sum_const, Finset.card_range, nsmul_eq_mul]
    field_simp
  · intro t _
    exact integrable_finsetSum _ fun i _ => integrable_finsetSum _ fun j _ => hq t i j

/-! ## C23 -/

theorem quad_diagonal (d : Fin N → ℝ) (v : Vec N) (hv : ∀ i, v i = 1 ∨ v i = -1) :
    Spec.quad (Matrix.diagonal d) v = ∑ i, d i := by
  unfold Spec.quad
  refine Finset.sum_congr rfl fun i _ => ?_
  rw [Finset.sum_eq_single i]
  · rcases hv i with h | h <;> simp [h]
  · intro j _ hj; simp [Matrix.diagonal_apply_ne _ (Ne.symm hj)]
  · simp

theorem mean_replicate (n : ℕ) (x : ℝ) (hn : 0 < n) : Spec.mean (List.replicate n x) = x := by
  have : (n : ℝ) ≠ 0 := by exact_mod_cast hn.ne'
  simp only [Spec.mean, List.sum_replicate, List.length_replicate, nsmul_eq_mul]
  field_simp

theorem drawn_quad_const (A : Matrix (Fin N) (Fin N) ℝ) (pdf : Pdf N) (b k : ℕ) (x : ℝ)
    (h : ∀ hist n j, Spec.quad A (pdf hist n j) = x) :
    (Spec.drawn pdf b k).map (Operand.ofMatrix A).quadForm = List.replicate (k * b) x := by
  rw [List.eq_replicate_iff]
  refine ⟨by simp [drawn_length], ?_⟩
  intro y hy
  simp only [Spec.drawn, List.mem_map, List.mem_flatMap, List.mem_range, List.mem_ofFn] at hy
  obtain ⟨v, ⟨i, -, j, rfl⟩, rfl⟩ := hy
  rw [(C20_quadForm A (fun _ => 0) id _).1, h]

/-- **C23**: for a diagonal matrix and sign vectors, whatever the criterion and the mode, `hutch`
never returns anything but the trace (or NaN when it stopped before drawing a vector). -/
theorem C23_exact (d : Fin N → ℝ) (a : HutchArgs N) (hN : N ≠ 0) (hb : 0 < a.cols)
    (hA : a.A = .ofMatrix (Matrix.diagonal d)) (pdf : Pdf N) (hp : a.pdf.resolve rng = .ok pdf)
    (hs : ∀ hist n j i, pdf hist n j i = 1 ∨ pdf hist n j i = -1) (fuel : ℕ) (out : HutchOut)
    (calls : List (MeanEst 1)) (h : hutch tppf zscore rng a fuel = some (.ok (out, calls))) :
    out.estimate = .nan ∨ out.estimate = .val fun _ => ∑ i, d i := by
  obtain ⟨pdf', crit, k, e, h1, -, -, h4, h5⟩ := C20_first_stop tppf zscore rng a hN hb fuel out calls h
  rw [hp, Except.ok.injEq] at h1
  subst h1
  by_cases hk : k = 0
  · exact Or.inl (h4 hk)
  · right
    rw [h5 hk, hA, drawn_quad_const _ pdf _ _ (∑ i, d i) fun hist n j =>
      quad_diagonal d _ (hs hist n j), mean_replicate]
    exact Nat.mul_pos (by omega) hb

theorem sampleMean_replicate (n : ℕ) (x : Fin 1 → ℝ) (hn : 0 < n) :
    Spec.sampleMean (List.replicate n x) = x := by
  have : (n : ℝ) ≠ 0 := by exact_mod_cast hn.ne'
  funext i
  simp only [Spec.sampleMean, List.map_replicate, List.sum_replicate, List.length_replicate,
    nsmul_eq_mul]
  field_simp

/-- **C23**: the sample variance stays zero, and the confidence criterion with `atol >= 0` stops
`hutch` at the first check with at least three samples: after exactly three vectors without
`full`/callback, after `ceil(3 / batch)` batches with. -/
theorem C23_confidence (d : Fin N → ℝ) (a : HutchArgs N) (hN : N ≠ 0) (hb : 0 < a.cols)
    (hA : a.A = .ofMatrix (Matrix.diagonal d)) (pdf : Pdf N) (hp : a.pdf.resolve rng = .ok pdf)
    (hs : ∀ hist n j i, pdf hist n j i = 1 ∨ pdf hist n j i = -1)
    (c : ConfCrit) (hc : hutchCriterion tppf zscore a.converge a.kw = .ok (.conf c))
    (hat : 0 ≤ c.atol) :
    ∃ fuel out calls k e cv, hutch tppf zscore rng a fuel = some (.ok (out, calls)) ∧
      out.estimate = .val (fun _ => ∑ i, d i) ∧
      Spec.StopsAt a.A.quadForm pdf a.cols a.record (.conf c) k e ∧
      3 ≤ k * a.cols ∧ (k - 1) * a.cols < 3 ∧ e.nSamples = k * a.cols ∧
      e.view.cov = some cv ∧ cv.covariance 1 = .ok (.val 0) := by
  set b := a.cols with hbdef
  have hrows : ∀ j, (rowsAt a.A pdf b j).flatten =
      List.replicate (j * b) fun _ => ∑ i, d i := by
    intro j
    rw [rowsAt_flatten, hA, drawn_quad_const _ pdf _ _ (∑ i, d i) fun hist n j =>
      quad_diagonal d _ (hs hist n j), List.map_replicate]
  have hstd : ∀ n, 0 < n → Spec.sampleCov 1 (List.replicate n fun _ : Fin 1 => ∑ i, d i) = 0 := by
    intro n hn
    funext i j
    simp only [Spec.sampleCov, sampleMean_replicate n _ hn, List.map_replicate, sub_self, mul_zero,
      List.sum_replicate, smul_zero, zero_div]
    rfl
  have htrue : ∀ j, 3 ≤ j * b → (Crit.conf c).eval (estAt a.A pdf b a.record j).view = .ok true := by
    intro j hj
    obtain ⟨e, r, h1, h2, h3⟩ := C11_decision c a.record (rowsAt a.A pdf b j)
      (rowsAt_ne a.A pdf hb j) (by rw [hrows]; simpa using hj)
    rw [(estAt_inv a.A pdf hb a.record j).2, Except.ok.injEq] at h1
    rw [h1, h2, h3.mpr]
    left
    rw [hrows]
    simp only [Spec.sampleStd, hstd (j * b) (by omega)]
    simpa using hat
  have hfalse : ∀ j, j * b < 3 → (Crit.conf c).eval (estAt a.A pdf b a.record j).view = .ok false := by
    intro j hj
    obtain ⟨e, h1, h2⟩ := C11_few c true a.record (rowsAt a.A pdf b j)
      (rowsAt_ne a.A pdf hb j) (by rw [hrows]; simpa using hj)
    rw [(estAt_inv a.A pdf hb a.record j).2, Except.ok.injEq] at h1
    rw [h1, h2]
  classical
  have hex : ∃ k, 3 ≤ k * b := ⟨3, by omega⟩
  obtain ⟨k, hk, hmin⟩ : ∃ k, 3 ≤ k * b ∧ ∀ j < k, j * b < 3 :=
    ⟨Nat.find hex, Nat.find_spec hex, fun j hj => by have := Nat.find_min hex hj; omega⟩
  have hk0 : 0 < k := by
    rcases Nat.eq_zero_or_pos k with rfl | h
    · simp at hk
    · exact h
  have hS : Spec.StopsAt a.A.quadForm pdf b a.record (.conf c) k (estAt a.A pdf b a.record k) :=
    (stopsAt_iff a.A pdf hb _ _ _ _).mpr ⟨rfl, htrue k hk, fun j hj => hfalse j (hmin j hj)⟩
  have hinv := (estAt_inv a.A pdf hb a.record k).1
  rw [hrows] at hinv
  obtain ⟨cv, hcv, ic⟩ := hinv.cov_view
  refine ⟨k + 1, _, _, k, _, cv, (hutch_ok_iff tppf zscore rng a hN hb _ _ _).mpr
    ⟨pdf, _, k, hp, hc, by omega, hS, rfl, rfl⟩, ?_, hS, hk, hmin _ (by omega),
    estAt_n a.A pdf hb a.record k, hcv, ?_⟩
  · have : (estAt a.A pdf b a.record k).estimate = .val (fun _ => ∑ i, d i) := by
      rw [hinv.estimate_eq (by simp only [ne_eq, List.replicate_eq_nil_iff]; omega),
        sampleMean_replicate _ _ (by omega)]
    split_ifs <;> exact this
  · rw [ic.cov_eq 1 (by simp; omega), hstd _ (by omega)]

/-- The built-in Rademacher sampler on a stream of numbers in [0,1) has entries 1 and -1. -/
theorem rademacher_pdf_signs (hu : ∀ p, 0 ≤ rng.unif p ∧ rng.unif p < 1) (pdf : Pdf N)
    (hp : isotropicPdf "rademacher" rng N = .ok pdf) :
    ∀ hist n j i, pdf hist n j i = 1 ∨ pdf hist n j i = -1 := by
  have : pdf = fun history b => IsoDist.rademacher.fill N b rng (history.sum * N) :=
    (Except.ok.inj hp).symm
  subst this
  intro hist n j i
  simp only [IsoDist.fill, rawCols]
  obtain ⟨h1, h2⟩ := hu (hist.sum * N + j * N + i)
  by_cases h : rng.unif (hist.sum * N + j * N + i) < 1/2
  · exact Or.inr ((rademacherEntry_half _).1 h1 h)
  · exact Or.inl ((rademacherEntry_half _).2 (not_lt.mp h) h2)

/-- Non-vacuity of `C23_confidence`: diag(1, 2) with the built-in sampler and
`converge="confidence"`. -/
example (hu : ∀ p, 0 ≤ rng.unif p ∧ rng.unif p < 1) : ∃ fuel out calls,
    hutch (N := 2) tppf zscore rng ⟨.ofMatrix (Matrix.diagonal ![1, 2]), 32, .name "rademacher",
      .str "confidence", false, false, false, []⟩ fuel = some (.ok (out, calls)) ∧
    out.estimate = .val fun _ => 3 := by
  obtain ⟨c, hc, hat, -⟩ := (C11_constructor tppf zscore 0.95 (some 0) (some 0.01)).2 (by norm_num)
  obtain ⟨fuel, out, calls, k, e, cv, h1, h2, -⟩ := C23_confidence (N := 2) tppf zscore rng ![1, 2]
    ⟨.ofMatrix (Matrix.diagonal ![1, 2]), 32, .name "rademacher",
      .str "confidence", false, false, false, []⟩ (by simp) (by simp [HutchArgs.cols]) rfl _ rfl
    (rademacher_pdf_signs rng hu _ rfl) c (by
      simp [hutchCriterion, convergenceCriterion, pyLower, CRITERIA, List.lookup,
        CritClass.signature, restrictKwargs, CritClass.construct, bindParam, KwVal.toReal,
        KwVal.toOptReal, Except.map, bind, Except.bind, pure, Except.pure, hc]) (by simp [hat])
  refine ⟨fuel, out, calls, h1, ?_⟩
  rw [h2]; congr 1; funext _; simp; norm_num

end Primate
