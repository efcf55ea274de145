import Verif.Model.RandomFl
import Verif.Props.FunFl
import Verif.Props.Isotropic

/-!
# C148: the samplers in rounded arithmetic, stochastic Lanczos quadrature with any sampler
-/

noncomputable section

namespace Primate

open Matrix Spec Polynomial

/-! ## Rademacher vectors -/

/-- Doubling a number below one is exact. -/
theorem mem_double {φ : Fmt} (he : 0 ≤ φ.emax) (he' : φ.emin ≤ φ.emax) {u : ℝ} (hu : φ.Mem u) (h0 : 0 ≤ u) (h1 : u < 1) : φ.Mem (u * 2) := by
  obtain ⟨m, e, hm, e1, e2, rfl⟩ := hu
  rcases (by omega : e = φ.emax ∨ e + 1 ≤ φ.emax) with h | h
  · have hp : (1 : ℝ) ≤ (2 : ℝ) ^ e := one_le_zpow₀ (by norm_num) (by omega)
    have hm1 : (m : ℝ) < 1 := by
      by_contra hc
      push Not at hc
      have := mul_le_mul hc hp zero_le_one (by linarith)
      linarith
    have hm0 : (0 : ℝ) ≤ m := by
      by_contra hc
      push Not at hc
      have := mul_neg_of_neg_of_pos hc (by linarith : (0 : ℝ) < (2 : ℝ) ^ e)
      linarith
    have : m = 0 := by
      have a1 : m < 1 := by exact_mod_cast hm1
      have a2 : 0 ≤ m := by exact_mod_cast hm0
      omega
    rw [this]
    simpa using Fmt.mem_zero he'
  · exact ⟨m, e + 1, hm, by omega, h, by rw [zpow_add₀ two_ne_zero, zpow_one]; ring⟩

/-- C148: the Rademacher sampler is exact: with the numbers below one of the format that the generator returns, every entry is `1` or `-1`, `1` when the number is at least `1/2`. -/
theorem C148_rademacher_exact {φ : Fmt} {fl : ℝ → ℝ} (hn : φ.Nearest fl) (h1 : φ.emin ≤ 0) (h2 : 0 < φ.emax) (hp : 1 < φ.p) (u : ℝ) (hu : φ.Mem u) (h0 : 0 ≤ u) (hlt : u < 1) :
    rademacherEntryFl fl u = if 1 / 2 ≤ u then 1 else -1 := by
  have hmi : ∀ m : ℤ, |m| ≤ 2 → fl m = m := fun m hm => hn.eq_self (Fmt.mem_int h1 h2 (by omega) m (hm.trans (by
    calc (2 : ℤ) = 2 ^ 1 := rfl
      _ ≤ 2 ^ φ.p := pow_le_pow_right₀ (by norm_num) hp.le)))
  unfold rademacherEntryFl
  rw [hn.eq_self (mem_double h2.le (by omega) hu h0 hlt)]
  split_ifs with h
  · have : ⌊u * 2⌋ = 1 := by rw [Int.floor_eq_iff]; push_cast; constructor <;> linarith
    have a := hmi 2 (by norm_num)
    have b := hmi 1 (by norm_num)
    push_cast at a b
    rw [this, Int.cast_one, one_mul, a, show (2 : ℝ) - 1 = 1 by norm_num, b]
  · have : ⌊u * 2⌋ = 0 := by rw [Int.floor_eq_iff]; push_cast; push Not at h; constructor <;> linarith
    have a := hmi 0 (by norm_num)
    have b := hmi (-1) (by norm_num)
    push_cast at a b
    rw [this, Int.cast_zero, zero_mul, a, zero_sub, b]

/-- C148: the sampler `"rademacher"` returns in floating point arithmetic what it returns in exact arithmetic. -/
theorem C148_rademacher_pdf {φ : Fmt} (K : IsoKernels) (hn : φ.Nearest K.fl) (h1 : φ.emin ≤ 0) (h2 : 0 < φ.emax) (hp : 1 < φ.p) (rng : Rng)
    (hu : ∀ q, φ.Mem (rng.unif q) ∧ 0 ≤ rng.unif q ∧ rng.unif q < 1) (N : ℕ) : isotropicPdfFl K "rademacher" rng N = isotropicPdf "rademacher" rng N := by
  show Except.ok _ = Except.ok _
  congr 1
  funext h b j i
  show rademacherEntryFl K.fl (rng.unif _) = rademacherEntry (rng.unif _)
  obtain ⟨q1, q2, q3⟩ := hu (h.sum * N + (j : ℕ) * N + (i : ℕ))
  rw [C148_rademacher_exact hn h1 h2 hp _ q1 q2 q3]
  unfold rademacherEntry
  split_ifs with hc
  · rw [show ⌊rng.unif (h.sum * N + (j : ℕ) * N + (i : ℕ)) * 2⌋ = 1 by rw [Int.floor_eq_iff]; push_cast; constructor <;> linarith]
    norm_num
  · rw [show ⌊rng.unif (h.sum * N + (j : ℕ) * N + (i : ℕ)) * 2⌋ = 0 by rw [Int.floor_eq_iff]; push_cast; push Not at hc; constructor <;> linarith]
    norm_num

/-- **C148**: which distributions there are.  The synonyms draw the same vectors, the draws of 'normal' are the numbers of the generator (no rounding), and any other name raises AssertionError. -/
theorem C148_names (K : IsoKernels) (rng : Rng) (N : ℕ) :
    isotropicPdfFl K "normal" rng N = isotropicPdf "normal" rng N ∧ isotropicPdfFl K "gaussian" rng N = isotropicPdfFl K "normal" rng N ∧
    isotropicPdfFl K "signs" rng N = isotropicPdfFl K "rademacher" rng N ∧
    ∀ name e, isotropicPdfFl K name rng N = .error e ↔ e = .assertion ∧ name ∉ ["rademacher", "normal", "sphere", "signs", "gaussian"] := by
  refine ⟨rfl, rfl, rfl, fun name e => ?_⟩
  by_cases hn : name ∈ ["rademacher", "normal", "sphere", "signs", "gaussian"]
  · obtain ⟨d, hd⟩ : ∃ d, ISO_DISTRIBUTIONS.lookup name = some d := by
      simp only [List.mem_cons, List.not_mem_nil, or_false] at hn
      rcases hn with rfl | rfl | rfl | rfl | rfl <;> exact ⟨_, rfl⟩
    simp [isotropicPdfFl, hd, hn]
  · have hl : ISO_DISTRIBUTIONS.lookup name = none := by
      simp only [List.mem_cons, List.not_mem_nil, or_false, not_or] at hn
      obtain ⟨h1, h2, h3, h4, h5⟩ := hn
      simp [ISO_DISTRIBUTIONS, List.lookup, beq_eq_false_iff_ne.2 h1, beq_eq_false_iff_ne.2 h2, beq_eq_false_iff_ne.2 h3, beq_eq_false_iff_ne.2 h4, beq_eq_false_iff_ne.2 h5]
    simp [isotropicPdfFl, hl, hn, eq_comm]

/-! ## Vectors on the sphere -/

/-- The scalar operations of one entry: `x / c` for an approximation `c` of the norm `X`, times an approximation of `√n`. -/
theorem sphere_entry {fl : ℝ → ℝ} {u eta r θ s : ℝ} (hu : 0 ≤ u) (heta : 0 ≤ eta) (hfl : ∀ y, |y| ≤ 4 * s → |fl y - y| ≤ u * |y| + eta) (hu1 : u ≤ 1 / 64) (he : eta ≤ u / 2)
    (h0 : 0 ≤ θ) (h1 : θ ≤ 1 / 32) (hs : 1 ≤ s) (hr : |r| ≤ 1) {q : ℝ} (hq : |q - r| ≤ 32 / 31 * θ * |r|) : |fl (fl q * fl s) - r * s| ≤ (11 / 10 * θ + 4 * u) * (|r| * s) + 4 * (eta * s) := by
  have r0 := abs_nonneg r
  have qa : |q| ≤ 32 / 31 * |r| := by
    have a1 : |q| ≤ |r| + |q - r| := by
      have := abs_sub_abs_le_abs_sub q r
      linarith
    have a2 : θ * |r| ≤ 1 / 32 * |r| := mul_le_mul_of_nonneg_right h1 r0
    linarith
  have f1 := hfl q (qa.trans (by linarith))
  have f2 := hfl s (by rw [abs_of_pos (by linarith)]; linarith)
  rw [abs_of_pos (by linarith : 0 < s)] at f2
  have us : eta ≤ u / 2 * s := by
    have := mul_le_mul_of_nonneg_left hs (by positivity : 0 ≤ u / 2)
    linarith
  have f2' : |fl s - s| ≤ 3 / 2 * (u * s) := by linarith
  have uq : u * |q| ≤ u * (32 / 31 * |r|) := mul_le_mul_of_nonneg_left qa hu
  have f3 : |fl q - r| ≤ 32 / 31 * θ * |r| + 32 / 31 * (u * |r|) + eta := by
    have := abs_sub_le (fl q) q r
    linarith
  have ur : u * |r| ≤ 1 / 64 * |r| := mul_le_mul_of_nonneg_right hu1 r0
  have tr : θ * |r| ≤ 1 / 32 * |r| := mul_le_mul_of_nonneg_right h1 r0
  have usm : u * s ≤ 1 / 64 * s := mul_le_mul_of_nonneg_right hu1 (by linarith)
  have hS : |fl s| ≤ 66 / 64 * s := by
    have a1 := abs_sub_abs_le_abs_sub (fl s) s
    rw [abs_of_pos (by linarith : 0 < s)] at a1
    linarith
  have key : |fl q * fl s - r * s| ≤ (32 / 31 * θ * |r| + 32 / 31 * (u * |r|) + eta) * (66 / 64 * s) + |r| * (3 / 2 * (u * s)) := by
    have e : fl q * fl s - r * s = (fl q - r) * fl s + r * (fl s - s) := by ring
    rw [e]
    refine (abs_add_le _ _).trans (add_le_add ?_ ?_)
    · rw [abs_mul]
      exact mul_le_mul f3 hS (abs_nonneg _) (by positivity)
    · rw [abs_mul]
      exact mul_le_mul_of_nonneg_left f2' r0
  have s0 : 0 ≤ s := by linarith
  have P1 : 0 ≤ |r| * s := by positivity
  have P2 : 0 ≤ u * (|r| * s) := by positivity
  have P3 : 0 ≤ θ * (|r| * s) := by positivity
  have P4 : 0 ≤ eta * s := by positivity
  have P5 : u * (|r| * s) ≤ 1 / 64 * (|r| * s) := mul_le_mul_of_nonneg_right hu1 P1
  have P6 : θ * (|r| * s) ≤ 1 / 32 * (|r| * s) := mul_le_mul_of_nonneg_right h1 P1
  have key' : |fl q * fl s - r * s| ≤ 107 / 100 * (θ * (|r| * s)) + 257 / 100 * (u * (|r| * s)) + 66 / 64 * (eta * s) := by
    refine key.trans ?_
    have e : (32 / 31 * θ * |r| + 32 / 31 * (u * |r|) + eta) * (66 / 64 * s) + |r| * (3 / 2 * (u * s)) =
        32 / 31 * (66 / 64) * (θ * (|r| * s)) + (32 / 31 * (66 / 64) + 3 / 2) * (u * (|r| * s)) + 66 / 64 * (eta * s) := by ring
    rw [e]
    linarith
  have hqs : |fl q * fl s| ≤ 108 / 100 * (|r| * s) + 66 / 64 * (eta * s) := by
    have a1 := abs_sub_abs_le_abs_sub (fl q * fl s) (r * s)
    rw [abs_mul r s, abs_of_nonneg s0] at a1
    linarith
  have es : eta * s ≤ 1 / 128 * s := mul_le_mul_of_nonneg_right (by linarith) s0
  have rs : |r| * s ≤ s := by
    have := mul_le_mul_of_nonneg_right hr s0
    linarith
  have f5 := hfl (fl q * fl s) (hqs.trans (by linarith))
  have uqs := mul_le_mul_of_nonneg_left hqs hu
  have ues : u * (eta * s) ≤ 1 / 64 * (eta * s) := mul_le_mul_of_nonneg_right hu1 P4
  have ee : eta ≤ eta * s := by
    have := mul_le_mul_of_nonneg_left hs heta
    linarith
  have := abs_sub_le (fl (fl q * fl s)) (fl q * fl s) (r * s)
  have e2 : u * (108 / 100 * (|r| * s) + 66 / 64 * (eta * s)) = 108 / 100 * (u * (|r| * s)) + 66 / 64 * (u * (eta * s)) := by ring
  have e3 : (11 / 10 * θ + 4 * u) * (|r| * s) + 4 * (eta * s) = 11 / 10 * (θ * (|r| * s)) + 4 * (u * (|r| * s)) + 4 * (eta * s) := by ring
  rw [e3]
  linarith

/-- The sum of squares is evaluated in some order. -/
def Spec.IsoRounded (K : IsoKernels) : Prop := ∀ (N : ℕ) (x : Vec N), N ≠ 0 → DotOrder K.fl (List.ofFn fun i => (x i, x i)) (K.sumsq N x)

/-- C148: a column of the sampler `"sphere"` in floating point arithmetic, for a column `x` of normal numbers whose norm is neither tiny nor huge: it is the exact one up to
`(3 n + 10) u √n` in norm. -/
theorem C148_sphere {φ : Fmt} (K : IsoKernels) (hn : φ.Nearest K.fl) (hK : IsoRounded K) {N : ℕ} (hN : 0 < N) (x : Vec N) (hx : 0 < nrm x) (he : φ.emin ≤ φ.emax)
    (hu : 64 * (N + 2) * φ.u ≤ 1) (h1 : 16 * (N * φ.eta) ≤ φ.u) (h2 : 8 * (N * φ.eta) ≤ φ.u * φ.u * (nrm x * nrm x)) (h3 : 16 * (N * φ.eta) ≤ φ.u * nrm x)
    (t1 : 2 * nrm x ^ 2 + 2 * nrm x + 2 ≤ φ.top) (t2 : 4 * Real.sqrt N ≤ φ.top) :
    nrm (sphereColFl K x - sphereCol x) ≤ (3 * N + 10) * φ.u * Real.sqrt N := by
  have up := φ.u_pos
  have ep := φ.eta_pos
  have hN1 : (1 : ℝ) ≤ N := by exact_mod_cast hN
  have hs1 : 1 ≤ Real.sqrt N := Real.one_le_sqrt.2 hN1
  have hNu : (N : ℝ) * φ.u ≤ 1 / 64 - 2 * φ.u := by linarith
  have hu1 : φ.u ≤ 1 / 192 := by
    have := mul_le_mul_of_nonneg_right hN1 up.le
    linarith
  have heta : φ.eta ≤ N * φ.eta := by
    have := mul_le_mul_of_nonneg_right hN1 ep.le
    linarith
  obtain ⟨d1, d2⟩ := dot_err hn he (by linarith) (by linarith) x x (K.sumsq N x) (nrm x * nrm x) (hK N x hN.ne') (sum_abs_mul_le x x) (by nlinarith)
  have d2 := d2 fun i => mul_self_nonneg _
  have hxx : x ⬝ᵥ x = nrm x * nrm x := (nrm_sq x).symm
  rw [hxx] at d1
  have hsq := sqrt_err d2 hx.le up hx (g := 2 * (N * φ.u)) (e := 2 * (N * φ.eta)) (by positivity) (by linarith) d1 (by linarith)
  have sX : Real.sqrt (K.sumsq N x) ≤ 33 / 32 * nrm x := by
    have a1 := (abs_le.1 hsq).2
    have a2 : (2 * (N * φ.u) + 2 * φ.u) * nrm x ≤ 1 / 32 * nrm x := mul_le_mul_of_nonneg_right (by linarith) hx.le
    linarith
  have cc := hn.err he (x := Real.sqrt (K.sumsq N x)) (by
    rw [abs_of_nonneg (Real.sqrt_nonneg _)]
    nlinarith)
  rw [abs_of_nonneg (Real.sqrt_nonneg _)] at cc
  have uX : 0 < φ.u * nrm x := by positivity
  have hc : |K.fl (Real.sqrt (K.sumsq N x)) - nrm x| ≤ (2 * N + 4) * φ.u * nrm x := by
    have a1 := abs_sub_le (K.fl (Real.sqrt (K.sumsq N x))) (Real.sqrt (K.sumsq N x)) (nrm x)
    have a2 := mul_le_mul_of_nonneg_left sX up.le
    have e : (2 * N + 4) * φ.u * nrm x = 2 * (N * φ.u) * nrm x + 4 * (φ.u * nrm x) := by ring
    rw [e]
    linarith
  have hθ : (2 * N + 4) * φ.u ≤ 1 / 32 := by linarith
  obtain ⟨c, hcd⟩ : ∃ c, c = K.fl (Real.sqrt (K.sumsq N x)) := ⟨_, rfl⟩
  rw [← hcd] at hc
  have hcX : 31 / 32 * nrm x ≤ c := by
    have := (abs_le.1 hc).1
    have := mul_le_mul_of_nonneg_right hθ hx.le
    linarith
  have hc0 : 0 < c := by linarith
  have hent : ∀ i, |(sphereColFl K x - sphereCol x) i| ≤ (11 / 10 * ((2 * N + 4) * φ.u) + 4 * φ.u) * (|x i / nrm x| * Real.sqrt N) + 4 * (φ.eta * Real.sqrt N) := by
    intro i
    have hX : Real.sqrt (∑ i, x i ^ 2) = nrm x := by
      unfold nrm; congr 1; simp [dotProduct, sq]
    show |K.fl (K.fl (x i / K.fl (Real.sqrt (K.sumsq N x))) * K.fl (Real.sqrt N)) - x i / Real.sqrt (∑ i, x i ^ 2) * Real.sqrt N| ≤ _
    rw [← hcd, hX]
    refine sphere_entry up.le ep.le (fun y hy => hn.err he (hy.trans t2)) (by linarith) (by linarith) (by positivity) hθ hs1 ?_ ?_
    · rw [abs_div, abs_of_pos hx, div_le_one hx]
      exact abs_le_nrm x i
    · have e : x i / c - x i / nrm x = (x i / nrm x) * ((nrm x - c) / c) := by field_simp
      rw [e, abs_mul, mul_comm]
      refine mul_le_mul_of_nonneg_right ?_ (abs_nonneg _)
      rw [abs_div, abs_of_pos hc0, div_le_iff₀ hc0, abs_sub_comm]
      refine hc.trans ?_
      have : (2 * N + 4) * φ.u * (31 / 32 * nrm x) ≤ (2 * N + 4) * φ.u * c := mul_le_mul_of_nonneg_left hcX (by positivity)
      linarith
  have s0 := Real.sqrt_nonneg (N : ℝ)
  have h4 : nrm (sphereColFl K x - sphereCol x) ≤ nrm ((fun i => (11 / 10 * ((2 * N + 4) * φ.u) + 4 * φ.u) * (|x i / nrm x| * Real.sqrt N)) + fun _ => 4 * (φ.eta * Real.sqrt N)) :=
    nrm_le_of_abs hent
  have h5 : nrm (fun i => (11 / 10 * ((2 * N + 4) * φ.u) + 4 * φ.u) * (|x i / nrm x| * Real.sqrt N)) = (11 / 10 * ((2 * N + 4) * φ.u) + 4 * φ.u) * Real.sqrt N := by
    have e : (fun i => (11 / 10 * ((2 * N + 4) * φ.u) + 4 * φ.u) * (|x i / nrm x| * Real.sqrt N)) =
        ((11 / 10 * ((2 * N + 4) * φ.u) + 4 * φ.u) * Real.sqrt N / nrm x) • fun i => |x i| := by
      funext i
      rw [Pi.smul_apply, smul_eq_mul, abs_div, abs_of_pos hx]
      ring
    have e2 : nrm (fun i => |x i|) = nrm x := by
      unfold nrm; congr 1; simp [dotProduct]
    rw [e, nrm_smul, e2, abs_of_nonneg (by positivity)]
    field_simp
  have h6 := nrm_const (n := N) (4 * (φ.eta * Real.sqrt N)) (by positivity)
  refine h4.trans ((nrm_add_le _ _).trans ?_)
  rw [h5]
  have h7 : N * (4 * (φ.eta * Real.sqrt N)) ≤ 1 / 4 * (φ.u * Real.sqrt N) := by
    have := mul_le_mul_of_nonneg_right h1 s0
    linarith
  have e : (3 * N + 10) * φ.u * Real.sqrt N = 3 * (N * φ.u * Real.sqrt N) + 10 * (φ.u * Real.sqrt N) := by ring
  have e' : (11 / 10 * ((2 * N + 4) * φ.u) + 4 * φ.u) * Real.sqrt N = 22 / 10 * (N * φ.u * Real.sqrt N) + 84 / 10 * (φ.u * Real.sqrt N) := by ring
  rw [e, e']
  have P : 0 ≤ N * φ.u * Real.sqrt N := by positivity
  have P' : 0 ≤ φ.u * Real.sqrt N := by positivity
  linarith

theorem abs_nrm_sub_nrm_le {N : ℕ} (u v : Vec N) : |nrm u - nrm v| ≤ nrm (u - v) := by
  have h1 := nrm_add_le (u - v) v
  have h2 := nrm_sub_le u (u - v)
  rw [sub_add_cancel] at h1
  rw [sub_sub_cancel] at h2
  rw [abs_le]
  constructor <;> linarith

theorem sphere_norm {N : ℕ} (x : Vec N) (hx : 0 < nrm x) : nrm (sphereCol x) = Real.sqrt N := by
  refine (C57_sphere x ?_).2.1
  rintro rfl
  simp [nrm] at hx

/-- The norm of a column is `√n` up to the same relative error. -/
theorem C148_sphere_norm {φ : Fmt} (K : IsoKernels) (hn : φ.Nearest K.fl) (hK : IsoRounded K) {N : ℕ} (hN : 0 < N) (x : Vec N) (hx : 0 < nrm x) (he : φ.emin ≤ φ.emax)
    (hu : 64 * (N + 2) * φ.u ≤ 1) (h1 : 16 * (N * φ.eta) ≤ φ.u) (h2 : 8 * (N * φ.eta) ≤ φ.u * φ.u * (nrm x * nrm x)) (h3 : 16 * (N * φ.eta) ≤ φ.u * nrm x)
    (t1 : 2 * nrm x ^ 2 + 2 * nrm x + 2 ≤ φ.top) (t2 : 4 * Real.sqrt N ≤ φ.top) :
    |nrm (sphereColFl K x) - Real.sqrt N| ≤ (3 * N + 10) * φ.u * Real.sqrt N := by
  have h := C148_sphere K hn hK hN x hx he hu h1 h2 h3 t1 t2
  rw [← sphere_norm x hx] at h ⊢
  exact (abs_nrm_sub_nrm_le _ _).trans h

theorem binary64_sphere_room {N : ℕ} (hN : 0 < N) (hN2 : N ≤ 2 ^ 40) (x : Vec N) (hx : (2 : ℝ) ^ (-400 : ℤ) ≤ nrm x) (hx2 : nrm x ≤ (2 : ℝ) ^ (400 : ℤ)) :
    (64 * ((N : ℝ) + 2) * binary64.u ≤ 1 ∧ 16 * (N * binary64.eta) ≤ binary64.u ∧ 4 * Real.sqrt N ≤ binary64.top) ∧ 0 < nrm x ∧
      8 * (N * binary64.eta) ≤ binary64.u * binary64.u * (nrm x * nrm x) ∧ 16 * (N * binary64.eta) ≤ binary64.u * nrm x ∧ 2 * nrm x ^ 2 + 2 * nrm x + 2 ≤ binary64.top := by
  have two : (0 : ℝ) < 2 := by norm_num
  have mono : ∀ {a b : ℤ}, a ≤ b → (2 : ℝ) ^ a ≤ (2 : ℝ) ^ b := fun h => zpow_le_zpow_right₀ (by norm_num) h
  have pos : ∀ a : ℤ, (0 : ℝ) < (2 : ℝ) ^ a := fun a => zpow_pos two a
  have add : ∀ a b : ℤ, (2 : ℝ) ^ a * (2 : ℝ) ^ b = (2 : ℝ) ^ (a + b) := fun a b => (zpow_add₀ two.ne' a b).symm
  have hNr : (N : ℝ) ≤ (2 : ℝ) ^ (40 : ℤ) := by
    have : (N : ℝ) ≤ ((2 ^ 40 : ℕ) : ℝ) := by exact_mod_cast hN2
    refine this.trans (le_of_eq ?_)
    norm_num
  have hN1 : (1 : ℝ) ≤ N := by exact_mod_cast hN
  have htop : (2 : ℝ) ^ (1000 : ℤ) ≤ binary64.top := by
    unfold Fmt.top binary64
    have e : (2 : ℝ) ^ (1000 : ℤ) = 2 ^ 29 * (2 : ℝ) ^ (971 : ℤ) := by
      rw [show (1000 : ℤ) = 29 + 971 by norm_num, zpow_add₀ two.ne']
      norm_num
    rw [e]
    exact mul_le_mul_of_nonneg_right (by norm_num) (pos _).le
  have hu : binary64.u = (2 : ℝ) ^ (-53 : ℤ) := rfl
  have heta : binary64.eta = (2 : ℝ) ^ (-1075 : ℤ) := rfl
  have hne : (N : ℝ) * binary64.eta ≤ (2 : ℝ) ^ (-1035 : ℤ) := by
    rw [heta]
    refine (mul_le_mul_of_nonneg_right hNr (pos _).le).trans (le_of_eq ?_)
    rw [add]
    norm_num
  have hx0 : 0 < nrm x := (pos _).trans_le hx
  have sc : ∀ (j : ℤ) (z : ℝ), z ≤ (2 : ℝ) ^ (-1035 : ℤ) → -1031 ≤ j → 16 * z ≤ (2 : ℝ) ^ j := by
    intro j z hz hj
    have e : 16 * (2 : ℝ) ^ (-1035 : ℤ) = (2 : ℝ) ^ (-1031 : ℤ) := by
      rw [show (16 : ℝ) = (2 : ℝ) ^ (4 : ℤ) by norm_num, add]
      norm_num
    have := mono hj
    rw [← e] at this
    linarith
  have k0 : 64 * ((N : ℝ) + 2) * binary64.u ≤ 1 := by
    rw [hu]
    have e : (2 : ℝ) ^ (40 : ℤ) = 1099511627776 := by norm_num
    have e' : (2 : ℝ) ^ (-53 : ℤ) = 1 / 9007199254740992 := by norm_num
    rw [e] at hNr
    rw [e']
    linarith
  have k1 : 16 * (N * binary64.eta) ≤ binary64.u := hu ▸ sc _ _ hne (by norm_num)
  have k2 : 8 * (N * binary64.eta) ≤ binary64.u * binary64.u * (nrm x * nrm x) := by
    have a1 : (2 : ℝ) ^ (-800 : ℤ) ≤ nrm x * nrm x := by
      have := mul_le_mul hx hx (pos _).le hx0.le
      rwa [add] at this
    have a2 : (2 : ℝ) ^ (-906 : ℤ) ≤ binary64.u * binary64.u * (nrm x * nrm x) := by
      rw [hu, add]
      refine le_trans (le_of_eq ?_) (mul_le_mul_of_nonneg_left a1 (pos _).le)
      rw [add]; norm_num
    have a3 := sc (-906) _ hne (by norm_num)
    have a4 : 0 ≤ (N : ℝ) * binary64.eta := mul_nonneg (by linarith) binary64.eta_pos.le
    linarith
  have k3 : 16 * (N * binary64.eta) ≤ binary64.u * nrm x := by
    have a2 : (2 : ℝ) ^ (-453 : ℤ) ≤ binary64.u * nrm x := by
      rw [hu]
      refine le_trans (le_of_eq ?_) (mul_le_mul_of_nonneg_left hx (pos _).le)
      rw [add]; norm_num
    exact (sc (-453) _ hne (by norm_num)).trans a2
  have hbig : (2 : ℝ) ^ (803 : ℤ) ≤ binary64.top := (mono (by norm_num)).trans htop
  have k4 : 2 * nrm x ^ 2 + 2 * nrm x + 2 ≤ binary64.top := by
    have a1 : nrm x ^ 2 ≤ (2 : ℝ) ^ (800 : ℤ) := by
      have := mul_le_mul hx2 hx2 hx0.le (pos _).le
      rw [add] at this
      rw [sq]
      exact this
    have a2 : (2 : ℝ) ^ (400 : ℤ) ≤ (2 : ℝ) ^ (800 : ℤ) := mono (by norm_num)
    have a3 : (1 : ℝ) ≤ (2 : ℝ) ^ (800 : ℤ) := one_le_zpow₀ (by norm_num) (by norm_num)
    have e : (2 : ℝ) ^ (803 : ℤ) = 8 * (2 : ℝ) ^ (800 : ℤ) := by
      rw [show (803 : ℤ) = 3 + 800 by norm_num, ← add]; norm_num
    rw [e] at hbig
    have a4 := hx2.trans a2
    generalize (2 : ℝ) ^ (800 : ℤ) = z at a1 a3 a4 hbig
    linarith only [a1, a3, a4, hbig]
  have k5 : 4 * Real.sqrt N ≤ binary64.top := by
    have a1 : Real.sqrt N ≤ N := by
      rw [Real.sqrt_le_left (by linarith)]
      nlinarith
    have a2 : (2 : ℝ) ^ (803 : ℤ) = 4 * (2 : ℝ) ^ (801 : ℤ) := by
      rw [show (803 : ℤ) = 2 + 801 by norm_num, ← add]; norm_num
    have a3 : (2 : ℝ) ^ (40 : ℤ) ≤ (2 : ℝ) ^ (801 : ℤ) := mono (by norm_num)
    rw [a2] at hbig
    have a4 := (a1.trans hNr).trans a3
    generalize (2 : ℝ) ^ (801 : ℤ) = z at a4 hbig
    linarith only [a4, hbig]
  exact ⟨⟨k0, k1, k5⟩, hx0, k2, k3, k4⟩

/-- C148 in binary64: the hypotheses on the format hold for up to `2 ^ 40` entries and columns of norms between `2 ^ -400` and `2 ^ 400`. -/
theorem C148_sphere_binary64 (K : IsoKernels) (hn : binary64.Nearest K.fl) (hK : IsoRounded K) {N : ℕ} (hN : 0 < N) (hN2 : N ≤ 2 ^ 40) (x : Vec N)
    (hx : (2 : ℝ) ^ (-400 : ℤ) ≤ nrm x) (hx2 : nrm x ≤ (2 : ℝ) ^ (400 : ℤ)) :
    nrm (sphereColFl K x - sphereCol x) ≤ (3 * N + 10) / 2 ^ 53 * Real.sqrt N ∧ |nrm (sphereColFl K x) - Real.sqrt N| ≤ (3 * N + 10) / 2 ^ 53 * Real.sqrt N := by
  obtain ⟨⟨k0, k1, k5⟩, hx0, k2, k3, k4⟩ := binary64_sphere_room hN hN2 x hx hx2
  have he : binary64.emin ≤ binary64.emax := by norm_num [binary64]
  have e : (3 * (N : ℝ) + 10) / 2 ^ 53 = (3 * N + 10) * binary64.u := by
    rw [show binary64.u = (2 : ℝ) ^ (-53 : ℤ) from rfl, div_eq_mul_inv]
    norm_num
  rw [e]
  exact ⟨C148_sphere K hn hK hN x hx0 he k0 k1 k2 k3 k4 k5, C148_sphere_norm K hn hK hN x hx0 he k0 k1 k2 k3 k4 k5⟩

theorem isoRounded_exists (fl : ℝ → ℝ) : ∃ K : IsoKernels, K.fl = fl ∧ IsoRounded K := by
  have h : ∀ (N : ℕ) (x : Vec N), ∃ s, N ≠ 0 → DotOrder fl (List.ofFn fun i => (x i, x i)) s := by
    intro N x
    by_cases h : N = 0
    · exact ⟨0, fun h' => absurd h h'⟩
    · obtain ⟨s, hs⟩ := DotOrder.exists fl (List.ofFn fun i => (x i, x i)) (by rw [Ne, List.ofFn_eq_nil_iff]; exact h)
      exact ⟨s, fun _ => hs⟩
  choose T hT using h
  exact ⟨⟨fl, T⟩, rfl, fun N x => hT N x⟩

/-- Concrete case: the column `(3, 4)` in binary64. -/
example : ∃ K : IsoKernels, binary64.Nearest K.fl ∧ IsoRounded K ∧ nrm (sphereColFl K ![3, 4] - sphereCol ![3, 4]) ≤ 1 / 2 ^ 48 := by
  obtain ⟨fl, hfl⟩ := Fmt.exists_nearest (φ := binary64) (by norm_num [binary64])
  obtain ⟨K, rfl, hK⟩ := isoRounded_exists fl
  have h5 : nrm (![3, 4] : Vec 2) = 5 := by
    unfold nrm
    rw [Real.sqrt_eq_iff_mul_self_eq (by simp [dotProduct, Fin.sum_univ_two]; norm_num) (by norm_num)]
    simp [dotProduct, Fin.sum_univ_two]; norm_num
  have l : (2 : ℝ) ^ (-400 : ℤ) ≤ (2 : ℝ) ^ (0 : ℤ) := zpow_le_zpow_right₀ (by norm_num) (by norm_num)
  have r : (2 : ℝ) ^ (3 : ℤ) ≤ (2 : ℝ) ^ (400 : ℤ) := zpow_le_zpow_right₀ (by norm_num) (by norm_num)
  have h := (C148_sphere_binary64 K hfl hK (N := 2) (by norm_num) (by norm_num) ![3, 4] (by rw [h5]; rw [zpow_zero] at l; linarith)
    (by rw [h5]; refine le_trans ?_ r; norm_num)).1
  refine ⟨K, hfl, hK, h.trans ?_⟩
  have s : Real.sqrt 2 ≤ 3 / 2 := by
    rw [Real.sqrt_le_left (by norm_num)]; norm_num
  push_cast
  linarith

/-! ## Stochastic Lanczos quadrature with the sampler `"sphere"` -/

variable {n : ℕ} {K : SlqKernels n} {c : MFCfg} {A : Matrix (Fin n) (Fin n) ℝ} {M ε B ω δ L H S lo hi a b : ℝ} {fl : ℝ → ℝ} {φ : Fmt}

/-- Quadratic forms of `f(A)` at two vectors. -/
theorem quadForm_near {lam : Fin n → ℝ} {U : Matrix (Fin n) (Fin n) ℝ} (hU : Eigen A lam U) (f : ℝ → ℝ) {Φ : ℝ} (hΦ0 : 0 ≤ Φ) (hΦ : ∀ i, |f (lam i)| ≤ Φ) (v w : Vec n) :
    |quadForm (matFun lam U f) v - quadForm (matFun lam U f) w| ≤ Φ * (nrm (v - w) * nrm (v + w)) := by
  have hs := matFun_symm lam U f
  have e : quadForm (matFun lam U f) v - quadForm (matFun lam U f) w = (v - w) ⬝ᵥ (matFun lam U f *ᵥ (v + w)) := by
    have c1 : v ⬝ᵥ (matFun lam U f *ᵥ w) = w ⬝ᵥ (matFun lam U f *ᵥ v) := by
      rw [Matrix.dotProduct_mulVec v, ← Matrix.mulVec_transpose, hs, dotProduct_comm]
    unfold quadForm
    rw [Matrix.mulVec_add, dotProduct_add, sub_dotProduct, sub_dotProduct, c1]
    ring
  rw [e]
  have h := C144_apply (A := A) lam U hU f (fun _ => 0) Φ hΦ0 (fun i => by simpa using hΦ i) (v + w)
  have z : matFun lam U (fun _ => 0) = 0 := by
    unfold matFun
    have : diagonal (fun _ : Fin n => (0 : ℝ)) = 0 := Matrix.diagonal_zero
    rw [this, Matrix.mul_zero, Matrix.zero_mul]
  rw [z, Matrix.zero_mulVec, sub_zero] at h
  refine (abs_dot_le _ _).trans ((mul_le_mul_of_nonneg_left h (nrm_nonneg _)).trans (le_of_eq ?_))
  ring

theorem forall2_drawn {N : ℕ} {P : Vec N → Vec N → Prop} {p q : Pdf N} (h : ∀ hist b j, P (p hist b j) (q hist b j)) (b k : ℕ) :
    List.Forall₂ P (Spec.drawn p b k) (Spec.drawn q b k) := by
  induction k with
  | zero => exact .nil
  | succ k ih =>
    rw [drawn_succ, drawn_succ]
    refine List.rel_append ih ?_
    rw [List.forall₂_iff_get]
    refine ⟨by simp, fun i h1 h2 => ?_⟩
    simp only [List.get_eq_getElem, List.getElem_ofFn]
    exact h _ _ _

/-- C148: `hutch` on a `MatrixFunction` with the vectors of the sampler `"sphere"`, everything in floating point arithmetic.  The number returned differs from the mean of the exact
quadratic forms of `f(A)` with the exact vectors by at most the error for the vectors computed, and `γ (2 + γ) n Φ` for the error of the vectors.  The recurrence makes `κ` steps from every
vector computed (`good`). -/
theorem C148_slq_sphere (h : SlqInput K c A M ε B ω δ L H S lo hi a b) (lam : Fin n → ℝ) (U : Matrix (Fin n) (Fin n) ℝ) (hU : Eigen A lam U)
    (hlam : ∀ i, lo ≤ lam i ∧ lam i ≤ hi) (κ : ℕ) (hκ : κ ≤ c.deg) (γ : ℝ) (hγ : γ = (3 * n + 10) * φ.u) (good : Vec n → Prop) (hsteps : Steps K c S κ good)
    (hn0 : n ≠ 0) (htol : 2 * c.tol ≤ (1 - γ) * Real.sqrt n) (hB : (1 + γ) * Real.sqrt n ≤ B) (g : ℝ[X]) (Φ η : ℝ)
    (hR : ∀ ν, |ν - Real.sqrt n| ≤ γ * Real.sqrt n → QRange L H S Φ ν) (hg : g.natDegree + 2 ≤ 2 * κ)
    (hΦ : ∀ x, a ≤ x → x ≤ b → |c.f x| ≤ Φ) (hη : ∀ x, a ≤ x → x ≤ b → |c.f x - g.eval x| ≤ η)
    (hn : φ.Nearest fl) (hsum : ∀ t (x : List ℝ), x ≠ [] → SumOrder fl x (K.colsum t x)) (hmem : ∀ t j p q, |p * q| ≤ H → φ.Mem ((K.quad t j).mul p q))
    (G : MFFl n) (hG : SlqState c κ ε S lo hi G) (I : IsoKernels) (hI : φ.Nearest I.fl) (hIr : IsoRounded I) (he : φ.emin ≤ φ.emax) (hu : 64 * (n + 2) * φ.u ≤ 1)
    (h1 : 16 * (n * φ.eta) ≤ φ.u) (t2 : 4 * Real.sqrt n ≤ φ.top) (rng : Rng)
    (hx : ∀ b q (j : Fin b), 0 < nrm (rawCols n b rng.norm q j) ∧ 8 * (n * φ.eta) ≤ φ.u * φ.u * (nrm (rawCols n b rng.norm q j) * nrm (rawCols n b rng.norm q j)) ∧
      16 * (n * φ.eta) ≤ φ.u * nrm (rawCols n b rng.norm q j) ∧ 2 * nrm (rawCols n b rng.norm q j) ^ 2 + 2 * nrm (rawCols n b rng.norm q j) + 2 ≤ φ.top)
    (hgood : ∀ b q (j : Fin b), good (sphereColFl I (rawCols n b rng.norm q j)))
    (batch k : ℕ) (full : Bool) (bt : ℕ) (hbt : bt = if full then batch else 1) (hb0 : 0 < bt) (hk : 0 < k) (E : ℝ) (hE : E = flQuadErr c.deg ε S ω δ c.tol a b Φ η)
    (hfit : φ.Fits (k * bt) ((1 + γ) ^ 2 * n * (Φ + E))) :
    ∃ (x : ℝ) (G' : MFFl n) (pdf pdf' : Pdf n), isotropicPdf "sphere" rng n = .ok pdf ∧ isotropicPdfFl I "sphere" rng n = .ok pdf' ∧
      slqFl fl K c rng G batch (.callable pdf') (k * bt) full (k + 1) = some (.ok (G', .val fun _ => x)) ∧ SlqState c κ ε S lo hi G' ∧ φ.Mem x ∧
      |x - Spec.mean ((Spec.drawn pdf bt k).map (quadForm (matFun lam U c.f)))| ≤
        (1 + γ) ^ 2 * n * E + 16 * (k * bt : ℕ) * φ.u * ((1 + γ) ^ 2 * n * (Φ + E)) + γ * (2 + γ) * n * Φ := by
  have hγ0 : 0 ≤ γ := by rw [hγ]; have := φ.u_pos; positivity
  have s0 := Real.sqrt_nonneg (n : ℝ)
  have ss : Real.sqrt (n : ℝ) ^ 2 = n := Real.sq_sqrt (by positivity)
  have hΦ0 : 0 ≤ Φ := (abs_nonneg _).trans (hΦ a le_rfl h.ab.le)
  have hS0 : 0 ≤ S := h.tol0.le.trans h.Stol
  have hΦl : ∀ i, |c.f (lam i)| ≤ Φ := by
    intro i
    have h1 : 0 ≤ 400 * (c.deg : ℝ) ^ 3 * ε * S := by
      have := h.eps0
      positivity
    have h2 := mul_nonneg h.del0 hS0
    exact hΦ _ (by linarith [(hlam i).1, h.alo, h.tol0]) (by linarith [(hlam i).2, h.bhi, h.tol0])
  have hpos : 0 < n := Nat.pos_of_ne_zero hn0
  have hc : ∀ b q (j : Fin b), nrm (sphereColFl I (rawCols n b rng.norm q j) - sphereCol (rawCols n b rng.norm q j)) ≤ γ * Real.sqrt n ∧
      nrm (sphereCol (rawCols n b rng.norm q j)) = Real.sqrt n := by
    intro b q j
    obtain ⟨q1, q2, q3, q4⟩ := hx b q j
    rw [hγ]
    exact ⟨C148_sphere I hI hIr hpos _ q1 he hu h1 q2 q3 q4 t2, sphere_norm _ q1⟩
  have hgd : ∀ b q (j : Fin b), |nrm (sphereColFl I (rawCols n b rng.norm q j)) - Real.sqrt n| ≤ γ * Real.sqrt n := by
    intro b q j
    obtain ⟨h2, h3⟩ := hc b q j
    have h4 := (abs_nrm_sub_nrm_le (sphereColFl I (rawCols n b rng.norm q j)) (sphereCol (rawCols n b rng.norm q j))).trans h2
    rwa [h3] at h4
  obtain ⟨x, G', h3, h4, h5, h6⟩ := C148_slq_sampler h lam U hU hlam κ hκ (fun v => good v ∧ |nrm v - Real.sqrt n| ≤ γ * Real.sqrt n)
    (fun t j G v h6 h7 => hsteps t j G v h6 h7.1) hn0 ((1 + γ) ^ 2 * n) (by
    intro v hv
    have hv' := abs_le.1 hv.2
    have hv2 : nrm v ≤ (1 + γ) * Real.sqrt n := by linarith
    refine ⟨by linarith, by linarith, ?_⟩
    have := pow_le_pow_left₀ (nrm_nonneg v) hv2 2
    rwa [mul_pow, ss] at this) g Φ η (fun v hv => hR _ hv.2) hg hΦ hη hn hsum hmem G hG rng
    (.callable fun history b => IsoDist.fillFl I .sphere n b rng (history.sum * n)) _ rfl (fun _ _ _ => ⟨hgood _ _ _, hgd _ _ _⟩) batch k full bt hbt hb0 hk E hE hfit
  refine ⟨x, G', fun history b => IsoDist.fill .sphere n b rng (history.sum * n), _, rfl, rfl, h3, h4, h5, ?_⟩
  set p' : Pdf n := fun history b => IsoDist.fillFl I .sphere n b rng (history.sum * n) with hp'
  set p : Pdf n := fun history b => IsoDist.fill .sphere n b rng (history.sum * n) with hp
  have hD : List.Forall₂ (fun v w => |quadForm (matFun lam U c.f) v - quadForm (matFun lam U c.f) w| ≤ γ * (2 + γ) * n * Φ) (Spec.drawn p' bt k) (Spec.drawn p bt k) := by
    refine forall2_drawn (fun hist b j => ?_) bt k
    show |quadForm _ (sphereColFl I (rawCols n b rng.norm (hist.sum * n) j)) - quadForm _ (sphereCol (rawCols n b rng.norm (hist.sum * n) j))| ≤ _
    obtain ⟨h7, h8⟩ := hc b (hist.sum * n) j
    have h9 := hgd b (hist.sum * n) j
    refine (quadForm_near hU c.f hΦ0 hΦl _ _).trans ?_
    have h10 := nrm_add_le (sphereColFl I (rawCols n b rng.norm (hist.sum * n) j)) (sphereCol (rawCols n b rng.norm (hist.sum * n) j))
    rw [h8] at h10
    have h11 := mul_le_mul h7 (h10.trans (show _ ≤ (2 + γ) * Real.sqrt n by linarith [(abs_le.1 h9).2])) (nrm_nonneg _) (mul_nonneg hγ0 s0)
    refine (mul_le_mul_of_nonneg_left h11 hΦ0).trans (le_of_eq ?_)
    have : Real.sqrt (n : ℝ) * Real.sqrt n = n := by rw [← sq, ss]
    calc Φ * (γ * Real.sqrt n * ((2 + γ) * Real.sqrt n)) = Φ * γ * (2 + γ) * (Real.sqrt n * Real.sqrt n) := by ring
      _ = _ := by rw [this]; ring
  have hm : |Spec.mean ((Spec.drawn p' bt k).map (quadForm (matFun lam U c.f))) - Spec.mean ((Spec.drawn p bt k).map (quadForm (matFun lam U c.f)))| ≤ γ * (2 + γ) * n * Φ := by
    have h7 := forall2_sum (q := quadForm (matFun lam U c.f)) (c := γ * (2 + γ) * n * Φ) (ys := (Spec.drawn p' bt k).map (quadForm (matFun lam U c.f))) (xs := Spec.drawn p bt k)
      (List.forall₂_map_left_iff.2 hD)
    unfold Spec.mean
    rw [List.length_map, List.length_map, drawn_length, drawn_length, ← sub_div, abs_div, abs_of_nonneg (a := ((k * bt : ℕ) : ℝ)) (Nat.cast_nonneg _)]
    have hkb : (0 : ℝ) < ((k * bt : ℕ) : ℝ) := by exact_mod_cast Nat.mul_pos hk hb0
    rw [List.length_map, drawn_length] at h7
    rwa [div_le_iff₀ hkb]
  exact (abs_sub_le _ (Spec.mean ((Spec.drawn p' bt k).map (quadForm (matFun lam U c.f)))) _).trans (add_le_add h6 hm)

/-- Concrete case of C148: the matrix with the diagonal `(1, 3)` and the square in binary64.  All numbers of the generator are `1`, so that the exact vectors are `(1, 1)` and the
exact samples `10`. -/
theorem slq_sphere_example (hfl : binary64.Nearest fl) (K : SlqKernels 2) (hL : ∀ t j, LKernelsRounded fl !![1, 0; 0, 3] (K.lan t j))
    (hQ : ∀ t j, QKernelsRounded fl (K.quad t j) 2 (1 / 2 ^ 40) (1 / 2 ^ 40) ((2 : ℝ) ^ (-400 : ℤ)) ((2 : ℝ) ^ (400 : ℤ)))
    (hsum : ∀ t (x : List ℝ), x ≠ [] → SumOrder fl x (K.colsum t x)) (otol : ℝ) (rng : Rng) (hu : ∀ p, rng.norm p = 1) (I : IsoKernels) (hI : I.fl = fl) (hIr : IsoRounded I)
    (k : ℕ) (hk : 0 < k) (hk2 : k ≤ 2 ^ 20) :
    ∃ (x : ℝ) (G' : MFFl 2) (pdf' : Pdf 2), isotropicPdfFl I "sphere" rng 2 = .ok pdf' ∧
      slqFl fl K ⟨fun x => x ^ 2, 2, 1 / 2 ^ 40, otol, 0⟩ rng (MFFl.init 2 2) 32 (.callable pdf') k false (k + 1) = some (.ok (G', .val fun _ => x)) ∧ |x - 10| ≤ 1 / 10 ^ 6 := by
  have two : ∀ {a b : ℤ}, a ≤ b → (2 : ℝ) ^ a ≤ (2 : ℝ) ^ b := fun h => zpow_le_zpow_right₀ (by norm_num) h
  have low : (2 : ℝ) ^ (-400 : ℤ) ≤ 1 / 2 ^ 40 := by
    have h1 := two (show (-400 : ℤ) ≤ -40 by norm_num)
    have e : (2 : ℝ) ^ (-40 : ℤ) = 1 / 2 ^ 40 := by norm_num
    rwa [e] at h1
  have high : (1024 : ℝ) ≤ (2 : ℝ) ^ (400 : ℤ) := by
    have h1 := two (show (10 : ℤ) ≤ 400 by norm_num)
    have e : (2 : ℝ) ^ (10 : ℤ) = 1024 := by norm_num
    rwa [e] at h1
  set c : MFCfg := ⟨fun x => x ^ 2, 2, 1 / 2 ^ 40, otol, 0⟩ with hc
  have s2 : Real.sqrt (2 : ℕ) ^ 2 = 2 := by
    rw [Real.sq_sqrt (by norm_num)]
    norm_num
  have s0 := Real.sqrt_nonneg ((2 : ℕ) : ℝ)
  have s1 : 7 / 5 ≤ Real.sqrt (2 : ℕ) := by
    rw [Real.le_sqrt (by norm_num) (by norm_num)]
    norm_num
  have s3 : Real.sqrt (2 : ℕ) ≤ 3 / 2 := Real.sqrt_le_iff.2 ⟨by norm_num, by norm_num⟩
  obtain ⟨h, hmem⟩ := C142_binary64 (c := c) (A := !![1, 0; 0, 3]) (M := 4) (S := 32) (lo := 1) (hi := 3) (a := 1 / 2) (b := 4) hfl (by norm_num) (by norm_num)
    (by ext i j; fin_cases i <;> fin_cases j <;> rfl) (by simp only [Fin.sum_univ_two]; norm_num) (low.trans (by norm_num)) low hL hQ le_rfl (by norm_num [hc]) (by norm_num [hc])
    (le_trans (by norm_num [hc]) high) le_rfl (by norm_num [hc]) (by norm_num [hc]) (by norm_num) (by norm_num [hc]) (by norm_num [hc]) (by norm_num) (by norm_num [hc])
    (by norm_num [hc])
  have hU : Eigen (!![1, 0; 0, 3] : Matrix (Fin 2) (Fin 2) ℝ) ![1, 3] 1 := by
    constructor
    · simp
    · intro j
      ext i
      fin_cases i <;> fin_cases j <;> simp [Matrix.mulVec, dotProduct, Fin.sum_univ_two]
  have hu' : binary64.u = 1 / 2 ^ 53 := by norm_num [Fmt.u, binary64]
  have hraw : ∀ b q (j : Fin b), rawCols 2 b rng.norm q j = fun _ => 1 := fun b q j => funext fun i => hu _
  have hone : nrm (fun _ : Fin 2 => (1 : ℝ)) = Real.sqrt (2 : ℕ) := by
    unfold nrm
    congr 1
    simp [dotProduct]
  have hsp : sphereCol (fun _ : Fin 2 => (1 : ℝ)) = fun _ => 1 := by
    funext i
    have : sphereCol (fun _ : Fin 2 => (1 : ℝ)) i = 1 / Real.sqrt (∑ _i : Fin 2, (1 : ℝ) ^ 2) * Real.sqrt (2 : ℕ) := rfl
    rw [this, show (∑ _i : Fin 2, (1 : ℝ) ^ 2) = ((2 : ℕ) : ℝ) by simp]
    exact div_mul_cancel₀ _ (ne_of_gt (lt_of_lt_of_le (by norm_num) s1))
  set w : Vec 2 := sphereColFl I (fun _ => 1) with hw
  have r1 : (2 : ℝ) ^ (-400 : ℤ) ≤ nrm (fun _ : Fin 2 => (1 : ℝ)) := by rw [hone]; exact low.trans (le_trans (by norm_num) s1)
  have r2 : nrm (fun _ : Fin 2 => (1 : ℝ)) ≤ (2 : ℝ) ^ (400 : ℤ) := by rw [hone]; exact s3.trans (le_trans (by norm_num) high)
  obtain ⟨⟨k0, k1, k5⟩, kx⟩ := binary64_sphere_room (N := 2) (by norm_num) (by norm_num) (fun _ => 1) r1 r2
  obtain ⟨-, hwn⟩ := C148_sphere_binary64 I (hI ▸ hfl) hIr (N := 2) (by norm_num) (by norm_num) (fun _ => 1) r1 r2
  rw [← hw] at hwn
  have hwn' := abs_le.1 hwn
  have hww : w 0 = w 1 := rfl
  set γ : ℝ := (3 * (2 : ℕ) + 10) * binary64.u with hγ
  have hγv : γ = 1 / 2 ^ 49 := by rw [hγ, hu']; norm_num
  have near : ∀ ν : ℝ, |ν - Real.sqrt (2 : ℕ)| ≤ γ * Real.sqrt (2 : ℕ) → 1 ≤ ν ∧ ν ≤ 8 / 5 := by
    intro ν hν
    have := abs_le.1 hν
    rw [hγv] at this
    constructor <;> linarith only [this.1, this.2, s1, s3]
  have hsteps : Steps K c 32 2 fun v => v = w := by
    refine steps_two h _ 1 (by norm_num [hc]) fun v hv => ?_
    rw [hv]
    have wlo : 1 ≤ nrm w := by
      have := hwn'.1
      push_cast at this s1 s3
      linarith only [this, s1, s3]
    have whi : nrm w ≤ 2 := by
      have := hwn'.2
      push_cast at this s1 s3
      linarith only [this, s1, s3]
    refine ⟨le_trans (by norm_num [hc]) wlo, whi.trans (le_trans (by norm_num) high), fun x => ?_⟩
    rw [one_mul]
    unfold nrm
    refine Real.sqrt_le_sqrt ?_
    have e : (!![1, 0; 0, 3] *ᵥ w - x • w) ⬝ᵥ (!![1, 0; 0, 3] *ᵥ w - x • w) = (1 - x) ^ 2 * (w 0 * w 0) + (3 - x) ^ 2 * (w 1 * w 1) := by
      simp [dotProduct, Fin.sum_univ_two]
      ring
    have e' : w ⬝ᵥ w = w 0 * w 0 + w 1 * w 1 := by simp [dotProduct, Fin.sum_univ_two]
    rw [e, e', hww]
    nlinarith [mul_nonneg (mul_self_nonneg (w 1)) (sq_nonneg (x - 2))]
  have hEq : flQuadErr 2 (8 * ((2 : ℕ) + 1) * (1 / 2 ^ 53)) 32 (1 / 2 ^ 40) (1 / 2 ^ 40) (1 / 2 ^ 40) (1 / 2) 4 16 0 ≤ 1 / 10 ^ 7 := by
    norm_num [flQuadErr]
  have hE0 : 0 ≤ flQuadErr 2 (8 * ((2 : ℕ) + 1) * (1 / 2 ^ 53)) 32 (1 / 2 ^ 40) (1 / 2 ^ 40) (1 / 2 ^ 40) (1 / 2) 4 16 0 := by
    norm_num [flQuadErr]
  set E := flQuadErr 2 (8 * ((2 : ℕ) + 1) * (1 / 2 ^ 53)) 32 (1 / 2 ^ 40) (1 / 2 ^ 40) (1 / 2 ^ 40) (1 / 2) 4 16 0 with hE
  have low1 : (2 : ℝ) ^ (-400 : ℤ) ≤ 1 := low.trans (by norm_num)
  have hr1 : 2 * (1 + γ) ^ 2 ≤ 201 / 100 := by rw [hγv]; norm_num
  have hr2 : 2 ≤ 2 * (1 + γ) ^ 2 := by rw [hγv]; norm_num
  obtain ⟨x, G', pdf, pdf', hp, hp', h1, -, -, h2⟩ := C148_slq_sphere h ![1, 3] 1 hU (fun i => by fin_cases i <;> norm_num) 2 le_rfl γ hγ (fun v => v = w) hsteps (by norm_num)
    (by rw [hγv]; norm_num [hc]; push_cast at s1; linarith only [s1]) (by refine le_trans ?_ high; rw [hγv]; linarith only [s3]) (X ^ 2) 16 0
    (fun ν hν => by
      obtain ⟨n1, n2⟩ := near ν hν
      have n3 : 1 ≤ ν ^ 2 := one_le_pow₀ n1
      have n4 : ν ^ 2 ≤ 3 := by nlinarith only [n1, n2]
      exact ⟨low1.trans (by norm_num), le_trans (by norm_num) high, low1.trans (by norm_num), le_trans (by norm_num) high, low1.trans n1, le_trans (by linarith only [n2]) high,
        low1.trans n3, le_trans (by linarith only [n4]) high, low1.trans (by linarith only [n1]), le_trans (by linarith only [n2]) high, low1.trans (by linarith only [n3]),
        le_trans (by linarith only [n4]) high⟩)
    (by rw [natDegree_X_pow]) (fun x h1 h2 => by
      show |x ^ 2| ≤ 16
      rw [abs_of_nonneg (sq_nonneg x)]
      nlinarith only [h1, h2]) (fun x _ _ => by simp [hc]) hfl hsum hmem (MFFl.init 2 2) (slqState_init c 2 h.eps0 (by norm_num) (Or.inl rfl)) I (hI ▸ hfl) hIr
    (by norm_num [binary64]) k0 k1 k5 rng (fun b q j => by rw [hraw]; exact kx)
    (fun b q j => by rw [hraw]) 32 k false 1 rfl (by omega) hk E
    rfl (binary64_fits _ (by omega) _ (le_trans (two (by norm_num : (-1022 : ℤ) ≤ 0)) (by
      rw [zpow_zero]
      have := mul_le_mul hr2 (show (1 : ℝ) ≤ 16 + E by linarith only [hE0]) zero_le_one (le_trans (by norm_num) hr2)
      push_cast
      linarith only [this]))
      (le_trans (by
        have : 2 * (1 + γ) ^ 2 * (16 + E) ≤ 201 / 100 * (16 + 1 / 10 ^ 7) := mul_le_mul hr1 (by linarith only [hEq]) (by linarith only [hE0]) (by norm_num)
        push_cast
        linarith only [this]) (high.trans (two (by norm_num)))))
  rw [Nat.mul_one] at h1 h2
  refine ⟨x, G', pdf', hp', h1, ?_⟩
  have hq : quadForm (matFun ![1, 3] 1 c.f) (fun _ => 1) = 10 := by
    simp [quadForm, matFun, dotProduct, Matrix.mulVec, Fin.sum_univ_two, hc]
    norm_num
  have hmean : Spec.mean ((Spec.drawn pdf 1 k).map (quadForm (matFun ![1, 3] 1 c.f))) = 10 := by
    have e : (Spec.drawn pdf 1 k).map (quadForm (matFun ![1, 3] 1 c.f)) = List.replicate k 10 := by
      rw [List.eq_replicate_iff, List.length_map, drawn_length, mul_one]
      refine ⟨rfl, fun b hb => ?_⟩
      obtain ⟨v, hv, rfl⟩ := List.mem_map.1 hb
      unfold Spec.drawn at hv
      obtain ⟨t, -, ht⟩ := List.mem_flatMap.1 hv
      obtain ⟨j, rfl⟩ := List.mem_ofFn.1 ht
      injection hp with hp
      rw [← hp]
      show quadForm _ (sphereCol (rawCols 2 1 rng.norm _ j)) = 10
      rw [hraw, hsp, hq]
    rw [e, Spec.mean, List.sum_replicate, List.length_replicate, nsmul_eq_mul, mul_div_cancel_left₀]
    exact_mod_cast hk.ne'
  rw [hmean] at h2
  refine h2.trans ?_
  have kr : (k : ℝ) ≤ 2 ^ 20 := by exact_mod_cast hk2
  rw [hu']
  push_cast
  rw [mul_comm ((1 + γ) ^ 2) 2]
  have g1 : 2 * (1 + γ) ^ 2 * E ≤ 201 / 100 * (1 / 10 ^ 7) := mul_le_mul hr1 hEq hE0 (by norm_num)
  have g2 : 2 * (1 + γ) ^ 2 * (16 + E) ≤ 34 := by
    have : 2 * (1 + γ) ^ 2 * (16 + E) ≤ 201 / 100 * (16 + 1 / 10 ^ 7) := mul_le_mul hr1 (by linarith only [hEq]) (by linarith only [hE0]) (by norm_num)
    exact this.trans (by norm_num)
  have g3 : γ * (2 + γ) * 2 * 16 ≤ 1 / 10 ^ 10 := by rw [hγv]; norm_num
  have h3 : (k : ℝ) * (2 * (1 + γ) ^ 2 * (16 + E)) ≤ 2 ^ 20 * 34 := mul_le_mul kr g2 (by positivity) (by norm_num)
  linarith only [g1, g3, h3]

/-- There are such operations. -/
example (otol : ℝ) : ∃ (fl : ℝ → ℝ) (I : IsoKernels) (K : SlqKernels 2) (x : ℝ) (G' : MFFl 2) (pdf' : Pdf 2), binary64.Nearest fl ∧
    isotropicPdfFl I "sphere" ⟨fun _ => 0, fun _ => 1⟩ 2 = .ok pdf' ∧
    slqFl fl K ⟨fun x => x ^ 2, 2, 1 / 2 ^ 40, otol, 0⟩ ⟨fun _ => 0, fun _ => 1⟩ (MFFl.init 2 2) 32 (.callable pdf') 1000 false 1001 = some (.ok (G', .val fun _ => x)) ∧
      |x - 10| ≤ 1 / 10 ^ 6 := by
  obtain ⟨fl, hfl⟩ := Fmt.exists_nearest (φ := binary64) (by norm_num [binary64])
  obtain ⟨I, hI, hIr⟩ := isoRounded_exists fl
  obtain ⟨L, hL⟩ := rounded_exist fl (!![1, 0; 0, 3] : Matrix (Fin 2) (Fin 2) ℝ) (by norm_num)
  obtain ⟨E, hE⟩ := qRounded_exist (n := 2) (m := 2) fl (by norm_num) (by norm_num) (show (0 : ℝ) ≤ 1 / 2 ^ 40 by norm_num) (1 / 2 ^ 40) ((2 : ℝ) ^ (-400 : ℤ)) ((2 : ℝ) ^ (400 : ℤ))
  have h2 : ∀ l : List ℝ, ∃ s, l ≠ [] → SumOrder fl l s := by
    intro l
    by_cases h : l = []
    · exact ⟨0, fun h' => absurd h h'⟩
    · obtain ⟨s, hs⟩ := SumOrder.exists fl l h
      exact ⟨s, fun _ => hs⟩
  choose T hT using h2
  obtain ⟨x, G', pdf', h, h'⟩ := slq_sphere_example hfl ⟨fun _ _ => L, fun _ _ => E, fun _ => T, fun _ _ => 0⟩ (fun _ _ => hL) (fun _ _ => hE) (fun _ => hT) otol
    ⟨fun _ => 0, fun _ => 1⟩ (fun _ => rfl) I hI hIr 1000 (by norm_num) (by norm_num)
  exact ⟨fl, I, _, x, G', pdf', hfl, h, h'⟩

end Primate
