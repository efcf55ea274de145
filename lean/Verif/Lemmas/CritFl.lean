import Verif.Model.CritFl
import Verif.Props.HutchFl
import Verif.Props.CovFl
import Verif.Spec.Criteria

/-! # Lemmas on stopping criteria in rounded arithmetic (C158) -/

noncomputable section

namespace Primate

open Spec

variable {φ : Fmt} {fl root : ℝ → ℝ}

/-- `x ** (1 / 2)` is accurate to two units roundoff and gives a number of the format. -/
def Spec.RootOk (φ : Fmt) (root : ℝ → ℝ) : Prop :=
  ∀ x, φ.Mem x → 0 ≤ x → φ.Mem (root x) ∧ |root x - Real.sqrt x| ≤ 2 * φ.u * Real.sqrt x

/-- Standard error of the mean of the observations. -/
def Spec.stdErr (xs : List ℝ) : ℝ := Real.sqrt (sampleCov 1 (xs.map fun y (_ : Fin 1) => y) 0 0) / Real.sqrt xs.length

/-- Mean of the observations. -/
def Spec.avgOf (xs : List ℝ) : ℝ := xs.sum / xs.length

namespace StatsFl

/-- The computed standard error: `q` is the root of the computed variance of the mean. -/
theorem quot_near {u q s1 s2 rv rn : ℝ} (hu : 0 < u) (hus : u ≤ 1 / 768) (hrn : 1 ≤ rn) (hrv : 0 ≤ rv) (hq : q = rv / rn)
    (h1 : |s1 - rv| ≤ 2 * u * rv) (h2 : |s2 - rn| ≤ 3 / 2 * u * rn) :
    0 < s2 ∧ 0 ≤ s1 / s2 ∧ |s1 / s2 - q| ≤ 18 / 5 * u * q := by
  obtain ⟨a1, a2⟩ := abs_le.1 h1
  obtain ⟨b1, b2⟩ := abs_le.1 h2
  have hs2 : (1 - 3 / 2 * u) * rn ≤ s2 := by linarith
  have hs2p : 0 < s2 := lt_of_lt_of_le (by nlinarith) hs2
  have hs1 : 0 ≤ s1 := by nlinarith
  have hrn0 : 0 < rn := by linarith
  have hrv' : rv = q * rn := by rw [hq]; field_simp
  have hq0 : 0 ≤ q := by rw [hq]; positivity
  refine ⟨hs2p, by positivity, ?_⟩
  have e : s1 / s2 - q = (s1 - q * s2) / s2 := by field_simp
  rw [e, abs_div, abs_of_pos hs2p, div_le_iff₀ hs2p]
  have e2 : |s1 - q * s2| ≤ 7 / 2 * u * (q * rn) := by
    rw [hrv'] at a1 a2
    rw [abs_le]
    constructor
    · nlinarith [mul_le_mul_of_nonneg_left b2 hq0]
    · nlinarith [mul_le_mul_of_nonneg_left b1 hq0]
  refine e2.trans ?_
  have hqr : 0 ≤ u * (q * rn) := by positivity
  have := mul_le_mul_of_nonneg_left hs2 (by positivity : 0 ≤ 18 / 5 * u * q)
  nlinarith

theorem sqrt_le_of_one {n : ℝ} (h : 1 ≤ n) : 1 ≤ Real.sqrt n ∧ Real.sqrt n ≤ n := by
  have h1 : 1 ≤ Real.sqrt n := by
    rw [show (1 : ℝ) = Real.sqrt 1 by simp]
    exact Real.sqrt_le_sqrt h
  refine ⟨h1, ?_⟩
  have := Real.mul_self_sqrt (by linarith : 0 ≤ n)
  nlinarith

/-- Error of the computed standard error: in the square, at most `130 u M²`. -/
theorem stdErr_near (hn : φ.Nearest fl) {N : ℕ} {M : ℝ} (h : φ.FitsSq N M) (hN : 3 ≤ N) {V Vh s : ℝ} (hVh0 : 0 ≤ Vh)
    (hV : V ≤ 4 * N / ((N : ℝ) - 1) * M ^ 2) (hVh : |Vh - V| ≤ (69 * N ^ 2 / ((N : ℝ) - 1) + 1) * (φ.u * M ^ 2))
    (hs : |s - Real.sqrt Vh| ≤ 2 * φ.u * Real.sqrt Vh) :
    0 ≤ fl (s / fl (Real.sqrt N)) ∧ fl (s / fl (Real.sqrt N)) ≤ 2 * M ∧ φ.Mem (fl (s / fl (Real.sqrt N))) ∧
      |fl (s / fl (Real.sqrt N)) ^ 2 - V / N| ≤ 130 * (φ.u * M ^ 2) := by
  have hu := φ.u_pos
  have hM := M_pos h.toFits
  have hN3 : (3 : ℝ) ≤ N := by exact_mod_cast hN
  have hus : φ.u ≤ 1 / 768 := by
    have := h.small
    nlinarith
  have hW : 0 < φ.u * M ^ 2 := by positivity
  obtain ⟨r1, r2⟩ := sqrt_le_of_one (by linarith : (1 : ℝ) ≤ N)
  have hη : φ.eta ≤ φ.u / 3 := by
    have := h.etaN
    have := φ.eta_pos
    nlinarith
  have hrn : |Real.sqrt N| ≤ φ.top := by
    rw [abs_of_nonneg (by linarith)]
    exact r2.trans h.topN
  have e1 := hn.err h.exp hrn
  rw [abs_of_nonneg (by linarith : 0 ≤ Real.sqrt (N : ℝ))] at e1
  have e2 : |fl (Real.sqrt N) - Real.sqrt N| ≤ 3 / 2 * φ.u * Real.sqrt N := by nlinarith
  obtain ⟨p1, p2, p3⟩ := quot_near (q := Real.sqrt Vh / Real.sqrt N) hu hus r1 (Real.sqrt_nonneg _) rfl hs e2
  set q := Real.sqrt Vh / Real.sqrt N with hq
  set x := s / fl (Real.sqrt N) with hx
  have hq0 : 0 ≤ q := by positivity
  have hN1 : (0 : ℝ) < (N : ℝ) - 1 := by linarith
  have hN0 : (0 : ℝ) < N := by linarith
  have hqsq : q ^ 2 = Vh / N := by
    rw [hq, div_pow, Real.sq_sqrt hVh0, Real.sq_sqrt hN0.le]
  have k1 : |q ^ 2 - V / N| ≤ 104 * (φ.u * M ^ 2) := by
    rw [hqsq, ← sub_div, abs_div, abs_of_pos hN0, div_le_iff₀ hN0]
    refine hVh.trans ?_
    have : 69 * (N : ℝ) ^ 2 / ((N : ℝ) - 1) + 1 ≤ 104 * N := by
      rw [div_add_one hN1.ne', div_le_iff₀ hN1]
      nlinarith
    exact (mul_le_mul_of_nonneg_right this hW.le).trans (le_of_eq (by ring))
  have k2 : V / N ≤ 2 * M ^ 2 := by
    rw [div_le_iff₀ hN0]
    refine hV.trans ?_
    have : 4 * (N : ℝ) / ((N : ℝ) - 1) ≤ 2 * N := by
      rw [div_le_iff₀ hN1]
      nlinarith
    exact (mul_le_mul_of_nonneg_right this (sq_nonneg M)).trans (le_of_eq (by ring))
  have k3 : q ^ 2 ≤ 9 / 4 * M ^ 2 := by
    have := (abs_le.1 k1).2
    have : φ.u * M ^ 2 ≤ 1 / 768 * M ^ 2 := mul_le_mul_of_nonneg_right hus (sq_nonneg M)
    linarith [sq_nonneg M]
  have k4 : q ≤ 3 / 2 * M := (pow_le_pow_iff_left₀ hq0 (by positivity) two_ne_zero).1 (k3.trans (le_of_eq (by ring)))
  have k5 : x ≤ 8 / 5 * M := by
    have := (abs_le.1 p3).2
    have : φ.u * q ≤ 1 / 768 * q := mul_le_mul_of_nonneg_right hus hq0
    linarith
  have ht : |x| ≤ φ.top := by
    rw [abs_of_nonneg p2]
    refine k5.trans (le_trans ?_ h.top)
    have : 4 * 3 * M ≤ 4 * N * M := by
      refine mul_le_mul_of_nonneg_right ?_ hM.le
      linarith
    linarith
  have e3 := hn.err h.exp ht
  rw [abs_of_nonneg p2] at e3
  have k6 : |fl x - q| ≤ 81 / 10 * (φ.u * M) := by
    have t1 := abs_sub_le (fl x) x q
    have := h.eta
    have : φ.u * x ≤ φ.u * (8 / 5 * M) := mul_le_mul_of_nonneg_left k5 hu.le
    have : φ.u * q ≤ φ.u * (3 / 2 * M) := mul_le_mul_of_nonneg_left k4 hu.le
    linarith [mul_pos hu hM]
  have hf0 : 0 ≤ fl x := hn.nonneg h.exp ((le_abs_self _).trans ht) p2
  have huM : φ.u * M ≤ 1 / 768 * M := mul_le_mul_of_nonneg_right hus hM.le
  have k7 : fl x ≤ 38 / 25 * M := by
    have := (abs_le.1 k6).2
    linarith
  refine ⟨hf0, by linarith, (hn x ht).1, ?_⟩
  have k8 : |fl x ^ 2 - q ^ 2| ≤ 81 / 10 * (φ.u * M) * (151 / 50 * M) := by
    have : fl x ^ 2 - q ^ 2 = (fl x - q) * (fl x + q) := by ring
    rw [this, abs_mul]
    refine mul_le_mul k6 ?_ (abs_nonneg _) (by positivity)
    rw [abs_of_nonneg (by positivity)]
    linarith
  have := abs_sub_le (fl x ^ 2) (q ^ 2) (V / N)
  have e9 : 81 / 10 * (φ.u * M) * (151 / 50 * M) = 12231 / 500 * (φ.u * M ^ 2) := by ring
  linarith

/-- From the squares to the numbers. -/
theorem near_of_sq {a b u M : ℝ} (ha : 0 ≤ a) (hb : 0 ≤ b) (hu : 0 ≤ u) (hM : 0 ≤ M) (h : |a ^ 2 - b ^ 2| ≤ 130 * (u * M ^ 2)) :
    |a - b| ≤ 12 * Real.sqrt u * M := by
  have hs := Real.sq_sqrt hu
  have hs0 := Real.sqrt_nonneg u
  refine (pow_le_pow_iff_left₀ (abs_nonneg _) (by positivity) two_ne_zero).1 ?_
  have h1 : |a - b| ^ 2 ≤ |a ^ 2 - b ^ 2| := by
    have : a ^ 2 - b ^ 2 = (a - b) * (a + b) := by ring
    rw [this, abs_mul, sq]
    refine mul_le_mul_of_nonneg_left ?_ (abs_nonneg _)
    rw [abs_of_nonneg (by positivity : 0 ≤ a + b), abs_le]
    constructor <;> linarith
  refine (h1.trans h).trans ?_
  have : (12 * Real.sqrt u * M) ^ 2 = 144 * (u * M ^ 2) := by
    rw [mul_pow, mul_pow, hs]; ring
  rw [this]
  have : 0 ≤ u * M ^ 2 := by positivity
  linarith

end StatsFl

open StatsFl

/-- One update: finite numbers of size at most `M`, the sum and the inner product of the deviations evaluated in some order. -/
structure Spec.BatchOk (φ : Fmt) (fl : ℝ → ℝ) (M : ℝ) (B : List ℝ × ℝ × ℝ) : Prop where
  ne : B.1 ≠ []
  data : ∀ y ∈ B.1, φ.Mem y ∧ |y| ≤ M
  sum : SumOrder fl B.1 B.2.1
  gram : DotOrder fl (B.1.map fun y => (fl (y - fl (B.2.1 / B.1.length)), fl (y - fl (B.2.1 / B.1.length)))) B.2.2

/-- The observations of a history. -/
def Spec.allObs (H : List (List ℝ × ℝ × ℝ)) : List ℝ := (H.map fun B => B.1).flatten

theorem allObs_append (H : List (List ℝ × ℝ × ℝ)) (B : List ℝ × ℝ × ℝ) : allObs (H ++ [B]) = allObs H ++ B.1 := by
  simp [allObs]

namespace StatsFl

/-- What is known of the estimator. -/
abbrev EInv (φ : Fmt) (M : ℝ) (e : EstFl) (xs : List ℝ) : Prop := CInv φ M e.cov (xs.map fun y (_ : Fin 1) => y)

theorem EInv.init {M : ℝ} (he : φ.emin ≤ φ.emax) : EInv φ M EstFl.init [] := CInv.init he

theorem EInv.count {M : ℝ} {e : EstFl} {xs : List ℝ} (inv : EInv φ M e xs) : e.cov.n = xs.length := by
  rw [inv.mean.count, List.length_map]

theorem EInv.step (hn : φ.Nearest fl) {N : ℕ} {M : ℝ} (h : φ.FitsSq N M) {e : EstFl} {xs : List ℝ} (inv : EInv φ M e xs) {B : List ℝ × ℝ × ℝ}
    (hB : BatchOk φ fl M B) (hN : xs.length + B.1.length ≤ N) :
    ∃ e', e.update fl B.1 B.2.1 B.2.2 = .ok e' ∧ EInv φ M e' (xs ++ B.1) ∧ e'.delta = some (fl (e'.cov.mu 0 - e.cov.mu 0)) := by
  obtain ⟨c, h1, h2, -⟩ := CInv.step hn h (X := B.1.map fun y (_ : Fin 1) => y) (s := fun _ => B.2.1) (G := fun _ _ => B.2.2) inv (by simpa using hB.ne)
    (by
      intro i
      simp only [List.map_map, Function.comp_def, List.map_id']
      exact hB.sum)
    (by
      intro y hy i
      obtain ⟨z, hz, rfl⟩ := List.mem_map.1 hy
      exact hB.data z hz)
    (by rw [inv.count, List.length_map]; exact hN)
    (by
      intro i j
      have := hB.gram
      simpa only [centeredFl, batchMeanFl, List.map_map, Function.comp_def, List.length_map] using this)
  refine ⟨⟨c, some (fl (c.mu 0 - e.cov.mu 0))⟩, by simp only [EstFl.update, h1], ?_, rfl⟩
  show CInv φ M c _
  rw [List.map_append]
  exact h2

theorem EInv.history (hn : φ.Nearest fl) {N : ℕ} {M : ℝ} (h : φ.FitsSq N M) (H : List (List ℝ × ℝ × ℝ)) (hH : ∀ B ∈ H, BatchOk φ fl M B) :
    ∀ (e : EstFl) (xs : List ℝ), EInv φ M e xs → xs.length + (allObs H).length ≤ N →
      ∃ e', e.updates fl H = .ok e' ∧ EInv φ M e' (xs ++ allObs H) := by
  induction H with
  | nil => exact fun e xs inv _ => ⟨e, rfl, by simpa [allObs] using inv⟩
  | cons B H ih =>
    intro e xs inv hN
    have hc : allObs (B :: H) = B.1 ++ allObs H := by simp [allObs]
    rw [hc, List.length_append] at hN
    obtain ⟨e1, h1, h2, -⟩ := inv.step hn h (hH B (by simp)) (by omega)
    obtain ⟨e2, h3, h4⟩ := ih (fun B hB => hH B (by simp [hB])) e1 _ h2 (by rw [List.length_append]; omega)
    refine ⟨e2, ?_, by rw [hc, ← List.append_assoc]; exact h4⟩
    rw [EstFl.updates, List.foldlM_cons, h1]
    exact h3

/-- The mean and its error. -/
theorem EInv.mean_near {M : ℝ} {e : EstFl} {xs : List ℝ} (inv : EInv φ M e xs) (hx : xs ≠ []) :
    e.cov.mean = .val e.cov.mu ∧ φ.Mem (e.cov.mu 0) ∧ |e.cov.mu 0 - avgOf xs| ≤ 16 * xs.length * φ.u * M := by
  have h1 := inv.mean.mean_err (by simpa using hx) 0
  have h2 : sampleMean (xs.map fun y (_ : Fin 1) => y) 0 = avgOf xs := by simp [sampleMean, avgOf, Function.comp_def]
  rw [h2, List.length_map] at h1
  refine ⟨?_, inv.mean.mem 0, h1⟩
  have hl := List.length_pos_iff.2 hx
  have := inv.count
  unfold Covariance.mean
  rw [if_neg (by omega)]
  simp [inv.nan]

theorem listMean_le {M : ℝ} (xs : List ℝ) (h : ∀ x ∈ xs, |x| ≤ M) (hx : xs ≠ []) : |avgOf xs| ≤ M := by
  have h2 : sampleMean (xs.map fun y (_ : Fin 1) => y) 0 = avgOf xs := by simp [sampleMean, avgOf, Function.comp_def]
  rw [← h2]
  refine sampleMean_le _ ?_ (by simpa using hx) 0
  intro y hy i
  obtain ⟨z, hz, rfl⟩ := List.mem_map.1 hy
  exact h z hz

theorem EInv.bound {M : ℝ} {e : EstFl} {xs : List ℝ} (inv : EInv φ M e xs) : ∀ x ∈ xs, |x| ≤ M :=
  fun x hx => inv.mean.bound _ (List.mem_map.2 ⟨x, hx, rfl⟩) 0

/-- The variance and its error. -/
theorem EInv.var_near (hn : φ.Nearest fl) {M : ℝ} {e : EstFl} {xs : List ℝ} (h : φ.FitsSq xs.length M) (inv : EInv φ M e xs) (h3 : 3 ≤ xs.length) :
    ∃ S, e.cov.covarianceFl fl 1 = .ok (.val S) ∧ 0 ≤ S 0 0 ∧ φ.Mem (S 0 0) ∧
      |S 0 0 - sampleCov 1 (xs.map fun y (_ : Fin 1) => y) 0 0| ≤ (69 * xs.length ^ 2 / ((xs.length : ℝ) - 1) + 1) * (φ.u * M ^ 2) := by
  have hl : (xs.map fun y (_ : Fin 1) => y).length = xs.length := List.length_map _
  obtain ⟨S, s1, s2, s3, s4⟩ := CInv.cov_near hn (by rw [hl]; exact h) inv 1 (by rw [hl]; omega)
  refine ⟨S, s1, s2 0, s3 0 0, ?_⟩
  have := s4 0 0
  rwa [hl, Int.cast_one] at this

/-- The computed standard error. -/
theorem EInv.se_near (hn : φ.Nearest fl) {M : ℝ} {e : EstFl} {xs : List ℝ} (h : φ.FitsSq xs.length M) (inv : EInv φ M e xs) (h3 : 3 ≤ xs.length)
    (hr : RootOk φ root) :
    ∃ S, e.cov.covarianceFl fl 1 = .ok (.val S) ∧ 0 ≤ fl (root (S 0 0) / fl (Real.sqrt e.cov.n)) ∧ fl (root (S 0 0) / fl (Real.sqrt e.cov.n)) ≤ 2 * M ∧
      |fl (root (S 0 0) / fl (Real.sqrt e.cov.n)) ^ 2 - stdErr xs ^ 2| ≤ 130 * (φ.u * M ^ 2) := by
  obtain ⟨S, s1, s2, s3, s4⟩ := inv.var_near hn h h3
  have h3r : (3 : ℝ) ≤ xs.length := by exact_mod_cast h3
  have hl : (xs.map fun y (_ : Fin 1) => y).length = xs.length := List.length_map _
  have e1 : sampleCov 1 (xs.map fun y (_ : Fin 1) => y) 0 0 = devSum (xs.map fun y (_ : Fin 1) => y) 0 0 / ((xs.length : ℝ) - 1) := by
    unfold sampleCov devSum
    rw [hl]
    push_cast
    rfl
  have hV0 : 0 ≤ sampleCov 1 (xs.map fun y (_ : Fin 1) => y) 0 0 := by
    rw [e1]
    refine div_nonneg ?_ (by linarith)
    unfold devSum
    refine List.sum_nonneg ?_
    intro y hy
    obtain ⟨z, -, rfl⟩ := List.mem_map.1 hy
    exact mul_self_nonneg _
  have hV : sampleCov 1 (xs.map fun y (_ : Fin 1) => y) 0 0 ≤ 4 * xs.length / ((xs.length : ℝ) - 1) * M ^ 2 := by
    rw [e1, div_mul_eq_mul_div]
    refine div_le_div_of_nonneg_right ((le_abs_self _).trans ?_) (by linarith)
    have := devSum_le (M := M) (xs.map fun y (_ : Fin 1) => y) inv.mean.bound 0 0
    rwa [hl] at this
  obtain ⟨p1, p2, -, p4⟩ := stdErr_near (fl := fl) hn h h3 s2 hV s4 (hr _ s3 s2).2
  rw [inv.count]
  refine ⟨S, s1, p1, p2, ?_⟩
  rw [stdErr, div_pow, Real.sq_sqrt hV0, Real.sq_sqrt (by linarith)]
  exact p4

theorem le_of_one_sub_mul {u x c : ℝ} (hu : 0 ≤ u) (hu2 : u ≤ 1 / 2) (hx : 0 ≤ x) (h : (1 - u) * x ≤ c) : x ≤ (1 + 2 * u) * c := by
  have h1 := mul_le_mul_of_nonneg_left h (by linarith : 0 ≤ 1 + 2 * u)
  have h2 : 0 ≤ x * (u * (1 - 2 * u)) := mul_nonneg hx (mul_nonneg hu (by linarith))
  have h3 : (1 + 2 * u) * ((1 - u) * x) = x + x * (u * (1 - 2 * u)) := by ring
  linarith

/-- Rounding of a non-negative number, from above and from below. -/
theorem fl_bounds (hn : φ.Nearest fl) (he : φ.emin ≤ φ.emax) (hus : φ.u ≤ 1 / 4) {x : ℝ} (h0 : 0 ≤ x) (hx : x ≤ φ.top) :
    0 ≤ fl x ∧ x ≤ (1 + 2 * φ.u) * (fl x + φ.eta) ∧ fl x ≤ (1 + φ.u) * x + φ.eta := by
  have hu := φ.u_pos
  have h1 := hn.err he (x := x) (by rwa [abs_of_nonneg h0])
  rw [abs_of_nonneg h0] at h1
  obtain ⟨a1, a2⟩ := abs_le.1 h1
  have h2 := hn.nonneg he hx h0
  have := φ.eta_pos
  refine ⟨h2, ?_, by linarith⟩
  exact le_of_one_sub_mul hu.le (by linarith) h0 (by linarith)

end StatsFl

/-- A decision of `ConfidenceCriterion` explained by the exact mean and standard error of the observations: `score` times the standard error, or the standard
error relative to the mean, was compared with the tolerances, up to errors of the order of `√u M`. -/
structure Spec.ConfDecision (φ : Fmt) (M score atol rtol : ℝ) (xs : List ℝ) (b : Bool) : Prop where
  stop : b = true →
    score * stdErr xs ≤ (1 + 2 * φ.u) * (atol + φ.eta) + score * (12 * Real.sqrt φ.u * M) ∨
    stdErr xs ≤ (1 + 2 * φ.u) * (rtol + φ.eta) * (|avgOf xs| + 16 * xs.length * φ.u * M) + 12 * Real.sqrt φ.u * M
  go : b = false →
    atol ≤ (1 + φ.u) * (score * (stdErr xs + 12 * Real.sqrt φ.u * M)) + φ.eta ∧
    rtol * |avgOf xs| ≤ (1 + φ.u) * (stdErr xs + 12 * Real.sqrt φ.u * M) + 2 * φ.eta * M + rtol * (16 * xs.length * φ.u * M)

namespace StatsFl

theorem EInv.conf (hn : φ.Nearest fl) {M : ℝ} {e : EstFl} {xs : List ℝ} (h : φ.FitsSq xs.length M) (inv : EInv φ M e xs) (h3 : 3 ≤ xs.length)
    (hr : RootOk φ root) (c : ConfCrit) (score : ℝ) (hsc : score = if xs.length < 30 then c.tScores xs.length else c.z) (hs0 : 0 ≤ score)
    (hst : score * (2 * M) ≤ φ.top) (hr0 : 0 ≤ c.rtol) (hrt : c.rtol ≤ φ.top) :
    ∃ b, c.callFl φ.top fl root e = .ok b ∧ ConfDecision φ M score c.atol c.rtol xs b := by
  have hu := φ.u_pos
  have hη := φ.eta_pos
  have hM := M_pos h.toFits
  have h3r : (3 : ℝ) ≤ xs.length := by exact_mod_cast h3
  have hus : φ.u ≤ 1 / 768 := by
    have := h.small
    nlinarith
  have hx : xs ≠ [] := by rintro rfl; simp at h3
  obtain ⟨S, s1, s2, s3, s4⟩ := inv.se_near hn h h3 hr
  obtain ⟨m1, -, m3⟩ := inv.mean_near hx
  set se := fl (root (S 0 0) / fl (Real.sqrt e.cov.n)) with hse
  set m := e.cov.mu 0 with hm
  have hSE : 0 ≤ stdErr xs := by unfold stdErr; positivity
  have hnear := near_of_sq s2 hSE hu.le hM.le s4
  obtain ⟨n1, n2⟩ := abs_le.1 hnear
  set ρ := 12 * Real.sqrt φ.u * M with hρ
  have hρ0 : 0 ≤ ρ := by positivity
  set δ := 16 * (xs.length : ℝ) * φ.u * M with hδ
  have hδ0 : 0 ≤ δ := by positivity
  have hδM : δ ≤ M / 16 := by
    have := mul_le_mul_of_nonneg_right h.small hM.le
    have e : 16 * (xs.length : ℝ) * φ.u * M = 16 * (xs.length * φ.u * M) := by ring
    rw [hδ, e]
    linarith
  have hmean := listMean_le xs inv.bound hx
  have hma : |m| ≤ |avgOf xs| + δ := by
    have := abs_sub_abs_le_abs_sub m (avgOf xs)
    linarith
  have hmb : |avgOf xs| ≤ |m| + δ := by
    have := abs_sub_abs_le_abs_sub (avgOf xs) m
    rw [abs_sub_comm] at m3
    linarith
  have hsm : score * se ≤ φ.top := (mul_le_mul_of_nonneg_left s3 hs0).trans hst
  obtain ⟨f1, f2, f3⟩ := fl_bounds hn h.exp (by linarith) (mul_nonneg hs0 s2) hsm
  have herr : c.errorFl φ.top fl root e = .ok (.fin (fl (score * se)), (flDiv φ.top fl se m).abs) := by
    unfold ConfCrit.errorFl
    rw [if_neg (by rw [inv.count]; omega), s1]
    simp only [m1, ← hm, inv.count, ← hsc]
    rw [hse, inv.count]
  refine ⟨truth ((Fl.fin (fl (score * se))).le (.fin c.atol) ∨ (flDiv φ.top fl se m).abs.le (.fin c.rtol)), ?_, ?_, ?_⟩
  · unfold ConfCrit.callFl
    rw [herr]
  · intro hb
    rw [truth_eq_true] at hb
    rcases hb with hb | hb
    · left
      have hb' : fl (score * se) ≤ c.atol := hb
      have : (1 + 2 * φ.u) * (fl (score * se) + φ.eta) ≤ (1 + 2 * φ.u) * (c.atol + φ.eta) := mul_le_mul_of_nonneg_left (by linarith) (by linarith)
      have h4 : score * stdErr xs ≤ score * (se + ρ) := mul_le_mul_of_nonneg_left (by linarith) hs0
      rw [mul_add] at h4
      linarith
    · right
      unfold flDiv at hb
      by_cases hm0 : m = 0
      · exfalso
        rw [if_pos hm0] at hb
        unfold Fl.divFin at hb
        rw [if_pos hm0] at hb
        split_ifs at hb <;> simp [Fl.abs, Fl.le] at hb
      rw [if_neg hm0] at hb
      by_cases ht : φ.top < |se / m|
      · exfalso
        rw [if_pos ht] at hb
        split_ifs at hb <;> simp [Fl.abs, Fl.le] at hb
      rw [if_neg ht] at hb
      have hb' : |fl (se / m)| ≤ c.rtol := hb
      push Not at ht
      have h5 := hn.err h.exp ht
      have h6 := abs_sub_abs_le_abs_sub (se / m) (fl (se / m))
      rw [abs_sub_comm] at h5
      have hmp : 0 < |m| := abs_pos.2 hm0
      have h7 : |se / m| * |m| = se := by
        rw [abs_div, div_mul_cancel₀ _ hmp.ne', abs_of_nonneg s2]
      have h8 : (1 - φ.u) * |se / m| ≤ c.rtol + φ.eta := by linarith
      have h9 : |se / m| ≤ (1 + 2 * φ.u) * (c.rtol + φ.eta) := le_of_one_sub_mul hu.le (by linarith) (abs_nonneg _) h8
      have h12 : se ≤ (1 + 2 * φ.u) * (c.rtol + φ.eta) * |m| := by
        rw [← h7]
        exact mul_le_mul_of_nonneg_right h9 hmp.le
      have h13 : (1 + 2 * φ.u) * (c.rtol + φ.eta) * |m| ≤ (1 + 2 * φ.u) * (c.rtol + φ.eta) * (|avgOf xs| + δ) :=
        mul_le_mul_of_nonneg_left hma (by positivity)
      linarith
  · intro hb
    rw [truth_eq_false, not_or] at hb
    obtain ⟨b1, b2⟩ := hb
    constructor
    · have hb' : c.atol < fl (score * se) := lt_of_not_ge b1
      have h4 : score * se ≤ score * (stdErr xs + ρ) := mul_le_mul_of_nonneg_left (by linarith) hs0
      have h5 : (1 + φ.u) * (score * se) ≤ (1 + φ.u) * (score * (stdErr xs + ρ)) := mul_le_mul_of_nonneg_left h4 (by linarith)
      linarith
    · have key : c.rtol * |m| ≤ (1 + φ.u) * (stdErr xs + ρ) + 2 * φ.eta * M := by
        have hpos : 0 ≤ (1 + φ.u) * (stdErr xs + ρ) := by positivity
        have hpos2 : 0 ≤ 2 * φ.eta * M := by positivity
        have hse1 : (1 + φ.u) * se ≤ (1 + φ.u) * (stdErr xs + ρ) := mul_le_mul_of_nonneg_left (by linarith) (by linarith)
        by_cases hm0 : m = 0
        · rw [hm0, abs_zero, mul_zero]
          linarith
        have hmp : 0 < |m| := abs_pos.2 hm0
        have h7 : |se / m| * |m| = se := by
          rw [abs_div, div_mul_cancel₀ _ hmp.ne', abs_of_nonneg s2]
        by_cases ht : φ.top < |se / m|
        · have : c.rtol * |m| ≤ |se / m| * |m| := mul_le_mul_of_nonneg_right (by linarith) hmp.le
          rw [h7] at this
          have := le_mul_of_one_le_left s2 (by linarith : 1 ≤ 1 + φ.u)
          linarith
        unfold flDiv at b2
        rw [if_neg hm0, if_neg ht] at b2
        have hb' : c.rtol < |fl (se / m)| := lt_of_not_ge b2
        push Not at ht
        have h5 := hn.err h.exp ht
        have h6 := abs_sub_abs_le_abs_sub (fl (se / m)) (se / m)
        have h8 : c.rtol ≤ (1 + φ.u) * |se / m| + φ.eta := by linarith
        have h9 := mul_le_mul_of_nonneg_right h8 hmp.le
        have h10 : ((1 + φ.u) * |se / m| + φ.eta) * |m| = (1 + φ.u) * se + φ.eta * |m| := by
          rw [add_mul, mul_assoc, h7]
        rw [h10] at h9
        have h11 : φ.eta * |m| ≤ φ.eta * (2 * M) := mul_le_mul_of_nonneg_left (by linarith) hη.le
        linarith
      have h12 : c.rtol * |avgOf xs| ≤ c.rtol * (|m| + δ) := mul_le_mul_of_nonneg_left hmb hr0
      linarith

/-- The norm of an array with one element. -/
theorem norm1_near (hn : φ.Nearest fl) (he : φ.emin ≤ φ.emax) (hus : φ.u ≤ 1 / 4) (hη : φ.eta ≤ 1) {x : ℝ} (hx : 2 * x ^ 2 + 1 ≤ φ.top) :
    0 ≤ norm1Fl fl x ∧ abs (norm1Fl fl x - |x|) ≤ 4 * φ.u * |x| + 3 * Real.sqrt φ.eta := by
  have hu := φ.u_pos
  have hη0 := φ.eta_pos
  have hx0 : 0 ≤ x * x := mul_self_nonneg x
  have hxt : x * x ≤ φ.top := by nlinarith [sq_nonneg x]
  set r := Real.sqrt φ.eta with hr
  have hr0 : 0 ≤ r := Real.sqrt_nonneg _
  have hrsq : r ^ 2 = φ.eta := Real.sq_sqrt hη0.le
  have hηr : φ.eta ≤ r := by
    have : r ≤ 1 := by
      rw [hr, Real.sqrt_le_left (by norm_num)]
      linarith
    nlinarith
  have h1 := hn.err he (x := x * x) (by rwa [abs_of_nonneg hx0])
  rw [abs_of_nonneg hx0] at h1
  obtain ⟨a1, a2⟩ := abs_le.1 h1
  have hy0 := hn.nonneg he hxt hx0
  set y := fl (x * x) with hy
  have hax : 0 ≤ |x| := abs_nonneg x
  have hxx : x * x = |x| ^ 2 := by rw [sq_abs, sq]
  rw [hxx] at a1 a2
  have up : Real.sqrt y ≤ (1 + φ.u) * |x| + r := by
    rw [Real.sqrt_le_left (by positivity)]
    have t1 : 0 ≤ (1 + φ.u) * |x| * r := by positivity
    have t2 : 0 ≤ φ.u * |x| ^ 2 := by positivity
    have t3 : 0 ≤ φ.u ^ 2 * |x| ^ 2 := by positivity
    have t4 : ((1 + φ.u) * |x| + r) ^ 2 = |x| ^ 2 + 2 * (φ.u * |x| ^ 2) + φ.u ^ 2 * |x| ^ 2 + 2 * ((1 + φ.u) * |x| * r) + r ^ 2 := by ring
    rw [t4, hrsq]
    linarith
  have lo : (1 - φ.u) * |x| - r ≤ Real.sqrt y := by
    by_cases hc : (1 - φ.u) * |x| - r ≤ 0
    · exact hc.trans (Real.sqrt_nonneg _)
    push Not at hc
    refine Real.le_sqrt_of_sq_le ?_
    have h2 : ((1 - φ.u) * |x| - r) ^ 2 ≤ ((1 - φ.u) * |x|) ^ 2 - r ^ 2 := by nlinarith
    have h3 : ((1 - φ.u) * |x|) ^ 2 ≤ (1 - φ.u) * |x| ^ 2 := by
      have : (1 - φ.u) ^ 2 ≤ 1 - φ.u := by nlinarith
      rw [mul_pow]
      exact mul_le_mul_of_nonneg_right this (sq_nonneg _)
    rw [hrsq] at h2
    linarith
  have hyt : Real.sqrt y ≤ φ.top := by
    have h2 : y ≤ 2 * x ^ 2 + 1 := by
      rw [← sq_abs]
      nlinarith [sq_nonneg |x|]
    have h3 : Real.sqrt y ≤ 2 * x ^ 2 + 1 := by
      rw [Real.sqrt_le_left (by positivity)]
      nlinarith [sq_nonneg x]
    linarith
  have h4 := hn.err he (x := Real.sqrt y) (by rwa [abs_of_nonneg (Real.sqrt_nonneg _)])
  rw [abs_of_nonneg (Real.sqrt_nonneg _)] at h4
  obtain ⟨b1, b2⟩ := abs_le.1 h4
  have h5 : φ.u * Real.sqrt y ≤ φ.u * ((1 + φ.u) * |x| + r) := mul_le_mul_of_nonneg_left up hu.le
  have h6 : φ.u * ((1 + φ.u) * |x| + r) ≤ 5 / 4 * φ.u * |x| + 1 / 4 * r := by nlinarith [mul_nonneg hu.le hax]
  unfold norm1Fl
  refine ⟨hn.nonneg he hyt (Real.sqrt_nonneg _), ?_⟩
  rw [abs_le]
  have := mul_nonneg hu.le hax
  constructor <;> linarith

end StatsFl

/-- A decision of `ToleranceCriterion` explained by the exact means before (`old`) and after (`new`) the last update. -/
structure Spec.TolDecision (φ : Fmt) (M : ℝ) (n : ℕ) (rtol atol old new : ℝ) (b : Bool) : Prop where
  stop : b = true →
    |new - old| < atol + (48 * n * φ.u * M + 3 * Real.sqrt φ.eta) ∨
    |new - old| < (1 + φ.u) * (rtol * (|new| + 24 * n * φ.u * M + 3 * Real.sqrt φ.eta)) + φ.eta + (48 * n * φ.u * M + 3 * Real.sqrt φ.eta)
  go : b = false →
    atol ≤ |new - old| + (48 * n * φ.u * M + 3 * Real.sqrt φ.eta) ∧
    rtol * |new| ≤ (1 + 2 * φ.u) * (|new - old| + (48 * n * φ.u * M + 3 * Real.sqrt φ.eta) + φ.eta) + rtol * (24 * n * φ.u * M + 3 * Real.sqrt φ.eta)

namespace StatsFl

theorem tol_decision (hn : φ.Nearest fl) {M : ℝ} {n : ℕ} (hn0 : 0 < n) (h : φ.FitsSq n M) (htop : 18 * M ^ 2 + 1 ≤ φ.top) {m m' new old : ℝ} (hm : φ.Mem m) (hm' : φ.Mem m')
    (h1 : |m - new| ≤ 16 * n * φ.u * M) (h2 : |m' - old| ≤ 16 * n * φ.u * M) (hnew : |new| ≤ M) (hold : |old| ≤ M) (rtol atol : ℝ) (hr0 : 0 ≤ rtol)
    (hrt : rtol * (2 * M + 1) ≤ φ.top) :
    TolDecision φ M n rtol atol old new
      (truth (norm1Fl fl (fl (m - m')) < atol ∨ norm1Fl fl (fl (m - m')) < fl (rtol * norm1Fl fl m))) := by
  have hu := φ.u_pos
  have hη0 := φ.eta_pos
  have hM := M_pos h.toFits
  have hus := u_small h.toFits hn0
  have hn1 : (1 : ℝ) ≤ n := by exact_mod_cast hn0
  set D := (n : ℝ) * φ.u * M with hD
  have hD0 : 0 ≤ D := by positivity
  have huM : φ.u * M ≤ D := by
    rw [hD, mul_assoc]
    exact le_mul_of_one_le_left (by positivity) hn1
  have hDM : D ≤ 1 / 256 * M := mul_le_mul_of_nonneg_right h.small hM.le
  have e16 : 16 * (n : ℝ) * φ.u * M = 16 * D := by rw [hD]; ring
  rw [e16] at h1 h2
  have hη2 : φ.eta ≤ φ.u := (le_mul_of_one_le_left hη0.le hn1).trans h.etaN
  have hη1 : φ.eta ≤ 1 := by linarith
  set r := Real.sqrt φ.eta with hr
  have hr1 : 0 ≤ r := Real.sqrt_nonneg _
  have hr2 : r ≤ 1 / 10 := by
    rw [hr, Real.sqrt_le_left (by norm_num)]
    linarith
  have ma : |m| ≤ M + 16 * D := abs_le_of_close h1 hnew
  have mb : |m'| ≤ M + 16 * D := abs_le_of_close h2 hold
  have ms : |m - m'| ≤ 2 * (M + 16 * D) := by
    have := abs_sub m m'
    linarith
  have mt : |m - m'| ≤ φ.top := by
    refine ms.trans (le_trans ?_ h.top)
    have : 4 * 1 * M ≤ 4 * n * M := mul_le_mul_of_nonneg_right (by linarith) hM.le
    linarith
  have hde := hn.err_sub h.exp hm hm' mt
  have hd1 : |fl (m - m') - (m - m')| ≤ 3 * D := by
    have h3 : φ.u * |m - m'| ≤ φ.u * (9 / 4 * M) := mul_le_mul_of_nonneg_left (by linarith) hu.le
    linarith
  set δ := fl (m - m') with hδ
  have hd2 : |δ - (new - old)| ≤ 35 * D := by
    have t1 : δ - (new - old) = (δ - (m - m')) + ((m - new) - (m' - old)) := by ring
    rw [t1]
    have t2 := abs_add_le (δ - (m - m')) ((m - new) - (m' - old))
    have t3 := abs_sub (m - new) (m' - old)
    linarith
  have hno : |new - old| ≤ 2 * M := by
    have := abs_sub new old
    linarith
  have hδa : |δ| ≤ 3 * M := by
    have := abs_le_of_close hd2 hno
    linarith
  have hδs : 2 * δ ^ 2 + 1 ≤ φ.top := by
    have : δ ^ 2 ≤ (3 * M) ^ 2 := by
      rw [← sq_abs]
      exact pow_le_pow_left₀ (abs_nonneg _) hδa 2
    linarith
  have hms : 2 * m ^ 2 + 1 ≤ φ.top := by
    have : m ^ 2 ≤ (3 * M) ^ 2 := by
      rw [← sq_abs]
      exact pow_le_pow_left₀ (abs_nonneg _) (by linarith) 2
    linarith
  obtain ⟨-, hN1⟩ := norm1_near (fl := fl) hn h.exp (by linarith) hη1 hδs
  obtain ⟨hnrm0, hN2⟩ := norm1_near (fl := fl) hn h.exp (by linarith) hη1 hms
  rw [← hr] at hN1 hN2
  set error := norm1Fl fl δ with herror
  set nrm := norm1Fl fl m with hnrm
  have k1 : abs (error - |new - old|) ≤ 48 * D + 3 * r := by
    have t1 := abs_sub_le error |δ| |new - old|
    have t2 := (abs_abs_sub_abs_le δ (new - old))
    have t3 : φ.u * |δ| ≤ φ.u * (3 * M) := mul_le_mul_of_nonneg_left hδa hu.le
    linarith
  have k2 : abs (nrm - |new|) ≤ 24 * D + 3 * r := by
    have t1 := abs_sub_le nrm |m| |new|
    have t2 := (abs_abs_sub_abs_le m new)
    have t3 : φ.u * |m| ≤ φ.u * (2 * M) := mul_le_mul_of_nonneg_left (by linarith) hu.le
    linarith
  have e48 : 48 * (n : ℝ) * φ.u * M = 48 * D := by rw [hD]; ring
  have e24 : 24 * (n : ℝ) * φ.u * M = 24 * D := by rw [hD]; ring
  obtain ⟨k3, k4⟩ := abs_le.1 k1
  obtain ⟨k5, k6⟩ := abs_le.1 k2
  have hnrmt : rtol * nrm ≤ φ.top := (mul_le_mul_of_nonneg_left (by linarith) hr0).trans hrt
  obtain ⟨f1, f2, f3⟩ := fl_bounds hn h.exp (by linarith) (mul_nonneg hr0 hnrm0) hnrmt
  constructor
  · intro hb
    rw [truth_eq_true] at hb
    rw [e48, e24]
    rcases hb with hb | hb
    · left
      linarith
    · right
      have t1 : rtol * nrm ≤ rtol * (|new| + 24 * D + 3 * r) := mul_le_mul_of_nonneg_left (by linarith) hr0
      have t2 := mul_le_mul_of_nonneg_left t1 (by linarith : 0 ≤ 1 + φ.u)
      linarith
  · intro hb
    rw [truth_eq_false, not_or] at hb
    obtain ⟨b1, b2⟩ := hb
    push Not at b1 b2
    rw [e48, e24]
    refine ⟨by linarith, ?_⟩
    have t1 : rtol * |new| ≤ rtol * (nrm + (24 * D + 3 * r)) := mul_le_mul_of_nonneg_left (by linarith) hr0
    have t2 : (1 + 2 * φ.u) * (fl (rtol * nrm) + φ.eta) ≤ (1 + 2 * φ.u) * (|new - old| + (48 * D + 3 * r) + φ.eta) :=
      mul_le_mul_of_nonneg_left (by linarith) (by linarith)
    linarith

end StatsFl
end Primate
