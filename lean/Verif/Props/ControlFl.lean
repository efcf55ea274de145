import Verif.Model.ControlFl
import Verif.Props.CovFl
import Verif.Props.ControlVariates

/-!
# C164: control variates in rounded arithmetic
-/

noncomputable section

namespace Primate

open Spec StatsFl

variable {φ : Fmt} {fl : ℝ → ℝ} {k : ℕ} {solve : Matrix (Fin k) (Fin k) ℝ → (Fin k → ℝ) → Py (Fin k → ℝ)} {dot : List (ℝ × ℝ) → ℝ}

/-- What is assumed of the batches: representable observations of magnitude at most `M`, and kernels that add in some order. -/
structure Spec.CVData (φ : Fmt) (fl : ℝ → ℝ) (M : ℝ) (H : List (CVBatch k)) : Prop where
  fits : φ.FitsSq (H.map fun B => B.1).flatten.length M
  ne : ∀ B ∈ H, B.1 ≠ []
  sums : ∀ B ∈ H, ∀ i, SumOrder fl (B.1.map fun x => x i) (B.2.1 i)
  gram : ∀ B ∈ H, ∀ i j, DotOrder fl ((centeredFl fl B.1 B.2.1).map fun x => (x i, x j)) (B.2.2 i j)
  mem : ∀ B ∈ H, ∀ x ∈ B.1, ∀ i, φ.Mem (x i) ∧ |x i| ≤ M

/-- One update keeps the constants and updates the covariance. -/
theorem CVEst.updateFl_fields (s : CVEst k) (B : CVBatch k) : (s.updateFl fl solve B).2.ecv = s.ecv ∧ (s.updateFl fl solve B).2.estimateCor = s.estimateCor ∧
    (s.estimateCor = false → (s.updateFl fl solve B).2.alpha = s.alpha) ∧
    ∀ c, s.cov.updateRowsFl fl B.1 B.2.1 B.2.2 = .ok c → (s.updateFl fl solve B).2.cov = c ∧ (s.updateFl fl solve B).2.nSamples = c.n := by
  unfold CVEst.updateFl
  cases h1 : s.cov.updateRowsFl fl B.1 B.2.1 B.2.2 with
  | error e => simp
  | ok c =>
    cases h2 : c.covarianceFl fl 1 with
    | error e => simp [h2]
    | ok C =>
      simp only [h2]
      cases h3 : s.estimateCor with
      | false => simp
      | true =>
        simp only [if_true]
        cases h4 : cvAlphaFl fl solve C <;> simp

theorem CVEst.runFl_fields (H : List (CVBatch k)) (s : CVEst k) (c : Covariance ℝ (k + 1)) (hs : s.nSamples = s.cov.n) (hc : s.cov.updatesFl fl H = .ok c) :
    (s.runCatchingFl fl solve H).ecv = s.ecv ∧ (s.runCatchingFl fl solve H).estimateCor = s.estimateCor ∧
    (s.estimateCor = false → (s.runCatchingFl fl solve H).alpha = s.alpha) ∧ (s.runCatchingFl fl solve H).cov = c ∧ (s.runCatchingFl fl solve H).nSamples = c.n := by
  induction H generalizing s with
  | nil =>
    have : s.cov = c := Except.ok.inj hc
    exact ⟨rfl, rfl, fun _ => rfl, this, by rw [← this]; exact hs⟩
  | cons B H ih =>
    unfold Covariance.updatesFl at hc
    rw [List.foldlM_cons] at hc
    cases h1 : s.cov.updateRowsFl fl B.1 B.2.1 B.2.2 with
    | error e => rw [h1] at hc; exact absurd hc (by simp [bind, Except.bind])
    | ok c1 =>
      rw [h1] at hc
      obtain ⟨f1, f2, f3, f4⟩ := CVEst.updateFl_fields (fl := fl) (solve := solve) s B
      obtain ⟨g1, g2⟩ := f4 c1 h1
      obtain ⟨a1, a2, a3, a4, a5⟩ := ih (s.updateFl fl solve B).2 (by rw [g1, g2]) (by rw [g1]; exact hc)
      refine ⟨a1.trans f1, a2.trans f2, fun h => (a3 (f2.trans h)).trans (f3 h), a4, a5⟩

/-- The mean of the adjusted observations is the adjusted mean. -/
def Spec.cvAdjusted (xs : List (Fin (k + 1) → ℝ)) (a ecv : Fin k → ℝ) : ℝ := sampleMean xs 0 - ∑ i, a i * (sampleMean xs i.succ - ecv i)

/-- Error bound of the estimate for coefficients `a`: with `δ = 16 N u M` the error of the means. -/
def Spec.cvErr (φ : Fmt) (M : ℝ) (xs : List (Fin (k + 1) → ℝ)) (a ecv : Fin k → ℝ) : ℝ :=
  let δ := 16 * xs.length * φ.u * M
  φ.u * |cvAdjusted xs a ecv| + (1 + φ.u) * (δ + ∑ i, |a i| * δ + ((1 + φ.u) ^ (k + 1) - 1) * ∑ i, |a i| * (|sampleMean xs i.succ - ecv i| + δ) + (1 + φ.u) ^ k * (k * φ.eta))

/-- The final combination, for any coefficients. -/
theorem cv_estimate (hn : φ.Nearest fl) (hdot : ∀ l, l ≠ [] → DotOrder fl l (dot l)) (hk : k ≠ 0) {M : ℝ} {xs : List (Fin (k + 1) → ℝ)} (hfit : φ.Fits xs.length M) (hx : xs ≠ [])
    (hb : ∀ x ∈ xs, ∀ i, |x i| ≤ M) {mu : Fin (k + 1) → ℝ} (hmem : ∀ i, φ.Mem (mu i)) (hmu : ∀ i, |mu i - sampleMean xs i| ≤ 16 * xs.length * φ.u * M) (a ecv : Fin k → ℝ)
    (he : ∀ i, φ.Mem (ecv i) ∧ |ecv i| ≤ M) (htop : 2 * M + (1 + φ.u) ^ k * (3 * M * ∑ i, |a i| + k * φ.eta) ≤ φ.top) :
    |fl (mu 0 - dot (List.ofFn fun i => (a i, fl (mu i.succ - ecv i)))) - cvAdjusted xs a ecv| ≤ cvErr φ M xs a ecv := by
  have hu := φ.u_pos
  have heta := φ.eta_pos
  have hexp := hfit.exp
  have hM := M_pos hfit
  have hl : (1 : ℝ) ≤ xs.length := by exact_mod_cast List.length_pos_iff.2 hx
  have hus := u_small hfit (List.length_pos_iff.2 hx)
  set δ := 16 * xs.length * φ.u * M with hδ
  have hδ0 : 0 ≤ δ := by positivity
  have hδM : δ ≤ 1 / 16 * M := by
    have := mul_le_mul_of_nonneg_right hfit.small (show 0 ≤ 16 * M by linarith)
    have : δ = xs.length * φ.u * (16 * M) := by rw [hδ]; ring
    linarith
  have hm : ∀ i, |sampleMean xs i| ≤ M := fun i => by
    have := abs_sum_le_of_bound xs i hb
    unfold sampleMean
    rw [abs_div, Nat.abs_cast, div_le_iff₀ (by linarith)]
    linarith
  have hmuM : ∀ i, |mu i| ≤ 17 / 16 * M := fun i => by
    have := abs_sub_abs_le_abs_sub (mu i) (sampleMean xs i)
    linarith [hmu i, hm i]
  have h4 : 4 * M ≤ φ.top := by
    have := hfit.top
    have := mul_le_mul_of_nonneg_right hl hM.le
    linarith
  set w : Fin k → ℝ := fun i => fl (mu i.succ - ecv i) with hw
  set D : Fin k → ℝ := fun i => sampleMean xs i.succ - ecv i with hD
  have hwD : ∀ i, |w i - D i| ≤ δ + φ.u * (|D i| + δ) := fun i => by
    have h1 : |mu i.succ - ecv i| ≤ φ.top := by
      have := abs_sub (mu i.succ) (ecv i)
      linarith [hmuM i.succ, (he i).2]
    have h2 := hn.err_sub hexp (hmem i.succ) (he i).1 h1
    have h3 : |(mu i.succ - ecv i) - D i| ≤ δ := by
      have : (mu i.succ - ecv i) - D i = mu i.succ - sampleMean xs i.succ := by rw [hD]; ring
      rw [this]; exact hmu _
    have h5 := abs_sub_abs_le_abs_sub (mu i.succ - ecv i) (D i)
    have h6 := abs_sub_le (w i) (mu i.succ - ecv i) (D i)
    have h7 := mul_le_mul_of_nonneg_left (show |mu i.succ - ecv i| ≤ |D i| + δ by linarith) hu.le
    linarith
  have hw1 : ∀ i, |w i| ≤ (1 + φ.u) * (|D i| + δ) := fun i => by
    have := abs_sub_abs_le_abs_sub (w i) (D i)
    linarith [hwD i]
  have hDM : ∀ i, |D i| ≤ 2 * M := fun i => by
    have := abs_sub (sampleMean xs i.succ) (ecv i)
    linarith [hm i.succ, (he i).2]
  have hw3 : ∀ i, |w i| ≤ 3 * M := fun i => by
    have h1 := hw1 i
    have h2 := mul_le_mul (show 1 + φ.u ≤ 257 / 256 by linarith) (show |D i| + δ ≤ 33 / 16 * M by linarith [hDM i]) (by positivity) (by norm_num)
    linarith
  set L := List.ofFn fun i => (a i, w i) with hL
  have hLlen : L.length = k := by simp [hL]
  have hLne : L ≠ [] := by
    intro h0
    rw [h0] at hLlen
    exact hk hLlen.symm
  have hLabs : (L.map fun q => |q.1 * q.2|).sum = ∑ i, |a i| * |w i| := by
    rw [hL, List.map_ofFn, List.sum_ofFn]
    exact Finset.sum_congr rfl fun i _ => abs_mul _ _
  have hLsum : (L.map fun q => q.1 * q.2).sum = ∑ i, a i * w i := by
    rw [hL, List.map_ofFn, List.sum_ofFn]
    rfl
  have hA3 : ∑ i, |a i| * |w i| ≤ 3 * M * ∑ i, |a i| := by
    rw [Finset.mul_sum]
    refine Finset.sum_le_sum fun i _ => ?_
    have := mul_le_mul_of_nonneg_left (hw3 i) (abs_nonneg (a i))
    linarith
  have hP1 : (1 : ℝ) ≤ (1 + φ.u) ^ k := one_le_pow₀ (by linarith)
  have hbig : (1 + φ.u) ^ k * (∑ i, |a i| * |w i| + k * φ.eta) ≤ (1 + φ.u) ^ k * (3 * M * ∑ i, |a i| + k * φ.eta) :=
    mul_le_mul_of_nonneg_left (by linarith) (by linarith)
  obtain ⟨dmem, derr⟩ := DotOrder.err hn hexp (hdot L hLne) (by rw [hLabs, hLlen]; linarith)
  rw [hLabs, hLsum, hLlen] at derr
  set p := dot L
  set A := ∑ i, |a i| * (|D i| + δ) with hA
  have hAw : ∑ i, |a i| * |w i| ≤ (1 + φ.u) * A := by
    rw [hA, Finset.mul_sum]
    refine Finset.sum_le_sum fun i _ => ?_
    have := mul_le_mul_of_nonneg_left (hw1 i) (abs_nonneg (a i))
    linarith
  have hwsum : |∑ i, a i * w i - ∑ i, a i * D i| ≤ ∑ i, |a i| * δ + φ.u * A := by
    rw [← Finset.sum_sub_distrib, hA, Finset.mul_sum, ← Finset.sum_add_distrib]
    refine (Finset.abs_sum_le_sum_abs _ _).trans (Finset.sum_le_sum fun i _ => ?_)
    rw [← mul_sub, abs_mul]
    have := mul_le_mul_of_nonneg_left (hwD i) (abs_nonneg (a i))
    linarith
  set G := (1 + φ.u) ^ k with hG
  have hGs : (1 + φ.u) ^ (k + 1) = G * (1 + φ.u) := pow_succ _ _
  set Z := δ + ∑ i, |a i| * δ + ((1 + φ.u) ^ (k + 1) - 1) * A + G * (k * φ.eta) with hZ
  have hp : |p - ∑ i, a i * D i| ≤ Z - δ := by
    have h1 := abs_sub_le p (∑ i, a i * w i) (∑ i, a i * D i)
    have h2 := mul_le_mul_of_nonneg_left hAw (show 0 ≤ G - 1 by linarith)
    have h3 : (G - 1) * ((1 + φ.u) * A) + φ.u * A = ((1 + φ.u) ^ (k + 1) - 1) * A := by rw [hGs]; ring
    linarith
  have hE : cvAdjusted xs a ecv = sampleMean xs 0 - ∑ i, a i * D i := rfl
  have hq : |(mu 0 - p) - cvAdjusted xs a ecv| ≤ Z := by
    have : (mu 0 - p) - cvAdjusted xs a ecv = (mu 0 - sampleMean xs 0) - (p - ∑ i, a i * D i) := by rw [hE]; ring
    rw [this]
    have := abs_sub (mu 0 - sampleMean xs 0) (p - ∑ i, a i * D i)
    linarith [hmu 0]
  have hpt : |p| ≤ G * (3 * M * ∑ i, |a i| + k * φ.eta) := by
    have h1 := abs_sub_abs_le_abs_sub p (∑ i, a i * w i)
    have h2 : |∑ i, a i * w i| ≤ ∑ i, |a i| * |w i| := (Finset.abs_sum_le_sum_abs _ _).trans (Finset.sum_le_sum fun i _ => (abs_mul _ _).le)
    linarith
  have ht : |mu 0 - p| ≤ φ.top := by
    have := abs_sub (mu 0) p
    linarith [hmuM 0]
  have h1 := hn.err_sub hexp (hmem 0) dmem ht
  have h2 := abs_sub_le (fl (mu 0 - p)) (mu 0 - p) (cvAdjusted xs a ecv)
  have h3 := abs_sub_abs_le_abs_sub (mu 0 - p) (cvAdjusted xs a ecv)
  have h4 := mul_le_mul_of_nonneg_left (show |mu 0 - p| ≤ |cvAdjusted xs a ecv| + Z by linarith) hu.le
  show _ ≤ φ.u * |cvAdjusted xs a ecv| + (1 + φ.u) * Z
  linarith

/-- The adjusted mean is the mean of the adjusted observations. -/
theorem cvAdjusted_eq (xs : List (Fin (k + 1) → ℝ)) (hx : xs ≠ []) (a ecv : Fin k → ℝ) :
    cvAdjusted xs a ecv = (xs.map fun x => x 0 - ∑ i, a i * (x i.succ - ecv i)).sum / xs.length := by
  have hl : (xs.length : ℝ) ≠ 0 := by exact_mod_cast (List.length_pos_iff.2 hx).ne'
  have key : ∀ l : List (Fin (k + 1) → ℝ), (l.map fun x => x 0 - ∑ i, a i * (x i.succ - ecv i)).sum =
      (l.map fun x => x 0).sum - ∑ i, a i * ((l.map fun x => x i.succ).sum - l.length * ecv i) := by
    intro l
    induction l with
    | nil => simp
    | cons x l ih =>
      simp only [List.map_cons, List.sum_cons, ih, List.length_cons]
      have : ∑ i, a i * (x i.succ + (l.map fun x => x i.succ).sum - ((l.length + 1 : ℕ) : ℝ) * ecv i) =
          ∑ i, a i * (x i.succ - ecv i) + ∑ i, a i * ((l.map fun x => x i.succ).sum - l.length * ecv i) := by
        rw [← Finset.sum_add_distrib]
        refine Finset.sum_congr rfl fun i _ => ?_
        push_cast
        ring
      rw [this]
      ring
  rw [key, sub_div, Finset.sum_div]
  unfold cvAdjusted sampleMean
  congr 1
  refine Finset.sum_congr rfl fun i _ => ?_
  field_simp

theorem Spec.CVData.flatten_ne {M : ℝ} {H : List (CVBatch k)} (h : CVData φ fl M H) (hH : H ≠ []) : (H.map fun B => B.1).flatten ≠ [] := by
  obtain ⟨B, H', rfl⟩ := List.exists_cons_of_ne_nil hH
  have := h.ne B (by simp)
  simp [this]

theorem Spec.CVData.run {M : ℝ} (hn : φ.Nearest fl) {H : List (CVBatch k)} (h : CVData φ fl M H) :
    ∃ c, (Covariance.init ℝ (k + 1)).updatesFl fl H = .ok c ∧ CInv φ M c (H.map fun B => B.1).flatten := by
  obtain ⟨c, h1, h2, -⟩ := cov_history hn h.fits H h.ne h.sums h.gram h.mem (Covariance.init ℝ (k + 1)) [] (CInv.init h.fits.exp) (by simp [Covariance.init])
  rw [List.nil_append] at h2
  exact ⟨c, h1, h2⟩

theorem fin_transport {m n : ℕ} (h : m = n) (i : Fin m) : (h ▸ i : Fin n) = i.cast h := by
  subst h
  rfl

theorem updatesFl_concat {d : ℕ} {c0 c : Covariance ℝ d} {H : List (List (Fin d → ℝ) × (Fin d → ℝ) × Matrix (Fin d) (Fin d) ℝ)}
    {B : List (Fin d → ℝ) × (Fin d → ℝ) × Matrix (Fin d) (Fin d) ℝ} (hc : c0.updatesFl fl (H ++ [B]) = .ok c) :
    ∃ c1, c0.updatesFl fl H = .ok c1 ∧ c1.updateRowsFl fl B.1 B.2.1 B.2.2 = .ok c := by
  unfold Covariance.updatesFl at hc ⊢
  rw [List.foldlM_append] at hc
  cases h1 : List.foldlM (fun c B => c.updateRowsFl fl B.1 B.2.1 B.2.2) c0 H with
  | error e => rw [h1] at hc; exact absurd hc (by simp [bind, Except.bind])
  | ok c1 =>
    rw [h1] at hc
    refine ⟨c1, rfl, ?_⟩
    simp only [bind, Except.bind, List.foldlM_cons, List.foldlM_nil, pure, Except.pure] at hc
    cases h3 : c1.updateRowsFl fl B.1 B.2.1 B.2.2 with
    | error e => rw [h3] at hc; exact absurd hc (by simp)
    | ok c2 => rw [h3] at hc; exact hc

/-- **C164**, fixed coefficients: in any batching the estimate is the mean of the observations `y - alpha . (c - ecv)` up to `cvErr`. -/
theorem C164_fixed (hn : φ.Nearest fl) (hdot : ∀ l, l ≠ [] → DotOrder fl l (dot l)) (ecv a : List ℝ) (hl : ecv.length = a.length) (he0 : ecv ≠ []) (record : Bool) (M : ℝ)
    (H : List (CVBatch ecv.length)) (solve : Matrix (Fin ecv.length) (Fin ecv.length) ℝ → (Fin ecv.length → ℝ) → Py (Fin ecv.length → ℝ)) (h : CVData φ fl M H) (hH : H ≠ [])
    (he : ∀ e ∈ ecv, φ.Mem e ∧ |e| ≤ M)
    (htop : 2 * M + (1 + φ.u) ^ ecv.length * (3 * M * ∑ i : Fin ecv.length, |a.get (i.cast hl)| + ecv.length * φ.eta) ≤ φ.top) :
    ∃ s e, CVEst.init ecv (some a) record = .ok s ∧ (s.runCatchingFl fl solve H).nSamples = (H.map fun B => B.1).flatten.length ∧
      (s.runCatchingFl fl solve H).estimateFl fl dot = .ok (.val e) ∧
      |e - ((H.map fun B => B.1).flatten.map fun x => x 0 - ∑ i, a.get (i.cast hl) * (x i.succ - ecv.get i)).sum / (H.map fun B => B.1).flatten.length| ≤
        cvErr φ M (H.map fun B => B.1).flatten (fun i => a.get (i.cast hl)) ecv.get := by
  set xs := (H.map fun B => B.1).flatten with hxs
  have hx : xs ≠ [] := h.flatten_ne hH
  obtain ⟨c, hc, hinv⟩ := h.run hn
  rw [← hxs] at hinv
  set s : CVEst ecv.length := ⟨ecv.get, .val fun i => a.get (hl ▸ i), false, Covariance.init ℝ _, 0, record⟩ with hs
  have hinit : CVEst.init ecv (some a) record = .ok s := by simp [CVEst.init, hl, hs]
  obtain ⟨f1, f2, f3, f4, f5⟩ := CVEst.runFl_fields (fl := fl) (solve := solve) H s c rfl hc
  have hcast : (fun i : Fin ecv.length => a.get (hl ▸ i)) = fun i => a.get (i.cast hl) := by
    funext i
    rw [fin_transport]
  have hn0 : c.n ≠ 0 := by rw [hinv.mean.count]; exact (List.length_pos_iff.2 hx).ne'
  refine ⟨s, fl (c.mu 0 - dot (List.ofFn fun i => (a.get (Fin.cast hl i), fl (c.mu i.succ - ecv.get i)))), hinit, f5.trans hinv.mean.count, ?_, ?_⟩
  · unfold CVEst.estimateFl
    rw [if_neg (by rw [f5]; exact hn0), f3 rfl, f4, f1]
    simp only [hs, hcast, hinv.nan]
    rfl
  · rw [← cvAdjusted_eq xs hx (fun i => a.get (i.cast hl)) ecv.get]
    exact cv_estimate hn hdot (by simpa using he0) (by rw [hxs]; exact h.fits.toFits) hx hinv.mean.bound hinv.mean.mem (fun i => hinv.mean.mean_err hx i) _ _
      (fun i => he _ (List.get_mem _ _)) htop

/-- C164: with fixed coefficients an update with a nonempty batch raises no exception, a single first observation included. -/
theorem C164_fixed_ok (s : CVEst k) (hs : s.estimateCor = false) (B : CVBatch k) (hB : B.1 ≠ []) : (s.updateFl fl solve B).1 = .ok () := by
  have hl := List.length_pos_iff.2 hB
  unfold CVEst.updateFl Covariance.updateRowsFl
  simp only
  rw [if_neg (by omega), if_neg (by omega)]
  simp only [Covariance.covarianceFl, hs]
  split_ifs <;> simp_all

/-- C164: with coefficients to be estimated, a single first observation raises `TypeError`, as in exact arithmetic (C19). -/
theorem C164_first_observation (s : CVEst k) (hs : s.estimateCor = true) (h0 : s.cov.n = 0) (x : Fin (k + 1) → ℝ) (t : Fin (k + 1) → ℝ) (G : Matrix (Fin (k + 1)) (Fin (k + 1)) ℝ) :
    (s.updateFl fl solve ([x], t, G)).1 = .error .type := by
  unfold CVEst.updateFl Covariance.updateRowsFl
  simp [Covariance.covarianceFl, hs, h0, cvAlphaFl]

/-- Error bound of an entry of the computed covariance. -/
def Spec.covErr (φ : Fmt) (M : ℝ) (N : ℕ) : ℝ := (69 * (N : ℝ) ^ 2 / ((N : ℝ) - 1) + 1) * (φ.u * M ^ 2)

/-- C164: the estimate before any observation is NaN; if the exception of a single first observation is caught, the observation is counted and reading the estimate raises `TypeError`. -/
theorem C164_early (ecv : List ℝ) (record : Bool) (solve : Matrix (Fin ecv.length) (Fin ecv.length) ℝ → (Fin ecv.length → ℝ) → Py (Fin ecv.length → ℝ))
    (x t : Fin (ecv.length + 1) → ℝ) (G : Matrix (Fin (ecv.length + 1)) (Fin (ecv.length + 1)) ℝ) :
    ∃ s, CVEst.init ecv none record = .ok s ∧ s.estimateFl fl dot = .ok .nan ∧ (s.runCatchingFl fl solve [([x], t, G)]).nSamples = 1 ∧
      (s.runCatchingFl fl solve [([x], t, G)]).estimateFl fl dot = .error .type := by
  refine ⟨_, rfl, by simp [CVEst.estimateFl], ?_, ?_⟩
  · simp [CVEst.runCatchingFl, CVEst.updateFl, Covariance.updateRowsFl, Covariance.covarianceFl, cvAlphaFl, Covariance.init]
  · simp [CVEst.estimateFl, CVEst.runCatchingFl, CVEst.updateFl, Covariance.updateRowsFl, Covariance.covarianceFl, cvAlphaFl, Covariance.init]

/-- **C164**, any number of control variates and any coefficients the state holds: the estimate is the adjusted mean for those coefficients up to `cvErr`. -/
theorem C164_any (hn : φ.Nearest fl) (hdot : ∀ l, l ≠ [] → DotOrder fl l (dot l)) (hk : k ≠ 0) (M : ℝ) (H : List (CVBatch k)) (s : CVEst k) (hs : s.nSamples = 0)
    (hs' : s.cov = Covariance.init ℝ (k + 1)) (h : CVData φ fl M H) (hH : H ≠ []) (he : ∀ i, φ.Mem (s.ecv i) ∧ |s.ecv i| ≤ M) (al : Fin k → ℝ)
    (hal : (s.runCatchingFl fl solve H).alpha = .val al) (htop : 2 * M + (1 + φ.u) ^ k * (3 * M * ∑ i, |al i| + k * φ.eta) ≤ φ.top) :
    ∃ e, (s.runCatchingFl fl solve H).estimateFl fl dot = .ok (.val e) ∧ |e - cvAdjusted (H.map fun B => B.1).flatten al s.ecv| ≤ cvErr φ M (H.map fun B => B.1).flatten al s.ecv := by
  set xs := (H.map fun B => B.1).flatten with hxs
  have hx : xs ≠ [] := h.flatten_ne hH
  obtain ⟨c, hc, hinv⟩ := h.run hn
  rw [← hxs] at hinv
  obtain ⟨f1, f2, -, f4, f5⟩ := CVEst.runFl_fields (fl := fl) (solve := solve) H s c (by rw [hs, hs']; rfl) (by rw [hs']; exact hc)
  have hn0 : c.n ≠ 0 := by rw [hinv.mean.count]; exact (List.length_pos_iff.2 hx).ne'
  refine ⟨fl (c.mu 0 - dot (List.ofFn fun i => (al i, fl (c.mu i.succ - s.ecv i)))), ?_, ?_⟩
  · unfold CVEst.estimateFl
    rw [if_neg (by rw [f5]; exact hn0), hal, f4, f1]
    simp only [hinv.nan]
    rfl
  · exact cv_estimate hn hdot hk (by rw [hxs]; exact h.fits.toFits) hx hinv.mean.bound hinv.mean.mem (fun i => hinv.mean.mean_err hx i) _ _ he htop

/-- **C164**, two or more control variates with estimated coefficients: they are what `np.linalg.solve` returns for a system whose matrix and right hand side are within
`covErr` of the sample covariances; an exception of `solve` comes out of `update`. -/
theorem C164_system (hn : φ.Nearest fl) (hk : 2 ≤ k) (M : ℝ) (H : List (CVBatch k)) (B : CVBatch k) (s : CVEst k) (hs : s.nSamples = 0)
    (hs' : s.cov = Covariance.init ℝ (k + 1)) (hcor : s.estimateCor = true) (h : CVData φ fl M (H ++ [B])) (xs : List (Fin (k + 1) → ℝ))
    (hxs : xs = ((H ++ [B]).map fun B => B.1).flatten) (h2 : 2 ≤ xs.length) :
    ∃ C : Matrix (Fin (k + 1)) (Fin (k + 1)) ℝ, (∀ i j, |C i j - sampleCov 1 xs i j| ≤ covErr φ M xs.length) ∧
      (∀ a, solve (fun i j => C i.succ j.succ) (fun i => C i.succ 0) = .ok a →
        ((s.runCatchingFl fl solve H).updateFl fl solve B).1 = .ok () ∧ (s.runCatchingFl fl solve (H ++ [B])).alpha = .val a) ∧
      (∀ e, solve (fun i j => C i.succ j.succ) (fun i => C i.succ 0) = .error e →
        ((s.runCatchingFl fl solve H).updateFl fl solve B).1 = .error e ∧ (s.runCatchingFl fl solve (H ++ [B])).alpha = (s.runCatchingFl fl solve H).alpha) := by
  obtain ⟨c, hc, hinv⟩ := h.run hn
  rw [← hxs] at hinv
  have hfit : φ.FitsSq xs.length M := by rw [hxs]; exact h.fits
  obtain ⟨C, hC, -, -, hCe⟩ := hinv.cov_near hn hfit 1 (by omega)
  have hrun : s.runCatchingFl fl solve (H ++ [B]) = ((s.runCatchingFl fl solve H).updateFl fl solve B).2 := by
    unfold CVEst.runCatchingFl
    rw [List.foldl_append]
    rfl
  obtain ⟨c1, hc1, hc2⟩ := updatesFl_concat hc
  obtain ⟨-, g2, -, g4, -⟩ := CVEst.runFl_fields (fl := fl) (solve := solve) H s c1 (by rw [hs, hs']; rfl) (by rw [hs']; exact hc1)
  refine ⟨C, fun i j => by have := hCe i j; push_cast at this; exact this, fun a ha => ?_, fun e ha => ?_⟩ <;>
  · rw [hrun]
    unfold CVEst.updateFl
    rw [g4, hc2]
    simp only [hC]
    rw [g2, hcor]
    simp only [if_true, cvAlphaFl]
    rw [if_neg (by omega), if_neg (by omega), ha]
    exact ⟨rfl, rfl⟩

/-- **C164**, one control variate with estimated coefficient: if the sample variance `V` of the control is at least twice the error of the computed covariances, the coefficient is
`cov(y, c) / V` up to the bound below, and the estimate is the value of the regression line at `ecv` up to `cvErr` and the effect of the error of the coefficient. -/
theorem C164_estimated (hn : φ.Nearest fl) (hdot : ∀ l, l ≠ [] → DotOrder fl l (dot l)) (e0 : ℝ) (record : Bool) (M : ℝ) (H : List (CVBatch 1)) (B : CVBatch 1)
    (solve : Matrix (Fin 1) (Fin 1) ℝ → (Fin 1 → ℝ) → Py (Fin 1 → ℝ)) (h : CVData φ fl M (H ++ [B])) (he : φ.Mem e0 ∧ |e0| ≤ M) (xs : List (Fin 2 → ℝ))
    (hxs : xs = ((H ++ [B]).map fun B => B.1).flatten) (h2 : 2 ≤ xs.length) (hV : 2 * covErr φ M xs.length ≤ sampleCov 1 xs 1 1) (α : ℝ)
    (hα : α = sampleCov 1 xs 0 1 / sampleCov 1 xs 1 1) (hαt : 2 * |α| + 1 ≤ φ.top)
    (htop : 2 * M + (1 + φ.u) * (3 * M * (2 * (2 * |α| + 1) + φ.eta) + φ.eta) ≤ φ.top) :
    ∃ s al e, CVEst.init [e0] none record = .ok s ∧ (s.runCatchingFl fl solve (H ++ [B])).alpha = .val al ∧
      |al 0 - α| ≤ φ.u * |α| + (1 + φ.u) * (2 * covErr φ M xs.length * (1 + |α|) / sampleCov 1 xs 1 1) + φ.eta ∧
      (s.runCatchingFl fl solve (H ++ [B])).estimateFl fl dot = .ok (.val e) ∧
      |e - (sampleMean xs 0 - α * (sampleMean xs 1 - e0))| ≤ cvErr φ M xs al (fun _ => e0) + |al 0 - α| * |sampleMean xs 1 - e0| := by
  have hu := φ.u_pos
  have heta := φ.eta_pos
  have hx : xs ≠ [] := by intro h0; rw [h0] at h2; simp at h2
  have hM := M_pos h.fits.toFits
  obtain ⟨c, hc, hinv⟩ := h.run hn
  rw [← hxs] at hinv
  have hfit : φ.FitsSq xs.length M := by rw [hxs]; exact h.fits
  have hus := u_small hfit.toFits (by omega)
  set s : CVEst 1 := ⟨fun _ => e0, .unset, true, Covariance.init ℝ _, 0, record⟩ with hs
  have hinit : CVEst.init [e0] none record = .ok s := by
    simp only [CVEst.init, hs]
    congr 2
    funext i
    have : i = 0 := Subsingleton.elim (α := Fin 1) _ _
    rw [this]
    rfl
  obtain ⟨f1, f2, -, f4, f5⟩ := CVEst.runFl_fields (fl := fl) (solve := solve) (H ++ [B]) s c rfl hc
  obtain ⟨C, hC, -, -, hCe⟩ := hinv.cov_near hn hfit 1 (by omega)
  set E := covErr φ M xs.length with hE
  have hCe' : ∀ i j, |C i j - sampleCov 1 xs i j| ≤ E := fun i j => by
    have := hCe i j
    push_cast at this
    exact this
  set V := sampleCov 1 xs 1 1 with hVd
  set cc := sampleCov 1 xs 0 1 with hcc
  have hE0 : 0 < E := by
    have : (0 : ℝ) < (xs.length : ℝ) - 1 := by
      have : (2 : ℝ) ≤ xs.length := by exact_mod_cast h2
      linarith
    rw [hE]
    unfold covErr
    positivity
  have V0 : 0 < V := by linarith
  obtain ⟨w1, w2⟩ := abs_le.1 (hCe' 1 1)
  have hW : V / 2 ≤ C 1 1 := by linarith
  have W0 : 0 < C 1 1 := by linarith
  -- the alpha
  have halpha : (s.runCatchingFl fl solve (H ++ [B])).alpha = .val fun _ => fl (C 0 1 / C 1 1) := by
    have hrun : s.runCatchingFl fl solve (H ++ [B]) = ((s.runCatchingFl fl solve H).updateFl fl solve B).2 := by
      unfold CVEst.runCatchingFl
      rw [List.foldl_append]
      rfl
    obtain ⟨c1, hc1, hc2⟩ := updatesFl_concat hc
    obtain ⟨-, g2, -, g4, -⟩ := CVEst.runFl_fields (fl := fl) (solve := solve) H s c1 rfl hc1
    rw [hrun]
    unfold CVEst.updateFl
    rw [g4, hc2]
    simp only [hC]
    rw [g2]
    simp only [hs, if_true, cvAlphaFl]
    rw [if_neg one_ne_zero, if_neg]
    · simp only
      congr 1
      funext i
      have : i = 0 := Subsingleton.elim (α := Fin 1) _ _
      rw [this]
      rfl
    · rintro ⟨i, hi⟩
      have : i = 0 := Subsingleton.elim (α := Fin 1) _ _
      rw [this] at hi
      exact W0.ne' hi
  have hq : |C 0 1 / C 1 1 - α| ≤ 2 * E * (1 + |α|) / V := by
    have e1 : C 0 1 / C 1 1 - α = ((C 0 1 - cc) - α * (C 1 1 - V)) / C 1 1 := by
      rw [hα]; field_simp; ring
    rw [e1, abs_div, abs_of_pos W0, div_le_div_iff₀ W0 V0]
    have e2 := abs_sub (C 0 1 - cc) (α * (C 1 1 - V))
    rw [abs_mul] at e2
    have e3 := mul_le_mul_of_nonneg_left (hCe' 1 1) (abs_nonneg α)
    have e4 : |C 0 1 - cc - α * (C 1 1 - V)| ≤ E * (1 + |α|) := by linarith [hCe' 0 1]
    have e5 := mul_le_mul e4 (le_refl V) V0.le (by positivity)
    have e6 := mul_le_mul_of_nonneg_left hW (show 0 ≤ 2 * (E * (1 + |α|)) by positivity)
    linarith
  have hq1 : 2 * E * (1 + |α|) / V ≤ 1 + |α| := by
    rw [div_le_iff₀ V0]
    have := mul_le_mul_of_nonneg_right hV (show 0 ≤ 1 + |α| by positivity)
    linarith
  have hqa : |C 0 1 / C 1 1| ≤ |α| + 2 * E * (1 + |α|) / V := by
    have := abs_sub_abs_le_abs_sub (C 0 1 / C 1 1) α
    linarith
  have hqt : |C 0 1 / C 1 1| ≤ φ.top := by linarith
  have hr := hn.err hfit.exp hqt
  set al := fl (C 0 1 / C 1 1) with hal
  have hale : |al - α| ≤ φ.u * |α| + (1 + φ.u) * (2 * E * (1 + |α|) / V) + φ.eta := by
    have := abs_sub_le al (C 0 1 / C 1 1) α
    have := mul_le_mul_of_nonneg_left hqa hu.le
    linarith
  have halb : |al| ≤ 2 * (2 * |α| + 1) + φ.eta := by
    have k1 := abs_sub_abs_le_abs_sub al (C 0 1 / C 1 1)
    have k2 := mul_le_mul (show φ.u ≤ 1 by linarith) (show |C 0 1 / C 1 1| ≤ 2 * |α| + 1 by linarith) (abs_nonneg _) zero_le_one
    have k3 : |C 0 1 / C 1 1| ≤ 2 * |α| + 1 := by linarith
    linarith
  have hn0 : c.n ≠ 0 := by rw [hinv.mean.count]; omega
  refine ⟨s, fun _ => al, fl (c.mu 0 - dot (List.ofFn fun i : Fin 1 => (al, fl (c.mu i.succ - e0)))), hinit, halpha, hale, ?_, ?_⟩
  · unfold CVEst.estimateFl
    rw [if_neg (by rw [f5]; exact hn0), halpha, f4, f1]
    simp only [hinv.nan]
    rfl
  · have k1 := cv_estimate hn hdot one_ne_zero hfit.toFits hx hinv.mean.bound hinv.mean.mem (fun i => hinv.mean.mean_err hx i) (fun _ : Fin 1 => al) (fun _ => e0) (fun _ => he) (by
      rw [Fin.sum_univ_one, pow_one, Nat.cast_one, one_mul]
      have := mul_le_mul_of_nonneg_left halb (show 0 ≤ 3 * M by linarith)
      have := mul_le_mul_of_nonneg_left (show 3 * M * |al| + φ.eta ≤ 3 * M * (2 * (2 * |α| + 1) + φ.eta) + φ.eta by linarith) (show 0 ≤ 1 + φ.u by linarith)
      linarith)
    have k2 : cvAdjusted xs (fun _ : Fin 1 => al) (fun _ => e0) - (sampleMean xs 0 - α * (sampleMean xs 1 - e0)) = -((al - α) * (sampleMean xs 1 - e0)) := by
      unfold cvAdjusted
      rw [Fin.sum_univ_one]
      show sampleMean xs 0 - al * (sampleMean xs 1 - e0) - _ = _
      ring
    have k3 := abs_sub_le (fl (c.mu 0 - dot (List.ofFn fun i : Fin 1 => (al, fl (c.mu i.succ - e0))))) (cvAdjusted xs (fun _ : Fin 1 => al) (fun _ => e0))
      (sampleMean xs 0 - α * (sampleMean xs 1 - e0))
    rw [k2, abs_neg, abs_mul] at k3
    linarith

/-- One observation as a batch. -/
def cvSingle (fl : ℝ → ℝ) (v : Fin (k + 1) → ℝ) : CVBatch k := ([v], v, fun i j => fl (fl (v i - fl (v i / ((1 : ℕ) : ℝ))) * fl (v j - fl (v j / ((1 : ℕ) : ℝ)))))

/-- With a constant control nothing accumulates in its row of `S`, and its mean is exact. -/
theorem constant_step (hn : φ.Nearest fl) (he : φ.emin ≤ φ.emax) (h1 : φ.Mem 1) {c : ℝ} (hc : φ.Mem c) (m : Covariance ℝ 2) (hnan : m.nan = false) (hS : ∀ i, m.S i 1 = 0)
    (h0 : m.n = 0 → m.mu 1 = 0) (hm : m.n ≠ 0 → m.mu 1 = c) (v : Fin 2 → ℝ) (hv : v 1 = c) :
    ∃ m', m.updateRowsFl fl (cvSingle (k := 1) fl v).1 (cvSingle (k := 1) fl v).2.1 (cvSingle (k := 1) fl v).2.2 = .ok m' ∧ m'.n = m.n + 1 ∧ m'.nan = false ∧ (∀ i, m'.S i 1 = 0) ∧ m'.mu 1 = c := by
  have z := hn.zero he
  have e1 := hn.eq_self h1
  have ec := hn.eq_self hc
  have bm : batchMeanFl fl [v] v 1 = c := by simp [batchMeanFl, hv, ec]
  refine ⟨_, rfl, rfl, hnan, fun i => ?_, ?_⟩
  · simp only [cvSingle, hS, hv, Nat.cast_one, div_one, ec, sub_self, z, mul_zero, zero_add]
    by_cases hz : m.n = 0
    · simp [hz, z]
    · rw [bm, hm hz]
      simp [z]
  · show meanStepFl fl m.n [v].length (m.mu 1) (batchMeanFl fl [v] v 1) = c
    rw [bm]
    unfold meanStepFl
    by_cases hz : m.n = 0
    · rw [h0 hz, hz]
      simp [e1, ec]
    · rw [hm hz]
      simp [z, ec]

/-- **C164**, constant control: observations one by one whose control never changes give, from the second on, the coefficient and the estimate NaN, whatever the values observed. -/
theorem C164_constant (hn : φ.Nearest fl) (he : φ.emin ≤ φ.emax) (h1 : φ.Mem 1) (c : ℝ) (hc : φ.Mem c) (e0 : ℝ) (record : Bool) (solve : Matrix (Fin 1) (Fin 1) ℝ → (Fin 1 → ℝ) → Py (Fin 1 → ℝ))
    (vs : List (Fin 2 → ℝ)) (hv : ∀ v ∈ vs, v 1 = c) (h2 : 2 ≤ vs.length) :
    ∃ s, CVEst.init [e0] none record = .ok s ∧ (s.runCatchingFl fl solve (vs.map (cvSingle (k := 1) fl))).alpha = .nan ∧
      (s.runCatchingFl fl solve (vs.map (cvSingle (k := 1) fl))).estimateFl fl dot = .ok .nan := by
  have key : ∀ (vs : List (Fin 2 → ℝ)) (m : Covariance ℝ 2), (∀ v ∈ vs, v 1 = c) → m.nan = false → (∀ i, m.S i 1 = 0) → (m.n = 0 → m.mu 1 = 0) → (m.n ≠ 0 → m.mu 1 = c) →
      ∃ m', m.updatesFl fl (vs.map (cvSingle (k := 1) fl)) = .ok m' ∧ m'.n = m.n + vs.length ∧ m'.nan = false ∧ ∀ i, m'.S i 1 = 0 := by
    intro vs
    induction vs with
    | nil => intro m _ a b _ _; exact ⟨m, rfl, rfl, a, b⟩
    | cons v vs ih =>
      intro m hv a b c0 c1
      obtain ⟨m1, g1, g2, g3, g4, g5⟩ := constant_step hn he h1 hc m a b c0 c1 v (hv v (by simp))
      obtain ⟨m2, k1, k2, k3, k4⟩ := ih m1 (fun w hw => hv w (by simp [hw])) g3 g4 (fun h => by omega) (fun _ => g5)
      refine ⟨m2, ?_, by rw [k2, g2, List.length_cons]; omega, k3, k4⟩
      unfold Covariance.updatesFl at k1 ⊢
      rw [List.map_cons, List.foldlM_cons, g1]
      exact k1
  obtain ⟨m, hm, mn, mnan, mS⟩ := key vs (Covariance.init ℝ 2) hv rfl (fun _ => rfl) (fun _ => rfl) (fun h => absurd rfl h)
  have hn2 : 2 ≤ m.n := by rw [mn]; exact h2.trans (Nat.le_add_left _ _)
  set s : CVEst 1 := ⟨([e0] : List ℝ).get, .unset, true, Covariance.init ℝ _, 0, record⟩ with hs
  obtain ⟨f1, f2, -, f4, f5⟩ := CVEst.runFl_fields (fl := fl) (solve := solve) (vs.map (cvSingle (k := 1) fl)) s m rfl hm
  have hal : (s.runCatchingFl fl solve (vs.map (cvSingle (k := 1) fl))).alpha = .nan := by
    obtain ⟨ws, w, rfl⟩ : ∃ ws w, vs = ws ++ [w] := by
      rcases List.eq_nil_or_concat vs with rfl | ⟨ws, w, rfl⟩
      · simp at h2
      · exact ⟨ws, w, by simp⟩
    rw [List.map_append, List.map_cons, List.map_nil] at hm ⊢
    obtain ⟨m1, hm1, hm2⟩ := updatesFl_concat hm
    obtain ⟨-, g2, -, g4, -⟩ := CVEst.runFl_fields (fl := fl) (solve := solve) (ws.map (cvSingle (k := 1) fl)) s m1 rfl hm1
    have hrun : s.runCatchingFl fl solve (ws.map (cvSingle (k := 1) fl) ++ [cvSingle (k := 1) fl w]) =
        ((s.runCatchingFl fl solve (ws.map (cvSingle (k := 1) fl))).updateFl fl solve (cvSingle (k := 1) fl w)).2 := by
      unfold CVEst.runCatchingFl
      rw [List.foldl_append]
      rfl
    have hC : m.covarianceFl fl 1 = .ok (.val fun i j => fl (m.S i j / (((m.n : ℤ) - 1 : ℤ) : ℝ))) := by
      unfold Covariance.covarianceFl
      rw [if_neg (by omega), mnan]
      rfl
    rw [hrun]
    unfold CVEst.updateFl
    rw [g4, hm2]
    simp only [hC]
    rw [g2]
    simp only [hs, if_true, cvAlphaFl]
    rw [if_neg one_ne_zero, if_pos ⟨0, by
      show fl (m.S 1 1 / _) = 0
      rw [mS, zero_div, hn.zero he]⟩]
  refine ⟨s, rfl, hal, ?_⟩
  unfold CVEst.estimateFl
  rw [if_neg (by rw [f5]; omega), hal]

/-- Concrete case of `C164_constant`: the pairs (1, 5) and (2, 5) in double precision. -/
example (fl : ℝ → ℝ) (hn : binary64.Nearest fl) (solve : Matrix (Fin 1) (Fin 1) ℝ → (Fin 1 → ℝ) → Py (Fin 1 → ℝ)) :
    ∃ s, CVEst.init [4] none true = .ok s ∧ (s.runCatchingFl fl solve ([![1, 5], ![2, 5]].map (cvSingle (k := 1) fl))).estimateFl fl dot = .ok .nan := by
  have m1 := binary64_mem_int 1 (by norm_num)
  have m5 := binary64_mem_int 5 (by norm_num)
  push_cast at m1 m5
  obtain ⟨s, h1, -, h3⟩ := C164_constant (dot := dot) hn (binary64_fitsSq 1 (by norm_num) 1 (by
    have : (2 : ℝ) ^ (-500 : ℤ) ≤ (2 : ℝ) ^ (0 : ℤ) := zpow_le_zpow_right₀ (by norm_num) (by norm_num)
    rwa [zpow_zero] at this) (one_le_zpow₀ (by norm_num) (by norm_num))).exp m1 5 m5 4 true solve [![1, 5], ![2, 5]] (by simp) (by simp)
  exact ⟨s, h1, h3⟩

/-- Small integers in double precision, one observation at a time, satisfy the assumptions. -/
theorem cvData_int (fl : ℝ → ℝ) (vs : List (Fin (k + 1) → ℤ)) (hl : vs.length ≤ 2 ^ 45) (hv : ∀ v ∈ vs, ∀ i, |v i| ≤ 8) :
    CVData binary64 fl 8 (vs.map fun v => cvSingle fl fun i => (v i : ℝ)) := by
  have hM : (2 : ℝ) ^ (-500 : ℤ) ≤ 8 := by
    have : (2 : ℝ) ^ (-500 : ℤ) ≤ (2 : ℝ) ^ (0 : ℤ) := zpow_le_zpow_right₀ (by norm_num) (by norm_num)
    rw [zpow_zero] at this
    linarith
  have hM' : (8 : ℝ) ≤ (2 : ℝ) ^ (450 : ℤ) := by
    have : (2 : ℝ) ^ (3 : ℤ) ≤ (2 : ℝ) ^ (450 : ℤ) := zpow_le_zpow_right₀ (by norm_num) (by norm_num)
    refine le_trans (le_of_eq (by norm_num)) this
  refine ⟨?_, ?_, ?_, ?_, ?_⟩
  · have : ((vs.map fun v => cvSingle fl fun i => (v i : ℝ)).map fun B => B.1).flatten.length = vs.length := by
      simp [cvSingle, Function.comp_def]
    rw [this]
    exact binary64_fitsSq _ hl 8 hM hM'
  · intro b hb; obtain ⟨v, -, rfl⟩ := List.mem_map.1 hb; simp [cvSingle]
  · intro b hb i; obtain ⟨v, -, rfl⟩ := List.mem_map.1 hb; exact SumOrder.single _
  · intro b hb i j; obtain ⟨v, -, rfl⟩ := List.mem_map.1 hb; exact DotOrder.single _ _
  · intro b hb x hx i
    obtain ⟨v, h1, rfl⟩ := List.mem_map.1 hb
    simp only [cvSingle, List.mem_singleton] at hx
    subst hx
    exact ⟨binary64_mem_int _ ((hv v h1 i).trans (by norm_num)), show |((v i : ℤ) : ℝ)| ≤ 8 by exact_mod_cast hv v h1 i⟩

theorem binary64_top_ge : (2 : ℝ) ^ (10 : ℤ) ≤ binary64.top := by
  refine le_trans ?_ (binary64_fitsSq 3 (by norm_num) ((2 : ℝ) ^ (10 : ℤ)) (zpow_le_zpow_right₀ (by norm_num) (by norm_num)) (zpow_le_zpow_right₀ (by norm_num) (by norm_num))).top
  norm_num

/-- Concrete case of `C164_fixed`: the single pair (5, 3) with expected control value 2 and coefficient 2 gives 5 - 2 (3 - 2) = 3. -/
example (fl : ℝ → ℝ) (hn : binary64.Nearest fl) (dot : List (ℝ × ℝ) → ℝ) (hdot : ∀ l, l ≠ [] → DotOrder fl l (dot l))
    (solve : Matrix (Fin 1) (Fin 1) ℝ → (Fin 1 → ℝ) → Py (Fin 1 → ℝ)) :
    ∃ (H : List (CVBatch 1)) (s : CVEst 1) (e : ℝ), H.map (fun B => B.1) = [[fun i => ((![5, 3] i : ℤ) : ℝ)]] ∧ CVEst.init [2] (some [2]) true = .ok s ∧
      (s.runCatchingFl fl solve H).nSamples = 1 ∧ (s.runCatchingFl fl solve H).estimateFl fl dot = .ok (.val e) ∧ |e - 3| ≤ (2 : ℝ) ^ (-40 : ℤ) := by
  have data := cvData_int fl [![(5 : ℤ), 3]] (by norm_num) (by simp [Fin.forall_fin_two])
  have m2 := binary64_mem_int 2 (by norm_num)
  push_cast at m2
  have hu : binary64.u = (2 : ℝ) ^ (-53 : ℤ) := rfl
  have heta : binary64.eta ≤ (2 : ℝ) ^ (-53 : ℤ) := by
    have : binary64.eta = (2 : ℝ) ^ (-1075 : ℤ) := rfl
    rw [this]
    exact zpow_le_zpow_right₀ (by norm_num) (by norm_num)
  have htop := binary64_top_ge
  obtain ⟨s, e, h1, h2, h3, h4⟩ := C164_fixed hn hdot [2] [2] rfl (by simp) true 8 _ solve data (by simp) (by norm_num [m2]) (by
    rw [hu]
    simp only [List.length_singleton, Fin.sum_univ_one]
    norm_num at htop heta ⊢
    linarith)
  refine ⟨_, s, e, rfl, h1, h2, h3, ?_⟩
  have g : ∀ i : Fin 1, ([2] : List ℝ).get i = 2 := fun i => by
    have : i = 0 := Subsingleton.elim (α := Fin 1) _ _
    rw [this]
    rfl
  set v : Fin 2 → ℝ := fun i => ((![5, 3] i : ℤ) : ℝ) with hv
  have v0 : v 0 = 5 := by norm_num [hv]
  have v1 : v 1 = 3 := by norm_num [hv]
  have h5 : |e - ([v].map fun x => x 0 - ∑ i : Fin 1, ([2] : List ℝ).get i * (x i.succ - ([2] : List ℝ).get i)).sum / (([v].length : ℕ) : ℝ)| ≤
      cvErr (k := 1) binary64 8 [v] (fun i => ([2] : List ℝ).get i) ([2] : List ℝ).get := h4
  simp only [List.length_singleton, Fin.sum_univ_one, cvErr, cvAdjusted, sampleMean, hu, List.map_cons, List.map_nil, List.sum_cons, List.sum_nil, g, Fin.succ_zero_eq_one, v0, v1] at h5
  norm_num at h5 heta ⊢
  linarith

/-- Concrete case of `C164_system` and `C164_any`: two controls; if `solve` returns (1, -1) for every system, the estimate is that for these coefficients. -/
example (fl : ℝ → ℝ) (hn : binary64.Nearest fl) (dot : List (ℝ × ℝ) → ℝ) (hdot : ∀ l, l ≠ [] → DotOrder fl l (dot l)) :
    ∃ (H : List (CVBatch 2)) (s : CVEst 2) (e : ℝ), CVEst.init [2, 1] none true = .ok s ∧ H.length = 2 ∧ (s.runCatchingFl fl (fun _ _ => .ok ![1, -1]) H).alpha = .val ![1, -1] ∧
      (s.runCatchingFl fl (fun _ _ => .ok ![1, -1]) H).estimateFl fl dot = .ok (.val e) ∧
      |e - cvAdjusted [fun i => ((![5, 3, 1] i : ℤ) : ℝ), fun i => ((![4, 1, 1] i : ℤ) : ℝ)] ![1, -1] ![2, 1]| ≤
        cvErr binary64 8 [fun i => ((![5, 3, 1] i : ℤ) : ℝ), fun i => ((![4, 1, 1] i : ℤ) : ℝ)] ![1, -1] ![2, 1] := by
  have data : CVData binary64 fl 8 ([cvSingle fl fun i => ((![5, 3, 1] i : ℤ) : ℝ)] ++ [cvSingle fl fun i => ((![4, 1, 1] i : ℤ) : ℝ)]) :=
    cvData_int fl [![(5 : ℤ), 3, 1], ![4, 1, 1]] (by norm_num) (by simp [Fin.forall_fin_succ])
  have m1 := binary64_mem_int 1 (by norm_num)
  have m2 := binary64_mem_int 2 (by norm_num)
  push_cast at m1 m2
  have hu : binary64.u = (2 : ℝ) ^ (-53 : ℤ) := rfl
  have heta : binary64.eta ≤ (2 : ℝ) ^ (-53 : ℤ) := by
    have : binary64.eta = (2 : ℝ) ^ (-1075 : ℤ) := rfl
    rw [this]
    exact zpow_le_zpow_right₀ (by norm_num) (by norm_num)
  have htop := binary64_top_ge
  let s : CVEst 2 := ⟨![2, 1], .unset, true, Covariance.init ℝ 3, 0, true⟩
  have hs : CVEst.init [2, 1] none true = .ok s := by
    simp only [CVEst.init, s]
    congr 2
    funext i
    fin_cases i <;> rfl
  obtain ⟨C, -, hC, -⟩ := C164_system (solve := fun _ _ => .ok ![1, -1]) hn le_rfl 8 [cvSingle fl fun i => ((![5, 3, 1] i : ℤ) : ℝ)] (cvSingle fl fun i => ((![4, 1, 1] i : ℤ) : ℝ)) s rfl rfl rfl
    data _ rfl (by simp [cvSingle])
  have hal := (hC _ rfl).2
  obtain ⟨e, h1, h2⟩ := C164_any (solve := fun _ _ => .ok ![1, -1]) hn hdot two_ne_zero 8 _ s rfl rfl data (by simp) (by
    rw [Fin.forall_fin_two]
    exact ⟨⟨m2, by norm_num [s]⟩, ⟨m1, by norm_num [s]⟩⟩) _ hal (by
    rw [hu]
    simp only [Fin.sum_univ_two, Matrix.cons_val_zero, Matrix.cons_val_one]
    norm_num at htop heta ⊢
    linarith)
  exact ⟨_, s, e, hs, rfl, hal, h1, h2⟩

/-- Concrete case of **C164**: double precision pairs (1, 1), (2, 3), (6, 2) one by one, expected control value 2.  The first update raises, the slope of the regression line is 1/2. -/
example (fl : ℝ → ℝ) (hn : binary64.Nearest fl) (dot : List (ℝ × ℝ) → ℝ) (hdot : ∀ l, l ≠ [] → DotOrder fl l (dot l))
    (solve : Matrix (Fin 1) (Fin 1) ℝ → (Fin 1 → ℝ) → Py (Fin 1 → ℝ)) :
    ∃ (H : List (CVBatch 1)) (s : CVEst 1) (al : Fin 1 → ℝ) (e : ℝ), H.map (fun B => B.1) = [[![1, 1]], [![2, 3]], [![6, 2]]] ∧ CVEst.init [2] none true = .ok s ∧
      (s.runCatchingFl fl solve H).alpha = .val al ∧ (s.runCatchingFl fl solve H).estimateFl fl dot = .ok (.val e) ∧ |al 0 - 1 / 2| ≤ (2 : ℝ) ^ (-30 : ℤ) ∧
      |e - 3| ≤ cvErr binary64 8 [![1, 1], ![2, 3], ![6, 2]] al (fun _ => 2) := by
  have hM : (2 : ℝ) ^ (-500 : ℤ) ≤ 8 := by
    have : (2 : ℝ) ^ (-500 : ℤ) ≤ (2 : ℝ) ^ (0 : ℤ) := zpow_le_zpow_right₀ (by norm_num) (by norm_num)
    rw [zpow_zero] at this
    linarith
  have hM' : (8 : ℝ) ≤ (2 : ℝ) ^ (450 : ℤ) := by
    have : (2 : ℝ) ^ (3 : ℤ) ≤ (2 : ℝ) ^ (450 : ℤ) := zpow_le_zpow_right₀ (by norm_num) (by norm_num)
    refine le_trans (le_of_eq (by norm_num)) this
  let B : (Fin 2 → ℝ) → CVBatch 1 := fun v => ([v], v, fun i j => fl (fl (v i - fl (v i / ((1 : ℕ) : ℝ))) * fl (v j - fl (v j / ((1 : ℕ) : ℝ)))))
  have m : ∀ z : ℤ, |z| ≤ 8 → binary64.Mem (z : ℝ) ∧ |(z : ℝ)| ≤ 8 := fun z hz => ⟨binary64_mem_int z (hz.trans (by norm_num)), by exact_mod_cast hz⟩
  have m1 := m 1 (by norm_num)
  have m2 := m 2 (by norm_num)
  have m3 := m 3 (by norm_num)
  have m6 := m 6 (by norm_num)
  push_cast at m1 m2 m3 m6
  have hB : ∀ b ∈ [B ![1, 1], B ![2, 3]] ++ [B ![6, 2]], ∃ v : Fin 2 → ℝ, b = B v ∧ ∀ i, binary64.Mem (v i) ∧ |v i| ≤ 8 := by
    intro b hb
    simp only [List.cons_append, List.nil_append, List.mem_cons, List.not_mem_nil, or_false] at hb
    rcases hb with rfl | rfl | rfl
    · exact ⟨_, rfl, by rw [Fin.forall_fin_two]; exact ⟨m1, m1⟩⟩
    · exact ⟨_, rfl, by rw [Fin.forall_fin_two]; exact ⟨m2, m3⟩⟩
    · exact ⟨_, rfl, by rw [Fin.forall_fin_two]; exact ⟨m6, m2⟩⟩
  have data : CVData binary64 fl 8 ([B ![1, 1], B ![2, 3]] ++ [B ![6, 2]]) := by
    refine ⟨binary64_fitsSq 3 (by norm_num) 8 hM hM', ?_, ?_, ?_, ?_⟩
    · intro b hb; obtain ⟨v, rfl, -⟩ := hB b hb; simp [B]
    · intro b hb i; obtain ⟨v, rfl, -⟩ := hB b hb; exact SumOrder.single _
    · intro b hb i j; obtain ⟨v, rfl, -⟩ := hB b hb; exact DotOrder.single _ _
    · intro b hb x hx i
      obtain ⟨v, rfl, hv⟩ := hB b hb
      simp only [B, List.mem_singleton] at hx
      subst hx
      exact hv i
  have c01 : sampleCov 1 [![(1 : ℝ), 1], ![2, 3], ![6, 2]] 0 1 = 1 / 2 := by norm_num [sampleCov, sampleMean]
  have c11 : sampleCov 1 [![(1 : ℝ), 1], ![2, 3], ![6, 2]] 1 1 = 1 := by norm_num [sampleCov, sampleMean]
  have s0 : sampleMean [![(1 : ℝ), 1], ![2, 3], ![6, 2]] 0 = 3 := by norm_num [sampleMean]
  have s1 : sampleMean [![(1 : ℝ), 1], ![2, 3], ![6, 2]] 1 = 2 := by norm_num [sampleMean]
  have hu : binary64.u = (2 : ℝ) ^ (-53 : ℤ) := rfl
  have heta : binary64.eta ≤ (2 : ℝ) ^ (-53 : ℤ) := by
    have : binary64.eta = (2 : ℝ) ^ (-1075 : ℤ) := rfl
    rw [this]
    exact zpow_le_zpow_right₀ (by norm_num) (by norm_num)
  have heta0 := binary64.eta_pos
  have htop : (2 : ℝ) ^ (10 : ℤ) ≤ binary64.top := by
    refine le_trans ?_ (binary64_fitsSq 3 (by norm_num) ((2 : ℝ) ^ (10 : ℤ)) (zpow_le_zpow_right₀ (by norm_num) (by norm_num)) (zpow_le_zpow_right₀ (by norm_num) (by norm_num))).top
    norm_num
  have hE : covErr binary64 8 3 ≤ (2 : ℝ) ^ (-34 : ℤ) := by
    unfold covErr
    rw [hu]
    norm_num
  obtain ⟨s, al, e, h1, h2, h3, h4, h5⟩ := C164_estimated hn hdot 2 true 8 [B ![1, 1], B ![2, 3]] (B ![6, 2]) solve data m2 [![1, 1], ![2, 3], ![6, 2]] rfl (by norm_num)
    (by
      rw [c11]
      refine le_trans (mul_le_mul_of_nonneg_left hE (by norm_num)) ?_
      norm_num) (1 / 2) (by rw [c01, c11]; norm_num)
    (by rw [abs_of_pos (by norm_num)]; norm_num at htop ⊢; linarith)
    (by
      rw [abs_of_pos (by norm_num), hu]
      norm_num at htop heta ⊢
      linarith)
  refine ⟨_, s, al, e, rfl, h1, h2, h4, ?_, ?_⟩
  · refine h3.trans ?_
    rw [c11, abs_of_pos (by norm_num), hu, div_one]
    have : (List.length [![(1 : ℝ), 1], ![2, 3], ![6, 2]]) = 3 := rfl
    rw [this]
    norm_num at hE heta ⊢
    linarith
  · rw [s0, s1] at h5
    norm_num at h5
    exact h5

end Primate
