import Verif.Model.CritRecFl
import Verif.Props.CritFl
import Verif.Props.KneeLoopFl

/-!
# C166: all criteria and their composites in rounded arithmetic
-/

noncomputable section

namespace Primate

open Spec StatsFl

variable {φ : Fmt} {fl root : ℝ → ℝ} {N : ℕ}

/-- The parameters of a criterion are such that no comparison overflows. -/
def Spec.CritRecOk (φ : Fmt) (M : ℝ) : CritRecFl → Prop
  | .base c => CritOk φ M c
  | .knee _ => True
  | .or a b => CritRecOk φ M a ∧ CritRecOk φ M b
  | .and a b => CritRecOk φ M a ∧ CritRecOk φ M b
  | .not a => CritRecOk φ M a

/-- The conditions of C162 on the curve of the values `xs`: it is not flat, the rounding errors are small beside its range and the threshold is between `4u` and one. -/
structure Spec.KneeCond (φ : Fmt) (M S : ℝ) (xs : List ℝ) : Prop where
  room : KneeRoom φ xs.length (scaledValues xs) M
  range : 0 < kneeRange (scaledValues xs) xs.length
  err : 5 * kneeErr φ xs.length (scaledValues xs) M ≤ kneeRange (scaledValues xs) xs.length
  low : 4 * φ.u ≤ S / ((xs.length : ℝ) - 2)
  high : S / ((xs.length : ℝ) - 2) ≤ 1

/-- The answer `b` of the knee criterion explained by the recorded values. -/
structure Spec.KneeDecision (φ : Fmt) (M S : ℝ) (xs : List ℝ) (b : Bool) : Prop where
  sound : b = true → ∃ i, i < xs.length - 1 ∧ S / ((xs.length : ℝ) - 2) - (2 * φ.u + kneeTol φ xs.length (scaledValues xs) M) < kneeRise (scaledValues xs) xs.length i
  complete : (∃ i, i < xs.length - 1 ∧ S / ((xs.length : ℝ) - 2) + (2 * φ.u + kneeTol φ xs.length (scaledValues xs) M) < kneeRise (scaledValues xs) xs.length i) → b = true

/-- The answer `b` of a criterion explained by the observations, cf. `Explained`. -/
def Spec.ExplainedRec (φ : Fmt) (M : ℝ) (record : Bool) (prev xs : List ℝ) : CritRecFl → Bool → Prop
  | .base c, b => Explained φ M prev xs c b
  | .knee S, b => (record = false ∨ xs.length < 3 → b = false) ∧ (record = true → KneeCond φ M S xs → KneeDecision φ M S xs b) ∧
      (record = true → KneeRoom φ xs.length (scaledValues xs) M → kneeRange (scaledValues xs) xs.length = 0 → b = false)
  | .or c d, b => ∃ x y, ExplainedRec φ M record prev xs c x ∧ ExplainedRec φ M record prev xs d y ∧ b = (x || y)
  | .and c d, b => ∃ x y, ExplainedRec φ M record prev xs c x ∧ ExplainedRec φ M record prev xs d y ∧ b = (x && y)
  | .not c, b => ∃ x, ExplainedRec φ M record prev xs c x ∧ b = !x

/-- The estimator after the observations `xs`, with its record. -/
structure HistRec (φ : Fmt) (fl : ℝ → ℝ) (M : ℝ) (record : Bool) (e : EstRecFl) (prev xs : List ℝ) : Prop where
  hist : Hist φ fl M e.est prev xs
  values : e.values = if record then some (xs.map fun y _ => y) else none

theorem HistRec.init {M : ℝ} (he : φ.emin ≤ φ.emax) (record : Bool) : HistRec φ fl M record (EstRecFl.init record) [] [] :=
  ⟨Hist.init he, rfl⟩

theorem HistRec.step (hn : φ.Nearest fl) {n : ℕ} {M : ℝ} (h : φ.FitsSq n M) {record : Bool} {e : EstRecFl} {prev xs : List ℝ} (H : HistRec φ fl M record e prev xs)
    {B : List ℝ × ℝ × ℝ} (hB : BatchOk φ fl M B) (hN : xs.length + B.1.length ≤ n) :
    ∃ e', e.update fl B.1 B.2.1 B.2.2 = .ok e' ∧ HistRec φ fl M record e' xs (xs ++ B.1) := by
  obtain ⟨e', h1, h2⟩ := H.hist.step hn h hB hN
  refine ⟨_, by unfold EstRecFl.update; rw [h1], h2, ?_⟩
  show e.values.map _ = _
  rw [H.values]
  cases record <;> simp

theorem HistRec.eval (hn : φ.Nearest fl) (hr : RootOk φ root) {M : ℝ} (htop : 18 * M ^ 2 + 1 ≤ φ.top) {record : Bool} {e : EstRecFl} {prev xs : List ℝ}
    (h : φ.FitsSq xs.length M) (H : HistRec φ fl M record e prev xs) (crit : CritRecFl) (hc : CritRecOk φ M crit) :
    ∃ b, crit.eval φ.top fl root e = .ok b ∧ ExplainedRec φ M record prev xs crit b := by
  induction crit with
  | base c => exact H.hist.eval hn hr htop h c hc
  | knee S =>
    obtain ⟨q1, q2, q3, -⟩ := C162_call fl S (RecFl.view ⟨e.est.cov, e.values⟩)
    have hv : (RecFl.view ⟨e.est.cov, e.values⟩).values = if record then some (xs.map fun y _ => y) else none := H.values
    cases record with
    | false => exact ⟨false, q1 hv, fun _ => rfl, by simp, by simp⟩
    | true =>
      by_cases h3 : xs.length < 3
      · refine ⟨false, q2 _ hv (by simpa using h3), fun _ => rfl, fun _ hk => ?_, fun _ _ _ => rfl⟩
        have := hk.room.len
        omega
      · obtain ⟨r, hr⟩ := kneeDecideFl_ok fl S xs (by omega)
        refine ⟨r, ?_, fun hh => ?_, fun _ hk => ⟨fun hb => ?_, fun hb => ?_⟩, fun _ hk h0 => ?_⟩
        · show kneeCallFl fl S _ = _
          rw [q3 _ hv (by rw [List.length_map]; omega), flatMap_scalar, hr]
        · rcases hh with hh | hh
          · cases hh
          · exact absurd hh h3
        · have ht : (4 : ℝ) ≤ φ.top := hk.room.small.four_le_top
          have hu := φ.u_pos
          have h1 := hk.low
          have h2 := hk.high
          exact (C162_sound hn hk.room hk.range hk.err (by rw [abs_of_nonneg (by linarith)]; linarith) (hb ▸ hr)).2
        · obtain ⟨i, i1, i2⟩ := hb
          exact Except.ok.inj (hr.symm.trans (C162_complete hn hk.room hk.range hk.err hk.low hk.high i i1 i2))
        · exact Except.ok.inj (hr.symm.trans (C162_flat hn hk h0 S))
  | or a b iha ihb =>
    obtain ⟨x, x1, x2⟩ := iha hc.1
    obtain ⟨y, y1, y2⟩ := ihb hc.2
    refine ⟨x || y, ?_, x, y, x2, y2, rfl⟩
    simp only [CritRecFl.eval, x1, y1]
  | and a b iha ihb =>
    obtain ⟨x, x1, x2⟩ := iha hc.1
    obtain ⟨y, y1, y2⟩ := ihb hc.2
    refine ⟨x && y, ?_, x, y, x2, y2, rfl⟩
    simp only [CritRecFl.eval, x1, y1]
  | not a iha =>
    obtain ⟨x, x1, x2⟩ := iha hc
    refine ⟨!x, ?_, x, x2, rfl⟩
    simp only [CritRecFl.eval, x1]

/-- **C166**, criteria.  After any history of batches, whatever the order of evaluation, every composite by `|`, `&` and `~` of counts, confidence, tolerance and knee
criteria answers without exception, and the answer is explained by the observations. -/
theorem C166_criterion (hn : φ.Nearest fl) (hr : RootOk φ root) (record : Bool) (H : List (List ℝ × ℝ × ℝ)) (M : ℝ) (h : φ.FitsSq (allObs H).length M)
    (htop : 18 * M ^ 2 + 1 ≤ φ.top) (hH : ∀ B ∈ H, BatchOk φ fl M B) (crit : CritRecFl) (hc : CritRecOk φ M crit) :
    ∃ e b, (EstRecFl.init record).updates fl H = .ok e ∧ e.values = (if record then some ((allObs H).map fun y _ => y) else none) ∧
      crit.eval φ.top fl root e = .ok b ∧ ExplainedRec φ M record (allObs H.dropLast) (allObs H) crit b := by
  have key : ∀ H : List (List ℝ × ℝ × ℝ), (∀ B ∈ H, BatchOk φ fl M B) → ∀ n, φ.FitsSq n M → (allObs H).length ≤ n →
      ∃ e, (EstRecFl.init record).updates fl H = .ok e ∧ HistRec φ fl M record e (allObs H.dropLast) (allObs H) := by
    intro H
    induction H using List.reverseRecOn with
    | nil => intro _ n hf _; exact ⟨_, rfl, HistRec.init hf.exp record⟩
    | append_singleton H B ih =>
      intro hH n hf hN
      rw [allObs_append, List.length_append] at hN
      obtain ⟨e, h1, h2⟩ := ih (fun B hB => hH B (by simp [hB])) n hf (by omega)
      obtain ⟨e', h3, h4⟩ := h2.step hn hf (hH B (by simp)) hN
      refine ⟨e', ?_, ?_⟩
      · rw [EstRecFl.updates, List.foldlM_append]
        rw [EstRecFl.updates] at h1
        rw [h1]
        simp only [bind, Except.bind, List.foldlM_cons, h3, List.foldlM_nil, pure, Except.pure]
      · rw [List.dropLast_concat, allObs_append]
        exact h4
  obtain ⟨e, h1, h2⟩ := key H hH _ h le_rfl
  obtain ⟨b, b1, b2⟩ := h2.eval hn hr htop h crit hc
  exact ⟨e, b, h1, h2.values, b1, b2⟩

theorem hutchLoopRecFl_run (hn : φ.Nearest fl) (hr : RootOk φ root) {K : FlKernels N} (hK : FlKernelsOk fl K) (hG : GramOk fl K) (A : Matrix (Fin N) (Fin N) ℝ)
    (pdf : Pdf N) {b : ℕ} (hb : 0 < b) (M : ℝ) (htop : 18 * M ^ 2 + 1 ≤ φ.top) (record : Bool) (crit : CritRecFl) (hc : CritRecOk φ M crit) (L : ℕ) (hfit : φ.FitsSq (L * b) M)
    (hq : ∀ t < L, ∀ x ∈ quadFormFl K A t (pdf (List.replicate t b) b), φ.Mem x ∧ |x| ≤ M) :
    ∀ (fuel t : ℕ) (e : EstRecFl), t + fuel ≤ L + 1 → t ≤ L → HistRec φ fl M record e (flSamples K A pdf b (t - 1)) (flSamples K A pdf b t) →
      (∃ k e', t ≤ k ∧ k < t + fuel ∧ hutchLoopRecFl φ.top fl root K A pdf b crit fuel t e = some (.ok (k, e')) ∧
        HistRec φ fl M record e' (flSamples K A pdf b (k - 1)) (flSamples K A pdf b k) ∧
        ExplainedRec φ M record (flSamples K A pdf b (k - 1)) (flSamples K A pdf b k) crit true ∧
        ∀ j, t ≤ j → j < k → ExplainedRec φ M record (flSamples K A pdf b (j - 1)) (flSamples K A pdf b j) crit false) ∨
      (hutchLoopRecFl φ.top fl root K A pdf b crit fuel t e = none ∧
        ∀ j, t ≤ j → j < t + fuel → j ≤ L → ExplainedRec φ M record (flSamples K A pdf b (j - 1)) (flSamples K A pdf b j) crit false) := by
  intro fuel
  induction fuel with
  | zero =>
    intro t e _ _ _
    exact Or.inr ⟨rfl, fun j h1 h2 => absurd h2 (by omega)⟩
  | succ fuel ih =>
    intro t e hL htL H
    have hlen : (flSamples K A pdf b t).length ≤ L * b := by
      rw [flSamples_length]
      exact Nat.mul_le_mul_right b htL
    obtain ⟨a, a1, a2⟩ := H.eval hn hr htop (fitsSq_mono hfit hlen) crit hc
    cases a with
    | true =>
      left
      refine ⟨t, e, le_rfl, by omega, ?_, H, a2, fun j h1 h2 => absurd h2 (by omega)⟩
      simp only [hutchLoopRecFl, a1]
    | false =>
      rcases Nat.lt_or_ge t L with hlt | hge
      · set x := quadFormFl K A t (pdf (List.replicate t b) b) with hx
        have hxl : x.length = b := by simp [hx, quadFormFl]
        have hx0 : x ≠ [] := by intro h; rw [h] at hxl; simp at hxl; omega
        have hB : BatchOk φ fl M (x, K.colsum t x, K.gram t x) := ⟨hx0, hq t hlt, hK.colsum t x hx0, hG t x hx0⟩
        obtain ⟨e', e1, e2⟩ := H.step hn hfit hB (by
          show _ + x.length ≤ _
          rw [flSamples_length, hxl, ← Nat.succ_mul]
          exact Nat.mul_le_mul_right b hlt)
        have e3 : HistRec φ fl M record e' (flSamples K A pdf b (t + 1 - 1)) (flSamples K A pdf b (t + 1)) := by
          rw [Nat.add_sub_cancel, flSamples_succ]
          exact e2
        have hstep : hutchLoopRecFl φ.top fl root K A pdf b crit (fuel + 1) t e = hutchLoopRecFl φ.top fl root K A pdf b crit fuel (t + 1) e' := by
          rw [hutchLoopRecFl, a1]
          simp only [← hx, e1]
        rw [hstep]
        rcases ih (t + 1) e' (by omega) hlt e3 with ⟨k, e4, k1, k2, k3, k4, k5, k6⟩ | ⟨k1, k2⟩
        · left
          refine ⟨k, e4, by omega, by omega, k3, k4, k5, fun j j1 j2 => ?_⟩
          rcases Nat.eq_or_lt_of_le j1 with rfl | j3
          · exact a2
          · exact k6 j j3 j2
        · right
          refine ⟨k1, fun j j1 j2 j3 => ?_⟩
          rcases Nat.eq_or_lt_of_le j1 with rfl | j4
          · exact a2
          · exact k2 j j4 (by omega) j3
      · right
        obtain rfl : fuel = 0 := by omega
        refine ⟨?_, fun j j1 j2 j3 => ?_⟩
        · rw [hutchLoopRecFl, a1]
          simp only
          split <;> [skip; rfl]
          rename_i err herr
          exfalso
          unfold EstRecFl.update EstFl.update at herr
          have hx0 : (quadFormFl K A t (pdf (List.replicate t b) b)).length = b := by simp [quadFormFl]
          unfold Covariance.updateRowsFl at herr
          simp only [List.length_map, hx0, show ¬ (e.est.cov.n + b = 0) by omega, show b ≠ 0 by omega, if_false] at herr
          cases herr
        · obtain rfl : j = t := by omega
          exact a2

/-- **C166**, `hutch`.  The loop of `hutch` on a dense array, in rounded arithmetic, with any composite of the four criteria and at most `L` passes.  Either it stops after
`k` passes, the first after which the criterion was met by the samples up to rounding, and the estimate is within `16 n u M` of the mean of the samples; or the criterion
was met after none of the passes. -/
theorem C166_hutch (hn : φ.Nearest fl) (hr : RootOk φ root) {K : FlKernels N} (hK : FlKernelsOk fl K) (hG : GramOk fl K) (A : Matrix (Fin N) (Fin N) ℝ)
    (pdf : Pdf N) {b : ℕ} (hb : 0 < b) (M : ℝ) (htop : 18 * M ^ 2 + 1 ≤ φ.top) (record : Bool) (crit : CritRecFl) (hc : CritRecOk φ M crit) (L : ℕ) (hfit : φ.FitsSq (L * b) M)
    (hq : ∀ t < L, ∀ x ∈ quadFormFl K A t (pdf (List.replicate t b) b), φ.Mem x ∧ |x| ≤ M) :
    (∃ k e, k ≤ L ∧ hutchLoopRecFl φ.top fl root K A pdf b crit (L + 1) 0 (EstRecFl.init record) = some (.ok (k, e)) ∧ e.est.cov.n = k * b ∧
        e.values = (if record then some ((flSamples K A pdf b k).map fun y _ => y) else none) ∧
        ExplainedRec φ M record (flSamples K A pdf b (k - 1)) (flSamples K A pdf b k) crit true ∧
        (∀ j < k, ExplainedRec φ M record (flSamples K A pdf b (j - 1)) (flSamples K A pdf b j) crit false) ∧
        (0 < k → ∃ mu, e.est.cov.mean = .val mu ∧ |mu 0 - avgOf (flSamples K A pdf b k)| ≤ 16 * (k * b : ℕ) * φ.u * M)) ∨
      (hutchLoopRecFl φ.top fl root K A pdf b crit (L + 1) 0 (EstRecFl.init record) = none ∧
        ∀ j ≤ L, ExplainedRec φ M record (flSamples K A pdf b (j - 1)) (flSamples K A pdf b j) crit false) := by
  have h0 : HistRec φ fl M record (EstRecFl.init record) (flSamples K A pdf b (0 - 1)) (flSamples K A pdf b 0) := by
    simpa [flSamples] using HistRec.init (fl := fl) (M := M) hfit.exp record
  rcases hutchLoopRecFl_run hn hr hK hG A pdf hb M htop record crit hc L hfit hq (L + 1) 0 (EstRecFl.init record) (by omega) (by omega) h0 with
    ⟨k, e, -, k2, k3, k4, k5, k6⟩ | ⟨k1, k2⟩
  · left
    refine ⟨k, e, by omega, k3, by rw [k4.hist.inv.count, flSamples_length], k4.values, k5, fun j hj => k6 j (by omega) hj, fun hk => ?_⟩
    have hx : flSamples K A pdf b k ≠ [] := by
      intro h
      have := congrArg List.length h
      rw [flSamples_length] at this
      simp at this
      omega
    obtain ⟨m1, -, m3⟩ := k4.hist.inv.mean_near hx
    rw [flSamples_length] at m3
    exact ⟨_, m1, m3⟩
  · exact Or.inr ⟨k1, fun j hj => k2 j (by omega) (by omega) hj⟩

/-- **C166**, termination: with `CountCriterion(c) | crit` the loop stops after at most `⌈c / b⌉` passes, recorded or not. -/
theorem C166_count_bound (hn : φ.Nearest fl) (hr : RootOk φ root) {K : FlKernels N} (hK : FlKernelsOk fl K) (hG : GramOk fl K) (A : Matrix (Fin N) (Fin N) ℝ)
    (pdf : Pdf N) {b : ℕ} (hb : 0 < b) (M : ℝ) (htop : 18 * M ^ 2 + 1 ≤ φ.top) (record : Bool) (crit : CritRecFl) (hc : CritRecOk φ M crit) (c L : ℕ) (hL : c ≤ L * b)
    (hfit : φ.FitsSq (L * b) M) (hq : ∀ t < L, ∀ x ∈ quadFormFl K A t (pdf (List.replicate t b) b), φ.Mem x ∧ |x| ≤ M) :
    ∃ k e, k ≤ L ∧ hutchLoopRecFl φ.top fl root K A pdf b (.or (.base (.count c)) crit) (L + 1) 0 (EstRecFl.init record) = some (.ok (k, e)) ∧ e.est.cov.n = k * b := by
  rcases C166_hutch hn hr hK hG A pdf hb M htop record (.or (.base (.count c)) crit) ⟨trivial, hc⟩ L hfit hq with ⟨k, e, k1, k2, k3, -⟩ | ⟨-, k2⟩
  · exact ⟨k, e, k1, k2, k3⟩
  · exfalso
    obtain ⟨x, y, x1, -, x3⟩ := k2 L le_rfl
    have : x = true := x1.2 (by rw [flSamples_length]; exact hL)
    rw [this] at x3
    simp at x3

/-- The exact values `vᵀ A v` for the vectors of the first `k` passes. -/
def Spec.quadSamples (A : Matrix (Fin N) (Fin N) ℝ) (pdf : Pdf N) (b k : ℕ) : List ℝ :=
  (List.range k).flatMap fun t => List.ofFn fun j : Fin b => Spec.quad A (pdf (List.replicate t b) b j)

theorem quadSamples_length (A : Matrix (Fin N) (Fin N) ℝ) (pdf : Pdf N) (b k : ℕ) : (quadSamples A pdf b k).length = k * b := by
  induction k with
  | zero => simp [quadSamples]
  | succ k ih =>
    have : quadSamples A pdf b (k + 1) = quadSamples A pdf b k ++ List.ofFn fun j : Fin b => Spec.quad A (pdf (List.replicate k b) b j) := by
      simp [quadSamples, List.range_succ]
    rw [this, List.length_append, ih, List.length_ofFn]
    ring

theorem samples_near (hn : φ.Nearest fl) {K : FlKernels N} (hK : FlKernelsOk fl K) (rng : Rng) (hu : ∀ p, 0 ≤ rng.unif p ∧ rng.unif p < 1)
    (A : Matrix (Fin N) (Fin N) ℝ) (hA : ∀ i j, φ.Mem (A i j)) (M : ℝ) (hM : ∑ i, ∑ j, |A i j| ≤ M) (hNu : N * φ.u ≤ 1 / 64) (he : φ.emin ≤ φ.emax)
    (htop : 2 * M ≤ φ.top) (pdf : Pdf N) (hp : isotropicPdf "rademacher" rng N = .ok pdf) {b k : ℕ} (hb : 0 < b) (hk : 0 < k) :
    |avgOf (flSamples K A pdf b k) - avgOf (quadSamples A pdf b k)| ≤ 4 * N * φ.u * M := by
  have hsg := rademacher_pdf_signs rng hu pdf hp
  have h := sum_flatMap_sub (List.range k) b (fun t j => K.dot t j (pdf (List.replicate t b) b j) (K.matvec t j A (pdf (List.replicate t b) b j)))
    (fun t j => Spec.quad A (pdf (List.replicate t b) b j)) (4 * N * φ.u * M) fun t j => (sign_quad hn he hK A hA M hM hNu htop t j _ (hsg _ _ _)).2
  have hkb : (0 : ℝ) < (k : ℝ) * b := by positivity
  unfold avgOf
  rw [flSamples_length, quadSamples_length, ← sub_div, abs_div, div_le_iff₀ (by push_cast; rw [abs_of_pos hkb]; exact hkb)]
  push_cast
  rw [abs_of_pos hkb]
  rw [List.length_range] at h
  exact h.trans (le_of_eq (by ring))

/-- **C166**, Rademacher vectors: for a matrix of representable entries whose absolute values sum to at most `M`, `hutch` with Rademacher vectors and
`CountCriterion(c) | crit` returns after `k ≤ ⌈c / b⌉` passes, when `c` samples are there or `crit` was met by the samples up to rounding, and not before; the estimate is
within `32 n u M` of the mean of the samples and within `(4 N + 32 n) u M` of the mean of the exact `vᵀ A v` of its vectors. -/
theorem C166_rademacher (hn : φ.Nearest fl) (hr : RootOk φ root) {K : FlKernels N} (hK : FlKernelsOk fl K) (hG : GramOk fl K) (rng : Rng)
    (hu : ∀ p, 0 ≤ rng.unif p ∧ rng.unif p < 1) (A : Matrix (Fin N) (Fin N) ℝ) (hA : ∀ i j, φ.Mem (A i j)) (M : ℝ) (hM : ∑ i, ∑ j, |A i j| ≤ M)
    (hNu : N * φ.u ≤ 1 / 64) (pdf : Pdf N) (hp : isotropicPdf "rademacher" rng N = .ok pdf) {b : ℕ} (hb : 0 < b) (htop : 72 * M ^ 2 + 1 ≤ φ.top) (h2 : 2 * M ≤ φ.top)
    (record : Bool) (crit : CritRecFl) (hc : CritRecOk φ (2 * M) crit) (c L : ℕ) (hL : c ≤ L * b) (hmin : ∀ j < L, j * b < c) (hfit : φ.FitsSq (L * b) (2 * M)) :
    ∃ k e, k ≤ L ∧ hutchLoopRecFl φ.top fl root K A pdf b (.or (.base (.count c)) crit) (L + 1) 0 (EstRecFl.init record) = some (.ok (k, e)) ∧ e.est.cov.n = k * b ∧
      (k < L → ExplainedRec φ (2 * M) record (flSamples K A pdf b (k - 1)) (flSamples K A pdf b k) crit true) ∧
      (∀ j < k, ExplainedRec φ (2 * M) record (flSamples K A pdf b (j - 1)) (flSamples K A pdf b j) crit false) ∧
      (0 < k → ∃ mu, e.est.cov.mean = .val mu ∧ |mu 0 - avgOf (flSamples K A pdf b k)| ≤ 32 * (k * b : ℕ) * φ.u * M ∧
        |mu 0 - avgOf (quadSamples A pdf b k)| ≤ (4 * N + 32 * (k * b : ℕ)) * φ.u * M) := by
  have hq := C158_rademacher hn hK rng hu A hA M hM hNu hfit.exp h2 pdf hp b
  rcases C166_hutch hn hr hK hG A pdf hb (2 * M) (by nlinarith) record (.or (.base (.count c)) crit) ⟨trivial, hc⟩ L hfit (fun t _ => hq t) with
    ⟨k, e, k1, k2, k3, -, k5, k6, k7⟩ | ⟨-, k2⟩
  · refine ⟨k, e, k1, k2, k3, fun hk => ?_, fun j hj => ?_, fun hk => ?_⟩
    · obtain ⟨x, y, x1, y1, x3⟩ := k5
      cases x with
      | true =>
        have := x1.1 rfl
        rw [flSamples_length] at this
        exact absurd this (by have := hmin k hk; omega)
      | false =>
        rw [Bool.false_or] at x3
        exact x3 ▸ y1
    · obtain ⟨x, y, -, y1, x3⟩ := k6 j hj
      have hy : y = false := by
        cases y with
        | false => rfl
        | true =>
          rw [Bool.or_true] at x3
          cases x3
      exact hy ▸ y1
    · obtain ⟨mu, m1, m2⟩ := k7 hk
      have m3 := samples_near hn hK rng hu A hA M hM hNu hfit.exp h2 pdf hp hb hk
      have m4 : 16 * ((k * b : ℕ) : ℝ) * φ.u * (2 * M) = 32 * (k * b : ℕ) * φ.u * M := by ring
      rw [m4] at m2
      refine ⟨mu, m1, m2, (abs_sub_le _ _ _).trans ((add_le_add m2 m3).trans (le_of_eq ?_))⟩
      ring
  · exfalso
    obtain ⟨x, y, x1, -, x3⟩ := k2 L le_rfl
    have : x = true := x1.2 (by rw [flSamples_length]; exact hL)
    rw [this] at x3
    simp at x3

/-- **C166**, negation: `~CountCriterion(c)` with a positive count is met before the first pass: the loop makes no pass, and the estimate is that of no samples. -/
theorem C166_not_count (K : FlKernels N) (A : Matrix (Fin N) (Fin N) ℝ) (pdf : Pdf N) (b c : ℕ) (hc : 0 < c) (top : ℝ) (record : Bool) (fuel : ℕ) :
    hutchLoopRecFl top fl root K A pdf b (.not (.base (.count c))) (fuel + 1) 0 (EstRecFl.init record) = some (.ok (0, EstRecFl.init record)) ∧
      (EstRecFl.init record).est.cov.mean = .nan := by
  constructor
  · have : (truth (c ≤ (EstRecFl.init record).est.cov.n)) = false := by
      simp [EstRecFl.init, EstFl.init, Covariance.init, truth]
      omega
    simp only [hutchLoopRecFl, CritRecFl.eval, CritFl.eval, this, Bool.not_false]
  · simp [EstRecFl.init, EstFl.init, Covariance.init, Covariance.mean]

/-- **C166**, nothing recorded: the knee criterion then answers no, so `crit | KneeCriterion(S)` stops exactly when `crit` does and `crit & KneeCriterion(S)` never. -/
theorem C166_unrecorded (top : ℝ) (S : ℝ) (crit : CritRecFl) (e : EstRecFl) (he : e.values = none) (x : Bool) (hx : crit.eval top fl root e = .ok x) :
    (CritRecFl.or crit (.knee S)).eval top fl root e = .ok x ∧ (CritRecFl.and crit (.knee S)).eval top fl root e = .ok false := by
  have h1 : (CritRecFl.knee S).eval top fl root e = .ok false := (C162_call fl S (RecFl.view ⟨e.est.cov, e.values⟩)).1 he
  constructor
  · rw [CritRecFl.eval, hx, h1]
    simp
  · rw [CritRecFl.eval, hx, h1]
    simp

/-- **C166**, exceptions: an exception of either side of a composite, of the left one if both raise, comes out of the composite, and that of the criterion out of the loop. -/
theorem C166_errors (top : ℝ) (x y : CritRecFl) (e : EstRecFl) (err : PyErr) :
    (x.eval top fl root e = .error err → (CritRecFl.or x y).eval top fl root e = .error err ∧ (CritRecFl.and x y).eval top fl root e = .error err ∧
      (CritRecFl.not x).eval top fl root e = .error err ∧ ∀ (K : FlKernels N) A pdf b fuel t, hutchLoopRecFl top fl root K A pdf b x (fuel + 1) t e = some (.error err)) ∧
    (∀ r, x.eval top fl root e = .ok r → y.eval top fl root e = .error err →
      (CritRecFl.or x y).eval top fl root e = .error err ∧ (CritRecFl.and x y).eval top fl root e = .error err) := by
  refine ⟨fun h => ⟨?_, ?_, ?_, fun K A pdf b fuel t => ?_⟩, fun r h h' => ⟨?_, ?_⟩⟩
  · simp only [CritRecFl.eval, h]
  · simp only [CritRecFl.eval, h]
  · simp only [CritRecFl.eval, h]
  · rw [hutchLoopRecFl, h]
  · simp only [CritRecFl.eval, h, h']
  · simp only [CritRecFl.eval, h, h']

theorem batch5 (fl : ℝ → ℝ) : ∃ s g, BatchOk binary64 fl 20 ([0, 2, 6, 8, 10], s, g) := by
  obtain ⟨s, hs⟩ := SumOrder.exists fl [0, 2, 6, 8, 10] (by simp)
  obtain ⟨g, hg⟩ := DotOrder.exists fl (([0, 2, 6, 8, 10] : List ℝ).map fun y =>
    (fl (y - fl (s / ([0, 2, 6, 8, 10] : List ℝ).length)), fl (y - fl (s / ([0, 2, 6, 8, 10] : List ℝ).length)))) (by simp)
  refine ⟨s, g, by simp, ?_, hs, hg⟩
  have m0 := binary64_mem_int 0 (by norm_num)
  have m1 := binary64_mem_int 2 (by norm_num)
  have m2 := binary64_mem_int 6 (by norm_num)
  have m3 := binary64_mem_int 8 (by norm_num)
  have m4 := binary64_mem_int 10 (by norm_num)
  push_cast at m0 m1 m2 m3 m4
  intro y hy
  simp only [List.mem_cons, List.not_mem_nil, or_false] at hy
  rcases hy with rfl | rfl | rfl | rfl | rfl
  · exact ⟨m0, by norm_num⟩
  · exact ⟨m1, by norm_num⟩
  · exact ⟨m2, by norm_num⟩
  · exact ⟨m3, by norm_num⟩
  · exact ⟨m4, by norm_num⟩

theorem fits20 (n : ℕ) (hn : n ≤ 100) : binary64.FitsSq n 20 := by
  refine binary64_fitsSq n (le_trans hn (by norm_num)) 20 ?_ ?_
  · have : (2 : ℝ) ^ (-500 : ℤ) ≤ (2 : ℝ) ^ (0 : ℤ) := zpow_le_zpow_right₀ (by norm_num) (by norm_num)
    rw [zpow_zero] at this
    linarith
  · have : (2 : ℝ) ^ (5 : ℤ) ≤ (2 : ℝ) ^ (450 : ℤ) := zpow_le_zpow_right₀ (by norm_num) (by norm_num)
    exact le_trans (by norm_num) this

/-- Concrete case of **C166**: after one recorded batch of 0, 2, 6, 8, 10 in double precision, `KneeCriterion(1) & ~CountCriterion(6)` is met whatever the rounding. -/
example (fl root : ℝ → ℝ) (hn : binary64.Nearest fl) (hr : RootOk binary64 root) :
    ∃ s g e, (EstRecFl.init true).updates fl [([0, 2, 6, 8, 10], s, g)] = .ok e ∧
      (CritRecFl.and (.knee 1) (.not (.base (.count 6)))).eval binary64.top fl root e = .ok true := by
  obtain ⟨s, g, hB⟩ := batch5 fl
  have ht := top64
  have hlen : allObs [(([0, 2, 6, 8, 10] : List ℝ), s, g)] = [0, 2, 6, 8, 10] := by simp [allObs]
  obtain ⟨e, b, e1, -, e2, x, y, x1, ⟨z, z1, z2⟩, e3⟩ := C166_criterion (φ := binary64) hn hr true [([0, 2, 6, 8, 10], s, g)] 20 (fits20 _ (by rw [hlen]; simp))
    (by norm_num at ht ⊢; linarith) (by intro B hBm; rw [List.mem_singleton.1 hBm]; exact hB) (.and (.knee 1) (.not (.base (.count 6)))) ⟨trivial, trivial⟩
  refine ⟨s, g, e, e1, ?_⟩
  rw [hlen] at x1 z1
  have hu1 : binary64.u = 1 / 9007199254740992 := by
    have : binary64.u = (2 : ℝ) ^ (-53 : ℤ) := rfl
    rw [this]; norm_num
  have r1 := kneeEx_curve (scaledValues [0, 2, 6, 8, 10]) 5 (by norm_num) (by norm_num) (by simp [scaledValues]) (by norm_num [scaledValues])
    (by intro i h1 h2; interval_cases i <;> norm_num [scaledValues])
  have hk : KneeCond binary64 20 1 [0, 2, 6, 8, 10] := by
    have h5 : ([0, 2, 6, 8, 10] : List ℝ).length = 5 := rfl
    refine ⟨r1.1, ?_, ?_, ?_, ?_⟩ <;> rw [h5]
    · rw [r1.2.1]; norm_num
    · rw [r1.2.1]
      have := r1.2.2.1
      linarith
    · rw [hu1]; norm_num
    · norm_num
  have hx : x = true := by
    refine (x1.2.1 rfl hk).complete ⟨1, by norm_num, ?_⟩
    rw [show ([0, 2, 6, 8, 10] : List ℝ).length = 5 from rfl, r1.2.2.2]
    unfold kneeTol
    rw [r1.2.1, hu1]
    have := r1.2.2.1
    norm_num at this ⊢
    linarith
  have hz : z = false := by
    cases z with
    | false => rfl
    | true =>
      have := z1.1 rfl
      norm_num at this
  rw [e2, e3, hx, z2, hz]
  rfl

theorem kernels_gram {fl : ℝ → ℝ} {K' : FlKernels N} (hK' : FlKernelsOk fl K') : ∃ G, FlKernelsOk fl { K' with gram := G } ∧ GramOk fl { K' with gram := G } := by
  have hg : ∀ (t : ℕ) (l : List ℝ), ∃ g, l ≠ [] → DotOrder fl (l.map fun y => (fl (y - fl (K'.colsum t l / l.length)), fl (y - fl (K'.colsum t l / l.length)))) g := by
    intro t l
    by_cases h : l = []
    · exact ⟨0, fun h' => absurd h h'⟩
    · obtain ⟨g, hg⟩ := DotOrder.exists fl (l.map fun y => (fl (y - fl (K'.colsum t l / l.length)), fl (y - fl (K'.colsum t l / l.length)))) (by simpa using h)
      exact ⟨g, fun _ => hg⟩
  choose G hG using hg
  exact ⟨G, ⟨hK'.matvec, hK'.dot, hK'.colsum⟩, hG⟩

/-- Concrete case of **C166** for the loop: `[[0, 2], [0, 0]]` with vectors `(1, q)`, five at a time; `CountCriterion(9) | (KneeCriterion(1) & ~CountCriterion(3))`
stops after at most two passes in double precision. -/
example (fl root : ℝ → ℝ) (hn : binary64.Nearest fl) (hr : RootOk binary64 root) : ∃ (K : FlKernels 2) (k : ℕ) (e : EstRecFl), FlKernelsOk fl K ∧ GramOk fl K ∧ k ≤ 2 ∧
    hutchLoopRecFl binary64.top fl root K !![0, 2; 0, 0] (fun l b (j : Fin b) => ![1, (kneeExQ (5 * l.length + j) : ℝ)]) 5
      (.or (.base (.count 9)) (.and (.knee 1) (.not (.base (.count 3))))) 3 0 (EstRecFl.init true) = some (.ok (k, e)) := by
  obtain ⟨K', hK', hm, hd⟩ := kernels_two fl
  obtain ⟨G, hK, hG⟩ := kernels_gram hK'
  set K : FlKernels 2 := { K' with gram := G } with hKd
  set pdf : Pdf 2 := fun l b (j : Fin b) => ![1, (kneeExQ (5 * l.length + j) : ℝ)] with hpdf
  have z := hn.zero (by decide : binary64.emin ≤ binary64.emax)
  have mi : ∀ m : ℤ, |m| ≤ 100 → fl (m : ℝ) = m := fun m h => hn.eq_self (binary64_mem_int m (h.trans (by norm_num)))
  have hquad : ∀ t j (q : ℤ), |q| ≤ 50 → K.dot t j ![1, (q : ℝ)] (K.matvec t j !![0, 2; 0, 0] ![1, (q : ℝ)]) = ((2 * q : ℤ) : ℝ) := by
    intro t j q hq
    have e1 : fl (2 * (q : ℝ)) = 2 * q := by
      have := mi (2 * q) (by rw [abs_mul]; norm_num; linarith)
      push_cast at this
      exact this
    show K'.dot t j _ (K'.matvec t j _ _) = _
    rw [hd, hm, hm]
    simp [e1, z]
  have hq50 : ∀ m, m < 10 → |kneeExQ m| ≤ 50 ∧ |2 * kneeExQ m| ≤ 20 := by
    intro m hm
    interval_cases m <;> simp [kneeExQ]
  have ht := top64
  obtain ⟨k, e, k1, k2, -⟩ := C166_count_bound hn hr hK hG !![0, 2; 0, 0] pdf (b := 5) (by norm_num) 20 (by norm_num at ht ⊢; linarith) true
    (.and (.knee 1) (.not (.base (.count 3)))) ⟨trivial, trivial⟩ 9 2 (by norm_num) (fits20 _ (by norm_num))
    (by
      intro t ht x hx
      unfold quadFormFl at hx
      rw [List.mem_ofFn] at hx
      obtain ⟨j, rfl⟩ := hx
      have h := hq50 (5 * t + j) (by omega)
      simp only [hpdf, List.length_replicate]
      rw [hquad t j _ h.1]
      exact ⟨binary64_mem_int _ (h.2.trans (by norm_num)), by exact_mod_cast h.2⟩)
  exact ⟨K, k, e, hK, hG, k1, k2⟩

/-- Concrete case of **C166** for Rademacher vectors: `[[0, 2], [0, 0]]` in double precision, five vectors at a time, any generator:
`CountCriterion(9) | KneeCriterion(1)` returns after at most two passes, with the estimate within `2⁻⁴¹` of the mean of the exact `vᵀ A v`. -/
example (fl root : ℝ → ℝ) (hn : binary64.Nearest fl) (hr : RootOk binary64 root) (rng : Rng) (hu : ∀ p, 0 ≤ rng.unif p ∧ rng.unif p < 1) :
    ∃ (K : FlKernels 2) (pdf : Pdf 2) (k : ℕ) (e : EstRecFl), isotropicPdf "rademacher" rng 2 = .ok pdf ∧ k ≤ 2 ∧
    hutchLoopRecFl binary64.top fl root K !![0, 2; 0, 0] pdf 5 (.or (.base (.count 9)) (.knee 1)) 3 0 (EstRecFl.init true) = some (.ok (k, e)) ∧
      (0 < k → ∃ mu, e.est.cov.mean = .val mu ∧ |mu 0 - avgOf (quadSamples !![0, 2; 0, 0] pdf 5 k)| ≤ 1 / 2 ^ 41) := by
  obtain ⟨K', hK', -, -⟩ := kernels_two fl
  obtain ⟨G, hK, hG⟩ := kernels_gram hK'
  obtain ⟨pdf, hp⟩ : ∃ pdf : Pdf 2, isotropicPdf "rademacher" rng 2 = .ok pdf := ⟨_, rfl⟩
  have ht := top64
  have hu1 : binary64.u = 1 / 9007199254740992 := by
    have : binary64.u = (2 : ℝ) ^ (-53 : ℤ) := rfl
    rw [this]; norm_num
  have m0 := binary64_mem_int 0 (by norm_num)
  have m2 := binary64_mem_int 2 (by norm_num)
  push_cast at m0 m2
  obtain ⟨k, e, k1, k2, -, -, -, k3⟩ := C166_rademacher hn hr hK hG rng hu !![0, 2; 0, 0]
    (by intro i j; fin_cases i <;> fin_cases j <;> simp <;> first | exact m0 | exact m2) 10 (by norm_num [Fin.sum_univ_two]) (by rw [hu1]; norm_num) pdf hp (b := 5) (by norm_num)
    (by norm_num at ht ⊢; linarith) (by norm_num at ht ⊢; linarith) true (.knee 1) trivial 9 2 (by norm_num) (by intro j hj; omega)
    (by rw [show (2 : ℝ) * 10 = 20 by norm_num]; exact fits20 _ (by norm_num))
  refine ⟨_, pdf, k, e, hp, k1, k2, fun hk => ?_⟩
  obtain ⟨mu, h1, -, h2⟩ := k3 hk
  refine ⟨mu, h1, h2.trans ?_⟩
  have : ((k * 5 : ℕ) : ℝ) ≤ 10 := by exact_mod_cast (show k * 5 ≤ 10 by omega)
  rw [hu1]
  norm_num at this ⊢
  linarith

end Primate
