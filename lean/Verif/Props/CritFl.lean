import Verif.Lemmas.CritFl

/-! # C158: stopping criteria, `hutch` with any of them, and confidence intervals in rounded arithmetic -/

noncomputable section

namespace Primate

open Spec StatsFl

variable {φ : Fmt} {fl root : ℝ → ℝ}

/-- The parameters of a criterion are such that no comparison overflows: scores and relative tolerances are not negative and not huge. -/
def Spec.CritOk (φ : Fmt) (M : ℝ) : CritFl → Prop
  | .count _ => True
  | .conf c => (∀ n, 0 ≤ c.tScores n ∧ c.tScores n * (2 * M) ≤ φ.top) ∧ (0 ≤ c.z ∧ c.z * (2 * M) ≤ φ.top) ∧ 0 ≤ c.rtol ∧ c.rtol ≤ φ.top
  | .tol rtol _ => 0 ≤ rtol ∧ rtol * (2 * M + 1) ≤ φ.top
  | .or a b => CritOk φ M a ∧ CritOk φ M b
  | .and a b => CritOk φ M a ∧ CritOk φ M b

/-- The answer `b` of a criterion explained by the observations: `prev` before the last update, `xs` after it.  Counts are exact, the other criteria decide by the
exact mean and standard error up to rounding errors. -/
def Spec.Explained (φ : Fmt) (M : ℝ) (prev xs : List ℝ) : CritFl → Bool → Prop
  | .count c, b => b = true ↔ c ≤ xs.length
  | .conf c, b => (xs.length < 3 → b = false) ∧
      (3 ≤ xs.length → ConfDecision φ M (if xs.length < 30 then c.tScores xs.length else c.z) c.atol c.rtol xs b)
  | .tol rtol atol, b => (xs = [] → b = false) ∧
      (xs ≠ [] → TolDecision φ M xs.length rtol atol (if prev = [] then 0 else avgOf prev) (avgOf xs) b)
  | .or c d, b => ∃ x y, Explained φ M prev xs c x ∧ Explained φ M prev xs d y ∧ b = (x || y)
  | .and c d, b => ∃ x y, Explained φ M prev xs c x ∧ Explained φ M prev xs d y ∧ b = (x && y)

namespace StatsFl

theorem fitsSq_mono {N n : ℕ} {M : ℝ} (h : φ.FitsSq N M) (hn : n ≤ N) : φ.FitsSq n M := by
  have h1 : (n : ℝ) ≤ N := by exact_mod_cast hn
  have hM := M_pos h.toFits
  have hu := φ.u_pos
  have hη := φ.eta_pos
  exact ⟨⟨h.exp, (mul_le_mul_of_nonneg_right h1 hu.le).trans h.small, h.one,
    (mul_le_mul_of_nonneg_right (by linarith : 4 * (n : ℝ) ≤ 4 * N) hM.le).trans h.top, h.eta, (mul_le_mul_of_nonneg_right h1 hη.le).trans h.etaN⟩,
    (mul_le_mul_of_nonneg_right (by linarith : 16 * (n : ℝ) ≤ 16 * N) (sq_nonneg M)).trans h.topSq, h1.trans h.topN, h.etaSq⟩

/-- The estimator after the observations `xs`, the last batch of which followed the observations `prev`. -/
structure Hist (φ : Fmt) (fl : ℝ → ℝ) (M : ℝ) (e : EstFl) (prev xs : List ℝ) : Prop where
  inv : EInv φ M e xs
  nil : xs = [] → e.delta = none
  last : xs ≠ [] → ∃ e0, EInv φ M e0 prev ∧ prev.length ≤ xs.length ∧ e.delta = some (fl (e.cov.mu 0 - e0.cov.mu 0))

theorem Hist.init {M : ℝ} (he : φ.emin ≤ φ.emax) : Hist φ fl M EstFl.init [] [] :=
  ⟨EInv.init he, fun _ => rfl, fun h => absurd rfl h⟩

theorem Hist.step (hn : φ.Nearest fl) {N : ℕ} {M : ℝ} (h : φ.FitsSq N M) {e : EstFl} {prev xs : List ℝ} (H : Hist φ fl M e prev xs) {B : List ℝ × ℝ × ℝ}
    (hB : BatchOk φ fl M B) (hN : xs.length + B.1.length ≤ N) :
    ∃ e', e.update fl B.1 B.2.1 B.2.2 = .ok e' ∧ Hist φ fl M e' xs (xs ++ B.1) := by
  obtain ⟨e', h1, h2, h3⟩ := H.inv.step hn h hB hN
  refine ⟨e', h1, h2, fun h0 => ?_, fun _ => ⟨e, H.inv, by simp, h3⟩⟩
  exact absurd (List.append_eq_nil_iff.1 h0).2 hB.ne

theorem Hist.eval (hn : φ.Nearest fl) (hr : RootOk φ root) {M : ℝ} (htop : 18 * M ^ 2 + 1 ≤ φ.top) {e : EstFl} {prev xs : List ℝ} (h : φ.FitsSq xs.length M)
    (H : Hist φ fl M e prev xs) (crit : CritFl) (hc : CritOk φ M crit) : ∃ b, crit.eval φ.top fl root e = .ok b ∧ Explained φ M prev xs crit b := by
  induction crit with
  | count c =>
    refine ⟨_, rfl, ?_⟩
    show truth _ = true ↔ _
    rw [truth_eq_true, H.inv.count]
  | conf c =>
    by_cases h3 : xs.length < 3
    · refine ⟨false, ?_, fun _ => rfl, fun h' => absurd h3 (by omega)⟩
      show c.callFl φ.top fl root e = _
      unfold ConfCrit.callFl ConfCrit.errorFl
      rw [if_pos (by rw [H.inv.count]; exact h3)]
      simp [Fl.le]
    · obtain ⟨c1, c2, c3, c4⟩ := hc
      have hs : 0 ≤ (if xs.length < 30 then c.tScores xs.length else c.z) ∧ (if xs.length < 30 then c.tScores xs.length else c.z) * (2 * M) ≤ φ.top := by
        split_ifs
        · exact c1 _
        · exact c2
      obtain ⟨b, b1, b2⟩ := H.inv.conf hn h (by omega) hr c _ rfl hs.1 hs.2 c3 c4
      exact ⟨b, b1, fun h' => absurd h' h3, fun _ => b2⟩
  | tol rtol atol =>
    by_cases hx : xs = []
    · refine ⟨false, ?_, fun _ => rfl, fun h' => absurd hx h'⟩
      show toleranceFl fl rtol atol e = _
      unfold toleranceFl
      rw [H.nil hx]
    · obtain ⟨e0, i0, hl, hd⟩ := H.last hx
      obtain ⟨m1, m2, m3⟩ := H.inv.mean_near hx
      have hu := φ.u_pos
      have hM := M_pos h.toFits
      have hlen : 0 < xs.length := List.length_pos_iff.2 hx
      have hold : φ.Mem (e0.cov.mu 0) ∧ |e0.cov.mu 0 - (if prev = [] then 0 else avgOf prev)| ≤ 16 * xs.length * φ.u * M ∧
          |if prev = [] then 0 else avgOf prev| ≤ M := by
        by_cases hp : prev = []
        · have h0 : e0.cov.mu 0 = 0 := i0.mean.mu0 (by rw [i0.count, hp]; rfl) 0
          refine ⟨i0.mean.mem 0, ?_, ?_⟩
          · rw [h0, if_pos hp, sub_zero, abs_zero]
            positivity
          · rw [if_pos hp, abs_zero]
            exact hM.le
        · obtain ⟨-, p2, p3⟩ := i0.mean_near hp
          rw [if_neg hp]
          refine ⟨p2, p3.trans ?_, listMean_le prev i0.bound hp⟩
          have : (prev.length : ℝ) ≤ xs.length := by exact_mod_cast hl
          have h1 : 16 * (prev.length : ℝ) * φ.u ≤ 16 * xs.length * φ.u := mul_le_mul_of_nonneg_right (by linarith) hu.le
          exact mul_le_mul_of_nonneg_right h1 hM.le
      refine ⟨_, ?_, fun h' => absurd h' hx, fun _ => tol_decision hn hlen h htop m2 hold.1 m3 hold.2.1 (listMean_le xs H.inv.bound hx) hold.2.2 rtol atol hc.1 hc.2⟩
      show toleranceFl fl rtol atol e = _
      unfold toleranceFl
      rw [hd, m1]
  | or a b iha ihb =>
    obtain ⟨x, x1, x2⟩ := iha hc.1
    obtain ⟨y, y1, y2⟩ := ihb hc.2
    refine ⟨x || y, ?_, x, y, x2, y2, rfl⟩
    simp only [CritFl.eval, x1, y1]
  | and a b iha ihb =>
    obtain ⟨x, x1, x2⟩ := iha hc.1
    obtain ⟨y, y1, y2⟩ := ihb hc.2
    refine ⟨x && y, ?_, x, y, x2, y2, rfl⟩
    simp only [CritFl.eval, x1, y1]

theorem Hist.history (hn : φ.Nearest fl) {N : ℕ} {M : ℝ} (h : φ.FitsSq N M) (H : List (List ℝ × ℝ × ℝ)) (hH : ∀ B ∈ H, BatchOk φ fl M B)
    (hN : (allObs H).length ≤ N) : ∃ e, EstFl.init.updates fl H = .ok e ∧ Hist φ fl M e (allObs H.dropLast) (allObs H) := by
  induction H using List.reverseRecOn with
  | nil => exact ⟨EstFl.init, rfl, Hist.init h.exp⟩
  | append_singleton H B ih =>
    rw [allObs_append, List.length_append] at hN
    obtain ⟨e, h1, h2⟩ := ih (fun B hB => hH B (by simp [hB])) (by omega)
    obtain ⟨e', h3, h4⟩ := h2.step hn h (hH B (by simp)) hN
    refine ⟨e', ?_, ?_⟩
    · rw [EstFl.updates, List.foldlM_append]
      rw [EstFl.updates] at h1
      rw [h1]
      simp only [bind, Except.bind, List.foldlM_cons, h3, List.foldlM_nil, pure, Except.pure]
    · rw [List.dropLast_concat, allObs_append]
      exact h4

end StatsFl

/-- **C158**, criteria.  In rounded arithmetic, whatever the batches and the order in which sums and inner products are evaluated, every criterion made of counts,
confidence and tolerance criteria answers without exception, and the answer is the one the exact mean and standard error of the observations call for, up to errors of
the order of `√u M` for the standard error and `n u M` for the mean. -/
theorem C158_criterion (hn : φ.Nearest fl) (hr : RootOk φ root) (H : List (List ℝ × ℝ × ℝ)) (M : ℝ) (h : φ.FitsSq (allObs H).length M)
    (htop : 18 * M ^ 2 + 1 ≤ φ.top) (hH : ∀ B ∈ H, BatchOk φ fl M B) (crit : CritFl) (hc : CritOk φ M crit) :
    ∃ e b, EstFl.init.updates fl H = .ok e ∧ crit.eval φ.top fl root e = .ok b ∧ Explained φ M (allObs H.dropLast) (allObs H) crit b := by
  obtain ⟨e, h1, h2⟩ := Hist.history hn h H hH le_rfl
  obtain ⟨b, b1, b2⟩ := h2.eval hn hr htop h crit hc
  exact ⟨e, b, h1, b1, b2⟩

variable {N : ℕ}

/-- The inner product of a centred batch with itself is evaluated in some order, every operation rounded. -/
def Spec.GramOk (fl : ℝ → ℝ) (K : FlKernels N) : Prop :=
  ∀ t x, x ≠ [] → DotOrder fl (x.map fun y => (fl (y - fl (K.colsum t x / x.length)), fl (y - fl (K.colsum t x / x.length)))) (K.gram t x)

theorem hutchLoopCritFl_run (hn : φ.Nearest fl) (hr : RootOk φ root) {K : FlKernels N} (hK : FlKernelsOk fl K) (hG : GramOk fl K) (A : Matrix (Fin N) (Fin N) ℝ)
    (pdf : Pdf N) {b : ℕ} (hb : 0 < b) (M : ℝ) (htop : 18 * M ^ 2 + 1 ≤ φ.top) (crit : CritFl) (hc : CritOk φ M crit) (L : ℕ) (hfit : φ.FitsSq (L * b) M)
    (hq : ∀ t < L, ∀ x ∈ quadFormFl K A t (pdf (List.replicate t b) b), φ.Mem x ∧ |x| ≤ M) :
    ∀ (fuel t : ℕ) (e : EstFl), t + fuel ≤ L + 1 → t ≤ L → Hist φ fl M e (flSamples K A pdf b (t - 1)) (flSamples K A pdf b t) →
      (∃ k e', t ≤ k ∧ k < t + fuel ∧ hutchLoopCritFl φ.top fl root K A pdf b crit fuel t e = some (.ok (k, e')) ∧
        Hist φ fl M e' (flSamples K A pdf b (k - 1)) (flSamples K A pdf b k) ∧
        Explained φ M (flSamples K A pdf b (k - 1)) (flSamples K A pdf b k) crit true ∧
        ∀ j, t ≤ j → j < k → Explained φ M (flSamples K A pdf b (j - 1)) (flSamples K A pdf b j) crit false) ∨
      (hutchLoopCritFl φ.top fl root K A pdf b crit fuel t e = none ∧
        ∀ j, t ≤ j → j < t + fuel → j ≤ L → Explained φ M (flSamples K A pdf b (j - 1)) (flSamples K A pdf b j) crit false) := by
  intro fuel
  induction fuel with
  | zero =>
    intro t e _ _ _
    exact Or.inr ⟨rfl, fun j h1 h2 => absurd h2 (by omega)⟩
  | succ fuel ih =>
    intro t e hL htL H
    have hlen : (flSamples K A pdf b t).length ≤ L * b := by
      rw [flSamples_length]
      exact Nat.mul_le_mul_right b htL
    obtain ⟨a, a1, a2⟩ := H.eval hn hr htop (fitsSq_mono hfit hlen) crit hc
    cases a with
    | true =>
      left
      refine ⟨t, e, le_rfl, by omega, ?_, H, a2, fun j h1 h2 => absurd h2 (by omega)⟩
      simp only [hutchLoopCritFl, a1]
    | false =>
      rcases Nat.lt_or_ge t L with hlt | hge
      · set x := quadFormFl K A t (pdf (List.replicate t b) b) with hx
        have hxl : x.length = b := by simp [hx, quadFormFl]
        have hx0 : x ≠ [] := by intro h; rw [h] at hxl; simp at hxl; omega
        have hB : BatchOk φ fl M (x, K.colsum t x, K.gram t x) := ⟨hx0, hq t hlt, hK.colsum t x hx0, hG t x hx0⟩
        obtain ⟨e', e1, e2⟩ := H.step hn hfit hB (by
          show _ + x.length ≤ _
          rw [flSamples_length, hxl, ← Nat.succ_mul]
          exact Nat.mul_le_mul_right b hlt)
        have e3 : Hist φ fl M e' (flSamples K A pdf b (t + 1 - 1)) (flSamples K A pdf b (t + 1)) := by
          rw [Nat.add_sub_cancel, flSamples_succ]
          exact e2
        have hstep : hutchLoopCritFl φ.top fl root K A pdf b crit (fuel + 1) t e = hutchLoopCritFl φ.top fl root K A pdf b crit fuel (t + 1) e' := by
          rw [hutchLoopCritFl, a1]
          simp only [← hx, e1]
        rw [hstep]
        rcases ih (t + 1) e' (by omega) hlt e3 with ⟨k, e4, k1, k2, k3, k4, k5, k6⟩ | ⟨k1, k2⟩
        · left
          refine ⟨k, e4, by omega, by omega, k3, k4, k5, fun j j1 j2 => ?_⟩
          rcases Nat.eq_or_lt_of_le j1 with rfl | j3
          · exact a2
          · exact k6 j j3 j2
        · right
          refine ⟨k1, fun j j1 j2 j3 => ?_⟩
          rcases Nat.eq_or_lt_of_le j1 with rfl | j4
          · exact a2
          · exact k2 j j4 (by omega) j3
      · right
        obtain rfl : fuel = 0 := by omega
        refine ⟨?_, fun j j1 j2 j3 => ?_⟩
        · rw [hutchLoopCritFl, a1]
          simp only
          split <;> [skip; rfl]
          rename_i err herr
          exfalso
          unfold EstFl.update at herr
          have hx0 : (quadFormFl K A t (pdf (List.replicate t b) b)).length = b := by simp [quadFormFl]
          unfold Covariance.updateRowsFl at herr
          simp only [List.length_map, hx0, show ¬ (e.cov.n + b = 0) by omega, show b ≠ 0 by omega, if_false] at herr
          cases herr
        · obtain rfl : j = t := by omega
          exact a2

/-- **C158**, `hutch`.  The loop of `hutch` on a dense array, in rounded arithmetic, with any criterion made of counts, confidence and tolerance criteria and with at most
`L` passes of `b` vectors.  Either it stops after `k` passes: the criterion was met by the exact mean and standard error of the `k b` computed samples, up to rounding
errors; it was not met after any earlier pass; and the estimate is within `16 n u M` of the mean of the samples.  Or the criterion was not met after any of the passes. -/
theorem C158_hutch (hn : φ.Nearest fl) (hr : RootOk φ root) {K : FlKernels N} (hK : FlKernelsOk fl K) (hG : GramOk fl K) (A : Matrix (Fin N) (Fin N) ℝ)
    (pdf : Pdf N) {b : ℕ} (hb : 0 < b) (M : ℝ) (htop : 18 * M ^ 2 + 1 ≤ φ.top) (crit : CritFl) (hc : CritOk φ M crit) (L : ℕ) (hfit : φ.FitsSq (L * b) M)
    (hq : ∀ t < L, ∀ x ∈ quadFormFl K A t (pdf (List.replicate t b) b), φ.Mem x ∧ |x| ≤ M) :
    (∃ k e, k ≤ L ∧ hutchLoopCritFl φ.top fl root K A pdf b crit (L + 1) 0 EstFl.init = some (.ok (k, e)) ∧ e.cov.n = k * b ∧
        Explained φ M (flSamples K A pdf b (k - 1)) (flSamples K A pdf b k) crit true ∧
        (∀ j < k, Explained φ M (flSamples K A pdf b (j - 1)) (flSamples K A pdf b j) crit false) ∧
        (0 < k → ∃ mu, e.cov.mean = .val mu ∧ |mu 0 - avgOf (flSamples K A pdf b k)| ≤ 16 * (k * b : ℕ) * φ.u * M)) ∨
      (hutchLoopCritFl φ.top fl root K A pdf b crit (L + 1) 0 EstFl.init = none ∧
        ∀ j ≤ L, Explained φ M (flSamples K A pdf b (j - 1)) (flSamples K A pdf b j) crit false) := by
  have h0 : Hist φ fl M EstFl.init (flSamples K A pdf b (0 - 1)) (flSamples K A pdf b 0) := by
    simpa [flSamples] using Hist.init (fl := fl) (M := M) hfit.exp
  rcases hutchLoopCritFl_run hn hr hK hG A pdf hb M htop crit hc L hfit hq (L + 1) 0 EstFl.init (by omega) (by omega) h0 with ⟨k, e, -, k2, k3, k4, k5, k6⟩ | ⟨k1, k2⟩
  · left
    refine ⟨k, e, by omega, k3, by rw [k4.inv.count, flSamples_length], k5, fun j hj => k6 j (by omega) hj, fun hk => ?_⟩
    have hx : flSamples K A pdf b k ≠ [] := by
      intro h
      have := congrArg List.length h
      rw [flSamples_length] at this
      simp at this
      omega
    obtain ⟨m1, -, m3⟩ := k4.inv.mean_near hx
    rw [flSamples_length] at m3
    exact ⟨_, m1, m3⟩
  · exact Or.inr ⟨k1, fun j hj => k2 j (by omega) (by omega) hj⟩

/-- **C158**, termination: with `CountCriterion(c) | crit` the loop stops after at most `⌈c / b⌉` passes. -/
theorem C158_count_bound (hn : φ.Nearest fl) (hr : RootOk φ root) {K : FlKernels N} (hK : FlKernelsOk fl K) (hG : GramOk fl K) (A : Matrix (Fin N) (Fin N) ℝ)
    (pdf : Pdf N) {b : ℕ} (hb : 0 < b) (M : ℝ) (htop : 18 * M ^ 2 + 1 ≤ φ.top) (crit : CritFl) (hc : CritOk φ M crit) (c L : ℕ) (hL : c ≤ L * b)
    (hfit : φ.FitsSq (L * b) M) (hq : ∀ t < L, ∀ x ∈ quadFormFl K A t (pdf (List.replicate t b) b), φ.Mem x ∧ |x| ≤ M) :
    ∃ k e, k ≤ L ∧ hutchLoopCritFl φ.top fl root K A pdf b (.or (.count c) crit) (L + 1) 0 EstFl.init = some (.ok (k, e)) ∧ e.cov.n = k * b := by
  rcases C158_hutch hn hr hK hG A pdf hb M htop (.or (.count c) crit) ⟨trivial, hc⟩ L hfit hq with ⟨k, e, k1, k2, k3, -⟩ | ⟨-, k2⟩
  · exact ⟨k, e, k1, k2, k3⟩
  · exfalso
    obtain ⟨x, y, x1, -, x3⟩ := k2 L le_rfl
    have : x = true := x1.2 (by rw [flSamples_length]; exact hL)
    rw [this] at x3
    simp at x3

/-- **C158**, `hutch` with Rademacher vectors: the hypotheses on the samples hold for every dense array of numbers of the format, with twice the sum of the absolute
values of the entries as the bound `M`. -/
theorem C158_rademacher (hn : φ.Nearest fl) {K : FlKernels N} (hK : FlKernelsOk fl K) (rng : Rng) (hu : ∀ p, 0 ≤ rng.unif p ∧ rng.unif p < 1)
    (A : Matrix (Fin N) (Fin N) ℝ) (hA : ∀ i j, φ.Mem (A i j)) (M : ℝ) (hM : ∑ i, ∑ j, |A i j| ≤ M) (hNu : N * φ.u ≤ 1 / 64) (he : φ.emin ≤ φ.emax)
    (htop : 2 * M ≤ φ.top) (pdf : Pdf N) (hp : isotropicPdf "rademacher" rng N = .ok pdf) (b : ℕ) :
    ∀ t, ∀ x ∈ quadFormFl K A t (pdf (List.replicate t b) b), φ.Mem x ∧ |x| ≤ 2 * M := by
  have hup := φ.u_pos
  have hM0 : 0 ≤ M := le_trans (Finset.sum_nonneg fun i _ => Finset.sum_nonneg fun j _ => abs_nonneg _) hM
  have hsg := rademacher_pdf_signs rng hu pdf hp
  have hex : ∀ v : Vec N, (∀ i, v i = 1 ∨ v i = -1) → |Spec.quad A v| ≤ M := by
    intro v hv
    refine le_trans ?_ hM
    unfold Spec.quad
    refine (Finset.abs_sum_le_sum_abs _ _).trans (Finset.sum_le_sum fun i _ => (Finset.abs_sum_le_sum_abs _ _).trans (Finset.sum_le_sum fun j _ => le_of_eq ?_))
    rcases hv i with h | h <;> rcases hv j with h' | h' <;> rw [h, h'] <;> simp
  intro t x hx
  rw [quadFormFl, List.mem_ofFn] at hx
  obtain ⟨j, rfl⟩ := hx
  obtain ⟨h1, h2⟩ := sign_quad hn he hK A hA M hM hNu htop t j _ (hsg (List.replicate t b) b j)
  refine ⟨h1, (abs_le_of_close h2 (hex _ (hsg _ _ _))).trans ?_⟩
  nlinarith

/-- The root rounded correctly satisfies `RootOk`. -/
theorem rootOk_sqrt (hn : φ.Nearest fl) (he : φ.emin ≤ φ.emax) (hp : φ.emin ≤ 2 - 2 * φ.p) (h1 : 1 ≤ φ.top) : RootOk φ fun x => fl (Real.sqrt x) := by
  intro x hx hx0
  have hxt := hx.le_top
  rw [abs_of_nonneg hx0] at hxt
  have hst : Real.sqrt x ≤ φ.top := by
    rw [Real.sqrt_le_left φ.top_nonneg]
    nlinarith
  have hst' : |Real.sqrt x| ≤ φ.top := by rwa [abs_of_nonneg (Real.sqrt_nonneg _)]
  refine ⟨(hn _ hst').1, ?_⟩
  rcases hx0.eq_or_lt with h0 | h0
  · rw [← h0]
    simp [hn.zero he]
  have h2 := hn.err he hst'
  rw [abs_of_nonneg (Real.sqrt_nonneg _)] at h2
  have h3 : φ.eta ≤ φ.u * Real.sqrt x := by
    obtain ⟨m, e, -, e1, -, e2⟩ := hx
    have hm : 0 < m := by
      by_contra hc
      push Not at hc
      have : (m : ℝ) ≤ 0 := by exact_mod_cast hc
      have h4 : (0 : ℝ) < (2 : ℝ) ^ e := by positivity
      nlinarith
    have hm1 : (1 : ℝ) ≤ m := by exact_mod_cast hm
    have h5 : (2 : ℝ) ^ φ.emin ≤ x := by
      rw [e2]
      have h6 : (2 : ℝ) ^ φ.emin ≤ (2 : ℝ) ^ e := zpow_le_zpow_right₀ (by norm_num) e1
      have h7 : (0 : ℝ) < (2 : ℝ) ^ e := by positivity
      nlinarith
    have hup := φ.u_pos
    have h8 : φ.eta / φ.u ≤ Real.sqrt x := by
      refine Real.le_sqrt_of_sq_le (le_trans ?_ h5)
      rw [div_pow, div_le_iff₀ (by positivity)]
      unfold Fmt.eta Fmt.u
      rw [← zpow_natCast, ← zpow_natCast, ← zpow_mul, ← zpow_mul, ← zpow_add₀ (by norm_num)]
      refine zpow_le_zpow_right₀ (by norm_num) ?_
      push_cast
      linarith
    rw [div_le_iff₀ hup] at h8
    linarith
  linarith

namespace StatsFl

/-- Mean and standard error as `confidence_interval` computes them. -/
theorem interval_parts (hn : φ.Nearest fl) {a : List ℝ} {s g M : ℝ} (hB : BatchOk φ fl M (a, s, g)) (h : φ.FitsSq a.length M) (h3 : 3 ≤ a.length)
    (hp : φ.emin ≤ 2 - 2 * φ.p) :
    (φ.Mem (fl (s / a.length)) ∧ |fl (s / a.length) - avgOf a| ≤ (2 * a.length + 1) * (φ.u * M)) ∧
    0 ≤ fl (fl (Real.sqrt (fl (g / ((a.length : ℝ) - 1)))) / fl (Real.sqrt a.length)) ∧
    fl (fl (Real.sqrt (fl (g / ((a.length : ℝ) - 1)))) / fl (Real.sqrt a.length)) ≤ 2 * M ∧
    |fl (fl (Real.sqrt (fl (g / ((a.length : ℝ) - 1)))) / fl (Real.sqrt a.length)) ^ 2 - stdErr a ^ 2| ≤ 130 * (φ.u * M ^ 2) := by
  have hM := M_pos h.toFits
  have hu := φ.u_pos
  have hb := batch_err hn h.toFits hB.sum hB.data le_rfl
  refine ⟨hb, ?_⟩
  obtain ⟨e, e1, e2, -⟩ := (EInv.init (φ := φ) (M := M) h.exp).step hn h hB (by simp)
  rw [List.nil_append] at e2
  obtain ⟨S, s1, s2, s3, s4⟩ := e2.se_near (root := fun x => fl (Real.sqrt x)) hn h h3 (rootOk_sqrt hn h.exp hp h.one)
  have hbm : |fl (s / a.length)| ≤ 17 / 16 * M := by
    have h1 := abs_le_of_close hb.2 (listMean_le a (fun x hx => (hB.data x hx).2) hB.ne)
    have h2 : (1 : ℝ) ≤ a.length := by exact_mod_cast (by omega : 1 ≤ a.length)
    have h4 := mul_le_mul_of_nonneg_right h.small hM.le
    have h5 : φ.u * M ≤ a.length * (φ.u * M) := le_mul_of_one_le_left (by positivity) h2
    have h6 : (2 * (a.length : ℝ) + 1) * (φ.u * M) = 2 * (a.length * φ.u * M) + φ.u * M := by ring
    rw [h6] at h1
    have h7 : (a.length : ℝ) * (φ.u * M) = a.length * φ.u * M := by ring
    linarith
  have hg : φ.Mem g := by
    refine (gram_err hn h (a.map fun y => (y, y)) (by simpa using hB.ne) (by simp) ?_ hb.1 hb.1 hbm hbm (by rw [List.length_map]; exact hb.2) (by rw [List.length_map]; exact hb.2)
      (listMean_le a (fun x hx => (hB.data x hx).2) hB.ne) ?_).1
    · intro q hq
      obtain ⟨y, hy, rfl⟩ := List.mem_map.1 hq
      exact ⟨hB.data y hy, hB.data y hy⟩
    · have := hB.gram
      simpa only [List.map_map, Function.comp_def] using this
  have hz : fl 0 = 0 := hn.zero h.exp
  have hne : a.length ≠ 0 := by omega
  have hS : e.cov.S 0 0 = g := by
    unfold EstFl.update Covariance.updateRowsFl at e1
    simp only [List.length_map, EstFl.init, Covariance.init, Nat.zero_add, hne, if_false] at e1
    injection e1 with e1
    rw [← e1]
    simp [hz, hn.eq_self hg]
  have hcov : S 0 0 = fl (g / ((a.length : ℝ) - 1)) := by
    unfold Covariance.covarianceFl at s1
    rw [if_neg (by rw [e2.count]; show ¬ ((a.length : ℕ) : ℤ) - 1 ≤ 0; omega), e2.nan] at s1
    injection s1 with s1
    injection s1 with s1
    have hs := congrFun (congrFun s1 0) 0
    rw [← hs]
    show fl (e.cov.S 0 0 / _) = _
    rw [hS, e2.count]
    push_cast
    rfl
  rw [hcov, e2.count] at s2 s3 s4
  exact ⟨s2, s3, s4⟩

/-- One end point of an interval. -/
theorem end_near (hn : φ.Nearest fl) (he : φ.emin ≤ φ.emax) {M n mh mean se SE q z : ℝ} (hus : φ.u ≤ 1 / 768) (hM : 0 < M) (hmm : φ.Mem mh)
    (h1 : |mh - mean| ≤ (2 * n + 1) * (φ.u * M)) (hmM : |mh| ≤ 17 / 16 * M) (hse0 : 0 ≤ se) (hse : se ≤ 2 * M) (hSE : |se - SE| ≤ 12 * Real.sqrt φ.u * M)
    (htop : (3 * |q| + 3) * M ≤ φ.top) (hz : φ.Mem z) (hzq : |z - q * se| ≤ φ.u * (2 * |q| * M) + φ.u * M) :
    |fl (mh + z) - (mean + q * SE)| ≤ (2 * n + 5) * (φ.u * M) + 13 * Real.sqrt φ.u * |q| * M := by
  have hu := φ.u_pos
  have hq0 := abs_nonneg q
  have hqM : 0 ≤ |q| * M := by positivity
  have huM : 0 ≤ φ.u * M := by positivity
  have hqs : |q * se| ≤ 2 * (|q| * M) := by
    rw [abs_mul, abs_of_nonneg hse0]
    have := mul_le_mul_of_nonneg_left hse hq0
    linarith
  have e1 : φ.u * (2 * |q| * M) ≤ 1 / 768 * (2 * (|q| * M)) := by
    have := mul_le_mul_of_nonneg_right hus (by positivity : 0 ≤ 2 * |q| * M)
    linarith
  have e2 : φ.u * M ≤ 1 / 768 * M := mul_le_mul_of_nonneg_right hus hM.le
  have hza : |z| ≤ 21 / 10 * (|q| * M) + 1 / 100 * M := by
    have := abs_le_of_close hzq hqs
    linarith
  have hs : |mh + z| ≤ 21 / 10 * (|q| * M) + 11 / 10 * M := (abs_add_le mh z).trans (by linarith)
  have ht : |mh + z| ≤ φ.top := hs.trans (le_trans (by linarith) htop)
  have h2 := hn.err_add he hmm hz ht
  have h3 : φ.u * |mh + z| ≤ φ.u * (21 / 10 * (|q| * M) + 11 / 10 * M) := mul_le_mul_of_nonneg_left hs hu.le
  have h4 : |q * se - q * SE| ≤ |q| * (12 * Real.sqrt φ.u * M) := by
    rw [← mul_sub, abs_mul]
    exact mul_le_mul_of_nonneg_left hSE hq0
  have h5 : fl (mh + z) - (mean + q * SE) = (fl (mh + z) - (mh + z)) + ((mh - mean) + ((z - q * se) + (q * se - q * SE))) := by ring
  have h6 := abs_add_le (fl (mh + z) - (mh + z)) ((mh - mean) + ((z - q * se) + (q * se - q * SE)))
  have h7 := abs_add_le (mh - mean) ((z - q * se) + (q * se - q * SE))
  have h8 := abs_add_le (z - q * se) (q * se - q * SE)
  have hru : 5 * φ.u ≤ Real.sqrt φ.u := by
    refine Real.le_sqrt_of_sq_le ?_
    have := mul_le_mul_of_nonneg_left hus hu.le
    rw [mul_pow]
    linarith
  have h9 := mul_le_mul_of_nonneg_right hru hqM
  rw [h5]
  have t1 : φ.u * (2 * |q| * M) = 2 * (φ.u * (|q| * M)) := by ring
  have t2 : φ.u * (21 / 10 * (|q| * M) + 11 / 10 * M) = 21 / 10 * (φ.u * (|q| * M)) + 11 / 10 * (φ.u * M) := by ring
  have t3 : |q| * (12 * Real.sqrt φ.u * M) = 12 * (Real.sqrt φ.u * (|q| * M)) := by ring
  have t4 : 13 * Real.sqrt φ.u * |q| * M = 13 * (Real.sqrt φ.u * (|q| * M)) := by ring
  have t5 : (2 * n + 5) * (φ.u * M) = (2 * n + 1) * (φ.u * M) + 4 * (φ.u * M) := by ring
  have t6 : 5 * φ.u * (|q| * M) = 5 * (φ.u * (|q| * M)) := by ring
  have t7 : 0 ≤ φ.u * (|q| * M) := by positivity
  rw [t4, t5]
  rw [t1] at hzq
  rw [t2] at h3
  rw [t3] at h4
  rw [t6] at h9
  linarith

end StatsFl

/-- **C158**, `confidence_interval`.  For three or more numbers of size at most `M`, in rounded arithmetic, whatever the order of summation: the end points are those of the
exact mean and standard error, `mean ± q SE` for the quantile `q` that SciPy returned, up to `(2 n + 5) u M + 13 √u |q| M`.  With `sdist="normal"` the answer is NaN only if the
standard error is at most `12 √u M`.  Any other `sdist` raises ValueError. -/
theorem C158_interval (hn : φ.Nearest fl) (hp : φ.emin ≤ 2 - 2 * φ.p) (a : List ℝ) (s g M : ℝ) (hB : BatchOk φ fl M (a, s, g)) (h : φ.FitsSq a.length M)
    (h3 : 3 ≤ a.length) (q1 q2 : ℝ) (ht1 : (3 * |q1| + 3) * M ≤ φ.top) (ht2 : (3 * |q2| + 3) * M ≤ φ.top) :
    (∃ lo hi, confidenceIntervalFl fl a s g q1 q2 "t" = .ok (.fin lo hi) ∧
      |lo - (avgOf a - q1 * stdErr a)| ≤ (2 * a.length + 5) * (φ.u * M) + 13 * Real.sqrt φ.u * |q1| * M ∧
      |hi - (avgOf a + q1 * stdErr a)| ≤ (2 * a.length + 5) * (φ.u * M) + 13 * Real.sqrt φ.u * |q1| * M) ∧
    ((∃ lo hi, confidenceIntervalFl fl a s g q1 q2 "normal" = .ok (.fin lo hi) ∧
      |lo - (avgOf a + q2 * stdErr a)| ≤ (2 * a.length + 5) * (φ.u * M) + 13 * Real.sqrt φ.u * |q2| * M ∧
      |hi - (avgOf a + q1 * stdErr a)| ≤ (2 * a.length + 5) * (φ.u * M) + 13 * Real.sqrt φ.u * |q1| * M) ∨
     (confidenceIntervalFl fl a s g q1 q2 "normal" = .ok .nan ∧ stdErr a ≤ 12 * Real.sqrt φ.u * M)) ∧
    ∀ sdist, sdist ≠ "t" → sdist ≠ "normal" → confidenceIntervalFl fl a s g q1 q2 sdist = .error .value := by
  have hu := φ.u_pos
  have hM := M_pos h.toFits
  have h3r : (3 : ℝ) ≤ a.length := by exact_mod_cast h3
  have hus : φ.u ≤ 1 / 768 := by
    have := h.small
    nlinarith
  obtain ⟨⟨m1, m2⟩, s1, s2, s3⟩ := interval_parts hn hB h h3 hp
  set mh := fl (s / a.length) with hmh
  set se := fl (fl (Real.sqrt (fl (g / ((a.length : ℝ) - 1)))) / fl (Real.sqrt a.length)) with hse
  have hSE : 0 ≤ stdErr a := by unfold stdErr; positivity
  have hnear := near_of_sq s1 hSE hu.le hM.le s3
  have hmM : |mh| ≤ 17 / 16 * M := by
    have h1 := abs_le_of_close m2 (listMean_le a (fun x hx => (hB.data x hx).2) hB.ne)
    have h4 := mul_le_mul_of_nonneg_right h.small hM.le
    have h5 := mul_le_mul_of_nonneg_right hus hM.le
    have h6 : (2 * (a.length : ℝ) + 1) * (φ.u * M) = 2 * (a.length * φ.u * M) + φ.u * M := by ring
    rw [h6] at h1
    linarith
  have hprod : ∀ q : ℝ, (3 * |q| + 3) * M ≤ φ.top → φ.Mem (fl (q * se)) ∧ |fl (q * se) - q * se| ≤ φ.u * (2 * |q| * M) + φ.u * M := by
    intro q hq
    have hqs : |q * se| ≤ 2 * |q| * M := by
      rw [abs_mul, abs_of_nonneg s1]
      have := mul_le_mul_of_nonneg_left s2 (abs_nonneg q)
      linarith
    have hqM : 0 ≤ |q| * M := by positivity
    have ht : |q * se| ≤ φ.top := hqs.trans (le_trans (by linarith) hq)
    have h4 := hn.err h.exp ht
    have h5 := mul_le_mul_of_nonneg_left hqs hu.le
    have h6 := h.eta
    exact ⟨(hn _ ht).1, by linarith⟩
  obtain ⟨p1, p2⟩ := hprod q1 ht1
  obtain ⟨p3, p4⟩ := hprod q2 ht2
  have hi1 := end_near hn h.exp hus hM m1 m2 hmM s1 s2 hnear ht1 p1 p2
  have lo2 := end_near hn h.exp hus hM m1 m2 hmM s1 s2 hnear ht2 p3 p4
  have lo1 := end_near (q := -q1) (z := -fl (q1 * se)) hn h.exp hus hM m1 m2 hmM s1 s2 hnear (by rwa [abs_neg]) p1.neg (by
    rw [abs_neg, show -fl (q1 * se) - -q1 * se = -(fl (q1 * se) - q1 * se) by ring, abs_neg]
    exact p2)
  rw [abs_neg, ← sub_eq_add_neg, neg_mul, ← sub_eq_add_neg] at lo1
  refine ⟨⟨fl (mh - fl (q1 * se)), fl (mh + fl (q1 * se)), by simp only [confidenceIntervalFl, if_true, ← hse, ← hmh], lo1, hi1⟩, ?_, ?_⟩
  · by_cases hpos : 0 < se
    · left
      refine ⟨fl (fl (q2 * se) + mh), fl (fl (q1 * se) + mh), ?_, ?_, ?_⟩
      · simp only [confidenceIntervalFl, ← hse, ← hmh, hpos, if_true, show ("normal" : String) ≠ "t" by decide, if_false]
      · rwa [add_comm]
      · rwa [add_comm]
    · right
      refine ⟨?_, ?_⟩
      · simp only [confidenceIntervalFl, ← hse, ← hmh, hpos, if_true, show ("normal" : String) ≠ "t" by decide, if_false]
      · have : se = 0 := le_antisymm (not_lt.1 hpos) s1
        rw [this, zero_sub, abs_neg, abs_of_nonneg hSE] at hnear
        exact hnear
  · intro sdist h1 h2
    simp only [confidenceIntervalFl, h1, h2, if_false]

/-- Concrete data: the double precision numbers 1, 2, 4. -/
theorem batch124 (fl : ℝ → ℝ) : ∃ s g, BatchOk binary64 fl 4 ([1, 2, 4], s, g) := by
  obtain ⟨s, hs⟩ := SumOrder.exists fl [1, 2, 4] (by simp)
  obtain ⟨g, hg⟩ := DotOrder.exists fl (([1, 2, 4] : List ℝ).map fun y => (fl (y - fl (s / ([1, 2, 4] : List ℝ).length)), fl (y - fl (s / ([1, 2, 4] : List ℝ).length))))
    (by simp)
  refine ⟨s, g, by simp, ?_, hs, hg⟩
  have m1 := binary64_mem_int 1 (by norm_num)
  have m2 := binary64_mem_int 2 (by norm_num)
  have m4 := binary64_mem_int 4 (by norm_num)
  push_cast at m1 m2 m4
  intro y hy
  simp only [List.mem_cons, List.not_mem_nil, or_false] at hy
  rcases hy with rfl | rfl | rfl
  · exact ⟨m1, by norm_num⟩
  · exact ⟨m2, by norm_num⟩
  · exact ⟨m4, by norm_num⟩

theorem top64 : (2 : ℝ) ^ (20 : ℕ) ≤ binary64.top := by
  unfold Fmt.top binary64
  have h1 : (1 : ℝ) ≤ (2 : ℝ) ^ (971 : ℤ) := one_le_zpow₀ (by norm_num) (by norm_num)
  have h2 : ((2 : ℝ) ^ 53 - 1) * 1 ≤ ((2 : ℝ) ^ 53 - 1) * (2 : ℝ) ^ (971 : ℤ) := mul_le_mul_of_nonneg_left h1 (by norm_num)
  refine le_trans ?_ h2
  norm_num

theorem fits124 : binary64.FitsSq 3 4 := by
  refine binary64_fitsSq 3 (by norm_num) 4 ?_ ?_
  · have : (2 : ℝ) ^ (-500 : ℤ) ≤ (2 : ℝ) ^ (0 : ℤ) := zpow_le_zpow_right₀ (by norm_num) (by norm_num)
    rw [zpow_zero] at this
    linarith
  · have : (2 : ℝ) ^ (2 : ℤ) ≤ (2 : ℝ) ^ (450 : ℤ) := zpow_le_zpow_right₀ (by norm_num) (by norm_num)
    exact le_trans (le_of_eq (by norm_num)) this

/-- Concrete case of **C158**: after one batch of 1, 2, 4 in double precision a confidence criterion with score 2, `atol = 2` and `rtol = 0` stops whatever the rounding:
the margin is `2 · √(7 / 9) < 2`. -/
example (fl root : ℝ → ℝ) (hn : binary64.Nearest fl) (hr : RootOk binary64 root) :
    ∃ s g e, EstFl.init.updates fl [([1, 2, 4], s, g)] = .ok e ∧
      (CritFl.conf ⟨2, 0, 2, fun _ => 2, 19 / 20⟩).eval binary64.top fl root e = .ok true := by
  obtain ⟨s, g, hB⟩ := batch124 fl
  have ht := top64
  obtain ⟨e, b, e1, e2, e3⟩ := C158_criterion (φ := binary64) hn hr [([1, 2, 4], s, g)] 4 fits124 (by norm_num at ht ⊢; linarith)
    (by intro B hBm; rw [List.mem_singleton.1 hBm]; exact hB) (.conf ⟨2, 0, 2, fun _ => 2, 19 / 20⟩)
    (by
      refine ⟨fun _ => ⟨by norm_num, ?_⟩, ⟨by norm_num, ?_⟩, le_rfl, ?_⟩ <;> norm_num at ht ⊢ <;> linarith)
  refine ⟨s, g, e, e1, ?_⟩
  cases b with
  | true => exact e2
  | false =>
    exfalso
    have h3 := ((e3.2 (by simp [allObs])).go rfl).1
    have hlen : allObs [(([1, 2, 4] : List ℝ), s, g)] = [1, 2, 4] := by simp [allObs]
    rw [hlen] at h3
    have hse : stdErr [1, 2, 4] ≤ 9 / 10 := by
      have hc : sampleCov 1 (([1, 2, 4] : List ℝ).map fun y (_ : Fin 1) => y) 0 0 = 7 / 3 := by
        norm_num [sampleCov, sampleMean]
      unfold stdErr
      rw [hc, ← Real.sqrt_div (by norm_num), Real.sqrt_le_left (by norm_num)]
      norm_num
    have hu : Real.sqrt binary64.u ≤ (2 : ℝ) ^ (-26 : ℤ) := by
      rw [Real.sqrt_le_left (by positivity)]
      show (2 : ℝ) ^ (-53 : ℤ) ≤ _
      norm_num
    have hu2 : binary64.u ≤ 1 / 1000 := by
      show (2 : ℝ) ^ (-53 : ℤ) ≤ _
      norm_num
    have hη : binary64.eta ≤ 1 / 1000 := by
      show (2 : ℝ) ^ (-1075 : ℤ) ≤ _
      have : (2 : ℝ) ^ (-1075 : ℤ) ≤ (2 : ℝ) ^ (-10 : ℤ) := zpow_le_zpow_right₀ (by norm_num) (by norm_num)
      refine this.trans ?_
      norm_num
    have hup := binary64.u_pos
    norm_num at hu
    have h4 : 2 * (stdErr [1, 2, 4] + 12 * Real.sqrt binary64.u * 4) ≤ 19 / 10 := by linarith
    have h5 : (1 + binary64.u) * (2 * (stdErr [1, 2, 4] + 12 * Real.sqrt binary64.u * 4)) ≤ (1 + binary64.u) * (19 / 10) :=
      mul_le_mul_of_nonneg_left h4 (by linarith)
    norm_num at h3
    linarith

/-- Concrete case of **C158**: the interval for 1, 2, 4 with the quantiles `± 4`. -/
example (fl : ℝ → ℝ) (hn : binary64.Nearest fl) :
    ∃ s g lo hi, BatchOk binary64 fl 4 ([1, 2, 4], s, g) ∧ confidenceIntervalFl fl [1, 2, 4] s g 4 (-4) "t" = .ok (.fin lo hi) ∧ lo < 0 ∧ 5 < hi := by
  obtain ⟨s, g, hB⟩ := batch124 fl
  have ht := top64
  obtain ⟨⟨lo, hi, h1, h2, h3⟩, -, -⟩ := C158_interval (φ := binary64) hn (by norm_num [binary64]) [1, 2, 4] s g 4 hB fits124 (by simp) 4 (-4)
    (by norm_num at ht ⊢; linarith) (by norm_num at ht ⊢; linarith)
  refine ⟨s, g, lo, hi, hB, h1, ?_⟩
  have hse : 8 / 10 ≤ stdErr [1, 2, 4] := by
    have hc : sampleCov 1 (([1, 2, 4] : List ℝ).map fun y (_ : Fin 1) => y) 0 0 = 7 / 3 := by
      norm_num [sampleCov, sampleMean]
    unfold stdErr
    rw [hc, ← Real.sqrt_div (by norm_num)]
    refine Real.le_sqrt_of_sq_le ?_
    norm_num
  have hmean : avgOf [1, 2, 4] = 7 / 3 := by norm_num [avgOf]
  have hu : Real.sqrt binary64.u ≤ (2 : ℝ) ^ (-26 : ℤ) := by
    rw [Real.sqrt_le_left (by positivity)]
    show (2 : ℝ) ^ (-53 : ℤ) ≤ _
    norm_num
  have hu2 : binary64.u ≤ 1 / 1000000 := by
    show (2 : ℝ) ^ (-53 : ℤ) ≤ _
    norm_num
  norm_num at hu
  rw [hmean] at h2 h3
  norm_num at h2 h3
  have h4 := (abs_le.1 h2).2
  have h5 := (abs_le.1 h3).1
  constructor <;> linarith

end Primate
