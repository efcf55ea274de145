import Verif.Model.SlqCritFl
import Verif.Props.CritRecFl
import Verif.Props.SlqFl

/-!
# C167: stochastic Lanczos quadrature with any criterion in rounded arithmetic
-/

noncomputable section

namespace Primate

open Matrix Polynomial Spec StatsFl

variable {n : ℕ} {K : SlqKernels n} {c : MFCfg} {A : Matrix (Fin n) (Fin n) ℝ} {M ε B ω δ L H S lo hi a b : ℝ} {fl root : ℝ → ℝ} {φ : Fmt}

/-- The inner product of a centred batch with itself is evaluated in some order, every operation rounded. -/
def Spec.SlqGramOk (fl : ℝ → ℝ) (K : SlqKernels n) : Prop :=
  ∀ t x, x ≠ [] → DotOrder fl (x.map fun y => (fl (y - fl (K.colsum t x / x.length)), fl (y - fl (K.colsum t x / x.length)))) (K.gram t x)

/-- The samples of the first `k` passes, given those of each pass. -/
def Spec.firstSamples (Y : ℕ → List ℝ) (k : ℕ) : List ℝ := (List.range k).flatMap Y

theorem firstSamples_succ (Y : ℕ → List ℝ) (k : ℕ) : firstSamples Y (k + 1) = firstSamples Y k ++ Y k := by
  simp [firstSamples, List.range_succ]

theorem firstSamples_length {Y : ℕ → List ℝ} {b : ℕ} (h : ∀ t, (Y t).length = b) (k : ℕ) : (firstSamples Y k).length = k * b := by
  induction k with
  | zero => simp [firstSamples]
  | succ k ih => rw [firstSamples_succ, List.length_append, ih, h]; ring

theorem slqLoopRecFl_run (hn : φ.Nearest fl) (hr : RootOk φ root) (hsum : ∀ t (x : List ℝ), x ≠ [] → SumOrder fl x (K.colsum t x)) (hg : SlqGramOk fl K)
    (pdf : Pdf n) {bt : ℕ} (hb : 0 < bt) (W : ℝ) (htop : 18 * W ^ 2 + 1 ≤ φ.top) (record : Bool) (crit : CritRecFl) (hc : CritRecOk φ W crit) (P : ℕ)
    (hfit : φ.FitsSq (P * bt) W) (G : ℕ → MFFl n) (Y : ℕ → List ℝ) (hY : ∀ t, quadFl K c t 0 (G t) (List.ofFn (pdf (List.replicate t bt) bt)) = .ok (G (t + 1), Y t))
    (hlen : ∀ t, (Y t).length = bt) (hq : ∀ t, ∀ y ∈ Y t, φ.Mem y ∧ |y| ≤ W) :
    ∀ (fuel t : ℕ) (e : EstRecFl), t + fuel ≤ P + 1 → t ≤ P → HistRec φ fl W record e (firstSamples Y (t - 1)) (firstSamples Y t) →
      (∃ k e', t ≤ k ∧ k < t + fuel ∧ slqLoopRecFl φ.top fl root K c pdf bt crit fuel t (G t) e = some (.ok (k, G k, e')) ∧
        HistRec φ fl W record e' (firstSamples Y (k - 1)) (firstSamples Y k) ∧
        ExplainedRec φ W record (firstSamples Y (k - 1)) (firstSamples Y k) crit true ∧
        ∀ j, t ≤ j → j < k → ExplainedRec φ W record (firstSamples Y (j - 1)) (firstSamples Y j) crit false) ∨
      (slqLoopRecFl φ.top fl root K c pdf bt crit fuel t (G t) e = none ∧
        ∀ j, t ≤ j → j < t + fuel → j ≤ P → ExplainedRec φ W record (firstSamples Y (j - 1)) (firstSamples Y j) crit false) := by
  intro fuel
  induction fuel with
  | zero =>
    intro t e _ _ _
    exact Or.inr ⟨rfl, fun j h1 h2 => absurd h2 (by omega)⟩
  | succ fuel ih =>
    intro t e hL htL H
    have hl : (firstSamples Y t).length ≤ P * bt := by
      rw [firstSamples_length hlen]
      exact Nat.mul_le_mul_right bt htL
    obtain ⟨a, a1, a2⟩ := H.eval hn hr htop (fitsSq_mono hfit hl) crit hc
    have hx0 : Y t ≠ [] := by
      intro h
      have := hlen t
      rw [h, List.length_nil] at this
      omega
    cases a with
    | true =>
      left
      refine ⟨t, e, le_rfl, by omega, ?_, H, a2, fun j h1 h2 => absurd h2 (by omega)⟩
      simp only [slqLoopRecFl, a1]
    | false =>
      rcases Nat.lt_or_ge t P with hlt | hge
      · have hB : BatchOk φ fl W (Y t, K.colsum t (Y t), K.gram t (Y t)) := ⟨hx0, hq t, hsum t _ hx0, hg t _ hx0⟩
        obtain ⟨e', e1, e2⟩ := H.step hn hfit hB (by
          show _ + (Y t).length ≤ _
          rw [firstSamples_length hlen, hlen, ← Nat.succ_mul]
          exact Nat.mul_le_mul_right bt hlt)
        have e3 : HistRec φ fl W record e' (firstSamples Y (t + 1 - 1)) (firstSamples Y (t + 1)) := by
          rw [Nat.add_sub_cancel, firstSamples_succ]
          exact e2
        have hstep : slqLoopRecFl φ.top fl root K c pdf bt crit (fuel + 1) t (G t) e = slqLoopRecFl φ.top fl root K c pdf bt crit fuel (t + 1) (G (t + 1)) e' := by
          rw [slqLoopRecFl, a1]
          simp only [hY, e1]
        rw [hstep]
        rcases ih (t + 1) e' (by omega) hlt e3 with ⟨k, e4, k1, k2, k3, k4, k5, k6⟩ | ⟨k1, k2⟩
        · left
          refine ⟨k, e4, by omega, by omega, k3, k4, k5, fun j j1 j2 => ?_⟩
          rcases Nat.eq_or_lt_of_le j1 with rfl | j3
          · exact a2
          · exact k6 j j3 j2
        · right
          refine ⟨k1, fun j j1 j2 j3 => ?_⟩
          rcases Nat.eq_or_lt_of_le j1 with rfl | j4
          · exact a2
          · exact k2 j j4 (by omega) j3
      · right
        obtain rfl : fuel = 0 := by omega
        refine ⟨?_, fun j j1 j2 j3 => ?_⟩
        · rw [slqLoopRecFl, a1]
          simp only [hY]
          split <;> [skip; rfl]
          rename_i err herr
          exfalso
          unfold EstRecFl.update EstFl.update at herr
          unfold Covariance.updateRowsFl at herr
          simp only [List.length_map, hlen, show ¬ (e.est.cov.n + bt = 0) by omega, show bt ≠ 0 by omega, if_false] at herr
          cases herr
        · obtain rfl : j = t := by omega
          exact a2

/-- **C167**.  The loop of `hutch` on a `MatrixFunction` with any sampler whose vectors are in the range of the operations, any composite of the criteria and at most `P` passes,
in rounded arithmetic without re-orthogonalisation.  No exception is raised; the samples are within `R E` of the exact quadratic forms of `f(A)`; the loop stops after the first
pass at which the criterion is met by the samples up to rounding, with an estimate near the mean of the exact quadratic forms, or the criterion is met after none of the passes. -/
theorem C167_slq (h : SlqInput K c A M ε B ω δ L H S lo hi a b) (lam : Fin n → ℝ) (U : Matrix (Fin n) (Fin n) ℝ) (hU : Eigen A lam U)
    (hlam : ∀ i, lo ≤ lam i ∧ lam i ≤ hi) (κ : ℕ) (hκ : κ ≤ c.deg) (good : Vec n → Prop) (hsteps : Steps K c S κ good) (R : ℝ)
    (hgood : ∀ v, good v → 2 * c.tol ≤ nrm v ∧ nrm v ≤ B ∧ nrm v ^ 2 ≤ R) (g : ℝ[X]) (Φ η : ℝ) (hR : ∀ v, good v → QRange L H S Φ (nrm v)) (hg : g.natDegree + 2 ≤ 2 * κ)
    (hΦ : ∀ x, a ≤ x → x ≤ b → |c.f x| ≤ Φ) (hη : ∀ x, a ≤ x → x ≤ b → |c.f x - g.eval x| ≤ η)
    (hn : φ.Nearest fl) (hr : RootOk φ root) (hsum : ∀ t (x : List ℝ), x ≠ [] → SumOrder fl x (K.colsum t x)) (hgram : SlqGramOk fl K)
    (hmem : ∀ t j p q, |p * q| ≤ H → φ.Mem ((K.quad t j).mul p q)) (G : MFFl n) (hG : SlqState c κ ε S lo hi G) (pdf : Pdf n) (hpdf : ∀ hist b j, good (pdf hist b j))
    {bt : ℕ} (hb0 : 0 < bt) (E : ℝ) (hE : E = flQuadErr c.deg ε S ω δ c.tol a b Φ η) (W : ℝ) (hW : W = R * (Φ + E)) (htop : 18 * W ^ 2 + 1 ≤ φ.top)
    (record : Bool) (crit : CritRecFl) (hc : CritRecOk φ W crit) (P : ℕ) (hfit : φ.FitsSq (P * bt) W) :
    ∃ Y : ℕ → List ℝ, (∀ t, List.Forall₂ (fun y x => |y - quadForm (matFun lam U c.f) x| ≤ R * E) (Y t) (List.ofFn (pdf (List.replicate t bt) bt))) ∧
      ((∃ k G' e, k ≤ P ∧ slqLoopRecFl φ.top fl root K c pdf bt crit (P + 1) 0 G (EstRecFl.init record) = some (.ok (k, G', e)) ∧ SlqState c κ ε S lo hi G' ∧
          e.est.cov.n = k * bt ∧ e.values = (if record then some ((firstSamples Y k).map fun y _ => y) else none) ∧
          ExplainedRec φ W record (firstSamples Y (k - 1)) (firstSamples Y k) crit true ∧
          (∀ j < k, ExplainedRec φ W record (firstSamples Y (j - 1)) (firstSamples Y j) crit false) ∧
          (0 < k → ∃ mu, e.est.cov.mean = .val mu ∧
            |mu 0 - Spec.mean ((Spec.drawn pdf bt k).map (quadForm (matFun lam U c.f)))| ≤ R * E + 16 * (k * bt : ℕ) * φ.u * W)) ∨
        (slqLoopRecFl φ.top fl root K c pdf bt crit (P + 1) 0 G (EstRecFl.init record) = none ∧
          ∀ j ≤ P, ExplainedRec φ W record (firstSamples Y (j - 1)) (firstSamples Y j) crit false)) := by
  have hab := h.ab
  have hS0 : 0 ≤ S := h.tol0.le.trans h.Stol
  have hΦ0 : 0 ≤ Φ := (abs_nonneg _).trans (hΦ a le_rfl h.ab.le)
  have hΦl : ∀ i, |c.f (lam i)| ≤ Φ := by
    intro i
    have h1 : 0 ≤ 400 * (c.deg : ℝ) ^ 3 * ε * S := by
      have := h.eps0
      positivity
    have h2 := mul_nonneg h.del0 hS0
    exact hΦ _ (by linarith [(hlam i).1, h.alo, h.tol0]) (by linarith [(hlam i).2, h.bhi, h.tol0])
  have hstep : ∀ t (G : { G : MFFl n // SlqState c κ ε S lo hi G }), ∃ (G' : { G : MFFl n // SlqState c κ ε S lo hi G }) (ys : List ℝ),
      quadFl K c t 0 G.1 (List.ofFn (pdf (List.replicate t bt) bt)) = .ok (G'.1, ys) ∧
      List.Forall₂ (fun y x => |y - quadForm (matFun lam U c.f) x| ≤ R * E) ys (List.ofFn (pdf (List.replicate t bt) bt)) ∧
      ∀ y ∈ ys, φ.Mem y ∧ |y| ≤ W := by
    rintro t ⟨G, hG⟩
    have hgd : ∀ x ∈ List.ofFn (pdf (List.replicate t bt) bt), good x := by
      intro x hx
      obtain ⟨j, rfl⟩ := List.mem_ofFn.1 hx
      exact hpdf _ _ _
    obtain ⟨G', ys, g1, g2, g3⟩ := C142_quad_columns h lam U hU hlam κ hκ _ hsteps R hgood g Φ η hR hg hΦ hη t _ 0 G hG hgd
    refine ⟨⟨G', g2⟩, ys, g1, g3.imp fun y x hyx => by rw [hE, mul_comm]; exact hyx.1, fun y hy => ?_⟩
    obtain ⟨x, hx, hyx⟩ : ∃ x ∈ List.ofFn (pdf (List.replicate t bt) bt), |y - quadForm (matFun lam U c.f) x| ≤ flQuadErr c.deg ε S ω δ c.tol a b Φ η * R ∧
        ∃ t j p q, y = (K.quad t j).mul p q ∧ |p * q| ≤ H := by
      obtain ⟨i, hi, rfl⟩ := List.mem_iff_getElem.1 hy
      exact ⟨_, List.getElem_mem (by rw [← g3.length_eq]; exact hi), (List.forall₂_iff_get.1 g3).2 i hi (by rw [← g3.length_eq]; exact hi)⟩
    obtain ⟨hyx, t', j', p', q', rfl, hpq⟩ := hyx
    refine ⟨hmem _ _ _ _ hpq, ?_⟩
    have h1 := matFun_quad_le hU c.f hΦl x
    have h3 := mul_le_mul_of_nonneg_left (hgood x (hgd x hx)).2.2 hΦ0
    rw [← hE] at hyx
    have h2 := abs_sub_abs_le_abs_sub ((K.quad t' j').mul p' q') (quadForm (matFun lam U c.f) x)
    rw [hW]
    linarith
  choose nx ys s1 s2 s3 using hstep
  let Gs : ℕ → { G : MFFl n // SlqState c κ ε S lo hi G } := fun t => Nat.rec ⟨G, hG⟩ (fun t G => nx t G) t
  let Y : ℕ → List ℝ := fun t => ys t (Gs t)
  have hlen : ∀ t, (Y t).length = bt := fun t => by rw [(s2 t (Gs t)).length_eq, List.length_ofFn]
  have h0 : HistRec φ fl W record (EstRecFl.init record) (firstSamples Y (0 - 1)) (firstSamples Y 0) := by
    simpa [firstSamples] using HistRec.init (fl := fl) (M := W) hfit.exp record
  refine ⟨Y, fun t => s2 t (Gs t), ?_⟩
  rcases slqLoopRecFl_run (c := c) hn hr hsum hgram pdf hb0 W htop record crit hc P hfit (fun t => (Gs t).1) Y (fun t => s1 t (Gs t)) hlen (fun t => s3 t (Gs t)) (P + 1) 0
    (EstRecFl.init record) (by omega) (by omega) h0 with ⟨k, e, -, k2, k3, k4, k5, k6⟩ | ⟨k1, k2⟩
  · left
    refine ⟨k, (Gs k).1, e, by omega, k3, (Gs k).2, by rw [k4.hist.inv.count, firstSamples_length hlen], k4.values, k5, fun j hj => k6 j (by omega) hj, fun hk => ?_⟩
    have hkb : 0 < k * bt := Nat.mul_pos hk hb0
    have hl := firstSamples_length hlen k
    have hx : firstSamples Y k ≠ [] := by
      intro h
      rw [h, List.length_nil] at hl
      omega
    obtain ⟨m1, -, m3⟩ := k4.hist.inv.mean_near hx
    rw [hl] at m3
    refine ⟨_, m1, ?_⟩
    have near : ∀ k, List.Forall₂ (fun y x => |y - quadForm (matFun lam U c.f) x| ≤ R * E) (firstSamples Y k) (Spec.drawn pdf bt k) := by
      intro k
      induction k with
      | zero => exact .nil
      | succ k ih =>
        rw [firstSamples_succ, drawn_succ]
        exact List.rel_append ih (s2 k (Gs k))
    have hp : (0 : ℝ) < (firstSamples Y k).length := by
      rw [hl]
      exact_mod_cast hkb
    have h8 : |avgOf (firstSamples Y k) - Spec.mean ((Spec.drawn pdf bt k).map (quadForm (matFun lam U c.f)))| ≤ R * E := by
      unfold Spec.mean avgOf
      rw [List.length_map, ← (near k).length_eq, ← sub_div, abs_div, abs_of_pos hp, div_le_iff₀ hp]
      exact forall2_sum _ _ (near k)
    refine (abs_sub_le _ _ _).trans ((add_le_add m3 h8).trans (le_of_eq ?_))
    ring
  · exact Or.inr ⟨k1, fun j hj => k2 j (by omega) (by omega) hj⟩

/-- **C167**, termination: with `CountCriterion(cnt) | crit` the loop makes at most `⌈cnt / bt⌉` passes, the criterion is not met before, and the estimate is near the mean of the
exact quadratic forms. -/
theorem C167_count_bound (h : SlqInput K c A M ε B ω δ L H S lo hi a b) (lam : Fin n → ℝ) (U : Matrix (Fin n) (Fin n) ℝ) (hU : Eigen A lam U)
    (hlam : ∀ i, lo ≤ lam i ∧ lam i ≤ hi) (κ : ℕ) (hκ : κ ≤ c.deg) (good : Vec n → Prop) (hsteps : Steps K c S κ good) (R : ℝ)
    (hgood : ∀ v, good v → 2 * c.tol ≤ nrm v ∧ nrm v ≤ B ∧ nrm v ^ 2 ≤ R) (g : ℝ[X]) (Φ η : ℝ) (hR : ∀ v, good v → QRange L H S Φ (nrm v)) (hg : g.natDegree + 2 ≤ 2 * κ)
    (hΦ : ∀ x, a ≤ x → x ≤ b → |c.f x| ≤ Φ) (hη : ∀ x, a ≤ x → x ≤ b → |c.f x - g.eval x| ≤ η)
    (hn : φ.Nearest fl) (hr : RootOk φ root) (hsum : ∀ t (x : List ℝ), x ≠ [] → SumOrder fl x (K.colsum t x)) (hgram : SlqGramOk fl K)
    (hmem : ∀ t j p q, |p * q| ≤ H → φ.Mem ((K.quad t j).mul p q)) (G : MFFl n) (hG : SlqState c κ ε S lo hi G) (pdf : Pdf n) (hpdf : ∀ hist b j, good (pdf hist b j))
    {bt : ℕ} (hb0 : 0 < bt) (E : ℝ) (hE : E = flQuadErr c.deg ε S ω δ c.tol a b Φ η) (W : ℝ) (hW : W = R * (Φ + E)) (htop : 18 * W ^ 2 + 1 ≤ φ.top)
    (record : Bool) (crit : CritRecFl) (hc : CritRecOk φ W crit) (cnt P : ℕ) (hP : cnt ≤ P * bt) (hfit : φ.FitsSq (P * bt) W) :
    ∃ k G' e, k ≤ P ∧ slqLoopRecFl φ.top fl root K c pdf bt (.or (.base (.count cnt)) crit) (P + 1) 0 G (EstRecFl.init record) = some (.ok (k, G', e)) ∧
      e.est.cov.n = k * bt ∧ (cnt ≤ k * bt ∨ ∃ Y : ℕ → List ℝ,
        (∀ t, List.Forall₂ (fun y x => |y - quadForm (matFun lam U c.f) x| ≤ R * E) (Y t) (List.ofFn (pdf (List.replicate t bt) bt))) ∧
        ExplainedRec φ W record (firstSamples Y (k - 1)) (firstSamples Y k) crit true) ∧
      (0 < k → ∃ mu, e.est.cov.mean = .val mu ∧
        |mu 0 - Spec.mean ((Spec.drawn pdf bt k).map (quadForm (matFun lam U c.f)))| ≤ R * E + 16 * (k * bt : ℕ) * φ.u * W) := by
  obtain ⟨Y, hY, hh⟩ := C167_slq h lam U hU hlam κ hκ good hsteps R hgood g Φ η hR hg hΦ hη hn hr hsum hgram hmem G hG pdf hpdf hb0 E hE W hW htop record
    (.or (.base (.count cnt)) crit) ⟨trivial, hc⟩ P hfit
  have hlen : ∀ t, (Y t).length = bt := fun t => by rw [(hY t).length_eq, List.length_ofFn]
  rcases hh with ⟨k, G', e, k1, k2, -, k3, -, k4, -, k5⟩ | ⟨-, k2⟩
  · refine ⟨k, G', e, k1, k2, k3, ?_, k5⟩
    obtain ⟨x, y, x1, y1, x3⟩ := k4
    cases x with
    | true =>
      left
      have := x1.1 rfl
      rwa [firstSamples_length hlen] at this
    | false =>
      rw [Bool.false_or] at x3
      exact Or.inr ⟨Y, hY, x3 ▸ y1⟩
  · exfalso
    obtain ⟨x, y, x1, -, x3⟩ := k2 P le_rfl
    have : x = true := x1.2 (by rw [firstSamples_length hlen]; exact hP)
    rw [this] at x3
    simp at x3

/-- **C167**, exceptions: an exception raised by the criterion or, when the criterion is not met, by `quad` comes out of the loop; nothing else is done in that pass. -/
theorem C167_errors (top : ℝ) (pdf : Pdf n) (bt : ℕ) (crit : CritRecFl) (fuel t : ℕ) (G : MFFl n) (e : EstRecFl) (err : PyErr) :
    (crit.eval top fl root e = .error err → slqLoopRecFl top fl root K c pdf bt crit (fuel + 1) t G e = some (.error err)) ∧
    (crit.eval top fl root e = .ok false → quadFl K c t 0 G (List.ofFn (pdf (List.replicate t bt) bt)) = .error err →
      slqLoopRecFl top fl root K c pdf bt crit (fuel + 1) t G e = some (.error err)) ∧
    (crit.eval top fl root e = .ok true → slqLoopRecFl top fl root K c pdf bt crit (fuel + 1) t G e = some (.ok (t, G, e))) := by
  refine ⟨fun h => ?_, fun h h' => ?_, fun h => ?_⟩
  · rw [slqLoopRecFl, h]
  · rw [slqLoopRecFl, h]
    simp only [h']
  · rw [slqLoopRecFl, h]

/-- Concrete case of **C167**: the matrix with the diagonal `(1, 3)` and the square in binary64, Rademacher vectors, two steps of the recurrence and the default criterion
`CountCriterion(200) | ConfidenceCriterion(0.95, atol=1, rtol=0)`, with any scores up to 13: `hutch` returns after at least three and at most 200 passes, near `10`. -/
theorem slqCrit_example (hfl : binary64.Nearest fl) (hr : RootOk binary64 root) (K : SlqKernels 2) (hL : ∀ t j, LKernelsRounded fl !![1, 0; 0, 3] (K.lan t j))
    (hQ : ∀ t j, QKernelsRounded fl (K.quad t j) 2 (1 / 2 ^ 40) (1 / 2 ^ 40) ((2 : ℝ) ^ (-400 : ℤ)) ((2 : ℝ) ^ (400 : ℤ)))
    (hsum : ∀ t (x : List ℝ), x ≠ [] → SumOrder fl x (K.colsum t x)) (hgram : SlqGramOk fl K) (otol : ℝ) (rng : Rng) (hu : ∀ p, 0 ≤ rng.unif p ∧ rng.unif p < 1)
    (pdf : Pdf 2) (hp : isotropicPdf "rademacher" rng 2 = .ok pdf) (z : ℝ) (hz : 0 ≤ z ∧ z ≤ 13) (ts : ℕ → ℝ) (hts : ∀ n, 0 ≤ ts n ∧ ts n ≤ 13) (record : Bool) :
    ∃ k G' e mu, 3 ≤ k ∧ k ≤ 200 ∧ slqLoopRecFl binary64.top fl root K ⟨fun x => x ^ 2, 2, 1 / 2 ^ 40, otol, 0⟩ pdf 1
      (.or (.base (.count 200)) (.base (.conf ⟨1, 0, z, ts, 19 / 20⟩))) 201 0 (MFFl.init 2 2) (EstRecFl.init record) = some (.ok (k, G', e)) ∧
      e.est.cov.mean = .val mu ∧ |mu 0 - 10| ≤ 1 / 10 ^ 6 := by
  have two : ∀ {a b : ℤ}, a ≤ b → (2 : ℝ) ^ a ≤ (2 : ℝ) ^ b := fun h => zpow_le_zpow_right₀ (by norm_num) h
  have low : (2 : ℝ) ^ (-400 : ℤ) ≤ 1 / 2 ^ 40 := by
    have h1 := two (show (-400 : ℤ) ≤ -40 by norm_num)
    have e : (2 : ℝ) ^ (-40 : ℤ) = 1 / 2 ^ 40 := by norm_num
    rwa [e] at h1
  have high : (1024 : ℝ) ≤ (2 : ℝ) ^ (400 : ℤ) := by
    have h1 := two (show (10 : ℤ) ≤ 400 by norm_num)
    have e : (2 : ℝ) ^ (10 : ℤ) = 1024 := by norm_num
    rwa [e] at h1
  set c : MFCfg := ⟨fun x => x ^ 2, 2, 1 / 2 ^ 40, otol, 0⟩ with hc
  have s2 : Real.sqrt (2 : ℕ) ^ 2 = 2 := by
    rw [Real.sq_sqrt (by norm_num)]
    norm_num
  have s0 := Real.sqrt_nonneg ((2 : ℕ) : ℝ)
  have s1 : 1 ≤ Real.sqrt (2 : ℕ) := by
    rw [Real.le_sqrt (by norm_num) (by norm_num)]
    norm_num
  have s3 : Real.sqrt (2 : ℕ) ≤ 2 := Real.sqrt_le_iff.2 ⟨by norm_num, by norm_num⟩
  obtain ⟨h, hmem⟩ := C142_binary64 (c := c) (A := !![1, 0; 0, 3]) (M := 4) (S := 32) (lo := 1) (hi := 3) (a := 1 / 2) (b := 4) hfl (by norm_num) (by norm_num)
    (by ext i j; fin_cases i <;> fin_cases j <;> rfl) (by simp only [Fin.sum_univ_two]; norm_num) (low.trans (by norm_num)) low hL hQ le_rfl (by norm_num [hc]) (by norm_num [hc])
    (le_trans (by norm_num [hc]) high) le_rfl (by norm_num [hc]) (by norm_num [hc]) (by norm_num) (by norm_num [hc]) (by norm_num [hc]) (by norm_num) (by norm_num [hc])
    (by norm_num [hc])
  have hU : Eigen (!![1, 0; 0, 3] : Matrix (Fin 2) (Fin 2) ℝ) ![1, 3] 1 := by
    constructor
    · simp
    · intro j
      ext i
      fin_cases i <;> fin_cases j <;> simp [Matrix.mulVec, dotProduct, Fin.sum_univ_two]
  have hnrm : ∀ v : Vec 2, (∀ i, v i = 1 ∨ v i = -1) → nrm v = Real.sqrt (2 : ℕ) := by
    intro v hv
    unfold nrm
    congr 1
    rw [dotProduct, ← sign_norm hv]
    exact Finset.sum_congr rfl fun i _ => (sq _).symm
  have hsteps : Steps K c 32 2 fun v => ∀ i, v i = 1 ∨ v i = -1 := by
    refine steps_two h _ 1 (by norm_num [hc]) fun v hv => ?_
    rw [hnrm v hv]
    refine ⟨le_trans (by norm_num [hc]) s1, s3.trans (le_trans (by norm_num) high), fun x => ?_⟩
    rw [one_mul]
    unfold nrm
    refine Real.sqrt_le_sqrt ?_
    have e0 : v 0 * v 0 = 1 := by rcases hv 0 with e | e <;> rw [e] <;> norm_num
    have e1 : v 1 * v 1 = 1 := by rcases hv 1 with e | e <;> rw [e] <;> norm_num
    have e : (!![1, 0; 0, 3] *ᵥ v - x • v) ⬝ᵥ (!![1, 0; 0, 3] *ᵥ v - x • v) = (1 - x) ^ 2 * (v 0 * v 0) + (3 - x) ^ 2 * (v 1 * v 1) := by
      simp [dotProduct, Fin.sum_univ_two]
      ring
    rw [e, e0, e1]
    push_cast
    nlinarith [sq_nonneg (x - 2)]
  have hEq : flQuadErr 2 (8 * ((2 : ℕ) + 1) * (1 / 2 ^ 53)) 32 (1 / 2 ^ 40) (1 / 2 ^ 40) (1 / 2 ^ 40) (1 / 2) 4 16 0 ≤ 1 / 10 ^ 7 := by
    norm_num [flQuadErr]
  have hE0 : 0 ≤ flQuadErr 2 (8 * ((2 : ℕ) + 1) * (1 / 2 ^ 53)) 32 (1 / 2 ^ 40) (1 / 2 ^ 40) (1 / 2 ^ 40) (1 / 2) 4 16 0 := by
    norm_num [flQuadErr]
  set E := flQuadErr 2 (8 * ((2 : ℕ) + 1) * (1 / 2 ^ 53)) 32 (1 / 2 ^ 40) (1 / 2 ^ 40) (1 / 2 ^ 40) (1 / 2) 4 16 0 with hE
  have low1 : (2 : ℝ) ^ (-400 : ℤ) ≤ 1 := low.trans (by norm_num)
  have hsg := rademacher_pdf_signs rng hu pdf hp
  have ht := top64
  have hW1 : 2 * (16 + E) ≤ 33 := by linarith
  have hW0 : 0 ≤ 2 * (16 + E) := by linarith
  obtain ⟨k, G', e, k1, k2, k3, k4, k5⟩ := C167_count_bound h ![1, 3] 1 hU (fun i => by fin_cases i <;> norm_num) 2 le_rfl _ hsteps 2 (fun v hv => by
      rw [hnrm v hv]
      exact ⟨le_trans (by norm_num [hc]) s1, s3.trans (le_trans (by norm_num) high), s2.le⟩) (X ^ 2) 16 0
    (fun v hv => by
      rw [hnrm v hv]
      exact ⟨low1.trans (by norm_num), le_trans (by norm_num) high, low1.trans (by norm_num), le_trans (by norm_num) high, low1.trans s1, le_trans (by linarith) high,
        low1.trans (by rw [s2]; norm_num), le_trans (by rw [s2]; norm_num) high, low1.trans (by linarith), le_trans (by linarith) high, low1.trans (by rw [s2]; norm_num),
        le_trans (by rw [s2]; norm_num) high⟩)
    (by rw [natDegree_X_pow]) (fun x h1 h2 => by
      show |x ^ 2| ≤ 16
      rw [abs_of_nonneg (sq_nonneg x)]
      nlinarith) (fun x _ _ => by simp [hc]) hfl hr hsum hgram hmem (MFFl.init 2 2) (slqState_init c 2 h.eps0 (by norm_num) (Or.inl rfl)) pdf hsg (bt := 1) (by norm_num) E
    rfl (2 * (16 + E)) rfl (by norm_num at ht ⊢; nlinarith) record (.base (.conf ⟨1, 0, z, ts, 19 / 20⟩))
    (by
      norm_num at ht
      refine ⟨fun n => ⟨(hts n).1, ?_⟩, ⟨hz.1, ?_⟩, le_rfl, le_trans (by norm_num) ht⟩
      · have := mul_le_mul (hts n).2 (mul_le_mul_of_nonneg_left hW1 (by norm_num : (0 : ℝ) ≤ 2)) (by linarith) (by norm_num)
        exact this.trans (le_trans (by norm_num) ht)
      · have := mul_le_mul hz.2 (mul_le_mul_of_nonneg_left hW1 (by norm_num : (0 : ℝ) ≤ 2)) (by linarith) (by norm_num)
        exact this.trans (le_trans (by norm_num) ht)) 200 200 (by norm_num)
    (binary64_fitsSq _ (by norm_num) _ (le_trans (two (by norm_num : (-500 : ℤ) ≤ 0)) (by rw [zpow_zero]; linarith))
      (le_trans (by linarith) (high.trans (two (by norm_num)))))
  have h3 : 3 ≤ k := by
    rcases k4 with k4 | ⟨Y, y1, y2⟩
    · omega
    · by_contra hlt
      have := y2.1 (by rw [firstSamples_length (b := 1) (fun t => by rw [(y1 t).length_eq, List.length_ofFn])]; omega)
      cases this
  obtain ⟨mu, m1, h2⟩ := k5 (by omega)
  refine ⟨k, G', e, mu, h3, k1, k2, m1, ?_⟩
  have hq : ∀ v : Vec 2, (∀ i, v i = 1 ∨ v i = -1) → quadForm (matFun ![1, 3] 1 c.f) v = 10 := by
    intro v hv
    have e0 : v 0 * v 0 = 1 := by rcases hv 0 with e | e <;> rw [e] <;> norm_num
    have e1 : v 1 * v 1 = 1 := by rcases hv 1 with e | e <;> rw [e] <;> norm_num
    have e : quadForm (matFun ![1, 3] 1 c.f) v = 1 * (v 0 * v 0) + 9 * (v 1 * v 1) := by
      simp [quadForm, matFun, dotProduct, Matrix.mulVec, Fin.sum_univ_two, hc]
      ring
    rw [e, e0, e1]
    norm_num
  have hmean : Spec.mean ((Spec.drawn pdf 1 k).map (quadForm (matFun ![1, 3] 1 c.f))) = 10 := by
    have e : (Spec.drawn pdf 1 k).map (quadForm (matFun ![1, 3] 1 c.f)) = List.replicate k 10 := by
      rw [List.eq_replicate_iff, List.length_map, drawn_length, mul_one]
      refine ⟨rfl, fun b hb => ?_⟩
      obtain ⟨v, hv, rfl⟩ := List.mem_map.1 hb
      unfold Spec.drawn at hv
      obtain ⟨t, -, ht⟩ := List.mem_flatMap.1 hv
      obtain ⟨j, rfl⟩ := List.mem_ofFn.1 ht
      exact hq _ (hsg _ _ _)
    rw [e, Spec.mean, List.sum_replicate, List.length_replicate, nsmul_eq_mul, mul_div_cancel_left₀]
    exact_mod_cast (by omega : k ≠ 0)
  rw [hmean] at h2
  refine h2.trans ?_
  have kr : ((k * 1 : ℕ) : ℝ) ≤ 2 ^ 20 := by exact_mod_cast (show k * 1 ≤ 2 ^ 20 by omega)
  have hu' : binary64.u = 1 / 2 ^ 53 := by norm_num [Fmt.u, binary64]
  rw [hu']
  have h3 : ((k * 1 : ℕ) : ℝ) * (2 * (16 + E)) ≤ 2 ^ 20 * 33 := mul_le_mul kr (by linarith) (by linarith) (by norm_num)
  linarith

/-- Such operations exist. -/
example (otol : ℝ) (rng : Rng) (hu : ∀ p, 0 ≤ rng.unif p ∧ rng.unif p < 1) (root : ℝ → ℝ) (hr : RootOk binary64 root) : ∃ (fl : ℝ → ℝ) (K : SlqKernels 2) (pdf : Pdf 2),
    isotropicPdf "rademacher" rng 2 = .ok pdf ∧ ∃ k G' e mu, 3 ≤ k ∧ k ≤ 200 ∧ slqLoopRecFl binary64.top fl root K ⟨fun x => x ^ 2, 2, 1 / 2 ^ 40, otol, 0⟩ pdf 1
      (.or (.base (.count 200)) (.base (.conf ⟨1, 0, 2, fun _ => 3, 19 / 20⟩))) 201 0 (MFFl.init 2 2) (EstRecFl.init false) = some (.ok (k, G', e)) ∧
      e.est.cov.mean = .val mu ∧ |mu 0 - 10| ≤ 1 / 10 ^ 6 := by
  obtain ⟨fl, hfl⟩ := Fmt.exists_nearest (φ := binary64) (by norm_num [binary64])
  obtain ⟨L, hL⟩ := rounded_exist fl (!![1, 0; 0, 3] : Matrix (Fin 2) (Fin 2) ℝ) (by norm_num)
  obtain ⟨E, hE⟩ := qRounded_exist (n := 2) (m := 2) fl (by norm_num) (by norm_num) (show (0 : ℝ) ≤ 1 / 2 ^ 40 by norm_num) (1 / 2 ^ 40) ((2 : ℝ) ^ (-400 : ℤ)) ((2 : ℝ) ^ (400 : ℤ))
  have h2 : ∀ l : List ℝ, ∃ s, l ≠ [] → SumOrder fl l s := by
    intro l
    by_cases h : l = []
    · exact ⟨0, fun h' => absurd h h'⟩
    · obtain ⟨s, hs⟩ := SumOrder.exists fl l h
      exact ⟨s, fun _ => hs⟩
  choose T hT using h2
  have hg : ∀ l : List ℝ, ∃ g, l ≠ [] → DotOrder fl (l.map fun y => (fl (y - fl (T l / l.length)), fl (y - fl (T l / l.length)))) g := by
    intro l
    by_cases h : l = []
    · exact ⟨0, fun h' => absurd h h'⟩
    · obtain ⟨g, hg⟩ := DotOrder.exists fl (l.map fun y => (fl (y - fl (T l / l.length)), fl (y - fl (T l / l.length)))) (by simpa using h)
      exact ⟨g, fun _ => hg⟩
  choose Q hQ using hg
  obtain ⟨pdf, hp⟩ : ∃ pdf : Pdf 2, isotropicPdf "rademacher" rng 2 = .ok pdf := ⟨_, rfl⟩
  exact ⟨fl, ⟨fun _ _ => L, fun _ _ => E, fun _ => T, fun _ => Q⟩, pdf, hp, slqCrit_example hfl hr _ (fun _ _ => hL) (fun _ _ => hE) (fun _ => hT) (fun _ => hQ) otol rng hu pdf hp 2
    ⟨by norm_num, by norm_num⟩ (fun _ => 3) (fun _ => ⟨by norm_num, by norm_num⟩) false⟩

end Primate
