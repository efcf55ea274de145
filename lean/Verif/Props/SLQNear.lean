import Verif.Props.EarlyStopWitness
import Verif.Props.HutchppProb
import Mathlib.Algebra.Order.Chebyshev

/-!
# C123: stochastic Lanczos quadrature without assumptions on the stops of the Lanczos iteration
-/

noncomputable section

namespace Primate

open Matrix Polynomial MeasureTheory

variable {N : ℕ}

/-! ## The run of `hutch` on an object with state -/

theorem quad_append (K : TriKernels) (eps : ℝ) (qf : ℕ) (M2 : MF N) (ws : List (Option ℝ)) (zs : List (Vec N)) :
    ∀ (xs : List (Vec N)) (M M1 : MF N) (ys : List (Option ℝ)), M.quad K eps qf xs = some (.ok (M1, ys)) →
      M1.quad K eps qf zs = some (.ok (M2, ws)) → M.quad K eps qf (xs ++ zs) = some (.ok (M2, ys ++ ws)) := by
  intro xs
  induction xs with
  | nil =>
    intro M M1 ys h1 h2
    simp only [MF.quad, Option.some.injEq, Except.ok.injEq, Prod.mk.injEq] at h1
    rw [← h1.1] at h2
    rw [List.nil_append, h2, ← h1.2, List.nil_append]
  | cons x xs ih =>
    intro M M1 ys h1 h2
    unfold MF.quad at h1
    rcases hc : M.quadCol K eps qf x with _ | e | ⟨M', y⟩
    · simp [hc] at h1
    · simp [hc] at h1
    · rcases hq : M'.quad K eps qf xs with _ | e | ⟨M'', ys'⟩
      · simp [hc, hq] at h1
      · simp [hc, hq] at h1
      · simp only [hc, hq, Option.some.injEq, Except.ok.injEq, Prod.mk.injEq] at h1
        rw [h1.1] at hq
        rw [List.cons_append]
        unfold MF.quad
        simp only [hc, ih M' M1 ys' hq h2]
        rw [← h1.2, List.cons_append]

section generic

variable (K : TriKernels) (eps : ℝ) (qf : ℕ) (Inv : MF N → Prop) (good : Vec N → Prop) (q : Vec N → ℝ) (c : ℝ)
  (hstep : ∀ M, Inv M → ∀ x, good x → ∃ M' y, M.quadCol K eps qf x = some (.ok (M', some y)) ∧ |y - q x| ≤ c ∧ Inv M')

include hstep

/-- A call of `quad` on several vectors returns numbers close to the exact ones. -/
theorem quad_near : ∀ (xs : List (Vec N)) (M : MF N), Inv M → (∀ x ∈ xs, good x) →
    ∃ M' ys, M.quad K eps qf xs = some (.ok (M', ys.map some)) ∧ List.Forall₂ (fun y x => |y - q x| ≤ c) ys xs ∧ Inv M' := by
  intro xs
  induction xs with
  | nil => intro M hM _; exact ⟨M, [], rfl, .nil, hM⟩
  | cons x xs ih =>
    intro M hM hx
    obtain ⟨M1, y, h1, hy, i1⟩ := hstep M hM x (hx x (List.mem_cons_self ..))
    obtain ⟨M2, ys, h2, hys, i2⟩ := ih M1 i1 fun y hy => hx y (List.mem_cons_of_mem _ hy)
    refine ⟨M2, y :: ys, ?_, .cons hy hys, i2⟩
    unfold MF.quad
    simp only [h1, h2]
    rfl

omit hstep in
theorem allSome_some (ys : List ℝ) : allSome (ys.map some) = some ys := by
  induction ys with
  | nil => rfl
  | cons x xs ih => simp [allSome, ih]

/-- The state of the loop after `i` passes: the estimator has seen the values of one call of `quad` on all the vectors drawn so far. -/
structure SlqAt (pdf : Pdf N) (b : ℕ) (record : Bool) (M0 : MF N) (i : ℕ) (M : MF N) (s : HutchState) : Prop where
  hist : s.history = List.replicate i b
  inv : Inv M
  run : ∃ ys : List ℝ, M0.quad K eps qf (Spec.drawn pdf b i) = some (.ok (M, ys.map some)) ∧ MeanEstInv true record s.est (ys.map fun y _ => y) ∧
    List.Forall₂ (fun y x => |y - q x| ≤ c) ys (Spec.drawn pdf b i)

omit hstep in
theorem drawn_succ (pdf : Pdf N) (b k : ℕ) : Spec.drawn pdf b (k + 1) = Spec.drawn pdf b k ++ List.ofFn (pdf (List.replicate k b) b) := by
  simp [Spec.drawn, List.range_succ]

theorem SlqAt.body {pdf : Pdf N} (hpdf : ∀ h b j, good (pdf h b j)) {b : ℕ} (hb : 0 < b) {record : Bool} {M0 : MF N} {i : ℕ} {M : MF N} {s : HutchState}
    (h : SlqAt K eps qf Inv q c pdf b record M0 i M s) :
    ∃ M' s', hutchMFBody K eps qf pdf b M s = some (.ok (some (M', s'))) ∧ SlqAt K eps qf Inv q c pdf b record M0 (i + 1) M' s' := by
  obtain ⟨ys, h1, h2, h3⟩ := h.run
  obtain ⟨M', zs, g1, g2, g3⟩ := quad_near K eps qf Inv good q c hstep (List.ofFn (pdf s.history b)) M h.inv (by
    intro x hx
    obtain ⟨j, rfl⟩ := List.mem_ofFn.1 hx
    exact hpdf _ _ _)
  have hzs : zs ≠ [] := by
    intro h0
    have := g2.length_eq
    rw [h0, List.length_ofFn, List.length_nil] at this
    omega
  obtain ⟨e', u1, u2, -⟩ := h2.step (zs.map fun y _ => y) (by simpa using hzs)
  refine ⟨M', ⟨s.history ++ [b], e', s.calls ++ [e']⟩, ?_, ?_, g3, ys ++ zs, ?_, ?_, ?_⟩
  · unfold hutchMFBody
    simp only [g1, allSome_some, update_vec, u1]
  · rw [h.hist, List.replicate_succ']
  · rw [drawn_succ, List.map_append]
    refine quad_append K eps qf M' _ _ _ M0 M _ h1 ?_
    rw [← h.hist]
    exact g1
  · rw [List.map_append]; exact u2
  · rw [drawn_succ]
    refine List.rel_append h3 ?_
    rw [← h.hist]
    exact g2

/-- The loop never fails in `quad`: it stops when the criterion says so, and raises only what the criterion raises. -/
theorem slq_loop {pdf : Pdf N} (hpdf : ∀ h b j, good (pdf h b j)) {b : ℕ} (hb : 0 < b) {record : Bool} {M0 : MF N} (crit : Crit) :
    ∀ (fuel i : ℕ) (M : MF N) (s : HutchState), SlqAt K eps qf Inv q c pdf b record M0 i M s →
      hutchMFLoop K eps qf pdf b crit fuel M s = none ∨ (∃ e, hutchMFLoop K eps qf pdf b crit fuel M s = some (.error e)) ∨
      ∃ k M' s', hutchMFLoop K eps qf pdf b crit fuel M s = some (.ok (some (M', s'))) ∧ crit.eval s'.est.view = .ok true ∧
        SlqAt K eps qf Inv q c pdf b record M0 k M' s' := by
  intro fuel
  induction fuel with
  | zero => intro i M s _; exact Or.inl rfl
  | succ fuel ih =>
    intro i M s hs
    unfold hutchMFLoop
    rcases hc : crit.eval s.est.view with e | r
    · exact Or.inr (Or.inl ⟨e, rfl⟩)
    · cases r with
      | true => exact Or.inr (Or.inr ⟨i, M, s, rfl, hc, hs⟩)
      | false =>
        obtain ⟨M', s', h1, h2⟩ := hs.body K eps qf Inv good q c hstep hpdf hb
        simp only [h1]
        exact ih (i + 1) M' s' h2

omit hstep in
theorem SlqAt.len {pdf : Pdf N} {b : ℕ} {record : Bool} {M0 : MF N} {i : ℕ} {M : MF N} {s : HutchState}
    (h : SlqAt K eps qf Inv q c pdf b record M0 i M s) : s.est.view.len = i * b := by
  obtain ⟨ys, -, h2, h3⟩ := h.run
  show s.est.nSamples = _
  rw [h2.n, List.length_map, h3.length_eq, drawn_length]

/-- With `CountCriterion(k b)` the loop makes `k` passes. -/
theorem slq_loop_count {pdf : Pdf N} (hpdf : ∀ h b j, good (pdf h b j)) {b : ℕ} (hb : 0 < b) {record : Bool} {M0 : MF N} (k : ℕ) :
    ∀ (fuel i : ℕ) (M : MF N) (s : HutchState), SlqAt K eps qf Inv q c pdf b record M0 i M s → i ≤ k → k < i + fuel →
      ∃ M' s', hutchMFLoop K eps qf pdf b (.count ((k * b : ℕ) : ℤ)) fuel M s = some (.ok (some (M', s'))) ∧
        SlqAt K eps qf Inv q c pdf b record M0 k M' s' := by
  intro fuel
  induction fuel with
  | zero => intro i M s _ h1 h2; omega
  | succ fuel ih =>
    intro i M s hs h1 h2
    have hl : (Crit.count ((k * b : ℕ) : ℤ)).eval s.est.view = .ok (truth ((k * b : ℕ) ≤ ((i * b : ℕ) : ℤ))) := by
      rw [← hs.len]
      rfl
    unfold hutchMFLoop
    rw [hl]
    by_cases hik : i = k
    · subst hik
      rw [show truth (((i * b : ℕ) : ℤ) ≤ ((i * b : ℕ) : ℤ)) = true by simp [truth]]
      exact ⟨M, s, rfl, hs⟩
    · have : i * b < k * b := Nat.mul_lt_mul_of_pos_right (by omega) hb
      rw [(truth_eq_false _).2 (by omega)]
      obtain ⟨M', s', g1, g2⟩ := hs.body K eps qf Inv good q c hstep hpdf hb
      simp only [g1]
      exact ih (i + 1) M' s' g2 (by omega) (by omega)

omit hstep in
theorem SlqAt.zero (pdf : Pdf N) (b : ℕ) (record : Bool) {M0 : MF N} (h : Inv M0) :
    SlqAt K eps qf Inv q c pdf b record M0 0 M0 ⟨[], MeanEst.init 1 true record, []⟩ :=
  ⟨rfl, h, [], rfl, MeanEstInv.init true record, .nil⟩

omit hstep in
theorem forall2_sum {ys : List ℝ} {xs : List (Vec N)} (h : List.Forall₂ (fun y x => |y - q x| ≤ c) ys xs) :
    |ys.sum - (xs.map q).sum| ≤ c * ys.length := by
  induction h with
  | nil => simp
  | @cons y x ys xs h1 _ ih =>
    rw [List.sum_cons, List.map_cons, List.sum_cons, List.length_cons]
    push_cast
    have e1 := abs_le.1 h1
    have e2 := abs_le.1 ih
    rw [abs_le]
    constructor <;> linarith [e1.1, e1.2, e2.1, e2.2]

omit hstep in
/-- The estimate is the mean of the values of `quad`, and close to the mean of the exact values. -/
theorem SlqAt.estimate {pdf : Pdf N} {b : ℕ} (hb : 0 < b) {record : Bool} {M0 : MF N} {i : ℕ} (hi : 0 < i) {M : MF N} {s : HutchState}
    (h : SlqAt K eps qf Inv q c pdf b record M0 i M s) :
    ∃ ys : List ℝ, M0.quad K eps qf (Spec.drawn pdf b i) = some (.ok (M, ys.map some)) ∧ s.est.estimate = .val (fun _ => Spec.mean ys) ∧
      |Spec.mean ys - Spec.mean ((Spec.drawn pdf b i).map q)| ≤ c := by
  obtain ⟨ys, h1, h2, h3⟩ := h.run
  have hl : ys.length = i * b := by rw [h3.length_eq, drawn_length]
  have hpos : 0 < ys.length := by rw [hl]; positivity
  have hpos' : (0 : ℝ) < ys.length := by exact_mod_cast hpos
  refine ⟨ys, h1, ?_, ?_⟩
  · rw [h2.estimate_eq (by
      intro h0
      rw [List.map_eq_nil_iff] at h0
      rw [h0] at hpos
      simp at hpos)]
    congr 1
    funext j
    simp [Spec.sampleMean, Spec.mean, Function.comp_def]
  · unfold Spec.mean
    rw [List.length_map, ← h3.length_eq, ← sub_div, abs_div, abs_of_pos hpos', div_le_iff₀ hpos']
    exact forall2_sum q c h3

end generic

/-! ## C123 -/

/-- The hypotheses on the object: a symmetric matrix with its eigenvalues in `[lo, hi]`, a function that is Lipschitz with constant `L` a little beyond that
interval and zero, an object in any reachable state with `orth <= 2`, and `e` the distance on the spectral interval to a polynomial of degree at most `2 min(deg, N) - 1`,
or zero at full degree. -/
structure SlqSetup (K : TriKernels) (eps : ℝ) (qf : ℕ) (B : Matrix (Fin N) (Fin N) ℝ) (lam : Fin N → ℝ) (U : Matrix (Fin N) (Fin N) ℝ) (f : ℝ → ℝ)
    (deg orth : ℤ) (M0 M : MF N) (L e : ℝ) : Prop where
  pos : 0 < N
  symm : B.IsSymm
  eig : Spec.Eigen B lam U
  init : MF.init B.mulVec f deg orth = .ok M0
  orth_le : M0.orth ≤ 2
  reach : MF.Reach K eps qf M0 M
  lip : ∃ lo hi, (∀ a, lo ≤ lam a) ∧ (∀ a, lam a ≤ hi) ∧ 0 ≤ L ∧
    ∀ s ∈ Set.Icc (min lo 0 - 2 * (Real.sqrt N * 1e-8)) (max hi 0 + 2 * (Real.sqrt N * 1e-8)),
      ∀ t ∈ Set.Icc (min lo 0 - 2 * (Real.sqrt N * 1e-8)) (max hi 0 + 2 * (Real.sqrt N * 1e-8)), |f s - f t| ≤ L * |s - t|
  poly : ((N : ℤ) ≤ deg ∧ 0 ≤ e) ∨ ∃ p : ℝ[X], (p.natDegree : ℤ) ≤ 2 * min deg N - 1 ∧ ∀ t, (∃ a, lam a ≤ t) → (∃ b, t ≤ lam b) → |f t - p.eval t| ≤ e

/-- The error of a single sample of squared norm 1. -/
def slqErr (N : ℕ) (L e : ℝ) : ℝ := max (2 * e) (2 * Real.sqrt 2 * L * (Real.sqrt N * 1e-8))

theorem SlqSetup.step {K : TriKernels} (hK : EighOk K) {eps : ℝ} (heps : 0 ≤ eps) {qf : ℕ} {B : Matrix (Fin N) (Fin N) ℝ} {lam : Fin N → ℝ}
    {U : Matrix (Fin N) (Fin N) ℝ} {f : ℝ → ℝ} {deg orth : ℤ} {M0 M : MF N} {L e : ℝ} (h : SlqSetup K eps qf B lam U f deg orth M0 M L e) (R : ℝ) :
    ∀ M1, MF.Reach K eps qf M0 M1 → ∀ x : Vec N, ∑ i, x i ^ 2 ≤ R → ∃ M' y, M1.quadCol K eps qf x = some (.ok (M', some y)) ∧
      |y - Spec.quadForm (Spec.matFun lam U f) x| ≤ slqErr N L e * R ∧ MF.Reach K eps qf M0 M' := by
  intro M1 hM1 x hx
  obtain ⟨lo, hi, h1, h2, h3, h4⟩ := h.lip
  obtain ⟨M', y, g1, g2, g3⟩ := C122_quad K hK eps heps qf B h.symm lam U h.eig f deg orth h.pos M0 M1 h.init hM1 (Or.inr h.orth_le) lo hi h1 h2 L h3 h4 x
  have g4 : |y - Spec.quadForm (Spec.matFun lam U f) x| ≤ slqErr N L e * ∑ i, x i ^ 2 := by
    rcases h.poly with ⟨h5, -⟩ | ⟨p, p1, p2⟩
    · exact (g3 h5).trans (mul_le_mul_of_nonneg_right (le_max_right _ _) (Finset.sum_nonneg fun i _ => sq_nonneg _))
    · exact g2 p e p1 p2
  refine ⟨M', y, g1, g4.trans (mul_le_mul_of_nonneg_left hx ?_), MF.Reach.quad [x] [some y] hM1 ?_⟩
  · exact le_max_of_le_right (by positivity)
  · unfold MF.quad
    rw [g1]
    rfl

variable (tppf : ℝ → ℕ → ℝ) (zscore : ℝ → ℝ)

/-- **C123.**  Whatever the sampler, the batch size and the criterion, if `hutch` on the object returns after `k >= 1` passes, then its estimate is the mean of
the values of one call of `quad` on all the vectors drawn, and within `slqErr R` of the mean of the exact quadratic forms of `f(A)`, where `R` bounds the squared norms
of the samples.  (No sample is NaN, and `quad` does not raise.) -/
theorem C123_any_criterion (K : TriKernels) (hK : EighOk K) (eps : ℝ) (heps : 0 ≤ eps) (qf : ℕ) (B : Matrix (Fin N) (Fin N) ℝ) (lam : Fin N → ℝ)
    (U : Matrix (Fin N) (Fin N) ℝ) (f : ℝ → ℝ) (deg orth : ℤ) (M0 M : MF N) (L e : ℝ) (h : SlqSetup K eps qf B lam U f deg orth M0 M L e)
    (rng : Rng) (a : HutchArgs N) (hb : 0 < a.cols) (pdf : Pdf N) (hp : a.pdf.resolve rng = .ok pdf) (R : ℝ)
    (hR : ∀ hist b j, ∑ i, pdf hist b j i ^ 2 ≤ R) (fuel : ℕ) (r : Option (MF N × HutchOut × List (MeanEst 1)))
    (hr : hutchMF tppf zscore rng K eps qf M a fuel = some (.ok r)) :
    ∃ M' out calls k, r = some (M', out, calls) ∧ MF.Reach K eps qf M0 M' ∧ (k = 0 → out.estimate = .nan) ∧
      (0 < k → ∃ ys : List ℝ, M.quad K eps qf (Spec.drawn pdf a.cols k) = some (.ok (M', ys.map some)) ∧
        out.estimate = .val (fun _ => Spec.mean ys) ∧
        |Spec.mean ys - Spec.mean ((Spec.drawn pdf a.cols k).map (Spec.quadForm (Spec.matFun lam U f)))| ≤ slqErr N L e * R) := by
  have hstep := h.step hK heps R
  have hloop : ∀ (b : ℕ) (hb : 0 < b) (crit : Crit) (o : Option (MF N × HutchState)),
      hutchMFLoop K eps qf pdf b crit fuel M ⟨[], MeanEst.init 1 true a.record, []⟩ = some (.ok o) →
      ∃ M' s k, o = some (M', s) ∧ MF.Reach K eps qf M0 M' ∧ (k = 0 → s.est.estimate = .nan) ∧
      (0 < k → ∃ ys : List ℝ, M.quad K eps qf (Spec.drawn pdf b k) = some (.ok (M', ys.map some)) ∧
        s.est.estimate = .val (fun _ => Spec.mean ys) ∧
        |Spec.mean ys - Spec.mean ((Spec.drawn pdf b k).map (Spec.quadForm (Spec.matFun lam U f)))| ≤ slqErr N L e * R) := by
    intro b hb crit o ho
    rcases slq_loop K eps qf (MF.Reach K eps qf M0) (fun x => ∑ i, x i ^ 2 ≤ R) _ _ hstep hR hb crit fuel 0 M _
      (SlqAt.zero K eps qf _ _ _ pdf b a.record h.reach) with h1 | ⟨e, h1⟩ | ⟨k, M', s', h1, -, h2⟩
    · rw [ho] at h1; cases h1
    · rw [ho] at h1; simp at h1
    · rw [ho] at h1
      simp only [Option.some.injEq, Except.ok.injEq] at h1
      refine ⟨M', s', k, h1, h2.inv, fun hk => ?_, fun hk => h2.estimate K eps qf _ _ _ hb hk⟩
      obtain ⟨ys, -, g2, g3⟩ := h2.run
      subst hk
      have : ys = [] := List.length_eq_zero_iff.1 (by rw [g3.length_eq, drawn_length, zero_mul])
      rw [this] at g2
      exact g2.estimate_nil
  unfold hutchMF at hr
  rw [hp] at hr
  simp only [if_neg h.pos.ne'] at hr
  rcases hc : hutchCriterion tppf zscore a.converge a.kw with er | crit
  · simp [hc] at hr
  · simp only [hc] at hr
    by_cases hfc : (a.full || a.callback) = true
    · have hcols : a.cols = a.batch := by simp only [HutchArgs.cols, if_pos hfc]
      rw [if_pos hfc] at hr
      rcases ho : hutchMFLoop K eps qf pdf a.batch crit fuel M ⟨[], MeanEst.init 1 true a.record, []⟩ with _ | er | o
      · simp [ho] at hr
      · simp [ho] at hr
      · obtain ⟨M', s, k, rfl, g1, g2, g3⟩ := hloop a.batch (by rw [← hcols]; exact hb) crit o ho
        simp only [ho, Option.some.injEq, Except.ok.injEq] at hr
        rw [hcols]
        exact ⟨M', _, _, k, hr.symm, g1, g2, g3⟩
    · have hcols : a.cols = 1 := by simp only [HutchArgs.cols, if_neg hfc]
      rw [if_neg hfc] at hr
      rcases ho : hutchMFLoop K eps qf pdf 1 crit fuel M ⟨[], MeanEst.init 1 true a.record, []⟩ with _ | er | o
      · simp [ho] at hr
      · simp [ho] at hr
      · obtain ⟨M', s, k, rfl, g1, g2, g3⟩ := hloop 1 one_pos crit o ho
        simp only [ho, Option.some.injEq, Except.ok.injEq] at hr
        rw [hcols]
        exact ⟨M', _, _, k, hr.symm, g1, g2, g3⟩

/-- **C123** with `CountCriterion(k b)`: the call returns after `k` passes. -/
theorem C123_count (K : TriKernels) (hK : EighOk K) (eps : ℝ) (heps : 0 ≤ eps) (qf : ℕ) (B : Matrix (Fin N) (Fin N) ℝ) (lam : Fin N → ℝ)
    (U : Matrix (Fin N) (Fin N) ℝ) (f : ℝ → ℝ) (deg orth : ℤ) (M0 M : MF N) (L e : ℝ) (h : SlqSetup K eps qf B lam U f deg orth M0 M L e)
    (rng : Rng) (a : HutchArgs N) (hb : 0 < a.cols) (pdf : Pdf N) (hp : a.pdf.resolve rng = .ok pdf) (R : ℝ)
    (hR : ∀ hist b j, ∑ i, pdf hist b j i ^ 2 ≤ R) (k : ℕ) (hk : 0 < k) (hc : a.converge = .obj (.count ((k * a.cols : ℕ) : ℤ))) :
    ∃ M' out calls ys, hutchMF tppf zscore rng K eps qf M a (k + 1) = some (.ok (some (M', out, calls))) ∧ MF.Reach K eps qf M0 M' ∧
      M.quad K eps qf (Spec.drawn pdf a.cols k) = some (.ok (M', ys.map some)) ∧ out.estimate = .val (fun _ => Spec.mean ys) ∧
      (a.full = false → a.callback = false → out = .scalar (.val fun _ => Spec.mean ys) ∧ calls = []) ∧
      |Spec.mean ys - Spec.mean ((Spec.drawn pdf a.cols k).map (Spec.quadForm (Spec.matFun lam U f)))| ≤ slqErr N L e * R := by
  have hstep := h.step hK heps R
  have hcrit : hutchCriterion tppf zscore a.converge a.kw = .ok (.count ((k * a.cols : ℕ) : ℤ)) := by rw [hc]; rfl
  obtain ⟨M', s, h1, h2⟩ := slq_loop_count K eps qf (MF.Reach K eps qf M0) (fun x => ∑ i, x i ^ 2 ≤ R) _ _ hstep hR hb k (k + 1) 0 M _
      (SlqAt.zero K eps qf _ _ _ pdf a.cols a.record h.reach) (Nat.zero_le _) (by omega)
  obtain ⟨ys, g1, g2, g3⟩ := h2.estimate K eps qf _ _ _ hb hk
  by_cases hfc : (a.full || a.callback) = true
  · have hcols : a.cols = a.batch := by simp only [HutchArgs.cols, if_pos hfc]
    refine ⟨M', .pair s.est.estimate (.mk2 (some s.est) (some (.count ((k * a.cols : ℕ) : ℤ)))), if a.callback then s.calls else [], ys, ?_, h2.inv, g1, g2, ?_, g3⟩
    · unfold hutchMF
      rw [hp, hcrit]
      simp only [if_neg h.pos.ne', if_pos hfc]
      rw [hcols] at h1
      rw [hcols, h1]
    · intro h3 h4
      simp [h3, h4] at hfc
  · have hcols : a.cols = 1 := by simp only [HutchArgs.cols, if_neg hfc]
    refine ⟨M', .scalar s.est.estimate, [], ys, ?_, h2.inv, g1, g2, ?_, g3⟩
    · unfold hutchMF
      rw [hp, hcrit]
      simp only [if_neg h.pos.ne', if_neg hfc]
      rw [hcols] at h1
      rw [hcols, h1]
    · intro _ _
      rw [g2]
      exact ⟨rfl, rfl⟩

/-! ## An ideal generator -/

section prob

variable {Ω : Type*} [MeasurableSpace Ω] {P : Measure Ω}

theorem drawn_signs (k : ℕ) (rng : Rng) (b : Fin k × Fin N → Bool) (hu1 : ∀ p, 0 ≤ rng.unif p ∧ rng.unif p < 1)
    (hu : ∀ (t : Fin k) (i : Fin N), b (t, i) = true ↔ 1/2 ≤ rng.unif (t * N + i)) (pdf : Pdf N)
    (hp : (PdfArg.name "rademacher" : PdfArg N).resolve rng = .ok pdf) :
    Spec.drawn pdf 1 k = List.ofFn fun t : Fin k => fun i => sgn (b (t, i)) := by
  have hp' : pdf = _ := (Except.ok.inj hp).symm
  subst hp'
  rw [drawn_one]
  refine List.ext_getElem (by simp) fun t h1 h2 => ?_
  simp only [List.getElem_map, List.getElem_range, List.getElem_ofFn]
  funext i
  have ht : t < k := by simpa using h1
  simp only [IsoDist.fill, rawCols, List.sum_replicate, smul_eq_mul, mul_one, Fin.val_zero, zero_mul, add_zero]
  have h3 := hu1 (t * N + i)
  cases hω : b (⟨t, ht⟩, i) with
  | true => exact (rademacherEntry_half _).2 ((hu ⟨t, ht⟩ i).1 hω) h3.2
  | false => exact (rademacherEntry_half _).1 h3.1 (not_le.1 fun h6 => by rw [(hu ⟨t, ht⟩ i).2 h6] at hω; cases hω)

theorem sign_norm {x : Vec N} (hx : ∀ i, x i = 1 ∨ x i = -1) : ∑ i, x i ^ 2 = N := by
  rw [Finset.sum_congr rfl fun i _ => show x i ^ 2 = 1 by rcases hx i with h | h <;> rw [h] <;> norm_num]
  simp

/-- Averages of numbers close to numbers with a known mean square. -/
theorem avg_sq_le {ι : Type*} [Fintype ι] (a b : ι → ℝ) (c V m : ℝ) (hm : 0 < m) (hc : 0 ≤ c) (hcard : (Fintype.card ι : ℝ) = m) (h : ∀ i, |b i - a i| ≤ c)
    (hV : (∑ i, a i ^ 2) / m = V) : (∑ i, b i ^ 2) / m ≤ (Real.sqrt V + c) ^ 2 := by
  have hV0 : 0 ≤ V := by rw [← hV]; positivity
  have h1 : ∀ i, b i ^ 2 ≤ a i ^ 2 + 2 * c * |a i| + c ^ 2 := by
    intro i
    have e1 : |b i| ≤ |a i| + c := by
      have := abs_sub_abs_le_abs_sub (b i) (a i)
      linarith [h i]
    calc b i ^ 2 = |b i| ^ 2 := (sq_abs _).symm
      _ ≤ (|a i| + c) ^ 2 := pow_le_pow_left₀ (abs_nonneg _) e1 2
      _ = a i ^ 2 + 2 * c * |a i| + c ^ 2 := by rw [add_sq, sq_abs]; ring
  have h2 : (∑ i, |a i|) / m ≤ Real.sqrt V := by
    refine Real.le_sqrt_of_sq_le ?_
    have h3 : (∑ i, |a i|) ^ 2 ≤ (Fintype.card ι : ℝ) * ∑ i, |a i| ^ 2 := by
      have := sq_sum_le_card_mul_sum_sq (s := (Finset.univ : Finset ι)) (f := fun i => |a i|)
      rwa [Finset.card_univ] at this
    simp only [sq_abs, hcard] at h3
    rw [div_pow, div_le_iff₀ (by positivity)]
    have : ∑ i, a i ^ 2 = V * m := by rw [← hV]; field_simp
    nlinarith
  calc (∑ i, b i ^ 2) / m ≤ (∑ i, (a i ^ 2 + 2 * c * |a i| + c ^ 2)) / m :=
        div_le_div_of_nonneg_right (Finset.sum_le_sum fun i _ => h1 i) hm.le
    _ = V + 2 * c * ((∑ i, |a i|) / m) + c ^ 2 := by
        rw [Finset.sum_add_distrib, Finset.sum_add_distrib, ← Finset.mul_sum, Finset.sum_const, Finset.card_univ, nsmul_eq_mul, hcard, ← hV]
        field_simp
    _ ≤ V + 2 * c * Real.sqrt V + c ^ 2 := by nlinarith
    _ = (Real.sqrt V + c) ^ 2 := by rw [add_sq, Real.sq_sqrt hV0]; ring

/-- **C123** with independent uniform numbers in `[0, 1)` and Rademacher vectors: expectation, mean squared error and tail of stochastic Lanczos quadrature. -/
theorem C123_rademacher [IsProbabilityMeasure P] (K : TriKernels) (hK : EighOk K) (eps : ℝ) (heps : 0 ≤ eps) (qf : ℕ) (B : Matrix (Fin N) (Fin N) ℝ)
    (lam : Fin N → ℝ) (U : Matrix (Fin N) (Fin N) ℝ) (f : ℝ → ℝ) (deg orth : ℤ) (M0 M : MF N) (L e : ℝ)
    (h : SlqSetup K eps qf B lam U f deg orth M0 M L e) (k : ℕ) (hk : 0 < k) (u X : ℕ → Ω → ℝ) (hu : Spec.IidUniform P u) (op : Operand N) :
    ∃ est : Ω → ℝ,
      (∀ᵐ ω ∂P, ∃ M', hutchMF tppf zscore ⟨fun q => u q ω, fun q => X q ω⟩ K eps qf M
        ⟨op, 32, .name "rademacher", .obj (.count k), false, false, false, []⟩ (k + 1) = some (.ok (some (M', .scalar (.val fun _ => est ω), [])))) ∧
      Integrable est P ∧ |∫ ω, est ω ∂P - ∑ i, f (lam i)| ≤ slqErr N L e * N ∧
      Integrable (fun ω => (est ω - ∑ i, f (lam i)) ^ 2) P ∧
      ∫ ω, (est ω - ∑ i, f (lam i)) ^ 2 ∂P ≤
        (Real.sqrt (2 * (∑ i, ∑ j, if i = j then 0 else Spec.matFun lam U f i j ^ 2) / k) + slqErr N L e * N) ^ 2 ∧
      ∀ D : ℝ, 0 < D → (∀ x : Vec N, (∀ i, x i = 1 ∨ x i = -1) → |Spec.quadForm (Spec.matFun lam U f) x - ∑ i, f (lam i)| ≤ D) → ∀ ε : ℝ, 0 < ε →
        P.real {ω | ε + slqErr N L e * N ≤ |est ω - ∑ i, f (lam i)|} ≤ 2 * Real.exp (-(k * ε ^ 2 / (2 * D ^ 2))) := by
  classical
  have hk' : (k : ℝ) ≠ 0 := by exact_mod_cast hk.ne'
  have hkp : (0 : ℝ) < k := by exact_mod_cast hk
  have hstep := h.step hK heps (N : ℝ)
  -- one call of `quad` on a list of sign vectors
  have hex : ∀ b : Fin k × Fin N → Bool, ∃ r : MF N × List ℝ,
      M.quad K eps qf (List.ofFn fun t : Fin k => fun i => sgn (b (t, i))) = some (.ok (r.1, r.2.map some)) := fun b => by
    obtain ⟨M', ys, g1, -⟩ := quad_near K eps qf (MF.Reach K eps qf M0) (fun x => ∑ i, x i ^ 2 ≤ (N : ℝ)) _ _ hstep
      (List.ofFn fun t : Fin k => fun i => sgn (b (t, i))) M h.reach (fun x hx => by
        obtain ⟨t, rfl⟩ := List.mem_ofFn.1 hx
        exact (sign_norm fun i => sgn_cases _).le)
    exact ⟨(M', ys), g1⟩
  choose r hr using hex
  obtain ⟨G, hG⟩ : ∃ G : (Fin k × Fin N → Bool) → ℝ, G = fun b => Spec.mean (r b).2 := ⟨_, rfl⟩
  obtain ⟨E, hE⟩ : ∃ E : (Fin k × Fin N → Bool) → ℝ, E = fun b => (∑ t : Fin k, Spec.quad (Spec.matFun lam U f) fun i => sgn (b (t, i))) / k := ⟨_, rfl⟩
  obtain ⟨T, hT⟩ : ∃ T : ℝ, T = ∑ i, f (lam i) := ⟨_, rfl⟩
  obtain ⟨c, hc⟩ : ∃ c : ℝ, c = slqErr N L e * N := ⟨_, rfl⟩
  have hc0 : 0 ≤ c := by
    obtain ⟨lo, hi, -, -, h3, -⟩ := h.lip
    rw [hc]
    exact mul_nonneg (le_max_of_le_right (by positivity)) (Nat.cast_nonneg _)
  have htr : (Spec.matFun lam U f).trace = T := by rw [matFun_trace B lam U h.eig, hT]
  -- every run returns `G` of the signs, close to `E`
  have hrun : ∀ (rng : Rng) (b : Fin k × Fin N → Bool), (∀ p, 0 ≤ rng.unif p ∧ rng.unif p < 1) →
      (∀ (t : Fin k) (i : Fin N), b (t, i) = true ↔ 1/2 ≤ rng.unif (t * N + i)) →
      ∃ M', hutchMF tppf zscore rng K eps qf M ⟨op, 32, .name "rademacher", .obj (.count k), false, false, false, []⟩ (k + 1) =
        some (.ok (some (M', .scalar (.val fun _ => G b), []))) := by
    intro rng b hu1 hu2
    obtain ⟨M', out, calls, ys, g1, -, g2, -, g3, -⟩ := C123_count tppf zscore K hK eps heps qf B lam U f deg orth M0 M L e h rng
      ⟨op, 32, .name "rademacher", .obj (.count k), false, false, false, []⟩ one_pos _ rfl (N : ℝ) (fun hist b j => (sign_norm fun i => by
        have h4 := hu1 (hist.sum * N + j * N + i)
        simp only [IsoDist.fill, rawCols]
        rcases lt_or_ge (rng.unif (hist.sum * N + j * N + i)) (1/2) with h5 | h5
        · exact Or.inr ((rademacherEntry_half _).1 h4.1 h5)
        · exact Or.inl ((rademacherEntry_half _).2 h5 h4.2)).le) k hk (by
          show CritArg.obj (.count (k : ℤ)) = _
          rw [show HutchArgs.cols _ = 1 from rfl, mul_one])
    obtain ⟨rfl, rfl⟩ := g3 rfl rfl
    rw [show HutchArgs.cols _ = 1 from rfl, drawn_signs k rng b hu1 hu2 _ rfl, hr b] at g2
    simp only [Option.some.injEq, Except.ok.injEq, Prod.mk.injEq] at g2
    have hys : (r b).2 = ys := List.map_injective_iff.2 (Option.some_injective ℝ) g2.2
    refine ⟨M', ?_⟩
    rw [g1, hG]
    simp only [hys]
  have hnear : ∀ b, |G b - E b| ≤ c := by
    intro b
    obtain ⟨M', ys, g1, g2, -⟩ := quad_near K eps qf (MF.Reach K eps qf M0) (fun x => ∑ i, x i ^ 2 ≤ (N : ℝ)) _ _ hstep
      (List.ofFn fun t : Fin k => fun i => sgn (b (t, i))) M h.reach (fun x hx => by
        obtain ⟨t, rfl⟩ := List.mem_ofFn.1 hx
        exact (sign_norm fun i => sgn_cases _).le)
    rw [hr b] at g1
    simp only [Option.some.injEq, Except.ok.injEq, Prod.mk.injEq] at g1
    have hys : (r b).2 = ys := List.map_injective_iff.2 (Option.some_injective ℝ) g1.2
    have hl : (ys.length : ℝ) = k := by rw [g2.length_eq, List.length_ofFn]
    have h3 := forall2_sum _ _ g2
    rw [List.map_ofFn, List.sum_ofFn] at h3
    rw [hG, hE]
    simp only [hys, Spec.mean, hl]
    rw [← sub_div, abs_div, abs_of_pos hkp, div_le_iff₀ hkp, hc, ← hl]
    simpa only [quad_eq_dot, Function.comp_def, Spec.quadForm] using h3
  have hEint : (∑ b, E b) / 2 ^ (k * N) = T := by
    rw [hE, ← Finset.sum_div, Finset.sum_comm]
    simp only [sum_quad_signs, Finset.sum_const, Finset.card_univ, Fintype.card_fin, nsmul_eq_mul, htr]
    field_simp
  have hcard : (Fintype.card (Fin k × Fin N → Bool) : ℝ) = 2 ^ (k * N) := by simp
  refine ⟨fun ω => G (bitsOf k N u ω), ?_, (bitsOf_integral hu k N G).1, ?_, (bitsOf_integral hu k N fun b => (G b - ∑ i, f (lam i)) ^ 2).1, ?_, ?_⟩
  · filter_upwards [uniform_range hu] with ω hω
    exact hrun ⟨fun q => u q ω, fun q => X q ω⟩ (bitsOf k N u ω) (fun p => ⟨(hω p).1, (hω p).2⟩) fun t i => by simp [bitsOf]
  · rw [(bitsOf_integral hu k N G).2, ← hT, ← hc, ← hEint, ← sub_div, ← Finset.sum_sub_distrib, abs_div, abs_of_pos (show (0 : ℝ) < 2 ^ (k * N) by positivity),
      div_le_iff₀ (by positivity)]
    refine (Finset.abs_sum_le_sum_abs _ _).trans ((Finset.sum_le_sum fun b _ => hnear b).trans ?_)
    rw [Finset.sum_const, Finset.card_univ, nsmul_eq_mul, hcard, mul_comm]
  · rw [(bitsOf_integral hu k N fun b => (G b - ∑ i, f (lam i)) ^ 2).2, ← hT, ← hc]
    refine avg_sq_le (fun b => E b - T) (fun b => G b - T) c _ _ (by positivity) hc0 hcard (fun b => ?_) ?_
    · rw [sub_sub_sub_cancel_right]; exact hnear b
    · have hm := mse_signs (Spec.matFun lam U f) k hk
      rw [htr] at hm
      rw [hE, hm, Finset.mul_sum]
      congr 1
      refine Finset.sum_congr rfl fun i _ => ?_
      rw [Finset.mul_sum]
      refine Finset.sum_congr rfl fun j _ => ?_
      have := (matFun_symm lam U f).apply i j
      split_ifs
      · ring
      · rw [this]; ring
  · intro D hD hdev ε hε
    rw [bitsOf_share hu k N fun b => ε + slqErr N L e * N ≤ |G b - ∑ i, f (lam i)|]
    rw [← hT] at hdev ⊢
    rw [← hc]
    have ht := signs_tail (Spec.matFun lam U f) k hk D hD (fun x hx => by rw [htr, quad_eq_dot]; exact hdev x hx) ε hε
    rw [htr] at ht
    refine le_trans (div_le_div_of_nonneg_right ?_ (by positivity)) ht
    refine Nat.cast_le.2 (Finset.card_le_card fun b hb => ?_)
    rw [Finset.mem_filter] at hb ⊢
    refine ⟨hb.1, ?_⟩
    have h1 := hnear b
    rw [hE] at h1
    have h2 := abs_sub_abs_le_abs_sub (G b - T) (((∑ t : Fin k, Spec.quad (Spec.matFun lam U f) fun i => sgn (b (t, i))) / k) - T)
    rw [sub_sub_sub_cancel_right] at h2
    linarith [hb.2]

/-! ## A concrete case: `[[0, 1], [1, 0]]` and `f(t) = max(t, 0)`, full degree -/

theorem S2_relu_setup (K : TriKernels) (qf : ℕ) : ∃ M0, SlqSetup K 0 qf S2 ![1, -1] !![Real.sqrt 2 / 2, Real.sqrt 2 / 2; Real.sqrt 2 / 2, -(Real.sqrt 2 / 2)]
    (fun t => max t 0) 20 3 M0 M0 1 0 := by
  obtain ⟨M0, h0, ho⟩ : ∃ M0, MF.init S2.mulVec (fun t => max t 0) 20 3 = .ok M0 ∧ M0.orth ≤ 2 :=
    ⟨_, if_neg (by norm_num), by decide⟩
  refine ⟨M0, by norm_num, S2_symm, S2_eigen, h0, ho, .refl _, ⟨-1, 1, ?_, ?_, zero_le_one, ?_⟩, Or.inl ⟨by norm_num, le_rfl⟩⟩
  · intro a; fin_cases a <;> norm_num
  · intro a; fin_cases a <;> norm_num
  · intro s _ t _
    rw [one_mul]
    exact abs_max_sub_max_le_abs s t 0

/-- The probability that `hutch` with `k` sign vectors misses the trace `1` by more than `ε + 8e-8` is at most `2 exp(-k ε² / 2)`. -/
example (K : TriKernels) (hK : EighOk K) (qf k : ℕ) (hk : 0 < k) : ∃ (Q : Measure (ℕ → ℝ)) (_ : IsProbabilityMeasure Q) (M0 : MF 2) (est : (ℕ → ℝ) → ℝ),
    MF.init S2.mulVec (fun t => max t 0) 20 3 = .ok M0 ∧
    (∀ᵐ z ∂Q, ∃ M', hutchMF tppf zscore ⟨z, fun _ => 0⟩ K 0 qf M0 ⟨.ofMatrix 0, 32, .name "rademacher", .obj (.count k), false, false, false, []⟩ (k + 1) =
      some (.ok (some (M', .scalar (.val fun _ => est z), [])))) ∧
    ∀ ε : ℝ, 0 < ε → Q.real {z | ε + 8e-8 ≤ |est z - 1|} ≤ 2 * Real.exp (-(k * ε ^ 2 / 2)) := by
  obtain ⟨Q, hQ, hu⟩ := iidUniform_exists
  obtain ⟨M0, h⟩ := S2_relu_setup K qf
  obtain ⟨est, h1, -, -, -, -, h2⟩ := C123_rademacher (P := Q) tppf zscore K hK 0 le_rfl qf _ _ _ _ _ _ M0 M0 1 0 h k hk (fun q z => z q) (fun _ _ => 0) hu (.ofMatrix 0)
  refine ⟨Q, hQ, M0, est, h.init, h1, fun ε hε => ?_⟩
  have hs : Real.sqrt 2 * Real.sqrt 2 = 2 := Real.mul_self_sqrt (by norm_num)
  have hT : ∑ i : Fin 2, max ((![1, -1] : Fin 2 → ℝ) i) 0 = 1 := by
    rw [Fin.sum_univ_two]; norm_num
  have hE : slqErr 2 1 0 * (2 : ℕ) = 8e-8 := by
    have e1 : 2 * Real.sqrt 2 * 1 * (Real.sqrt ((2 : ℕ) : ℝ) * 1e-8) = 4e-8 := by
      rw [Nat.cast_ofNat]
      calc 2 * Real.sqrt 2 * 1 * (Real.sqrt 2 * 1e-8) = 2 * (Real.sqrt 2 * Real.sqrt 2) * 1e-8 := by ring
        _ = 4e-8 := by rw [hs]; norm_num
    unfold slqErr
    rw [e1]
    norm_num
  have h3 := h2 1 one_pos (fun x hx => ?_) ε hε
  · rw [hT, hE] at h3
    simpa using h3
  · rw [hT]
    have h4 : ∀ i, x i * x i = 1 := fun i => by rcases hx i with h | h <;> rw [h] <;> norm_num
    have e0 := h4 0
    have e1 := h4 1
    have hq : Spec.quadForm (Spec.matFun ![1, -1] !![Real.sqrt 2 / 2, Real.sqrt 2 / 2; Real.sqrt 2 / 2, -(Real.sqrt 2 / 2)] fun t => max t 0) x = (x 0 + x 1) ^ 2 / 2 := by
      unfold Spec.quadForm
      have hd : Matrix.diagonal (fun i => max ((![1, -1] : Fin 2 → ℝ) i) 0) = !![1, 0; 0, 0] := by
        ext i j
        fin_cases i <;> fin_cases j <;> simp
      unfold Spec.matFun
      rw [hd]
      simp [dotProduct, mulVec, Fin.sum_univ_two, Matrix.mul_apply]
      linear_combination (x 0 + x 1) ^ 2 / 4 * hs
    rw [hq, show (x 0 + x 1) ^ 2 / 2 - 1 = x 0 * x 1 by linear_combination (e0 + e1) / 2, abs_mul]
    rcases hx 0 with h | h <;> rcases hx 1 with h' | h' <;> rw [h, h'] <;> norm_num

end prob

end Primate
