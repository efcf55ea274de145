import Verif.Lemmas.SlqFl
import Verif.Props.HutchFl
import Verif.Props.SLQNear
import Verif.Lemmas.QuadIeee

/-! # Property C142: stochastic Lanczos quadrature in floating point arithmetic

`C136_binary64` on the operations of C136, C137, C140 and C141 is also here. -/

noncomputable section

namespace Primate

open Matrix Polynomial Spec StatsFl

variable {n : ℕ} {K : SlqKernels n} {c : MFCfg} {A : Matrix (Fin n) (Fin n) ℝ} {M ε B ω δ L H S lo hi a b : ℝ} {fl : ℝ → ℝ} {φ : Fmt}

/-- Every run of the recurrence on a vector with `good` makes at least `κ` steps. -/
def Spec.Steps (K : SlqKernels n) (c : MFCfg) (S : ℝ) (κ : ℕ) (good : Vec n → Prop) : Prop :=
  ∀ (t j : ℕ) (G : MFFl n) (v : Vec n), ArraysOk c.deg S G → good v → ∀ (s : LState n) (y : ℝ),
    quadColFl (K.lan t j) (K.quad t j) c.f v c.deg c.tol c.otol c.orth G.alpha G.beta G.Q = .ok (s, y) → ∀ i, 1 ≤ i → i < κ → c.tol ≤ s.beta.get i

/-- The arrays of a new object. -/
theorem slqState_init (c : MFCfg) (κ : ℕ) (hε : 0 ≤ ε) (hS : 0 ≤ S) (h : κ = c.deg ∨ (0 ≤ c.tol ∧ lo ≤ 0 ∧ 0 ≤ hi)) : SlqState c κ ε S lo hi (MFFl.init n c.deg) := by
  refine ⟨⟨Nat.le_succ _, le_rfl, le_rfl, fun j _ => by simpa [MFFl.init, Buf.zeros] using hS⟩, h.imp_right fun ⟨h0, h1, h2⟩ => ?_⟩
  have hE : 0 ≤ 400 * (c.deg : ℝ) ^ 3 * ε * S := by positivity
  refine ⟨fun _ => 0, fun j _ _ => by simpa [MFFl.init, Buf.zeros] using h0, fun x => ?_⟩
  have e : jacobi c.deg (MFFl.init n c.deg).alpha.get (fun _ => 0) = 0 := by
    ext i j
    simp [jacobi, MFFl.init, Buf.zeros]
  have hx : 0 ≤ x ⬝ᵥ x := Finset.sum_nonneg fun _ _ => mul_self_nonneg _
  rw [e, zero_mulVec, dotProduct_zero]
  exact ⟨mul_nonpos_of_nonpos_of_nonneg (by linarith) hx, mul_nonneg (by linarith) hx⟩

/-- C142: the accuracy of `MatrixFunction.quad` on several vectors, one after the other, without re-orthogonalisation in floating point arithmetic.  The arrays may be left over
from any calls; they are again in such a state afterwards. -/
theorem C142_quad_columns (h : SlqInput K c A M ε B ω δ L H S lo hi a b) (lam : Fin n → ℝ) (U : Matrix (Fin n) (Fin n) ℝ) (hU : Eigen A lam U)
    (hlam : ∀ i, lo ≤ lam i ∧ lam i ≤ hi) (κ : ℕ) (hκ : κ ≤ c.deg) (good : Vec n → Prop) (hsteps : Steps K c S κ good) (R : ℝ)
    (hgood : ∀ v, good v → 2 * c.tol ≤ nrm v ∧ nrm v ≤ B ∧ nrm v ^ 2 ≤ R) (g : ℝ[X]) (Φ η : ℝ) (hR : ∀ v, good v → QRange L H S Φ (nrm v)) (hg : g.natDegree + 2 ≤ 2 * κ)
    (hΦ : ∀ x, a ≤ x → x ≤ b → |c.f x| ≤ Φ) (hη : ∀ x, a ≤ x → x ≤ b → |c.f x - g.eval x| ≤ η) (t : ℕ) :
    ∀ (xs : List (Vec n)) (j : ℕ) (G : MFFl n), SlqState c κ ε S lo hi G → (∀ x ∈ xs, good x) →
      ∃ (G' : MFFl n) (ys : List ℝ), quadFl K c t j G xs = .ok (G', ys) ∧ SlqState c κ ε S lo hi G' ∧
        List.Forall₂ (fun y x => |y - quadForm (matFun lam U c.f) x| ≤ flQuadErr c.deg ε S ω δ c.tol a b Φ η * R ∧
          ∃ t j p q, y = (K.quad t j).mul p q ∧ |p * q| ≤ H) ys xs := by
  have hS0 : 0 ≤ S := h.tol0.le.trans h.Stol
  have hΦ0 : 0 ≤ Φ := (abs_nonneg _).trans (hΦ a le_rfl h.ab.le)
  have hη0 : 0 ≤ η := (abs_nonneg _).trans (hη a le_rfl h.ab.le)
  have herr : 0 ≤ flQuadErr c.deg ε S ω δ c.tol a b Φ η := by
    unfold flQuadErr
    have h1 : 0 < b - a := sub_pos.2 h.ab
    have := h.eps0
    have := h.om0
    have := h.del0
    have := h.tol0
    positivity
  intro xs
  induction xs with
  | nil => intro j G hG _; exact ⟨G, [], rfl, hG, .nil⟩
  | cons x xs ih =>
    intro j G hG hx
    have gx := hx x (List.mem_cons_self ..)
    obtain ⟨n1, n2, n3⟩ := hgood x gx
    obtain ⟨s, y, h1, h2⟩ := h.column hU hlam hκ hG t j n1 n2 g hg hΦ hη (hR x gx)
    obtain ⟨h3, h4, hy⟩ := h2 (hsteps t j G x hG.arrays gx s y h1)
    obtain ⟨G', ys, h5, h6, h7⟩ := ih (j + 1) _ h3 fun z hz => hx z (List.mem_cons_of_mem _ hz)
    refine ⟨G', y :: ys, ?_, h6, .cons ⟨?_, t, j, hy⟩ h7⟩
    · unfold quadFl
      rw [h1]
      simp only [bind, Except.bind, h5]
    · refine h4.trans ?_
      rw [mul_comm]
      exact mul_le_mul_of_nonneg_left n3 herr

/-- The samples of the first passes. -/
structure SlqRun (K : SlqKernels n) (c : MFCfg) (q : Vec n → ℝ) (E W : ℝ) (φ : Fmt) (pdf : Pdf n) (bt t : ℕ) (ys : List ℝ) : Prop where
  near : List.Forall₂ (fun y x => |y - q x| ≤ E) ys (Spec.drawn pdf bt t)
  ok : ∀ y ∈ ys, φ.Mem y ∧ |y| ≤ W

theorem slqLoopFl_run (hn : φ.Nearest fl) (hsum : ∀ t (x : List ℝ), x ≠ [] → SumOrder fl x (K.colsum t x)) (pdf : Pdf n) {bt k : ℕ} (hb : 0 < bt) {q : Vec n → ℝ} {E W : ℝ}
    (hfit : φ.Fits (k * bt) W) (Inv : MFFl n → Prop)
    (hstep : ∀ t G, Inv G → ∃ G' ys, quadFl K c t 0 G (List.ofFn (pdf (List.replicate t bt) bt)) = .ok (G', ys) ∧ Inv G' ∧
      List.Forall₂ (fun y x => |y - q x| ≤ E) ys (List.ofFn (pdf (List.replicate t bt) bt)) ∧ ∀ y ∈ ys, φ.Mem y ∧ |y| ≤ W) (t : ℕ) (ht : t ≤ k) :
    ∀ (G : MFFl n) (e : Covariance ℝ 1) (ys : List ℝ), Inv G → e.nan = false → SlqRun K c q E W φ pdf bt t ys → FInv φ W e.n e.mu (ys.map fun x _ => x) →
    ∃ G' e' ys', slqLoopFl fl K c pdf bt (k * bt) (k - t + 1) t G e = some (.ok (G', e')) ∧ Inv G' ∧ e'.nan = false ∧
      SlqRun K c q E W φ pdf bt k ys' ∧ FInv φ W e'.n e'.mu (ys'.map fun x _ => x) := by
  obtain ⟨m, hm⟩ : ∃ m, k - t = m := ⟨_, rfl⟩
  induction m generalizing t with
  | zero =>
    intro G e ys hG he hr inv
    obtain rfl : t = k := by omega
    have : e.n = t * bt := by rw [inv.count, List.length_map, hr.near.length_eq, drawn_length]
    refine ⟨G, e, ys, ?_, hG, he, hr, inv⟩
    rw [hm, slqLoopFl, if_pos this.ge]
  | succ m ih =>
    intro G e ys hG he hr inv
    have hn' : e.n = t * bt := by rw [inv.count, List.length_map, hr.near.length_eq, drawn_length]
    have hlt : t * bt + bt ≤ k * bt := by
      rw [← Nat.succ_mul]
      exact Nat.mul_le_mul_right bt (by omega)
    obtain ⟨G', x, g1, g2, g3, g4⟩ := hstep t G hG
    have hxl : x.length = bt := by rw [g3.length_eq, List.length_ofFn]
    have hx0 : x ≠ [] := by intro h; rw [h] at hxl; simp at hxl; omega
    have hst := inv.step (X := x.map fun y _ => y) (s := fun _ => K.colsum t x) hn hfit (by simpa using hx0) (by
        intro i
        simp only [List.map_map, Function.comp_def, List.map_id']
        exact hsum t x hx0) (by
        intro y hy i
        obtain ⟨z, hz, rfl⟩ := List.mem_map.1 hy
        exact g4 z hz) (by rw [List.length_map, hxl, hn']; exact hlt)
    have hne : (x.map fun y (_ : Fin 1) => y).length ≠ 0 := by simpa using hx0
    obtain ⟨e', h1, h2, h3⟩ : ∃ e', e.updateRowsFl fl (x.map fun y _ => y) (fun _ => K.colsum t x) (fun _ _ => K.gram t x) = .ok e' ∧ e'.nan = false ∧
        FInv φ W e'.n e'.mu ((ys ++ x).map fun x _ => x) := by
      unfold Covariance.updateRowsFl
      simp only [hne, if_false, show ¬ (e.n + (x.map fun y (_ : Fin 1) => y).length = 0) by omega]
      refine ⟨_, rfl, he, ?_⟩
      rw [List.map_append]
      exact hst
    obtain ⟨G'', e'', ys', h4, h5⟩ := ih (t + 1) (by omega) (by omega) G' e' (ys ++ x) g2 h2
      ⟨by rw [drawn_succ]; exact List.rel_append hr.near g3, fun y hy => (List.mem_append.1 hy).elim (hr.ok y) (g4 y)⟩ h3
    refine ⟨G'', e'', ys', ?_, h5⟩
    rw [show k - t = (k - (t + 1)) + 1 by omega, slqLoopFl, if_neg (by omega)]
    simp only [g1, h1]
    exact h4

theorem matFun_quad_le {lam : Fin n → ℝ} {U : Matrix (Fin n) (Fin n) ℝ} (hU : Eigen A lam U) (f : ℝ → ℝ) {Φ : ℝ} (hΦ : ∀ i, |f (lam i)| ≤ Φ) (v : Vec n) :
    |quadForm (matFun lam U f) v| ≤ Φ * nrm v ^ 2 := by
  have hE := isEigh_iff_eigen.2 hU
  unfold quadForm
  rw [hE.quad_sum f v, sq, nrm_sq, ← hE.norm_sum v, Finset.mul_sum]
  refine (Finset.abs_sum_le_sum_abs _ _).trans (Finset.sum_le_sum fun i _ => ?_)
  rw [abs_mul, abs_of_nonneg (sq_nonneg ((Uᵀ *ᵥ v) i))]
  exact mul_le_mul_of_nonneg_right (hΦ i) (sq_nonneg _)

/-- C142, C148: `hutch` on a `MatrixFunction` with any sampler whose vectors are in the range of the operations (`good`), in floating point arithmetic and without
re-orthogonalisation.  The number returned differs from the mean of the exact quadratic forms of `f(A)` with the same vectors by at most `R`, a bound for the squared norms of the
vectors, times the error of one sample, plus the error of the streaming mean. -/
theorem C148_slq_sampler (h : SlqInput K c A M ε B ω δ L H S lo hi a b) (lam : Fin n → ℝ) (U : Matrix (Fin n) (Fin n) ℝ) (hU : Eigen A lam U)
    (hlam : ∀ i, lo ≤ lam i ∧ lam i ≤ hi) (κ : ℕ) (hκ : κ ≤ c.deg) (good : Vec n → Prop) (hsteps : Steps K c S κ good) (hn0 : n ≠ 0) (R : ℝ)
    (hgood : ∀ v, good v → 2 * c.tol ≤ nrm v ∧ nrm v ≤ B ∧ nrm v ^ 2 ≤ R) (g : ℝ[X]) (Φ η : ℝ) (hR : ∀ v, good v → QRange L H S Φ (nrm v)) (hg : g.natDegree + 2 ≤ 2 * κ)
    (hΦ : ∀ x, a ≤ x → x ≤ b → |c.f x| ≤ Φ) (hη : ∀ x, a ≤ x → x ≤ b → |c.f x - g.eval x| ≤ η)
    (hn : φ.Nearest fl) (hsum : ∀ t (x : List ℝ), x ≠ [] → SumOrder fl x (K.colsum t x)) (hmem : ∀ t j p q, |p * q| ≤ H → φ.Mem ((K.quad t j).mul p q))
    (G : MFFl n) (hG : SlqState c κ ε S lo hi G) (rng : Rng) (p : PdfArg n) (pdf : Pdf n) (hp : p.resolve rng = .ok pdf) (hpdf : ∀ hist b j, good (pdf hist b j))
    (batch k : ℕ) (full : Bool) (bt : ℕ) (hbt : bt = if full then batch else 1) (hb0 : 0 < bt) (hk : 0 < k) (E : ℝ) (hE : E = flQuadErr c.deg ε S ω δ c.tol a b Φ η)
    (hfit : φ.Fits (k * bt) (R * (Φ + E))) :
    ∃ (x : ℝ) (G' : MFFl n), slqFl fl K c rng G batch p (k * bt) full (k + 1) = some (.ok (G', .val fun _ => x)) ∧ SlqState c κ ε S lo hi G' ∧ φ.Mem x ∧
      |x - Spec.mean ((Spec.drawn pdf bt k).map (quadForm (matFun lam U c.f)))| ≤ R * E + 16 * (k * bt : ℕ) * φ.u * (R * (Φ + E)) := by
  have hkb : 0 < k * bt := Nat.mul_pos hk hb0
  have hab := h.ab
  have hS0 : 0 ≤ S := h.tol0.le.trans h.Stol
  have hΦ0 : 0 ≤ Φ := (abs_nonneg _).trans (hΦ a le_rfl h.ab.le)
  have hΦl : ∀ i, |c.f (lam i)| ≤ Φ := by
    intro i
    have h1 : 0 ≤ 400 * (c.deg : ℝ) ^ 3 * ε * S := by
      have := h.eps0
      positivity
    have h2 := mul_nonneg h.del0 hS0
    exact hΦ _ (by linarith [(hlam i).1, h.alo, h.tol0]) (by linarith [(hlam i).2, h.bhi, h.tol0])
  have hstep : ∀ t G, SlqState c κ ε S lo hi G → ∃ G' ys, quadFl K c t 0 G (List.ofFn (pdf (List.replicate t bt) bt)) = .ok (G', ys) ∧ SlqState c κ ε S lo hi G' ∧
      List.Forall₂ (fun y x => |y - quadForm (matFun lam U c.f) x| ≤ R * E) ys (List.ofFn (pdf (List.replicate t bt) bt)) ∧
      ∀ y ∈ ys, φ.Mem y ∧ |y| ≤ R * (Φ + E) := by
    intro t G hG
    have hgd : ∀ x ∈ List.ofFn (pdf (List.replicate t bt) bt), good x := by
      intro x hx
      obtain ⟨j, rfl⟩ := List.mem_ofFn.1 hx
      exact hpdf _ _ _
    obtain ⟨G', ys, g1, g2, g3⟩ := C142_quad_columns h lam U hU hlam κ hκ _ hsteps R hgood g Φ η hR hg hΦ hη t _ 0 G hG hgd
    refine ⟨G', ys, g1, g2, g3.imp fun y x hyx => by rw [hE, mul_comm]; exact hyx.1, fun y hy => ?_⟩
    obtain ⟨x, hx, hyx⟩ : ∃ x ∈ List.ofFn (pdf (List.replicate t bt) bt), |y - quadForm (matFun lam U c.f) x| ≤ flQuadErr c.deg ε S ω δ c.tol a b Φ η * R ∧
        ∃ t j p q, y = (K.quad t j).mul p q ∧ |p * q| ≤ H := by
      obtain ⟨i, hi, rfl⟩ := List.mem_iff_getElem.1 hy
      exact ⟨_, List.getElem_mem (by rw [← g3.length_eq]; exact hi), (List.forall₂_iff_get.1 g3).2 i hi (by rw [← g3.length_eq]; exact hi)⟩
    obtain ⟨hyx, t', j', p', q', rfl, hpq⟩ := hyx
    refine ⟨hmem _ _ _ _ hpq, ?_⟩
    have h1 := matFun_quad_le hU c.f hΦl x
    have h3 := mul_le_mul_of_nonneg_left (hgood x (hgd x hx)).2.2 hΦ0
    rw [← hE] at hyx
    have h2 := abs_sub_abs_le_abs_sub ((K.quad t' j').mul p' q') (quadForm (matFun lam U c.f) x)
    linarith
  obtain ⟨G', e, ys, l1, l2, l3, l4, l5⟩ := slqLoopFl_run hn hsum pdf hb0 hfit _ hstep 0 (Nat.zero_le _) G (Covariance.init ℝ 1) [] hG rfl
    ⟨.nil, fun y hy => absurd hy (List.not_mem_nil)⟩ (by simpa [Covariance.init] using FInv.init (d := 1) (M := R * (Φ + E)) hfit.exp)
  have hlen : ys.length = k * bt := by rw [l4.near.length_eq, drawn_length]
  have hne : ys.map (fun x (_ : Fin 1) => x) ≠ [] := by
    intro h0
    have := congrArg List.length h0
    rw [List.length_map, hlen, List.length_nil] at this
    omega
  have h4 := l5.mean_err hne 0
  have hcn : e.n ≠ 0 := by
    rw [l5.count, List.length_map, hlen]
    omega
  have hmean : e.mean = .val fun _ => e.mu 0 := by
    unfold Covariance.mean
    rw [if_neg (by omega)]
    simp only [l3, Bool.false_eq_true, if_false]
    congr 1
    funext i
    rw [Subsingleton.elim i 0]
  refine ⟨e.mu 0, G', ?_, l2, l5.mem 0, ?_⟩
  · unfold slqFl
    simp only [hp, hn0, if_false, ← hbt]
    rw [Nat.sub_zero] at l1
    rw [l1]
    simp only [hmean]
  · have h7 : Spec.sampleMean (ys.map fun x (_ : Fin 1) => x) 0 = Spec.mean ys := by
      simp [Spec.sampleMean, Spec.mean, Function.comp_def]
    rw [h7, List.length_map, hlen] at h4
    have hl : (0 : ℝ) < ys.length := by
      rw [hlen]
      exact_mod_cast hkb
    have h8 : |Spec.mean ys - Spec.mean ((Spec.drawn pdf bt k).map (quadForm (matFun lam U c.f)))| ≤ R * E := by
      unfold Spec.mean
      rw [List.length_map, ← l4.near.length_eq, ← sub_div, abs_div, abs_of_pos hl, div_le_iff₀ hl]
      exact forall2_sum _ _ l4.near
    refine (abs_sub_le _ (Spec.mean ys) _).trans ((add_le_add h4 h8).trans (le_of_eq ?_))
    ring

/-- C142: `hutch` on a `MatrixFunction` with Rademacher vectors, in floating point arithmetic and without re-orthogonalisation.  The number returned differs from the
mean of the exact quadratic forms of `f(A)` with the same vectors by at most `N` times the error of one sample, plus the error of the streaming mean. -/
theorem C142_slq_rounding (h : SlqInput K c A M ε B ω δ L H S lo hi a b) (lam : Fin n → ℝ) (U : Matrix (Fin n) (Fin n) ℝ) (hU : Eigen A lam U)
    (hlam : ∀ i, lo ≤ lam i ∧ lam i ≤ hi) (κ : ℕ) (hκ : κ ≤ c.deg) (hsteps : Steps K c S κ fun v => ∀ i, v i = 1 ∨ v i = -1) (hn0 : n ≠ 0)
    (hs1 : 2 * c.tol ≤ Real.sqrt n) (hs2 : Real.sqrt n ≤ B) (g : ℝ[X]) (Φ η : ℝ) (hR : QRange L H S Φ (Real.sqrt n)) (hg : g.natDegree + 2 ≤ 2 * κ)
    (hΦ : ∀ x, a ≤ x → x ≤ b → |c.f x| ≤ Φ) (hη : ∀ x, a ≤ x → x ≤ b → |c.f x - g.eval x| ≤ η)
    (hn : φ.Nearest fl) (hsum : ∀ t (x : List ℝ), x ≠ [] → SumOrder fl x (K.colsum t x)) (hmem : ∀ t j p q, |p * q| ≤ H → φ.Mem ((K.quad t j).mul p q))
    (G : MFFl n) (hG : SlqState c κ ε S lo hi G) (rng : Rng) (hu : ∀ p, 0 ≤ rng.unif p ∧ rng.unif p < 1) (batch k : ℕ) (full : Bool) (bt : ℕ)
    (hbt : bt = if full then batch else 1) (hb0 : 0 < bt) (hk : 0 < k) (E : ℝ) (hE : E = flQuadErr c.deg ε S ω δ c.tol a b Φ η)
    (hfit : φ.Fits (k * bt) (n * (Φ + E))) :
    ∃ (x : ℝ) (G' : MFFl n) (pdf : Pdf n), (PdfArg.name "rademacher" : PdfArg n).resolve rng = .ok pdf ∧
      slqFl fl K c rng G batch (.name "rademacher") (k * bt) full (k + 1) = some (.ok (G', .val fun _ => x)) ∧ SlqState c κ ε S lo hi G' ∧ φ.Mem x ∧
      |x - Spec.mean ((Spec.drawn pdf bt k).map (quadForm (matFun lam U c.f)))| ≤ n * E + 16 * (k * bt : ℕ) * φ.u * (n * (Φ + E)) := by
  obtain ⟨pdf, hp⟩ : ∃ pdf : Pdf n, isotropicPdf "rademacher" rng n = .ok pdf := ⟨_, rfl⟩
  have hnrm : ∀ v : Vec n, (∀ i, v i = 1 ∨ v i = -1) → nrm v = Real.sqrt n := by
    intro v hv
    unfold nrm
    congr 1
    rw [dotProduct, ← sign_norm hv]
    exact Finset.sum_congr rfl fun i _ => (sq _).symm
  have hnr : Real.sqrt n ^ 2 = n := Real.sq_sqrt (Nat.cast_nonneg n)
  obtain ⟨x, G', h1, h2, h3, h4⟩ := C148_slq_sampler h lam U hU hlam κ hκ _ hsteps hn0 n (fun v hv => by
      rw [hnrm v hv]
      exact ⟨hs1, hs2, hnr.le⟩) g Φ η (fun v hv => by rw [hnrm v hv]; exact hR) hg hΦ hη hn hsum hmem G hG rng (.name "rademacher") pdf hp
    (rademacher_pdf_signs rng hu pdf hp) batch k full bt hbt hb0 hk E hE hfit
  exact ⟨x, G', pdf, hp, h1, h2, h3, h4⟩

/-- C142: for a matrix without rows `hutch` returns `0`, whatever the function and the sampler. -/
theorem C142_empty (hn0 : n = 0) (K : SlqKernels n) (rng : Rng) (G : MFFl n) (batch : ℕ) (p : PdfArg n) (pdf : Pdf n) (hp : p.resolve rng = .ok pdf) (count : ℕ) (full : Bool) (fuel : ℕ) :
    slqFl fl K c rng G batch p count full fuel = some (.ok (G, .val fun _ => 0)) := by
  unfold slqFl
  rw [hp]
  simp only [hn0, if_true]

/-- One step is always made. -/
theorem steps_one (K : SlqKernels n) (c : MFCfg) (S : ℝ) (good : Vec n → Prop) : Steps K c S 1 good := fun _ _ _ _ _ _ _ _ _ i h1 h2 => absurd h2 (by omega)

/-- Two steps are made with vectors that are far from every eigenvector. -/
theorem steps_two (h : SlqInput K c A M ε B ω δ L H S lo hi a b) (good : Vec n → Prop) (μ : ℝ) (hμ : 2 * c.tol + 23 * (ε * M) < μ)
    (hgood : ∀ v, good v → 2 * c.tol ≤ nrm v ∧ nrm v ≤ B ∧ ∀ x : ℝ, μ * nrm v ≤ nrm (A *ᵥ v - x • v)) : Steps K c S 2 good := by
  intro t j G v hG hv s y hq i hi1 hi2
  obtain rfl : i = 1 := by omega
  obtain ⟨n1, n2, n3⟩ := hgood v hv
  have hI := h.flInput hG t j n1 n2
  obtain ⟨s', k, q, h1, h2, h3, h4, h5, -, h7, h8, h9, h10, -⟩ := C132_local_errors (K.lan t j) A M ε c.tol B hI.kernels hI.bound hI.M0 hI.eps0 hI.eps1 hI.tol0 v hI.start
    hI.startB c.deg hI.deg1 hI.degE hI.degB c.otol c.orth hI.noOrth G.alpha G.beta G.Q hI.aLen hI.bLen hI.qLen hI.qLen2
  have hs : s = s' := by
    unfold quadColFl at hq
    rw [h1] at hq
    simp only [bind, Except.bind, Except.ok.injEq, Prod.mk.injEq] at hq
    exact hq.1.symm
  subst hs
  by_contra hc
  push Not at hc
  have hk : k = 1 := by
    by_contra hk
    exact absurd (h5 1 le_rfl (by omega)) (not_le.2 hc)
  subst hk
  have t0 := h.tol0
  have e0 := h.eps0
  have hM := h.M0
  have nv : 0 < nrm v := by linarith
  have h11 := (abs_le.1 h9).1
  have h12 := mul_le_mul_of_nonneg_right h.eps1 (nrm_nonneg s.v)
  have h13 := mul_le_mul_of_nonneg_right h.eps1 t0.le
  have hr : nrm s.v ≤ 2 * c.tol := by linarith
  have hl := h8.last 0 rfl
  rw [h8.beta_zero, zero_smul, sub_zero, mul_zero, add_zero] at hl
  obtain ⟨-, -, ha⟩ := h10 0 (by omega)
  have ha' : |s.alpha.get 0| ≤ 2 * M := by simpa using ha
  have h14 : nrm (A *ᵥ q 0 - s.alpha.get 0 • q 0) ≤ 2 * c.tol + 8 * (ε * M) := by
    have e : A *ᵥ q 0 - s.alpha.get 0 • q 0 = (A *ᵥ q 0 - s.alpha.get 0 • q 0 - s.v) + s.v := by abel
    rw [e]
    refine (nrm_add_le _ _).trans ?_
    have := mul_le_mul_of_nonneg_left ha' e0
    linarith
  set w := (nrm v)⁻¹ • v with hw
  have e : A *ᵥ w - s.alpha.get 0 • w = (A *ᵥ q 0 - s.alpha.get 0 • q 0) + (s.alpha.get 0 • (q 0 - w) - A *ᵥ (q 0 - w)) := by
    rw [mulVec_sub, smul_sub]
    abel
  have h15 : nrm (A *ᵥ w - s.alpha.get 0 • w) ≤ 2 * c.tol + 23 * (ε * M) := by
    rw [e]
    refine (nrm_add_le _ _).trans ?_
    have g1 : nrm (s.alpha.get 0 • (q 0 - w) - A *ᵥ (q 0 - w)) ≤ 2 * M * (5 * ε) + M * (5 * ε) := by
      refine (nrm_sub_le _ _).trans (add_le_add ?_ ((h.bound _).trans (mul_le_mul_of_nonneg_left h7 hM)))
      rw [nrm_smul]
      exact mul_le_mul ha' h7 (nrm_nonneg _) (by linarith)
    linarith
  have h16 : A *ᵥ w - s.alpha.get 0 • w = (nrm v)⁻¹ • (A *ᵥ v - s.alpha.get 0 • v) := by
    rw [hw, mulVec_smul, smul_sub, smul_comm]
  have h17 := mul_le_mul_of_nonneg_left (n3 (s.alpha.get 0)) (inv_nonneg.2 nv.le)
  rw [h16, nrm_smul, abs_of_pos (inv_pos.2 nv)] at h15
  have h18 : (nrm v)⁻¹ * (μ * nrm v) = μ := by field_simp
  rw [h18] at h17
  linarith

theorem quad_dot (A : Matrix (Fin n) (Fin n) ℝ) (v : Vec n) : Spec.quad A v = quadForm A v := by
  unfold Spec.quad quadForm
  simp only [dotProduct, mulVec, Finset.mul_sum]
  exact Finset.sum_congr rfl fun i _ => Finset.sum_congr rfl fun j _ => by ring

open MeasureTheory in
/-- **C142** end to end: with an ideal generator the number computed in floating point arithmetic misses `tr f(A)`, the sum of the values of `f` at the eigenvalues, by more
than `ξ` and the errors of the quadrature and of rounding with a probability that falls exponentially with the number of samples. -/
theorem C142_tail {Ω : Type*} [MeasurableSpace Ω] {P : Measure Ω} [IsProbabilityMeasure P] (K : Ω → SlqKernels n) (h : ∀ o, SlqInput (K o) c A M ε B ω δ L H S lo hi a b)
    (lam : Fin n → ℝ) (U : Matrix (Fin n) (Fin n) ℝ) (hU : Eigen A lam U) (hlam : ∀ i, lo ≤ lam i ∧ lam i ≤ hi) (κ : ℕ) (hκ : κ ≤ c.deg)
    (hsteps : ∀ o, Steps (K o) c S κ fun v => ∀ i, v i = 1 ∨ v i = -1) (hn0 : n ≠ 0) (hs1 : 2 * c.tol ≤ Real.sqrt n) (hs2 : Real.sqrt n ≤ B) (g : ℝ[X]) (Φ η : ℝ)
    (hR : QRange L H S Φ (Real.sqrt n)) (hg : g.natDegree + 2 ≤ 2 * κ) (hΦ : ∀ x, a ≤ x → x ≤ b → |c.f x| ≤ Φ) (hη : ∀ x, a ≤ x → x ≤ b → |c.f x - g.eval x| ≤ η)
    (hn : φ.Nearest fl) (hsum : ∀ o t (x : List ℝ), x ≠ [] → SumOrder fl x ((K o).colsum t x))
    (hmem : ∀ o t j p q, |p * q| ≤ H → φ.Mem (((K o).quad t j).mul p q)) (G : MFFl n) (hG : SlqState c κ ε S lo hi G) (k : ℕ) (hk : 0 < k) (E : ℝ)
    (hE : E = flQuadErr c.deg ε S ω δ c.tol a b Φ η) (hfit : φ.Fits k (n * (Φ + E))) (u X : ℕ → Ω → ℝ) (hu : Spec.IidUniform P u) (D : ℝ) (hD : 0 < D)
    (hdev : ∀ x : Vec n, (∀ i, x i = 1 ∨ x i = -1) → |quadForm (matFun lam U c.f) x - ∑ i, c.f (lam i)| ≤ D) (ξ : ℝ) (hξ : 0 < ξ) :
    ∃ est : Ω → ℝ,
      (∀ᵐ o ∂P, ∃ G', slqFl fl (K o) c ⟨fun q => u q o, fun q => X q o⟩ G 32 (.name "rademacher") k false (k + 1) = some (.ok (G', .val fun _ => est o))) ∧
      P.real {o | ξ + (n * E + 16 * k * φ.u * (n * (Φ + E))) ≤ |est o - ∑ i, c.f (lam i)|} ≤ 2 * Real.exp (-(k * ξ ^ 2 / (2 * D ^ 2))) := by
  obtain ⟨y, hy, -, -, -, -, htail⟩ := C112_rademacher (fun _ _ => 0) (fun _ => 0) (matFun lam U c.f) hn0 k hk u X hu
  rw [matFun_trace A lam U hU] at htail
  have hr : ∀ᵐ o ∂P, ∀ q, u q o ∈ Set.Ico (0 : ℝ) 1 := by
    rw [ae_all_iff]
    intro q
    have h1 : ∀ᵐ x ∂(volume.restrict (Set.Ico (0 : ℝ) 1)), x ∈ Set.Ico (0 : ℝ) 1 := ae_restrict_mem measurableSet_Ico
    rw [← (hu.law q).map_eq] at h1
    exact ae_of_ae_map (hu.law q).aemeasurable h1
  have key : ∀ o, ∃ x : ℝ, (∀ q, u q o ∈ Set.Ico (0 : ℝ) 1) →
      hutch (fun _ _ => 0) (fun _ => 0) ⟨fun q => u q o, fun q => X q o⟩ (scalarArgs (matFun lam U c.f) (.name "rademacher") k) (k + 1) =
        some (.ok (.scalar (.val fun _ => y o), [])) →
      (∃ G', slqFl fl (K o) c ⟨fun q => u q o, fun q => X q o⟩ G 32 (.name "rademacher") k false (k + 1) = some (.ok (G', .val fun _ => x))) ∧
        |x - y o| ≤ n * E + 16 * k * φ.u * (n * (Φ + E)) := by
    intro o
    by_cases h0 : ∀ q, u q o ∈ Set.Ico (0 : ℝ) 1
    · obtain ⟨x, G', pdf, h1, h2, -, -, h3⟩ := C142_slq_rounding (h o) lam U hU hlam κ hκ (hsteps o) hn0 hs1 hs2 g Φ η hR hg hΦ hη hn (hsum o) (hmem o) G hG
        ⟨fun q => u q o, fun q => X q o⟩ h0 32 k false 1 rfl (by omega) hk E hE (by simpa using hfit)
      rw [Nat.mul_one] at h2 h3
      refine ⟨x, fun _ h5 => ⟨⟨G', h2⟩, ?_⟩⟩
      have hcols : (scalarArgs (matFun lam U c.f) (.name "rademacher") k).cols = 1 := rfl
      have h6 := hutch_count (fun _ _ => 0) (fun _ => 0) ⟨fun q => u q o, fun q => X q o⟩ (scalarArgs (matFun lam U c.f) (.name "rademacher") k) hn0 (by rw [hcols]; omega)
        pdf h1 k hk (by rw [hcols, mul_one]; rfl)
      rw [h5, hcols] at h6
      simp only [scalarArgs, Bool.or_false, Bool.false_eq_true, if_false, Option.some.injEq, Except.ok.injEq, Prod.mk.injEq, HutchOut.scalar.injEq, NumArr.val.injEq,
        and_true] at h6
      have h7 := congrFun h6 0
      rw [h7]
      exact h3
    · exact ⟨0, fun h' => absurd h' h0⟩
  choose est hest using key
  refine ⟨est, ?_, le_trans ?_ (htail D hD (fun x hx => by rw [quad_dot]; exact hdev x hx) ξ hξ)⟩
  · filter_upwards [hr, hy] with o h1 h2
    exact (hest o h1 h2).1
  · refine ENNReal.toReal_mono (measure_ne_top _ _) (measure_mono_ae ?_)
    filter_upwards [hr, hy] with o h1 h2 h3
    have h4 := (hest o h1 h2).2
    have h5 : ξ + (n * E + 16 * k * φ.u * (n * (Φ + E))) ≤ |est o - ∑ i, c.f (lam i)| := h3
    have h6 := abs_sub_le (est o) (y o) (∑ i, c.f (lam i))
    show ξ ≤ |y o - ∑ i, c.f (lam i)|
    linarith

/-- The requirements of C136, C137, C140 and C141 on the sums and products hold for operations rounded to nearest in binary64, in any order. -/
theorem C136_binary64 {m : ℕ} (hfl : binary64.Nearest fl) (hn0 : 0 < n) (hn : n ≤ 2 ^ 40) (hm0 : 0 < m) (hm : m ≤ 2 ^ 40) (E : QKernels n)
    (hE : QKernelsRounded fl E m ω δ ((2 : ℝ) ^ (-400 : ℤ)) ((2 : ℝ) ^ (400 : ℤ))) (hω : 100 * (n + m + 1) * (1 / 2 ^ 53) ≤ ω) :
    QKernelsOk E m ω δ ((2 : ℝ) ^ (-400 : ℤ)) ((2 : ℝ) ^ (400 : ℤ)) := by
  have hu : binary64.u = 1 / 2 ^ 53 := by norm_num [Fmt.u, binary64]
  exact qRounded_ok hfl hE hn0 hm0 (binary64_qroom n m hn hm) (by rw [hu]; exact hω)

/-- The requirements of C142 in binary64, for numbers between `2 ^ -400` and `2 ^ 400`: the operations are rounded to nearest, sums and inner products are evaluated in
any order. -/
theorem C142_binary64 (hfl : binary64.Nearest fl) (hn0 : 0 < n) (hn : n ≤ 2 ^ 40) (hsym : A.IsSymm) (hF : ∑ i, ∑ j, A i j ^ 2 ≤ M ^ 2) (hM : (2 : ℝ) ^ (-400 : ℤ) ≤ M)
    (htol : (2 : ℝ) ^ (-400 : ℤ) ≤ c.tol) (hL : ∀ t j, LKernelsRounded fl A (K.lan t j))
    (hQ : ∀ t j, QKernelsRounded fl (K.quad t j) c.deg ω δ ((2 : ℝ) ^ (-400 : ℤ)) ((2 : ℝ) ^ (400 : ℤ))) (hd : 2 ≤ c.deg) (hd1 : c.deg ≤ 2 ^ 40)
    (hd2 : 288 * c.deg * (n + 1) ≤ (2 : ℝ) ^ 53) (hd3 : 8 * (c.deg + 1) * M ≤ (2 : ℝ) ^ (400 : ℤ)) (ho : c.orth ≤ 0) (hω : 100 * (n + c.deg + 1) * (1 / 2 ^ 53) ≤ ω)
    (hω1 : c.deg * ω ≤ 1 / 100) (hδ : 0 ≤ δ) (hSM : 4 * c.deg * M ≤ S) (hSt : c.tol ≤ S) (hab : a < b)
    (ha : a ≤ lo - 400 * c.deg ^ 3 * (8 * (n + 1) * (1 / 2 ^ 53)) * S - (4 * c.tol + δ * S))
    (hb : hi + 400 * c.deg ^ 3 * (8 * (n + 1) * (1 / 2 ^ 53)) * S + (4 * c.tol + δ * S) ≤ b) :
    SlqInput K c A M (8 * (n + 1) * (1 / 2 ^ 53)) ((2 : ℝ) ^ (400 : ℤ)) ω δ ((2 : ℝ) ^ (-400 : ℤ)) ((2 : ℝ) ^ (400 : ℤ)) S lo hi a b ∧
      ∀ t j p q, |p * q| ≤ (2 : ℝ) ^ (400 : ℤ) → binary64.Mem ((K.quad t j).mul p q) := by
  have hu : binary64.u = 1 / 2 ^ 53 := by norm_num [Fmt.u, binary64]
  have pos : ∀ a : ℤ, (0 : ℝ) < (2 : ℝ) ^ a := fun a => zpow_pos (by norm_num) a
  have t0 : 0 < c.tol := (pos _).trans_le htol
  have hM0 : 0 < M := (pos _).trans_le hM
  have hdr : (2 : ℝ) ≤ c.deg := by exact_mod_cast hd
  have hMB : M ≤ (2 : ℝ) ^ (400 : ℤ) := by
    have : 8 * M ≤ 8 * ((c.deg : ℝ) + 1) * M := mul_le_mul_of_nonneg_right (by linarith) hM0.le
    clear pos hM htol hQ
    generalize (2 : ℝ) ^ (400 : ℤ) = Y at *
    linarith
  have hn' : (n : ℝ) ≤ 2 ^ 40 := by exact_mod_cast hn
  have n0 : (0 : ℝ) ≤ n := Nat.cast_nonneg n
  have hω0 : 0 ≤ ω := le_trans (by positivity) hω
  have room := binary64_qroom n c.deg hn hd1
  refine ⟨⟨fun t j => ?_, fun t j => C136_binary64 hfl hn0 hn (by omega) hd1 _ (hQ t j) hω, hsym, ?_, hM0.le, by positivity, ?_, t0, hd, ?_, hd3, ho, hω0, hω1, hδ,
    hSM, hSt, hab, ha, hb⟩, fun t j p q hpq => ?_⟩
  · have := rounded_ok hfl A (hL t j) M c.tol _ hM0 t0 (pos 400).le hF hn0 (binary64_room n hn M c.tol _ hM hMB htol (pos 400).le le_rfl)
    rwa [hu] at this
  · intro x
    have h1 := frobSq_mulVec A x
    rw [← nrm_sq, ← nrm_sq] at h1
    have h2 : frobSq A * (nrm x * nrm x) ≤ M ^ 2 * (nrm x * nrm x) := mul_le_mul_of_nonneg_right hF (mul_self_nonneg _)
    refine abs_le_of_sq_le_sq' ?_ (mul_nonneg hM0.le (nrm_nonneg _)) |>.2
    nlinarith
  · clear hM htol hQ hd3 hMB ha hb
    linarith
  · clear hM htol hQ hd3 hMB ha hb
    linarith
  · rw [(hQ t j).mul]
    refine (hfl _ ?_).1
    refine hpq.trans ?_
    have h1 := room.high
    have h2 := pos 400
    have h3 : (1 : ℝ) ≤ (2 : ℝ) ^ (400 : ℤ) := by
      have : (2 : ℝ) ^ (0 : ℤ) ≤ (2 : ℝ) ^ (400 : ℤ) := zpow_le_zpow_right₀ (by norm_num) (by norm_num)
      simpa using this
    clear hM htol hQ hd3 hMB hpq
    generalize (2 : ℝ) ^ (400 : ℤ) = Y at *
    have h4 : 0 ≤ (c.deg : ℝ) ^ 2 * Y := by positivity
    have h5 : Y ≤ Y * Y := le_mul_of_one_le_left h2.le h3
    linarith

/-- Concrete case of C142: the matrix with the diagonal `(1, 3)` and the square in binary64, two steps of the recurrence and any number of passes.  Every sample is near
`10`, the trace of the squared matrix. -/
theorem slq_example (hfl : binary64.Nearest fl) (K : SlqKernels 2) (hL : ∀ t j, LKernelsRounded fl !![1, 0; 0, 3] (K.lan t j))
    (hQ : ∀ t j, QKernelsRounded fl (K.quad t j) 2 (1 / 2 ^ 40) (1 / 2 ^ 40) ((2 : ℝ) ^ (-400 : ℤ)) ((2 : ℝ) ^ (400 : ℤ)))
    (hsum : ∀ t (x : List ℝ), x ≠ [] → SumOrder fl x (K.colsum t x)) (otol : ℝ) (rng : Rng) (hu : ∀ p, 0 ≤ rng.unif p ∧ rng.unif p < 1) (k : ℕ) (hk : 0 < k)
    (hk2 : k ≤ 2 ^ 20) :
    ∃ (x : ℝ) (G' : MFFl 2), slqFl fl K ⟨fun x => x ^ 2, 2, 1 / 2 ^ 40, otol, 0⟩ rng (MFFl.init 2 2) 32 (.name "rademacher") k false (k + 1) =
      some (.ok (G', .val fun _ => x)) ∧ |x - 10| ≤ 1 / 10 ^ 6 := by
  have two : ∀ {a b : ℤ}, a ≤ b → (2 : ℝ) ^ a ≤ (2 : ℝ) ^ b := fun h => zpow_le_zpow_right₀ (by norm_num) h
  have low : (2 : ℝ) ^ (-400 : ℤ) ≤ 1 / 2 ^ 40 := by
    have h1 := two (show (-400 : ℤ) ≤ -40 by norm_num)
    have e : (2 : ℝ) ^ (-40 : ℤ) = 1 / 2 ^ 40 := by norm_num
    rwa [e] at h1
  have high : (1024 : ℝ) ≤ (2 : ℝ) ^ (400 : ℤ) := by
    have h1 := two (show (10 : ℤ) ≤ 400 by norm_num)
    have e : (2 : ℝ) ^ (10 : ℤ) = 1024 := by norm_num
    rwa [e] at h1
  set c : MFCfg := ⟨fun x => x ^ 2, 2, 1 / 2 ^ 40, otol, 0⟩ with hc
  have s2 : Real.sqrt (2 : ℕ) ^ 2 = 2 := by
    rw [Real.sq_sqrt (by norm_num)]
    norm_num
  have s0 := Real.sqrt_nonneg ((2 : ℕ) : ℝ)
  have s1 : 1 ≤ Real.sqrt (2 : ℕ) := by
    rw [Real.le_sqrt (by norm_num) (by norm_num)]
    norm_num
  have s3 : Real.sqrt (2 : ℕ) ≤ 2 := Real.sqrt_le_iff.2 ⟨by norm_num, by norm_num⟩
  obtain ⟨h, hmem⟩ := C142_binary64 (c := c) (A := !![1, 0; 0, 3]) (M := 4) (S := 32) (lo := 1) (hi := 3) (a := 1 / 2) (b := 4) hfl (by norm_num) (by norm_num)
    (by ext i j; fin_cases i <;> fin_cases j <;> rfl) (by simp only [Fin.sum_univ_two]; norm_num) (low.trans (by norm_num)) low hL hQ le_rfl (by norm_num [hc]) (by norm_num [hc])
    (le_trans (by norm_num [hc]) high) le_rfl (by norm_num [hc]) (by norm_num [hc]) (by norm_num) (by norm_num [hc]) (by norm_num [hc]) (by norm_num) (by norm_num [hc])
    (by norm_num [hc])
  have hU : Eigen (!![1, 0; 0, 3] : Matrix (Fin 2) (Fin 2) ℝ) ![1, 3] 1 := by
    constructor
    · simp
    · intro j
      ext i
      fin_cases i <;> fin_cases j <;> simp [Matrix.mulVec, dotProduct, Fin.sum_univ_two]
  have hnrm : ∀ v : Vec 2, (∀ i, v i = 1 ∨ v i = -1) → nrm v = Real.sqrt (2 : ℕ) := by
    intro v hv
    unfold nrm
    congr 1
    rw [dotProduct, ← sign_norm hv]
    exact Finset.sum_congr rfl fun i _ => (sq _).symm
  have hsteps : Steps K c 32 2 fun v => ∀ i, v i = 1 ∨ v i = -1 := by
    refine steps_two h _ 1 (by norm_num [hc]) fun v hv => ?_
    rw [hnrm v hv]
    refine ⟨le_trans (by norm_num [hc]) s1, s3.trans (le_trans (by norm_num) high), fun x => ?_⟩
    rw [one_mul]
    unfold nrm
    refine Real.sqrt_le_sqrt ?_
    have e0 : v 0 * v 0 = 1 := by rcases hv 0 with e | e <;> rw [e] <;> norm_num
    have e1 : v 1 * v 1 = 1 := by rcases hv 1 with e | e <;> rw [e] <;> norm_num
    have e : (!![1, 0; 0, 3] *ᵥ v - x • v) ⬝ᵥ (!![1, 0; 0, 3] *ᵥ v - x • v) = (1 - x) ^ 2 * (v 0 * v 0) + (3 - x) ^ 2 * (v 1 * v 1) := by
      simp [dotProduct, Fin.sum_univ_two]
      ring
    rw [e, e0, e1]
    push_cast
    nlinarith [sq_nonneg (x - 2)]
  have hEq : flQuadErr 2 (8 * ((2 : ℕ) + 1) * (1 / 2 ^ 53)) 32 (1 / 2 ^ 40) (1 / 2 ^ 40) (1 / 2 ^ 40) (1 / 2) 4 16 0 ≤ 1 / 10 ^ 7 := by
    norm_num [flQuadErr]
  have hE0 : 0 ≤ flQuadErr 2 (8 * ((2 : ℕ) + 1) * (1 / 2 ^ 53)) 32 (1 / 2 ^ 40) (1 / 2 ^ 40) (1 / 2 ^ 40) (1 / 2) 4 16 0 := by
    norm_num [flQuadErr]
  set E := flQuadErr 2 (8 * ((2 : ℕ) + 1) * (1 / 2 ^ 53)) 32 (1 / 2 ^ 40) (1 / 2 ^ 40) (1 / 2 ^ 40) (1 / 2) 4 16 0 with hE
  have low1 : (2 : ℝ) ^ (-400 : ℤ) ≤ 1 := low.trans (by norm_num)
  obtain ⟨x, G', pdf, hp, h1, -, -, h2⟩ := C142_slq_rounding h ![1, 3] 1 hU (fun i => by fin_cases i <;> norm_num) 2 le_rfl hsteps (by norm_num) (le_trans (by norm_num [hc]) s1)
    (s3.trans (le_trans (by norm_num) high)) (X ^ 2) 16 0
    ⟨low1.trans (by norm_num), le_trans (by norm_num) high, low1.trans (by norm_num), le_trans (by norm_num) high, low1.trans s1, le_trans (by linarith) high,
      low1.trans (by rw [s2]; norm_num), le_trans (by rw [s2]; norm_num) high, low1.trans (by linarith), le_trans (by linarith) high, low1.trans (by rw [s2]; norm_num),
      le_trans (by rw [s2]; norm_num) high⟩
    (by rw [natDegree_X_pow]) (fun x h1 h2 => by
      show |x ^ 2| ≤ 16
      rw [abs_of_nonneg (sq_nonneg x)]
      nlinarith) (fun x _ _ => by simp [hc]) hfl hsum hmem (MFFl.init 2 2) (slqState_init c 2 h.eps0 (by norm_num) (Or.inl rfl)) rng hu 32 k false 1 rfl (by omega) hk E
    rfl (binary64_fits _ (by omega) _ (le_trans (two (by norm_num : (-1022 : ℤ) ≤ 0)) (by push_cast; rw [zpow_zero]; linarith))
      (le_trans (by push_cast; linarith) (high.trans (two (by norm_num)))))
  rw [Nat.mul_one] at h1 h2
  refine ⟨x, G', h1, ?_⟩
  have hsg := rademacher_pdf_signs rng hu pdf hp
  have hq : ∀ v : Vec 2, (∀ i, v i = 1 ∨ v i = -1) → quadForm (matFun ![1, 3] 1 c.f) v = 10 := by
    intro v hv
    have e0 : v 0 * v 0 = 1 := by rcases hv 0 with e | e <;> rw [e] <;> norm_num
    have e1 : v 1 * v 1 = 1 := by rcases hv 1 with e | e <;> rw [e] <;> norm_num
    have e : quadForm (matFun ![1, 3] 1 c.f) v = 1 * (v 0 * v 0) + 9 * (v 1 * v 1) := by
      simp [quadForm, matFun, dotProduct, Matrix.mulVec, Fin.sum_univ_two, hc]
      ring
    rw [e, e0, e1]
    norm_num
  have hmean : Spec.mean ((Spec.drawn pdf 1 k).map (quadForm (matFun ![1, 3] 1 c.f))) = 10 := by
    have e : (Spec.drawn pdf 1 k).map (quadForm (matFun ![1, 3] 1 c.f)) = List.replicate k 10 := by
      rw [List.eq_replicate_iff, List.length_map, drawn_length, mul_one]
      refine ⟨rfl, fun b hb => ?_⟩
      obtain ⟨v, hv, rfl⟩ := List.mem_map.1 hb
      unfold Spec.drawn at hv
      obtain ⟨t, -, ht⟩ := List.mem_flatMap.1 hv
      obtain ⟨j, rfl⟩ := List.mem_ofFn.1 ht
      exact hq _ (hsg _ _ _)
    rw [e, Spec.mean, List.sum_replicate, List.length_replicate, nsmul_eq_mul, mul_div_cancel_left₀]
    exact_mod_cast hk.ne'
  rw [hmean] at h2
  refine h2.trans ?_
  have kr : (k : ℝ) ≤ 2 ^ 20 := by exact_mod_cast hk2
  have hu' : binary64.u = 1 / 2 ^ 53 := by norm_num [Fmt.u, binary64]
  rw [hu']
  push_cast
  have h3 : (k : ℝ) * (2 * (16 + E)) ≤ 2 ^ 20 * 33 := mul_le_mul kr (by linarith) (by linarith) (by norm_num)
  linarith

/-- There are such operations. -/
example (otol : ℝ) (rng : Rng) (hu : ∀ p, 0 ≤ rng.unif p ∧ rng.unif p < 1) : ∃ (fl : ℝ → ℝ) (K : SlqKernels 2) (x : ℝ) (G' : MFFl 2),
    slqFl fl K ⟨fun x => x ^ 2, 2, 1 / 2 ^ 40, otol, 0⟩ rng (MFFl.init 2 2) 32 (.name "rademacher") 1000 false 1001 = some (.ok (G', .val fun _ => x)) ∧ |x - 10| ≤ 1 / 10 ^ 6 := by
  obtain ⟨fl, hfl⟩ := Fmt.exists_nearest (φ := binary64) (by norm_num [binary64])
  obtain ⟨L, hL⟩ := rounded_exist fl (!![1, 0; 0, 3] : Matrix (Fin 2) (Fin 2) ℝ) (by norm_num)
  obtain ⟨E, hE⟩ := qRounded_exist (n := 2) (m := 2) fl (by norm_num) (by norm_num) (show (0 : ℝ) ≤ 1 / 2 ^ 40 by norm_num) (1 / 2 ^ 40) ((2 : ℝ) ^ (-400 : ℤ)) ((2 : ℝ) ^ (400 : ℤ))
  have h2 : ∀ l : List ℝ, ∃ s, l ≠ [] → SumOrder fl l s := by
    intro l
    by_cases h : l = []
    · exact ⟨0, fun h' => absurd h h'⟩
    · obtain ⟨s, hs⟩ := SumOrder.exists fl l h
      exact ⟨s, fun _ => hs⟩
  choose T hT using h2
  obtain ⟨x, G', h⟩ := slq_example hfl ⟨fun _ _ => L, fun _ _ => E, fun _ => T, fun _ _ => 0⟩ (fun _ _ => hL) (fun _ _ => hE) (fun _ => hT) otol rng hu 1000 (by norm_num)
    (by norm_num)
  exact ⟨fl, _, x, G', h⟩

end Primate
