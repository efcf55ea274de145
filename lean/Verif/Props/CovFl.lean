import Verif.Props.StatsFl

/-! # C107: the streaming covariance in floating point arithmetic -/

namespace Primate

open Spec

variable {d : ℕ} {φ : Fmt} {fl : ℝ → ℝ}

/-- As `Fmt.Fits`, also for squares of the data. -/
structure Spec.Fmt.FitsSq (φ : Fmt) (N : ℕ) (M : ℝ) : Prop extends φ.Fits N M where
  topSq : 16 * N * M ^ 2 ≤ φ.top
  topN : (N : ℝ) ≤ φ.top
  etaSq : φ.eta ≤ φ.u * M ^ 2

namespace StatsFl

/-- Rounding error of a number at most `K M ^ 2`. -/
theorem err_sq (hn : φ.Nearest fl) {N : ℕ} {M : ℝ} (h : φ.FitsSq N M) {x K : ℝ} (hx : |x| ≤ K * M ^ 2) (hK : K ≤ 16 * N) :
    |x| ≤ φ.top ∧ |fl x - x| ≤ (K + 1) * (φ.u * M ^ 2) := by
  have hu := φ.u_pos
  have hM : 0 ≤ M ^ 2 := sq_nonneg M
  have hr : |x| ≤ φ.top := by
    refine hx.trans (le_trans ?_ h.topSq)
    exact mul_le_mul_of_nonneg_right hK hM
  refine ⟨hr, ?_⟩
  have := hn.err h.exp hr
  have h2 := h.etaSq
  nlinarith

theorem err_add_sq (hn : φ.Nearest fl) {N : ℕ} {M : ℝ} (h : φ.FitsSq N M) {a b K : ℝ} (ha : φ.Mem a) (hb : φ.Mem b) (hx : |a + b| ≤ K * M ^ 2)
    (hK : K ≤ 16 * N) : |a + b| ≤ φ.top ∧ |fl (a + b) - (a + b)| ≤ K * (φ.u * M ^ 2) := by
  have hu := φ.u_pos
  obtain ⟨hr, -⟩ := err_sq hn h hx hK
  refine ⟨hr, ?_⟩
  have := hn.err_add h.exp ha hb hr
  nlinarith

/-- Sum of a list of errors. -/
theorem abs_sum_sub_le {ι : Type} (l : List ι) (f g : ι → ℝ) (e : ℝ) (h : ∀ x ∈ l, |f x - g x| ≤ e) :
    |(l.map f).sum - (l.map g).sum| ≤ l.length * e := by
  induction l with
  | nil => simp
  | cons a l ih =>
    simp only [List.map_cons, List.sum_cons, List.length_cons, Nat.cast_add, Nat.cast_one]
    have h1 := h a (by simp)
    have h2 := ih fun x hx => h x (by simp [hx])
    rw [show f a + (l.map f).sum - (g a + (l.map g).sum) = (f a - g a) + ((l.map f).sum - (l.map g).sum) by ring]
    exact (abs_add_le _ _).trans (by linarith)

theorem sum_le_of_bound {ι : Type} (l : List ι) (f : ι → ℝ) (e : ℝ) (h : ∀ x ∈ l, f x ≤ e) : (l.map f).sum ≤ l.length * e := by
  have := List.sum_le_card_nsmul (l.map f) e (by
    intro y hy
    obtain ⟨x, hx, rfl⟩ := List.mem_map.1 hy
    exact h x hx)
  simpa using this

/-- Centred entries. -/
theorem centered_err (hn : φ.Nearest fl) {N b : ℕ} {M : ℝ} (h : φ.Fits N M) (hb : 0 < b) (hbN : b ≤ N) {x bm β : ℝ} (hx : φ.Mem x) (hxM : |x| ≤ M)
    (hbm : φ.Mem bm) (hbmM : |bm| ≤ 17 / 16 * M) (hβ : |bm - β| ≤ (2 * b + 1) * (φ.u * M)) :
    φ.Mem (fl (x - bm)) ∧ |fl (x - bm) - (x - β)| ≤ (2 * b + 4) * (φ.u * M) ∧ |fl (x - bm)| ≤ 21 / 10 * M := by
  have hu := φ.u_pos
  have hM := M_pos h
  have hus := u_small h (by omega)
  have hN1 : (1 : ℝ) ≤ N := by exact_mod_cast (by omega : 1 ≤ N)
  have hd : |x - bm| ≤ 33 / 16 * M := by
    have := abs_sub x bm
    linarith
  have hr : |x - bm| ≤ φ.top := by
    have := h.top
    nlinarith
  have e := hn.err_sub h.exp hx hbm hr
  have e' : |fl (x - bm) - (x - bm)| ≤ 33 / 16 * (φ.u * M) := by nlinarith
  refine ⟨(hn _ hr).1, ?_, ?_⟩
  · have h1 := abs_sub_le (fl (x - bm)) (x - bm) (x - β)
    rw [show x - bm - (x - β) = -(bm - β) by ring, abs_neg] at h1
    have : 0 < φ.u * M := by positivity
    nlinarith
  · have := abs_le_of_close e' hd
    nlinarith

/-- Error of the Gram matrix of a batch. -/
theorem gram_err (hn : φ.Nearest fl) {N : ℕ} {M : ℝ} (h : φ.FitsSq N M) (X : List (ℝ × ℝ)) (hX : X ≠ []) (hN : X.length ≤ N) {bi bj βi βj G : ℝ}
    (hF : ∀ q ∈ X, (φ.Mem q.1 ∧ |q.1| ≤ M) ∧ φ.Mem q.2 ∧ |q.2| ≤ M) (hbi : φ.Mem bi) (hbj : φ.Mem bj) (hbiM : |bi| ≤ 17 / 16 * M)
    (hbjM : |bj| ≤ 17 / 16 * M) (hβi : |bi - βi| ≤ (2 * X.length + 1) * (φ.u * M)) (hβj : |bj - βj| ≤ (2 * X.length + 1) * (φ.u * M))
    (hβiM : |βi| ≤ M)
    (hG : DotOrder fl (X.map fun q => (fl (q.1 - bi), fl (q.2 - bj))) G) :
    φ.Mem G ∧ |G - (X.map fun q => (q.1 - βi) * (q.2 - βj)).sum| ≤ 36 * X.length ^ 2 * (φ.u * M ^ 2) ∧
      ((∀ q ∈ X, 0 ≤ fl (q.1 - bi) * fl (q.2 - bj)) → 0 ≤ G) := by
  have hl : 0 < X.length := List.length_pos_iff.2 hX
  have hu := φ.u_pos
  have hM := M_pos h.toFits
  have hus := u_small h.toFits (by omega)
  have hl1 : (1 : ℝ) ≤ X.length := by exact_mod_cast hl
  have hlN : (X.length : ℝ) ≤ N := by exact_mod_cast hN
  have hlu : (X.length : ℝ) * φ.u ≤ 1 / 256 := by nlinarith [h.small]
  set L : ℝ := (X.length : ℝ) with hL
  have hent : ∀ q ∈ X, |fl (q.1 - bi) * fl (q.2 - bj) - (q.1 - βi) * (q.2 - βj)| ≤ 25 * L * (φ.u * M ^ 2) ∧
      |fl (q.1 - bi) * fl (q.2 - bj)| ≤ 441 / 100 * M ^ 2 := by
    intro q hq
    obtain ⟨⟨m1, b1⟩, m2, b2⟩ := hF q hq
    obtain ⟨-, c1, d1⟩ := centered_err hn h.toFits hl hN m1 b1 hbi hbiM hβi
    obtain ⟨-, c2, d2⟩ := centered_err hn h.toFits hl hN m2 b2 hbj hbjM hβj
    rw [← hL] at c1 c2
    constructor
    · refine (prod_err _ _ _ _).trans ?_
      have h1 : |q.1 - βi| ≤ 2 * M := by have := abs_sub q.1 βi; linarith
      have q1 : |fl (q.1 - bi) - (q.1 - βi)| * |fl (q.2 - bj)| ≤ ((2 * L + 4) * (φ.u * M)) * (21 / 10 * M) :=
        mul_le_mul c1 d2 (abs_nonneg _) (by positivity)
      have q2 : |q.1 - βi| * |fl (q.2 - bj) - (q.2 - βj)| ≤ (2 * M) * ((2 * L + 4) * (φ.u * M)) :=
        mul_le_mul h1 c2 (abs_nonneg _) (by positivity)
      have h3 : 0 < φ.u * M ^ 2 := by positivity
      have h4 : ((2 * L + 4) * (φ.u * M)) * (21 / 10 * M) + (2 * M) * ((2 * L + 4) * (φ.u * M)) = (41 / 10 * (2 * L + 4)) * (φ.u * M ^ 2) := by ring
      have h5 : (41 / 10 * (2 * L + 4)) * (φ.u * M ^ 2) ≤ (25 * L) * (φ.u * M ^ 2) := mul_le_mul_of_nonneg_right (by linarith) h3.le
      linarith
    · rw [abs_mul]
      have : |fl (q.1 - bi)| * |fl (q.2 - bj)| ≤ (21 / 10 * M) * (21 / 10 * M) := mul_le_mul d1 d2 (abs_nonneg _) (by positivity)
      linarith
  set Y := X.map fun q => (fl (q.1 - bi), fl (q.2 - bj)) with hY
  have hYl : Y.length = X.length := by simp [hY]
  have hsum : (Y.map fun q => |q.1 * q.2|).sum ≤ L * (441 / 100 * M ^ 2) := by
    rw [hY, List.map_map]
    exact sum_le_of_bound X _ _ fun q hq => (hent q hq).2
  have hsum0 : 0 ≤ (Y.map fun q => |q.1 * q.2|).sum := by
    apply List.sum_nonneg
    intro y hy
    obtain ⟨q, -, rfl⟩ := List.mem_map.1 hy
    exact abs_nonneg _
  have hp := pow_one_add_le hu.le X.length (by rw [← hL]; linarith)
  rw [← hL] at hp
  have hp1 : 1 ≤ (1 + φ.u) ^ X.length := one_le_pow₀ (by linarith)
  have heta := φ.eta_pos
  have hesq := h.etaSq
  have htop : (1 + φ.u) ^ Y.length * ((Y.map fun q => |q.1 * q.2|).sum + Y.length * φ.eta) ≤ φ.top := by
    rw [hYl, ← hL]
    have h1 : (1 + φ.u) ^ X.length * ((Y.map fun q => |q.1 * q.2|).sum + L * φ.eta) ≤ 2 * (L * (441 / 100 * M ^ 2) + L * (φ.u * M ^ 2)) := by
      apply mul_le_mul (by linarith) _ (by positivity) (by norm_num)
      have : L * φ.eta ≤ L * (φ.u * M ^ 2) := mul_le_mul_of_nonneg_left hesq (by linarith)
      linarith
    have h2 : 2 * (L * (441 / 100 * M ^ 2) + L * (φ.u * M ^ 2)) ≤ 16 * N * M ^ 2 := by
      have h3 : 0 < L * M ^ 2 := by positivity
      have h4 : L * (φ.u * M ^ 2) ≤ L * M ^ 2 * (1 / 256) := by nlinarith
      have h5 : L * M ^ 2 ≤ N * M ^ 2 := mul_le_mul_of_nonneg_right hlN (sq_nonneg M)
      nlinarith
    linarith [h.topSq]
  obtain ⟨hm, he⟩ := hG.err hn h.exp htop
  refine ⟨hm, ?_, ?_⟩
  · have e1 : (Y.map fun q => q.1 * q.2).sum = (X.map fun q => fl (q.1 - bi) * fl (q.2 - bj)).sum := by rw [hY, List.map_map]; rfl
    rw [e1, hYl, ← hL] at he
    have e2 := abs_sum_sub_le X (fun q => fl (q.1 - bi) * fl (q.2 - bj)) (fun q => (q.1 - βi) * (q.2 - βj)) _ fun q hq => (hent q hq).1
    rw [← hL] at e2
    have e3 := abs_sub_le G (X.map fun q => fl (q.1 - bi) * fl (q.2 - bj)).sum (X.map fun q => (q.1 - βi) * (q.2 - βj)).sum
    have h3 : 0 < φ.u * M ^ 2 := by positivity
    have e4 : ((1 + φ.u) ^ X.length - 1) * (Y.map fun q => |q.1 * q.2|).sum ≤ (2 * (L * φ.u)) * (L * (441 / 100 * M ^ 2)) :=
      mul_le_mul (by linarith) hsum hsum0 (by positivity)
    have e5 : (1 + φ.u) ^ X.length * (L * φ.eta) ≤ 2 * (L * (φ.u * M ^ 2)) := by
      apply mul_le_mul (by linarith) _ (by positivity) (by norm_num)
      exact mul_le_mul_of_nonneg_left hesq (by linarith)
    have hLL : L ≤ L ^ 2 := by nlinarith
    have e6 : (2 * (L * φ.u)) * (L * (441 / 100 * M ^ 2)) + 2 * (L * (φ.u * M ^ 2)) + L * (25 * L * (φ.u * M ^ 2)) =
        (882 / 100 * L ^ 2 + 2 * L + 25 * L ^ 2) * (φ.u * M ^ 2) := by ring
    have e7 : (882 / 100 * L ^ 2 + 2 * L + 25 * L ^ 2) * (φ.u * M ^ 2) ≤ (36 * L ^ 2) * (φ.u * M ^ 2) :=
      mul_le_mul_of_nonneg_right (by linarith) h3.le
    linarith
  · intro h0
    refine hG.nonneg hn h.exp ?_ htop
    intro q hq
    obtain ⟨q', hq', rfl⟩ := List.mem_map.1 hq
    exact h0 q' hq'

/-- Error of a difference of means. -/
theorem diff_err (hn : φ.Nearest fl) {N n b : ℕ} {M : ℝ} (h : φ.FitsSq N M) (hN0 : 0 < N) {bi βi mi μi : ℝ} (m1 : φ.Mem bi) (c1 : |bi| ≤ 17 / 16 * M)
    (e1 : |bi - βi| ≤ (2 * b + 1) * (φ.u * M)) (m2 : φ.Mem mi) (c2 : |mi| ≤ 17 / 16 * M) (e2 : |mi - μi| ≤ 16 * n * (φ.u * M)) :
    |fl (bi - mi) - (βi - μi)| ≤ (16 * n + 2 * b + 4) * (φ.u * M) ∧ |fl (bi - mi)| ≤ 214 / 100 * M := by
  have hu := φ.u_pos
  have hM := M_pos h.toFits
  have hus := u_small h.toFits hN0
  have hN1 : (1 : ℝ) ≤ N := by exact_mod_cast hN0
  have hU : 0 < φ.u * M := by positivity
  have hUM : φ.u * M ≤ 1 / 256 * M := mul_le_mul_of_nonneg_right hus hM.le
  have hd : |bi - mi| ≤ 17 / 8 * M := by have := abs_sub bi mi; linarith
  have hr : |bi - mi| ≤ φ.top := by
    have := h.top
    nlinarith
  have e := hn.err_sub h.exp m1 m2 hr
  have e' : |fl (bi - mi) - (bi - mi)| ≤ 17 / 8 * (φ.u * M) := by
    have := mul_le_mul_of_nonneg_left hd hu.le
    linarith
  constructor
  · have h1 := abs_sub_le (fl (bi - mi)) (bi - mi) (βi - μi)
    rw [show bi - mi - (βi - μi) = (bi - βi) - (mi - μi) by ring] at h1
    have h2 := abs_sub (bi - βi) (mi - μi)
    linarith
  · have := abs_le_of_close e' hd
    linarith

/-- Error of the product of two differences. -/
theorem outer_err (hn : φ.Nearest fl) {N n b : ℕ} {M : ℝ} (h : φ.FitsSq N M) (hN0 : 0 < N) {δi δj Δi Δj : ℝ}
    (di1 : |δi - Δi| ≤ (16 * n + 2 * b + 4) * (φ.u * M)) (di2 : |δi| ≤ 214 / 100 * M)
    (dj1 : |δj - Δj| ≤ (16 * n + 2 * b + 4) * (φ.u * M)) (dj2 : |δj| ≤ 214 / 100 * M) (hΔi : |Δi| ≤ 2 * M) :
    |δi * δj| ≤ φ.top ∧ |fl (δi * δj) - Δi * Δj| ≤ (67 * n + 9 * b + 23) * (φ.u * M ^ 2) ∧ |fl (δi * δj)| ≤ 461 / 100 * M ^ 2 := by
  have hu := φ.u_pos
  have hM := M_pos h.toFits
  have hus := u_small h.toFits hN0
  have hN1 : (1 : ℝ) ≤ N := by exact_mod_cast hN0
  have hV : 0 < φ.u * M ^ 2 := by positivity
  have hVM : φ.u * M ^ 2 ≤ 1 / 256 * M ^ 2 := mul_le_mul_of_nonneg_right hus (sq_nonneg M)
  have p1 : |δi * δj - Δi * Δj| ≤ (414 / 100 * (16 * n + 2 * b + 4)) * (φ.u * M ^ 2) := by
    refine (prod_err _ _ _ _).trans ?_
    have q1 : |δi - Δi| * |δj| ≤ ((16 * n + 2 * b + 4) * (φ.u * M)) * (214 / 100 * M) := mul_le_mul di1 dj2 (abs_nonneg _) (by positivity)
    have q2 : |Δi| * |δj - Δj| ≤ (2 * M) * ((16 * n + 2 * b + 4) * (φ.u * M)) := mul_le_mul hΔi dj1 (abs_nonneg _) (by positivity)
    linarith
  have p2 : |δi * δj| ≤ 458 / 100 * M ^ 2 := by
    rw [abs_mul]
    have : |δi| * |δj| ≤ (214 / 100 * M) * (214 / 100 * M) := mul_le_mul di2 dj2 (abs_nonneg _) (by positivity)
    have : 0 < M ^ 2 := by positivity
    linarith
  obtain ⟨pr, p3⟩ := err_sq hn h p2 (by linarith)
  refine ⟨pr, ?_, ?_⟩
  · have e := abs_sub_le (fl (δi * δj)) (δi * δj) (Δi * Δj)
    have hn0 : 0 ≤ (n : ℝ) * (φ.u * M ^ 2) := by positivity
    have hb0 : 0 ≤ (b : ℝ) * (φ.u * M ^ 2) := by positivity
    linarith
  · have e := abs_le_of_close p3 p2
    have : 0 < M ^ 2 := by positivity
    linarith

/-- Error of the shift term.  `n` observations before, `b` new ones. -/
theorem shift_err (hn : φ.Nearest fl) {N n b : ℕ} {M : ℝ} (h : φ.FitsSq N M) (hb : 0 < b) (hN : n + b ≤ N) {bi bj βi βj mi mj μi μj : ℝ}
    (hbi : φ.Mem bi) (hbj : φ.Mem bj) (hbiM : |bi| ≤ 17 / 16 * M) (hbjM : |bj| ≤ 17 / 16 * M)
    (hβi : |bi - βi| ≤ (2 * b + 1) * (φ.u * M)) (hβj : |bj - βj| ≤ (2 * b + 1) * (φ.u * M)) (hβiM : |βi| ≤ M)
    (hmi : φ.Mem mi) (hmj : φ.Mem mj) (hmiM : |mi| ≤ 17 / 16 * M) (hmjM : |mj| ≤ 17 / 16 * M)
    (hμi : |mi - μi| ≤ 16 * n * (φ.u * M)) (hμj : |mj - μj| ≤ 16 * n * (φ.u * M)) (hμiM : |μi| ≤ M) :
    φ.Mem (fl (fl (((n * b : ℕ) : ℝ) / ((n + b : ℕ) : ℝ)) * fl (fl (bi - mi) * fl (bj - mj)))) ∧
      |fl (fl (((n * b : ℕ) : ℝ) / ((n + b : ℕ) : ℝ)) * fl (fl (bi - mi) * fl (bj - mj))) -
        ((n * b : ℕ) : ℝ) / ((n + b : ℕ) : ℝ) * ((βi - μi) * (βj - μj))| ≤ 96 * n * b * (φ.u * M ^ 2) ∧
      |fl (fl (((n * b : ℕ) : ℝ) / ((n + b : ℕ) : ℝ)) * fl (fl (bi - mi) * fl (bj - mj)))| ≤ 475 / 100 * b * M ^ 2 ∧
      (0 ≤ fl (bi - mi) * fl (bj - mj) →
        0 ≤ fl (fl (((n * b : ℕ) : ℝ) / ((n + b : ℕ) : ℝ)) * fl (fl (bi - mi) * fl (bj - mj)))) := by
  have hu := φ.u_pos
  have hM := M_pos h.toFits
  have hN0 : 0 < N := by omega
  have hus := u_small h.toFits hN0
  have hN1 : (1 : ℝ) ≤ N := by exact_mod_cast hN0
  rcases Nat.eq_zero_or_pos n with hz | hz
  · subst hz
    have hm0 := Fmt.mem_zero h.exp
    have hz : fl (fl (((0 * b : ℕ) : ℝ) / ((0 + b : ℕ) : ℝ)) * fl (fl (bi - mi) * fl (bj - mj))) = 0 := by simp [hn.zero h.exp]
    rw [hz]
    exact ⟨hm0, by simp, by simp; positivity, fun _ => le_rfl⟩
  have hn1 : (1 : ℝ) ≤ n := by exact_mod_cast hz
  have hb1 : (1 : ℝ) ≤ b := by exact_mod_cast hb
  have hNr : (n : ℝ) + b ≤ N := by exact_mod_cast hN
  have hMsq : 0 < M ^ 2 := by positivity
  have hV : 0 < φ.u * M ^ 2 := by positivity
  have hVM : φ.u * M ^ 2 ≤ 1 / 256 * M ^ 2 := mul_le_mul_of_nonneg_right hus (sq_nonneg M)
  obtain ⟨di1, di2⟩ := diff_err hn h hN0 hbi hbiM hβi hmi hmiM hμi
  obtain ⟨dj1, dj2⟩ := diff_err hn h hN0 hbj hbjM hβj hmj hmjM hμj
  have hΔi : |βi - μi| ≤ 2 * M := by have := abs_sub βi μi; linarith
  obtain ⟨pr, p4, p5⟩ := outer_err hn h hN0 di1 di2 dj1 dj2 hΔi
  generalize fl (bi - mi) = δi at *
  generalize fl (bj - mj) = δj at *
  generalize βi - μi = Δi at *
  generalize βj - μj = Δj at *
  clear di1 di2 dj1 dj2 hβi hβj hμi hμj hbiM hbjM hmiM hmjM hμiM hβiM
  -- factor
  have hnb : (0 : ℝ) < ((n + b : ℕ) : ℝ) := by exact_mod_cast (by omega : 0 < n + b)
  have hnbp : (0 : ℝ) < (n : ℝ) * b := by positivity
  obtain ⟨k, hk⟩ : ∃ k, k = ((n * b : ℕ) : ℝ) / ((n + b : ℕ) : ℝ) := ⟨_, rfl⟩
  rw [← hk]
  have hk0 : 0 < k := by
    have : (0 : ℝ) < ((n * b : ℕ) : ℝ) := by exact_mod_cast Nat.mul_pos hz hb
    rw [hk]
    positivity
  have hkb : k ≤ b := by
    rw [hk, div_le_iff₀ hnb]
    push_cast
    nlinarith
  have hkn : k ≤ n := by
    rw [hk, div_le_iff₀ hnb]
    push_cast
    nlinarith
  have hknb : 2 * k ≤ n * b := by
    have : k ≤ n * b / 2 := by
      rw [hk, div_le_iff₀ hnb]
      push_cast
      nlinarith
    linarith
  have hetak : φ.eta ≤ φ.u * k := by
    have h3 : 1 / ((n + b : ℕ) : ℝ) ≤ k := by
      rw [hk]
      have : (1 : ℝ) ≤ ((n * b : ℕ) : ℝ) := by exact_mod_cast Nat.mul_pos hz hb
      gcongr
    have h4 : φ.eta ≤ φ.u / N := by rw [le_div_iff₀ (by linarith)]; linarith [h.etaN]
    have h5 : φ.u / N ≤ φ.u * (1 / ((n + b : ℕ) : ℝ)) := by
      rw [mul_one_div]
      exact div_le_div_of_nonneg_left hu.le hnb (by push_cast; exact hNr)
    have h6 := mul_le_mul_of_nonneg_left h3 hu.le
    linarith
  have hkr : |k| ≤ φ.top := by rw [abs_of_pos hk0]; linarith [h.topN]
  have k1 : |fl k - k| ≤ 2 * φ.u * k := by
    have := hn.err h.exp hkr
    rw [abs_of_pos hk0] at this
    linarith
  have k2 : |fl k| ≤ 1008 / 1000 * k := by
    have e1 := abs_le_of_close (m := k) k1 (by rw [abs_of_pos hk0])
    have e2 := mul_le_mul_of_nonneg_right hus hk0.le
    linarith
  have t1 : |fl k * fl (δi * δj) - k * (Δi * Δj)| ≤ k * (67 * n + 9 * b + 33) * (φ.u * M ^ 2) := by
    refine (prod_err _ _ _ _).trans ?_
    have q1 : |fl k - k| * |fl (δi * δj)| ≤ (2 * φ.u * k) * (461 / 100 * M ^ 2) := mul_le_mul k1 p5 (abs_nonneg _) (by positivity)
    have q2 : |k| * |fl (δi * δj) - Δi * Δj| ≤ k * ((67 * n + 9 * b + 23) * (φ.u * M ^ 2)) := by
      rw [abs_of_pos hk0]
      exact mul_le_mul_of_nonneg_left p4 hk0.le
    have : 0 < k * (φ.u * M ^ 2) := by positivity
    linarith
  have t2 : |fl k * fl (δi * δj)| ≤ (465 / 100 * k) * M ^ 2 := by
    rw [abs_mul]
    have q : |fl k| * |fl (δi * δj)| ≤ (1008 / 1000 * k) * (461 / 100 * M ^ 2) := mul_le_mul k2 p5 (abs_nonneg _) (by positivity)
    have : 0 < k * M ^ 2 := by positivity
    linarith
  obtain ⟨tr, t3⟩ := err_sq hn h t2 (by linarith)
  refine ⟨(hn _ tr).1, ?_, ?_, ?_⟩
  · have e1 := abs_sub_le (fl (fl k * fl (δi * δj))) (fl k * fl (δi * δj)) (k * (Δi * Δj))
    have e2 : k * (67 * n + 9 * b + 33) + (465 / 100 * k + 1) ≤ 96 * n * b := by
      have a1 : k * (67 * n) ≤ b * (67 * n) := mul_le_mul_of_nonneg_right hkb (by linarith)
      have a2 : k * (9 * b) ≤ n * (9 * b) := mul_le_mul_of_nonneg_right hkn (by linarith)
      have a3 : 1 ≤ (n : ℝ) * b := by nlinarith
      linarith
    have e3 : (k * (67 * n + 9 * b + 33) + (465 / 100 * k + 1)) * (φ.u * M ^ 2) ≤ (96 * n * b) * (φ.u * M ^ 2) :=
      mul_le_mul_of_nonneg_right e2 hV.le
    linarith
  · have e1 := abs_le_of_close t3 t2
    have e2 : (465 / 100 * k + 1) * (φ.u * M ^ 2) ≤ (465 / 100 * k + 1) * (1 / 256 * M ^ 2) := mul_le_mul_of_nonneg_left hVM (by positivity)
    have e3 : (465 / 100 * k + (465 / 100 * k + 1) * (1 / 256)) * M ^ 2 ≤ (475 / 100 * b) * M ^ 2 :=
      mul_le_mul_of_nonneg_right (by linarith) hMsq.le
    linarith
  · intro h0
    have s0 : 0 ≤ fl (δi * δj) := hn.nonneg h.exp ((le_abs_self _).trans pr) h0
    have s1 : 0 ≤ fl k := hn.nonneg h.exp ((le_abs_self _).trans hkr) hk0.le
    exact hn.nonneg h.exp ((le_abs_self _).trans tr) (mul_nonneg s1 s0)

/-- Sum of products of deviations. -/
noncomputable def devSum (xs : List (Fin d → ℝ)) (i j : Fin d) : ℝ :=
  (xs.map fun x => (x i - sampleMean xs i) * (x j - sampleMean xs j)).sum

theorem sampleMean_le {M : ℝ} (xs : List (Fin d → ℝ)) (h : ∀ x ∈ xs, ∀ i, |x i| ≤ M) (hx : xs ≠ []) (i : Fin d) : |sampleMean xs i| ≤ M := by
  have hl : (0 : ℝ) < xs.length := by exact_mod_cast List.length_pos_iff.2 hx
  unfold sampleMean
  rw [abs_div, abs_of_pos hl, div_le_iff₀ hl]
  linarith [abs_sum_le_of_bound xs i h]

theorem devSum_le {M : ℝ} (xs : List (Fin d → ℝ)) (h : ∀ x ∈ xs, ∀ i, |x i| ≤ M) (i j : Fin d) : |devSum xs i j| ≤ 4 * xs.length * M ^ 2 := by
  rcases eq_or_ne xs [] with rfl | hx
  · simp [devSum]
  unfold devSum
  refine (abs_sum_le _).trans ?_
  rw [List.map_map]
  have := sum_le_of_bound xs (abs ∘ fun x => (x i - sampleMean xs i) * (x j - sampleMean xs j)) (4 * M ^ 2) (by
    intro x hx'
    have a1 := abs_sub (x i) (sampleMean xs i)
    have a2 := abs_sub (x j) (sampleMean xs j)
    have a3 := h x hx' i
    have a4 := h x hx' j
    have a5 := sampleMean_le xs h hx i
    have a6 := sampleMean_le xs h hx j
    simp only [Function.comp, abs_mul]
    have : |x i - sampleMean xs i| * |x j - sampleMean xs j| ≤ (2 * M) * (2 * M) :=
      mul_le_mul (by linarith) (by linarith) (abs_nonneg _) (by linarith [abs_nonneg (x i)])
    linarith)
  linarith

theorem devSum_append (xs X : List (Fin d → ℝ)) (hX : X ≠ []) (i j : Fin d) :
    devSum (xs ++ X) i j = devSum xs i j + ((X.map fun x => (x i - sampleMean X i) * (x j - sampleMean X j)).sum +
      ((xs.length * X.length : ℕ) : ℝ) / ((xs.length + X.length : ℕ) : ℝ) *
        ((sampleMean X i - sampleMean xs i) * (sampleMean X j - sampleMean xs j))) := by
  have hl : (0 : ℝ) < X.length := by exact_mod_cast List.length_pos_iff.2 hX
  have e : ∀ (l : List (Fin d → ℝ)) (i : Fin d), l.length * sampleMean l i = (l.map fun x => x i).sum := by
    intro l i
    rcases eq_or_ne l [] with rfl | hl
    · simp
    · have : (0 : ℝ) < l.length := by exact_mod_cast List.length_pos_iff.2 hl
      unfold sampleMean
      field_simp
  have hmean : ∀ i, sampleMean (xs ++ X) i = (xs.length * sampleMean xs i + X.length * sampleMean X i) / (xs.length + X.length) := by
    intro i
    rw [e, e]
    unfold sampleMean
    simp
  unfold devSum
  rw [sum_map_centered, sum_map_centered, sum_map_centered, List.map_append, List.sum_append, List.map_append, List.sum_append, List.map_append,
    List.sum_append, ← e xs i, ← e xs j, ← e X i, ← e X j, hmean, hmean]
  have hnz : ((xs.length : ℝ) + X.length) ≠ 0 := by positivity
  push_cast [List.length_append]
  field_simp
  ring

/-- What is known after the observations `xs`. -/
structure CInv (φ : Fmt) (M : ℝ) (c : Covariance ℝ d) (xs : List (Fin d → ℝ)) : Prop where
  mean : FInv φ M c.n c.mu xs
  nan : c.nan = false
  mem : ∀ i j, φ.Mem (c.S i j)
  S : ∀ i j, |c.S i j - devSum xs i j| ≤ 64 * xs.length ^ 2 * (φ.u * M ^ 2)
  pos : ∀ i, 0 ≤ c.S i i

theorem CInv.init {M : ℝ} (he : φ.emin ≤ φ.emax) : CInv φ M (Covariance.init ℝ d) [] :=
  ⟨FInv.init he, rfl, fun _ _ => Fmt.mem_zero he, by simp [Covariance.init, devSum], by simp [Covariance.init]⟩

theorem CInv.step (hn : φ.Nearest fl) {N : ℕ} {M : ℝ} (h : φ.FitsSq N M) {c : Covariance ℝ d} {xs X : List (Fin d → ℝ)} {s : Fin d → ℝ}
    {G : Matrix (Fin d) (Fin d) ℝ} (inv : CInv φ M c xs) (hX : X ≠ []) (hs : ∀ i, SumOrder fl (X.map fun x => x i) (s i))
    (hF : ∀ x ∈ X, ∀ i, φ.Mem (x i) ∧ |x i| ≤ M) (hN : c.n + X.length ≤ N)
    (hG : ∀ i j, DotOrder fl ((centeredFl fl X s).map fun x => (x i, x j)) (G i j)) :
    ∃ c', c.updateRowsFl fl X s G = .ok c' ∧ CInv φ M c' (xs ++ X) ∧ ∀ i, c.S i i ≤ c'.S i i := by
  have hl : 0 < X.length := List.length_pos_iff.2 hX
  have hl1 : (1 : ℝ) ≤ X.length := by exact_mod_cast hl
  have hu := φ.u_pos
  have hM := M_pos h.toFits
  have hus := u_small h.toFits (by omega)
  have hcn := inv.mean.count
  have hcoord := fun i => inv.mean.coord hn h.toFits hs hF hN i
  have hXb : ∀ x ∈ X, ∀ i, |x i| ≤ M := fun x hx i => (hF x hx i).2
  have hbe : ∀ i, |batchMeanFl fl X s i - sampleMean X i| ≤ (2 * X.length + 1) * (φ.u * M) := by
    intro i
    have := (batch_err hn h.toFits (hs i) (by
      intro y hy
      obtain ⟨x, hx, rfl⟩ := List.mem_map.1 hy
      exact hF x hx i) (by simp; omega)).2
    rwa [List.length_map] at this
  have hSX : ∀ i, |sampleMean X i| ≤ M := sampleMean_le X hXb hX
  have hSx : ∀ i, |sampleMean xs i| ≤ M := by
    intro i
    rcases eq_or_ne xs [] with rfl | hx
    · simp [sampleMean]; exact hM.le
    · exact sampleMean_le xs inv.mean.bound hx i
  have hme : ∀ i, |c.mu i - sampleMean xs i| ≤ 16 * c.n * (φ.u * M) := by
    intro i
    rcases eq_or_ne xs [] with rfl | hx
    · have : c.n = 0 := hcn
      rw [inv.mean.mu0 this i]
      simp [sampleMean, this]
    · have := inv.mean.mean_err hx i
      rw [hcn]
      linarith
  have hgram : ∀ i j, φ.Mem (G i j) ∧ |G i j - (X.map fun x => (x i - sampleMean X i) * (x j - sampleMean X j)).sum| ≤
      36 * X.length ^ 2 * (φ.u * M ^ 2) ∧ (i = j → 0 ≤ G i j) := by
    intro i j
    have hG' := hG i j
    unfold centeredFl at hG'
    rw [List.map_map] at hG'
    have := gram_err hn h (X.map fun x => (x i, x j)) (by simpa using hX) (by simp; omega) (bi := batchMeanFl fl X s i) (bj := batchMeanFl fl X s j)
      (βi := sampleMean X i) (βj := sampleMean X j) (G := G i j)
      (by
        intro q hq
        obtain ⟨x, hx, rfl⟩ := List.mem_map.1 hq
        exact ⟨hF x hx i, hF x hx j⟩)
      (hcoord i).2.2.1 (hcoord j).2.2.1 (hcoord i).2.1 (hcoord j).2.1 (by simpa using hbe i) (by simpa using hbe j) (hSX i)
      (by rw [List.map_map]; exact hG')
    simp only [List.length_map, List.map_map] at this
    refine ⟨this.1, this.2.1, ?_⟩
    rintro rfl
    refine this.2.2 ?_
    intro q hq
    obtain ⟨x, hx, rfl⟩ := List.mem_map.1 hq
    exact mul_self_nonneg _
  have hshift := fun i j => shift_err hn h hl hN (hcoord i).2.2.1 (hcoord j).2.2.1 (hcoord i).2.1 (hcoord j).2.1 (hbe i) (hbe j) (hSX i)
    (inv.mean.mem i) (inv.mean.mem j) (hcoord i).1 (hcoord j).1 (hme i) (hme j) (hSx i)
  have hn0 : (0 : ℝ) ≤ c.n := Nat.cast_nonneg _
  have hNr : (c.n : ℝ) + X.length ≤ N := by exact_mod_cast hN
  have hV : 0 < φ.u * M ^ 2 := by positivity
  have hMsq : 0 < M ^ 2 := by positivity
  have hNV : N * (φ.u * M ^ 2) ≤ 1 / 256 * M ^ 2 := by nlinarith [h.small]
  have hlV : X.length * (φ.u * M ^ 2) ≤ 1 / 256 * M ^ 2 := le_trans (mul_le_mul_of_nonneg_right (by linarith) hV.le) hNV
  have hnV : c.n * (φ.u * M ^ 2) ≤ 1 / 256 * M ^ 2 := le_trans (mul_le_mul_of_nonneg_right (by linarith) hV.le) hNV
  have hinner : ∀ i j, |G i j + fl (fl (((c.n * X.length : ℕ) : ℝ) / ((c.n + X.length : ℕ) : ℝ)) *
      fl (fl (batchMeanFl fl X s i - c.mu i) * fl (batchMeanFl fl X s j - c.mu j)))| ≤ (895 / 100 * X.length) * M ^ 2 := by
    intro i j
    have a1 : |(X.map fun x => (x i - sampleMean X i) * (x j - sampleMean X j)).sum| ≤ 4 * X.length * M ^ 2 := devSum_le X hXb i j
    have a2 := abs_le_of_close (hgram i j).2.1 a1
    have a3 := (hshift i j).2.2.1
    refine (abs_add_le _ _).trans ?_
    have a4 : 36 * (X.length : ℝ) ^ 2 * (φ.u * M ^ 2) ≤ 36 * X.length * (1 / 256 * M ^ 2) := by
      have := mul_le_mul_of_nonneg_left hlV (by positivity : (0 : ℝ) ≤ 36 * X.length)
      linarith
    have : 0 < X.length * M ^ 2 := by positivity
    linarith
  have hin := fun i j => err_add_sq hn h (hgram i j).1 (hshift i j).1 (hinner i j) (by linarith)
  have hSb : ∀ i j, |c.S i j| ≤ (425 / 100 * c.n) * M ^ 2 := by
    intro i j
    have a1 := devSum_le xs inv.mean.bound i j
    have a2 := abs_le_of_close (inv.S i j) a1
    rw [← hcn] at a2
    have a4 : 64 * (c.n : ℝ) ^ 2 * (φ.u * M ^ 2) ≤ 64 * c.n * (1 / 256 * M ^ 2) := by
      have := mul_le_mul_of_nonneg_left hnV (by positivity : (0 : ℝ) ≤ 64 * c.n)
      linarith
    have : 0 ≤ c.n * M ^ 2 := by positivity
    linarith
  have hout : ∀ i j, |c.S i j + fl (G i j + fl (fl (((c.n * X.length : ℕ) : ℝ) / ((c.n + X.length : ℕ) : ℝ)) *
      fl (fl (batchMeanFl fl X s i - c.mu i) * fl (batchMeanFl fl X s j - c.mu j))))| ≤ (425 / 100 * c.n + 9 * X.length) * M ^ 2 := by
    intro i j
    refine (abs_add_le _ _).trans ?_
    have a1 := abs_le_of_close (hin i j).2 (hinner i j)
    have a2 : 895 / 100 * (X.length : ℝ) * (φ.u * M ^ 2) ≤ 895 / 100 * (1 / 256 * M ^ 2) := by linarith
    have a3 := hSb i j
    have : M ^ 2 ≤ X.length * M ^ 2 := by nlinarith
    linarith
  have hou := fun i j => err_add_sq hn h (inv.mem i j) (hn _ (hin i j).1).1 (hout i j) (by linarith)
  have hstep : c.updateRowsFl fl X s G = .ok ⟨c.n + X.length, fun i => meanStepFl fl c.n X.length (c.mu i) (batchMeanFl fl X s i),
      fun i j => fl (c.S i j + fl (G i j + fl (fl (((c.n * X.length : ℕ) : ℝ) / ((c.n + X.length : ℕ) : ℝ)) *
        fl (fl (batchMeanFl fl X s i - c.mu i) * fl (batchMeanFl fl X s j - c.mu j))))), c.nan⟩ := by
    unfold Covariance.updateRowsFl
    rw [if_neg (by omega), if_neg (by omega)]
  refine ⟨_, hstep, ⟨inv.mean.step hn h.toFits hX hs hF hN, inv.nan, fun i j => (hn _ (hou i j).1).1, ?_, ?_⟩, ?_⟩
  · intro i j
    rw [devSum_append xs X hX]
    have e1 := abs_sub_le (fl (c.S i j + fl (G i j + fl (fl (((c.n * X.length : ℕ) : ℝ) / ((c.n + X.length : ℕ) : ℝ)) *
      fl (fl (batchMeanFl fl X s i - c.mu i) * fl (batchMeanFl fl X s j - c.mu j))))))
      (c.S i j + fl (G i j + fl (fl (((c.n * X.length : ℕ) : ℝ) / ((c.n + X.length : ℕ) : ℝ)) *
      fl (fl (batchMeanFl fl X s i - c.mu i) * fl (batchMeanFl fl X s j - c.mu j)))))
      (devSum xs i j + ((X.map fun x => (x i - sampleMean X i) * (x j - sampleMean X j)).sum +
      ((xs.length * X.length : ℕ) : ℝ) / ((xs.length + X.length : ℕ) : ℝ) *
        ((sampleMean X i - sampleMean xs i) * (sampleMean X j - sampleMean xs j))))
    refine e1.trans ?_
    have b1 := (hou i j).2
    have b2 := (hin i j).2
    have b3 := (hgram i j).2.1
    have b4 := (hshift i j).2.1
    have b5 := inv.S i j
    rw [← hcn] at b5 ⊢
    set t := fl (fl (((c.n * X.length : ℕ) : ℝ) / ((c.n + X.length : ℕ) : ℝ)) *
      fl (fl (batchMeanFl fl X s i - c.mu i) * fl (batchMeanFl fl X s j - c.mu j))) with ht
    set t0 := ((c.n * X.length : ℕ) : ℝ) / ((c.n + X.length : ℕ) : ℝ) *
        ((sampleMean X i - sampleMean xs i) * (sampleMean X j - sampleMean xs j)) with ht0
    set g0 := (X.map fun x => (x i - sampleMean X i) * (x j - sampleMean X j)).sum with hg0
    have e2 : |c.S i j + fl (G i j + t) - (devSum xs i j + (g0 + t0))| ≤
        |c.S i j - devSum xs i j| + |fl (G i j + t) - (G i j + t)| + |G i j - g0| + |t - t0| := by
      rw [show c.S i j + fl (G i j + t) - (devSum xs i j + (g0 + t0)) =
        (c.S i j - devSum xs i j) + (fl (G i j + t) - (G i j + t)) + (G i j - g0) + (t - t0) by ring]
      exact (abs_add_le _ _).trans (add_le_add_left ((abs_add_le _ _).trans (add_le_add_left (abs_add_le _ _) _)) _)
    simp only [List.length_append]
    rw [← hcn]
    push_cast
    have e3 : (425 / 100 * c.n + 9 * X.length) + 64 * (c.n : ℝ) ^ 2 + 895 / 100 * X.length + 36 * X.length ^ 2 + 96 * c.n * X.length ≤
        64 * ((c.n : ℝ) + X.length) ^ 2 := by nlinarith [mul_nonneg hn0 (by linarith : (0 : ℝ) ≤ X.length - 1)]
    have e4 := mul_le_mul_of_nonneg_right e3 hV.le
    linarith
  · intro i
    have g0 := (hgram i i).2.2 rfl
    have t0 := (hshift i i).2.2.2 (mul_self_nonneg _)
    have i0 := hn.nonneg h.exp ((le_abs_self _).trans (hin i i).1) (add_nonneg g0 t0)
    exact hn.nonneg h.exp ((le_abs_self _).trans (hou i i).1) (add_nonneg (inv.pos i) i0)
  · intro i
    have g0 := (hgram i i).2.2 rfl
    have t0 := (hshift i i).2.2.2 (mul_self_nonneg _)
    have i0 := hn.nonneg h.exp ((le_abs_self _).trans (hin i i).1) (add_nonneg g0 t0)
    have := hn.mono (inv.mem i i).le_top (hou i i).1 (by linarith)
    rwa [hn.eq_self (inv.mem i i)] at this

theorem cov_history (hn : φ.Nearest fl) {N : ℕ} {M : ℝ} (h : φ.FitsSq N M) (H : List (List (Fin d → ℝ) × (Fin d → ℝ) × Matrix (Fin d) (Fin d) ℝ))
    (hne : ∀ B ∈ H, B.1 ≠ []) (hs : ∀ B ∈ H, ∀ i, SumOrder fl (B.1.map fun x => x i) (B.2.1 i))
    (hG : ∀ B ∈ H, ∀ i j, DotOrder fl ((centeredFl fl B.1 B.2.1).map fun x => (x i, x j)) (B.2.2 i j))
    (hF : ∀ B ∈ H, ∀ x ∈ B.1, ∀ i, φ.Mem (x i) ∧ |x i| ≤ M) (c : Covariance ℝ d) (xs : List (Fin d → ℝ))
    (inv : CInv φ M c xs) (hN : c.n + (H.map fun B => B.1).flatten.length ≤ N) :
    ∃ c', c.updatesFl fl H = .ok c' ∧ CInv φ M c' (xs ++ (H.map fun B => B.1).flatten) ∧ ∀ i, c.S i i ≤ c'.S i i := by
  induction H generalizing c xs with
  | nil => exact ⟨c, rfl, by simpa using inv, fun _ => le_rfl⟩
  | cons B H ih =>
    have hX := hne B (by simp)
    simp only [List.map_cons, List.flatten_cons, List.length_append] at hN
    obtain ⟨c1, e1, e2, e3⟩ := inv.step hn h hX (hs B (by simp)) (hF B (by simp)) (by omega) (hG B (by simp))
    have hcn : c1.n = c.n + B.1.length := by
      have a1 := e2.mean.count
      have a2 := inv.mean.count
      rw [a1, a2, List.length_append]
    obtain ⟨c', h1, h2, h3⟩ := ih (fun B hB => hne B (by simp [hB])) (fun B hB => hs B (by simp [hB])) (fun B hB => hG B (by simp [hB]))
      (fun B hB => hF B (by simp [hB])) c1 (xs ++ B.1) e2 (by omega)
    refine ⟨c', ?_, by simpa using h2, fun i => (e3 i).trans (h3 i)⟩
    rw [Covariance.updatesFl, List.foldlM_cons, e1]
    exact h1

/-- The covariance computed from an accumulator. -/
theorem CInv.cov_near (hn : φ.Nearest fl) {M : ℝ} {c : Covariance ℝ d} {xs : List (Fin d → ℝ)} (h : φ.FitsSq xs.length M) (h2 : CInv φ M c xs) (ddof : ℤ)
    (hd : ddof < xs.length) :
    ∃ S, c.covarianceFl fl ddof = .ok (.val S) ∧ (∀ i, 0 ≤ S i i) ∧ (∀ i j, φ.Mem (S i j)) ∧
      ∀ i j, |S i j - sampleCov ddof xs i j| ≤ (69 * xs.length ^ 2 / ((xs.length : ℝ) - ddof) + 1) * (φ.u * M ^ 2) := by
  have hcn := h2.mean.count
  have hu := φ.u_pos
  have hM := M_pos h.toFits
  have hMsq : 0 < M ^ 2 := by positivity
  have hV : 0 < φ.u * M ^ 2 := by positivity
  have hK : (1 : ℝ) ≤ ((xs.length : ℤ) - ddof : ℤ) := by exact_mod_cast (by omega : (1 : ℤ) ≤ (xs.length : ℤ) - ddof)
  have hKeq : (((xs.length : ℤ) - ddof : ℤ) : ℝ) = (xs.length : ℝ) - ddof := by push_cast; ring
  rw [hKeq] at hK
  set K := (xs.length : ℝ) - ddof with hKdef
  have hL0 : (0 : ℝ) ≤ xs.length := Nat.cast_nonneg _
  have hLV : xs.length * (φ.u * M ^ 2) ≤ 1 / 256 * M ^ 2 := by nlinarith [h.small]
  have hSb : ∀ i j, |c.S i j| ≤ (425 / 100 * xs.length) * M ^ 2 := by
    intro i j
    have a1 := devSum_le xs h2.mean.bound i j
    have a2 := abs_le_of_close (h2.S i j) a1
    have a4 : 64 * (xs.length : ℝ) ^ 2 * (φ.u * M ^ 2) ≤ 64 * xs.length * (1 / 256 * M ^ 2) := by
      have := mul_le_mul_of_nonneg_left hLV (by positivity : (0 : ℝ) ≤ 64 * xs.length)
      linarith
    have : 0 ≤ xs.length * M ^ 2 := by positivity
    linarith
  have hSK : ∀ i j, |c.S i j / K| ≤ (425 / 100 * xs.length / K) * M ^ 2 := by
    intro i j
    rw [abs_div, abs_of_pos (by linarith : 0 < K), div_mul_eq_mul_div]
    exact div_le_div_of_nonneg_right (hSb i j) (by linarith)
  have hrr := fun i j => err_sq hn h (hSK i j) (by
    rw [div_le_iff₀ (by linarith)]
    nlinarith)
  refine ⟨fun i j => fl (c.S i j / (((c.n : ℤ) - ddof : ℤ) : ℝ)), ?_, ?_, ?_, ?_⟩
  · unfold Covariance.covarianceFl
    rw [if_neg (by omega), h2.nan]
    rfl
  · intro i
    simp only [hcn, hKeq]
    exact hn.nonneg h.exp ((le_abs_self _).trans (hrr i i).1) (div_nonneg (h2.pos i) (by linarith))
  · intro i j
    simp only [hcn, hKeq]
    exact (hn _ (hrr i j).1).1
  · intro i j
    simp only [hcn, hKeq]
    have e1 : sampleCov ddof xs i j = devSum xs i j / K := by
      unfold sampleCov devSum
      rw [hKeq]
    rw [e1]
    have e2 := abs_sub_le (fl (c.S i j / K)) (c.S i j / K) (devSum xs i j / K)
    have e3 : |c.S i j / K - devSum xs i j / K| ≤ 64 * xs.length ^ 2 / K * (φ.u * M ^ 2) := by
      rw [← sub_div, abs_div, abs_of_pos (by linarith : 0 < K), div_mul_eq_mul_div]
      exact div_le_div_of_nonneg_right (h2.S i j) (by linarith)
    have e4 := (hrr i j).2
    have e5 : (xs.length : ℝ) ≤ (xs.length : ℝ) ^ 2 := by
      rcases Nat.eq_zero_or_pos xs.length with hz | hz
      · rw [hz]; simp
      · have : (1 : ℝ) ≤ xs.length := by exact_mod_cast hz
        nlinarith
    have e6 : 425 / 100 * (xs.length : ℝ) / K ≤ 5 * (xs.length : ℝ) ^ 2 / K := div_le_div_of_nonneg_right (by nlinarith) (by linarith)
    have e7 : 69 * (xs.length : ℝ) ^ 2 / K = 64 * (xs.length : ℝ) ^ 2 / K + 5 * (xs.length : ℝ) ^ 2 / K := by ring
    rw [e7]
    nlinarith

end StatsFl

open StatsFl

/-- **C107**.  In floating point arithmetic, whatever the batches and the order of evaluation of sums and inner products, the covariance of `N` observations of
size at most `M` differs from the exact sample covariance by at most `(69 N² / (N - ddof) + 1) u M²`, and variances are never negative. -/
theorem C107_covariance_rounding (hn : φ.Nearest fl) (H : List (List (Fin d → ℝ) × (Fin d → ℝ) × Matrix (Fin d) (Fin d) ℝ)) (M : ℝ)
    (h : φ.FitsSq (H.map fun B => B.1).flatten.length M) (hne : ∀ B ∈ H, B.1 ≠ [])
    (hs : ∀ B ∈ H, ∀ i, SumOrder fl (B.1.map fun x => x i) (B.2.1 i))
    (hG : ∀ B ∈ H, ∀ i j, DotOrder fl ((centeredFl fl B.1 B.2.1).map fun x => (x i, x j)) (B.2.2 i j))
    (hF : ∀ B ∈ H, ∀ x ∈ B.1, ∀ i, φ.Mem (x i) ∧ |x i| ≤ M) (ddof : ℤ) (hd : ddof < (H.map fun B => B.1).flatten.length) :
    ∃ c S, (Covariance.init ℝ d).updatesFl fl H = .ok c ∧ c.n = (H.map fun B => B.1).flatten.length ∧
      c.covarianceFl fl ddof = .ok (.val S) ∧ (∀ i, 0 ≤ S i i) ∧
      ∀ i j, |S i j - sampleCov ddof (H.map fun B => B.1).flatten i j| ≤
        (69 * (H.map fun B => B.1).flatten.length ^ 2 / (((H.map fun B => B.1).flatten.length : ℝ) - ddof) + 1) * (φ.u * M ^ 2) := by
  obtain ⟨c, h1, h2, -⟩ := cov_history hn h H hne hs hG hF (Covariance.init ℝ d) [] (CInv.init h.exp) (by simp [Covariance.init])
  rw [List.nil_append] at h2
  obtain ⟨S, h3, h4, -, h5⟩ := h2.cov_near hn h ddof hd
  exact ⟨c, S, h1, h2.mean.count, h3, h4, h5⟩

/-- **C107**, monotonicity: further observations never decrease a diagonal entry of the accumulated sum of squares, in spite of rounding. -/
theorem C107_sum_of_squares_monotone (hn : φ.Nearest fl) (H H' : List (List (Fin d → ℝ) × (Fin d → ℝ) × Matrix (Fin d) (Fin d) ℝ)) (M : ℝ)
    (h : φ.FitsSq ((H ++ H').map fun B => B.1).flatten.length M) (hne : ∀ B ∈ H ++ H', B.1 ≠ [])
    (hs : ∀ B ∈ H ++ H', ∀ i, SumOrder fl (B.1.map fun x => x i) (B.2.1 i))
    (hG : ∀ B ∈ H ++ H', ∀ i j, DotOrder fl ((centeredFl fl B.1 B.2.1).map fun x => (x i, x j)) (B.2.2 i j))
    (hF : ∀ B ∈ H ++ H', ∀ x ∈ B.1, ∀ i, φ.Mem (x i) ∧ |x i| ≤ M) :
    ∃ c c', (Covariance.init ℝ d).updatesFl fl H = .ok c ∧ c.updatesFl fl H' = .ok c' ∧ ∀ i, 0 ≤ c.S i i ∧ c.S i i ≤ c'.S i i := by
  simp only [List.map_append, List.flatten_append, List.length_append] at h
  obtain ⟨c, h1, h2, -⟩ := cov_history hn h H (fun B hB => hne B (by simp [hB])) (fun B hB => hs B (by simp [hB]))
    (fun B hB => hG B (by simp [hB])) (fun B hB => hF B (by simp [hB])) (Covariance.init ℝ d) [] (CInv.init h.exp) (by simp [Covariance.init])
  have hc := h2.mean.count
  rw [List.nil_append] at hc
  obtain ⟨c', h3, -, h5⟩ := cov_history hn h H' (fun B hB => hne B (by simp [hB])) (fun B hB => hs B (by simp [hB]))
    (fun B hB => hG B (by simp [hB])) (fun B hB => hF B (by simp [hB])) c _ h2 (by omega)
  exact ⟨c, c', h1, h3, fun i => ⟨h2.pos i, h5 i⟩⟩

/-- The bounds hold for up to `2 ^ 45` double precision numbers of ordinary size. -/
theorem binary64_fitsSq (N : ℕ) (hN : N ≤ 2 ^ 45) (M : ℝ) (h1 : (2 : ℝ) ^ (-500 : ℤ) ≤ M) (h2 : M ≤ (2 : ℝ) ^ (450 : ℤ)) : binary64.FitsSq N M := by
  have hz : ∀ a b : ℤ, a ≤ b → (2 : ℝ) ^ a ≤ (2 : ℝ) ^ b := fun a b h => zpow_le_zpow_right₀ (by norm_num) h
  have ha : ∀ a b : ℤ, (2 : ℝ) ^ a * (2 : ℝ) ^ b = (2 : ℝ) ^ (a + b) := fun a b => (zpow_add₀ (by norm_num) a b).symm
  have hM0 : 0 < M := lt_of_lt_of_le (by positivity) h1
  have hNr : (N : ℝ) ≤ (2 : ℝ) ^ (45 : ℤ) := by
    have : (N : ℝ) ≤ ((2 ^ 45 : ℕ) : ℝ) := by exact_mod_cast hN
    refine this.trans (le_of_eq ?_)
    norm_num
  have htop : (2 : ℝ) ^ (1000 : ℤ) ≤ binary64.top := by
    unfold Fmt.top binary64
    have h3 : (2 : ℝ) ^ (1000 : ℤ) = (2 : ℝ) ^ (29 : ℤ) * (2 : ℝ) ^ (971 : ℤ) := by rw [ha]; norm_num
    rw [h3]
    refine mul_le_mul_of_nonneg_right ?_ (by positivity)
    norm_num
  have hsq : M ^ 2 ≤ (2 : ℝ) ^ (900 : ℤ) := by
    have := mul_le_mul h2 h2 hM0.le (by positivity)
    rw [ha] at this
    rw [sq]
    exact this.trans (hz _ _ (by norm_num))
  have hsq' : (2 : ℝ) ^ (-1000 : ℤ) ≤ M ^ 2 := by
    have := mul_le_mul h1 h1 (by positivity) hM0.le
    rw [ha] at this
    rw [sq]
    exact le_trans (hz _ _ (by norm_num)) this
  have hu : binary64.u = (2 : ℝ) ^ (-53 : ℤ) := rfl
  have heta : binary64.eta = (2 : ℝ) ^ (-1075 : ℤ) := rfl
  refine ⟨binary64_fits N hN M ((hz _ _ (by norm_num)).trans h1) (h2.trans (hz _ _ (by norm_num))), ?_, ?_, ?_⟩
  · refine le_trans ?_ htop
    have h4 : (16 : ℝ) * N * M ^ 2 ≤ (2 : ℝ) ^ (4 : ℤ) * (2 : ℝ) ^ (45 : ℤ) * (2 : ℝ) ^ (900 : ℤ) := by
      refine mul_le_mul ?_ hsq (by positivity) (by positivity)
      exact mul_le_mul (by norm_num) hNr (by positivity) (by positivity)
    refine h4.trans ?_
    rw [ha, ha]
    exact hz _ _ (by norm_num)
  · exact hNr.trans ((hz _ _ (by norm_num)).trans htop)
  · rw [hu, heta]
    refine le_trans ?_ (mul_le_mul_of_nonneg_left hsq' (by positivity))
    rw [ha]
    exact hz _ _ (by norm_num)

/-- Concrete case of **C107**: the double precision observations 1, 2, 4, one by one, for every rounding to nearest. -/
example (fl : ℝ → ℝ) (hn : binary64.Nearest fl) :
    ∃ (H : List (List (Fin 1 → ℝ) × (Fin 1 → ℝ) × Matrix (Fin 1) (Fin 1) ℝ)) (c : Covariance ℝ 1) (S : Matrix (Fin 1) (Fin 1) ℝ),
      H.map (fun B => B.1) = [[fun _ => 1], [fun _ => 2], [fun _ => 4]] ∧ (Covariance.init ℝ 1).updatesFl fl H = .ok c ∧
      c.covarianceFl fl 1 = .ok (.val S) ∧ 0 ≤ S 0 0 ∧ |S 0 0 - 7 / 3| ≤ (69 * 3 ^ 2 / 2 + 1) * ((2 : ℝ) ^ (-53 : ℤ) * 4 ^ 2) := by
  have hM : (2 : ℝ) ^ (-500 : ℤ) ≤ 4 := by
    have : (2 : ℝ) ^ (-500 : ℤ) ≤ (2 : ℝ) ^ (0 : ℤ) := zpow_le_zpow_right₀ (by norm_num) (by norm_num)
    rw [zpow_zero] at this
    linarith
  have hM' : (4 : ℝ) ≤ (2 : ℝ) ^ (450 : ℤ) := by
    have : (2 : ℝ) ^ (2 : ℤ) ≤ (2 : ℝ) ^ (450 : ℤ) := zpow_le_zpow_right₀ (by norm_num) (by norm_num)
    refine le_trans (le_of_eq (by norm_num)) this
  let B : ℝ → List (Fin 1 → ℝ) × (Fin 1 → ℝ) × Matrix (Fin 1) (Fin 1) ℝ := fun v =>
    ([fun _ => v], fun _ => v, fun _ _ => fl (fl (v - fl (v / ((1 : ℕ) : ℝ))) * fl (v - fl (v / ((1 : ℕ) : ℝ)))))
  have hB : ∀ b ∈ [B 1, B 2, B 4], ∃ v : ℝ, b = B v ∧ binary64.Mem v ∧ |v| ≤ 4 := by
    have m1 := binary64_mem_int 1 (by norm_num)
    have m2 := binary64_mem_int 2 (by norm_num)
    have m4 := binary64_mem_int 4 (by norm_num)
    push_cast at m1 m2 m4
    intro b hb
    simp only [List.mem_cons, List.not_mem_nil, or_false] at hb
    rcases hb with rfl | rfl | rfl
    · exact ⟨1, rfl, m1, by norm_num⟩
    · exact ⟨2, rfl, m2, by norm_num⟩
    · exact ⟨4, rfl, m4, by norm_num⟩
  obtain ⟨c, S, h1, -, h3, h4, h5⟩ := C107_covariance_rounding hn [B 1, B 2, B 4] 4 (binary64_fitsSq 3 (by norm_num) 4 hM hM')
    (by intro b hb; obtain ⟨v, rfl, -⟩ := hB b hb; simp [B])
    (by intro b hb i; obtain ⟨v, rfl, -⟩ := hB b hb; exact SumOrder.single v)
    (by intro b hb i j; obtain ⟨v, rfl, -⟩ := hB b hb; exact DotOrder.single _ _)
    (by
      intro b hb x hx i
      obtain ⟨v, rfl, hv⟩ := hB b hb
      simp only [B, List.mem_singleton] at hx
      subst hx
      exact hv)
    1 (by simp [B])
  refine ⟨_, c, S, rfl, h1, h3, h4 0, ?_⟩
  have h6 := h5 0 0
  have e : sampleCov 1 ([B 1, B 2, B 4].map fun B => B.1).flatten 0 0 = 7 / 3 := by
    norm_num [sampleCov, sampleMean, B]
  rw [e] at h6
  have e2 : ([B 1, B 2, B 4].map fun B => B.1).flatten.length = 3 := rfl
  rw [e2] at h6
  have hu : binary64.u = (2 : ℝ) ^ (-53 : ℤ) := rfl
  rw [hu] at h6
  refine h6.trans (le_of_eq ?_)
  norm_num

end Primate
