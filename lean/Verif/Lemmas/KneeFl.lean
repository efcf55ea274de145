import Verif.Model.KneeFl
import Verif.Lemmas.SpecialFl
import Verif.Props.Estimators

/-!
# Errors of the curve of `KneeCriterion` in rounded arithmetic
-/

noncomputable section

namespace Primate

open Spec

variable {φ : Fmt} {fl : ℝ → ℝ} {N : ℕ} {c : ℕ → ℝ} {M : ℝ}

/-- Sizes: `N` points of magnitude at most `M`, neither too many, too large nor too small for the format. -/
structure Spec.KneeRoom (φ : Fmt) (N : ℕ) (c : ℕ → ℝ) (M : ℝ) : Prop where
  small : SmallOk φ
  len : 3 ≤ N
  Nu : N * φ.u ≤ 1 / 32
  Neta : N * φ.eta ≤ φ.u
  bound : ∀ i, i < N → |c i| ≤ M
  tiny : φ.eta ≤ φ.u * M
  top : 8 * (N * M) ≤ φ.top

/-- Bound on the error of the curve. -/
def Spec.kneeErr (φ : Fmt) (N : ℕ) (c : ℕ → ℝ) (M : ℝ) : ℝ := 8 * (N * φ.u) * (M + variation c (N - 2))

theorem Spec.KneeRoom.M0 (h : KneeRoom φ N c M) : 0 ≤ M := (abs_nonneg _).trans (h.bound 0 (by have := h.len; omega))

theorem Spec.KneeRoom.N3 (h : KneeRoom φ N c M) : (3 : ℝ) ≤ N := by exact_mod_cast h.len

theorem Mem.abs {x : ℝ} (h : φ.Mem x) : φ.Mem |x| := by
  rcases abs_choice x with h' | h' <;> rw [h']
  · exact h
  · exact h.neg

theorem knee_point (hn : φ.Nearest fl) (h : KneeRoom φ N c M) {i : ℕ} (hi : i < N) :
    φ.Mem (fl (c i)) ∧ |fl (c i) - c i| ≤ 2 * (φ.u * M) ∧ |fl (c i)| ≤ 17 / 16 * M := by
  have hM := h.M0
  have hN := h.N3
  have hNM : 3 * M ≤ N * M := mul_le_mul_of_nonneg_right hN hM
  have hb := h.bound i hi
  have ht : |c i| ≤ φ.top := by linarith [h.top]
  have h1 := hn.err h.small.exp ht
  have h2 := mul_le_mul_of_nonneg_left hb φ.u_pos.le
  have h3 : |fl (c i) - c i| ≤ 2 * (φ.u * M) := by linarith [h.tiny]
  refine ⟨(hn _ ht).1, h3, ?_⟩
  have := abs_sub_abs_le_abs_sub (fl (c i)) (c i)
  have := mul_le_mul_of_nonneg_right h.small.u hM
  linarith

theorem knee_step (hn : φ.Nearest fl) (h : KneeRoom φ N c M) {i : ℕ} (hi : i + 1 < N) :
    φ.Mem |fl (fl (c (i + 1)) - fl (c i))| ∧ |(|fl (fl (c (i + 1)) - fl (c i))|) - (|c (i + 1) - c i|)| ≤ 7 * (φ.u * M) := by
  obtain ⟨a1, a2, a3⟩ := knee_point hn h (i := i) (by omega)
  obtain ⟨b1, b2, b3⟩ := knee_point hn h hi
  have hM := h.M0
  have hNM : 3 * M ≤ N * M := mul_le_mul_of_nonneg_right h.N3 hM
  have hd : |fl (c (i + 1)) - fl (c i)| ≤ 17 / 8 * M := (abs_sub _ _).trans (by linarith)
  have ht : |fl (c (i + 1)) - fl (c i)| ≤ φ.top := by linarith [h.top]
  have h1 := hn.err_sub h.small.exp b1 a1 ht
  have h2 := mul_le_mul_of_nonneg_left hd φ.u_pos.le
  have h0 := mul_nonneg φ.u_pos.le hM
  refine ⟨Mem.abs (hn _ ht).1, (abs_abs_sub_abs_le _ _).trans ?_⟩
  have e : fl (fl (c (i + 1)) - fl (c i)) - (c (i + 1) - c i) =
      (fl (fl (c (i + 1)) - fl (c i)) - (fl (c (i + 1)) - fl (c i))) + ((fl (c (i + 1)) - c (i + 1)) - (fl (c i) - c i)) := by ring
  rw [e]
  refine (abs_add_le _ _).trans ?_
  have := abs_sub (fl (c (i + 1)) - c (i + 1)) (fl (c i) - c i)
  linarith

theorem variation_succ (c : ℕ → ℝ) (k : ℕ) : variation c (k + 1) = variation c k + |c (k + 2) - c (k + 1)| := by
  unfold variation
  rw [Finset.sum_range_succ]

theorem variation_le (h : KneeRoom φ N c M) : variation c (N - 2) ≤ 2 * (N * M) := by
  have h3 := h.len
  unfold variation
  have : ∀ i ∈ Finset.range (N - 2 + 1), |c (i + 1) - c i| ≤ 2 * M := by
    intro i hi
    rw [Finset.mem_range] at hi
    refine (abs_sub _ _).trans ?_
    linarith [h.bound i (by omega), h.bound (i + 1) (by omega)]
  refine (Finset.sum_le_card_nsmul _ _ _ this).trans ?_
  rw [Finset.card_range, nsmul_eq_mul]
  have hle : ((N - 2 + 1 : ℕ) : ℝ) ≤ N := by exact_mod_cast (by omega : N - 2 + 1 ≤ N)
  have := mul_le_mul_of_nonneg_right hle (by linarith [h.M0] : 0 ≤ 2 * M)
  linarith

/-- The cumulative sums. -/
theorem kneeYFl_near (hn : φ.Nearest fl) (h : KneeRoom φ N c M) (k : ℕ) (hk : k + 1 < N) :
    φ.Mem (kneeYFl fl (fun i => fl (c i)) k) ∧ 0 ≤ kneeYFl fl (fun i => fl (c i)) k ∧ kneeYFl fl (fun i => fl (c i)) k ≤ φ.top ∧
      |kneeYFl fl (fun i => fl (c i)) k - variation c k| ≤ ((k : ℝ) + 1) * (8 * (φ.u * M) + 17 / 16 * (φ.u * variation c (N - 2))) := by
  have hu := φ.u_pos
  have hM := h.M0
  have hY0 : ∀ j, 0 ≤ variation c j := fun j => Finset.sum_nonneg fun i _ => abs_nonneg _
  have hY := variation_le h
  set Y := variation c (N - 2) with hYd
  have huY : 0 ≤ φ.u * Y := mul_nonneg hu.le (hY0 _)
  have huM : 0 ≤ φ.u * M := mul_nonneg hu.le hM
  induction k with
  | zero =>
    obtain ⟨a1, a2⟩ := knee_step hn h (i := 0) (by omega)
    refine ⟨a1, abs_nonneg _, by have := a1.le_top; rwa [abs_abs] at this, ?_⟩
    have e : variation c 0 = |c (0 + 1) - c 0| := by unfold variation; simp
    rw [e]
    refine a2.trans ?_
    push_cast
    linarith
  | succ k ih =>
    obtain ⟨i1, i2, -, i3⟩ := ih (by omega)
    obtain ⟨a1, a2⟩ := knee_step hn h (i := k + 1) (by omega)
    set y := kneeYFl fl (fun i => fl (c i)) k
    set D := |fl (fl (c (k + 1 + 1)) - fl (c (k + 1)))| with hD
    have hD0 : 0 ≤ D := abs_nonneg _
    have hkY : variation c (k + 1) ≤ Y := variation_mono c (by omega)
    have hkN : (k : ℝ) + 1 ≤ N := by exact_mod_cast (by omega : k + 1 ≤ N)
    have hku : ((k : ℝ) + 1) * φ.u ≤ 1 / 32 := (mul_le_mul_of_nonneg_right hkN hu.le).trans h.Nu
    have e1 : ((k : ℝ) + 1) * (8 * (φ.u * M) + 17 / 16 * (φ.u * Y)) = ((k : ℝ) + 1) * φ.u * (8 * M + 17 / 16 * Y) := by ring
    have i4 : ((k : ℝ) + 1) * φ.u * (8 * M + 17 / 16 * Y) ≤ 1 / 32 * (8 * M + 17 / 16 * Y) := mul_le_mul_of_nonneg_right hku (by linarith [hY0 (N - 2)])
    have hv := variation_succ c k
    have huM' : φ.u * M ≤ 1 / 64 * M := mul_le_mul_of_nonneg_right h.small.u hM
    have hsum : |(y + D) - variation c (k + 1)| ≤ ((k : ℝ) + 1) * (8 * (φ.u * M) + 17 / 16 * (φ.u * Y)) + 7 * (φ.u * M) := by
      have e : (y + D) - variation c (k + 1) = (y - variation c k) + (D - |c (k + 2) - c (k + 1)|) := by rw [hv]; ring
      rw [e]
      exact (abs_add_le _ _).trans (add_le_add i3 a2)
    have hsz : y + D ≤ 17 / 16 * Y + 1 / 2 * M := by
      have := (abs_le.1 hsum).2
      linarith [hY0 (N - 2)]
    have hNM : 3 * M ≤ N * M := mul_le_mul_of_nonneg_right h.N3 hM
    have ht : |y + D| ≤ φ.top := by
      rw [abs_of_nonneg (by linarith)]
      linarith [h.top]
    have h1 := hn.err_add h.small.exp i1 a1 ht
    rw [abs_of_nonneg (by linarith : 0 ≤ y + D)] at h1
    have h2 := mul_le_mul_of_nonneg_left hsz hu.le
    have hm := (hn _ ht).1
    refine ⟨hm, ?_, ?_, ?_⟩
    · exact hn.nonneg h.small.exp (by rw [abs_of_nonneg (by linarith)] at ht; exact ht) (by linarith)
    · exact (le_abs_self _).trans hm.le_top
    · show |fl (y + D) - variation c (k + 1)| ≤ _
      have := abs_sub_le (fl (y + D)) (y + D) (variation c (k + 1))
      push_cast
      have e2 : ((k : ℝ) + 1 + 1) * (8 * (φ.u * M) + 17 / 16 * (φ.u * Y)) = ((k : ℝ) + 1) * (8 * (φ.u * M) + 17 / 16 * (φ.u * Y)) + (8 * (φ.u * M) + 17 / 16 * (φ.u * Y)) := by ring
      rw [e2]
      linarith

theorem kneeYFl_mono (hn : φ.Nearest fl) (h : KneeRoom φ N c M) {j k : ℕ} (hjk : j ≤ k) (hk : k + 1 < N) :
    kneeYFl fl (fun i => fl (c i)) j ≤ kneeYFl fl (fun i => fl (c i)) k := by
  induction k, hjk using Nat.le_induction with
  | base => exact le_refl _
  | succ k hjk ih =>
    refine (ih (by omega)).trans ?_
    obtain ⟨i1, i2, i3, i4⟩ := kneeYFl_near hn h k (by omega)
    set y := kneeYFl fl (fun i => fl (c i)) k with hy
    have hD0 : 0 ≤ |fl (fl (c (k + 2)) - fl (c (k + 1)))| := abs_nonneg _
    obtain ⟨a1, a2⟩ := knee_step hn h (i := k + 1) (by omega)
    show y ≤ fl (y + |fl (fl (c (k + 2)) - fl (c (k + 1)))|)
    have ht : |y + (|fl (fl (c (k + 2)) - fl (c (k + 1)))|)| ≤ φ.top := by
      have hu := φ.u_pos
      have hM := h.M0
      have hY := variation_le h
      have hkY : variation c k ≤ variation c (N - 2) := variation_mono c (by omega)
      have hY0 : 0 ≤ variation c (N - 2) := Finset.sum_nonneg fun i _ => abs_nonneg _
      have hkN : (k : ℝ) + 1 ≤ N := by exact_mod_cast (by omega : k + 1 ≤ N)
      have hku : ((k : ℝ) + 1) * φ.u ≤ 1 / 32 := (mul_le_mul_of_nonneg_right hkN hu.le).trans h.Nu
      have e1 : ((k : ℝ) + 1) * (8 * (φ.u * M) + 17 / 16 * (φ.u * variation c (N - 2))) = ((k : ℝ) + 1) * φ.u * (8 * M + 17 / 16 * variation c (N - 2)) := by ring
      have i5 := mul_le_mul_of_nonneg_right hku (by linarith : 0 ≤ 8 * M + 17 / 16 * variation c (N - 2))
      have i6 := (abs_le.1 i4).2
      have a3 := (abs_le.1 a2).2
      have a4 : |c (k + 1 + 1) - c (k + 1)| ≤ 2 * M := (abs_sub _ _).trans (by linarith [h.bound (k + 1) (by omega), h.bound (k + 1 + 1) (by omega)])
      have huM' : φ.u * M ≤ 1 / 64 * M := mul_le_mul_of_nonneg_right h.small.u hM
      have hNM : 3 * M ≤ N * M := mul_le_mul_of_nonneg_right h.N3 hM
      rw [abs_of_nonneg (by linarith)]
      have := h.top
      linarith
    have := hn.mono (x := y) (y := y + (|fl (fl (c (k + 2)) - fl (c (k + 1)))|)) (by rw [abs_of_nonneg i2]; exact i3) ht (by linarith)
    rwa [hn.eq_self i1] at this

/-- The range of the exact curve. -/
def Spec.kneeRange (c : ℕ → ℝ) (N : ℕ) : ℝ := variation c (N - 2) - variation c 0

/-- The exact difference curve. -/
def Spec.kneeRise (c : ℕ → ℝ) (N k : ℕ) : ℝ := (variation c k - variation c 0) / kneeRange c N - (k : ℝ) / ((N : ℝ) - 2)

/-- The sums after subtraction of the first. -/
theorem knee_shift (hn : φ.Nearest fl) (h : KneeRoom φ N c M) {k : ℕ} (hk : k + 1 < N) :
    |fl (kneeYFl fl (fun i => fl (c i)) k - kneeYFl fl (fun i => fl (c i)) 0) - (variation c k - variation c 0)| ≤ 5 / 2 * kneeErr φ N c M ∧
      0 ≤ fl (kneeYFl fl (fun i => fl (c i)) k - kneeYFl fl (fun i => fl (c i)) 0) ∧
      fl (kneeYFl fl (fun i => fl (c i)) k - kneeYFl fl (fun i => fl (c i)) 0) ≤ fl (kneeYFl fl (fun i => fl (c i)) (N - 2) - kneeYFl fl (fun i => fl (c i)) 0) := by
  have hu := φ.u_pos
  have hM := h.M0
  have h3 := h.len
  have hY0 : 0 ≤ variation c (N - 2) := Finset.sum_nonneg fun i _ => abs_nonneg _
  have hnear : ∀ j, j + 1 < N → |kneeYFl fl (fun i => fl (c i)) j - variation c j| ≤ kneeErr φ N c M := by
    intro j hj
    refine (kneeYFl_near hn h j hj).2.2.2.trans ?_
    have hkN : (j : ℝ) + 1 ≤ N := by exact_mod_cast (by omega : j + 1 ≤ N)
    have h1 : 8 * (φ.u * M) + 17 / 16 * (φ.u * variation c (N - 2)) ≤ 8 * φ.u * (M + variation c (N - 2)) := by
      have := mul_nonneg hu.le hY0
      linarith
    have h2 := mul_le_mul hkN h1 (by have := mul_nonneg hu.le hY0; have := mul_nonneg hu.le hM; linarith) (by linarith [h.N3])
    unfold kneeErr
    linarith
  obtain ⟨y1, y2, y3, -⟩ := kneeYFl_near hn h k hk
  obtain ⟨z1, z2, z3, -⟩ := kneeYFl_near hn h 0 (by omega)
  obtain ⟨w1, w2, w3, -⟩ := kneeYFl_near hn h (N - 2) (by omega)
  have m1 := kneeYFl_mono hn h (Nat.zero_le k) hk
  have m2 := kneeYFl_mono hn h (show k ≤ N - 2 by omega) (by omega)
  have n1 := hnear k hk
  have n0 := hnear 0 (by omega)
  set y := kneeYFl fl (fun i => fl (c i)) k
  set z := kneeYFl fl (fun i => fl (c i)) 0
  set w := kneeYFl fl (fun i => fl (c i)) (N - 2)
  have t1 : |y - z| ≤ φ.top := by rw [abs_of_nonneg (by linarith)]; linarith
  have t2 : |w - z| ≤ φ.top := by rw [abs_of_nonneg (by linarith)]; linarith
  refine ⟨?_, hn.nonneg h.small.exp ((le_abs_self _).trans t1) (by linarith), hn.mono t1 t2 (by linarith)⟩
  have e1 := hn.err_sub h.small.exp y1 z1 t1
  rw [abs_of_nonneg (by linarith : 0 ≤ y - z)] at e1
  have hE0 : 0 ≤ kneeErr φ N c M := (abs_nonneg _).trans n0
  have hkY : variation c k ≤ variation c (N - 2) := variation_mono c (by omega)
  have hz0 : 0 ≤ variation c 0 := Finset.sum_nonneg fun i _ => abs_nonneg _
  obtain ⟨p1, p2⟩ := abs_le.1 n1
  obtain ⟨p3, p4⟩ := abs_le.1 n0
  have e2 := mul_le_mul_of_nonneg_left (show y - z ≤ variation c (N - 2) + 2 * kneeErr φ N c M by linarith) hu.le
  have e3 := mul_le_mul_of_nonneg_right h.small.u hE0
  have e4 : φ.u * variation c (N - 2) ≤ 1 / 8 * kneeErr φ N c M := by
    unfold kneeErr
    have a1 : φ.u ≤ N * φ.u := le_mul_of_one_le_left hu.le (by linarith [h.N3])
    have a2 := mul_le_mul a1 (show variation c (N - 2) ≤ M + variation c (N - 2) by linarith) hY0 (by linarith)
    linarith
  have := abs_le.1 e1
  rw [abs_le]
  constructor <;> linarith [this.1, this.2]

/-- The curve scaled to the unit interval. -/
theorem knee_norm (hn : φ.Nearest fl) (h : KneeRoom φ N c M) (hR : 0 < kneeRange c N) (hE : 5 * kneeErr φ N c M ≤ kneeRange c N) {k : ℕ} (hk : k + 1 < N) :
    0 < fl (kneeYFl fl (fun i => fl (c i)) (N - 2) - kneeYFl fl (fun i => fl (c i)) 0) ∧
    ∀ q, q = fl (fl (kneeYFl fl (fun i => fl (c i)) k - kneeYFl fl (fun i => fl (c i)) 0) / fl (kneeYFl fl (fun i => fl (c i)) (N - 2) - kneeYFl fl (fun i => fl (c i)) 0)) →
      0 ≤ q ∧ q ≤ 1 ∧ φ.Mem q ∧ |q - (variation c k - variation c 0) / kneeRange c N| ≤ 10 * (kneeErr φ N c M / kneeRange c N) + 2 * φ.u := by
  have hu := φ.u_pos
  have h3 := h.len
  obtain ⟨a1, a2, a3⟩ := knee_shift hn h hk
  obtain ⟨b1, b2, -⟩ := knee_shift hn h (k := N - 2) (by omega)
  set a := fl (kneeYFl fl (fun i => fl (c i)) k - kneeYFl fl (fun i => fl (c i)) 0)
  set b := fl (kneeYFl fl (fun i => fl (c i)) (N - 2) - kneeYFl fl (fun i => fl (c i)) 0)
  set E := kneeErr φ N c M
  have hRd : kneeRange c N = variation c (N - 2) - variation c 0 := rfl
  rw [← hRd] at b1
  set R := kneeRange c N
  have hb : R / 2 ≤ b := by have := (abs_le.1 b1).1; linarith
  have hb0 : 0 < b := by linarith
  refine ⟨hb0, fun q hq => ?_⟩
  subst hq
  have q0 : 0 ≤ a / b := div_nonneg a2 hb0.le
  have q1 : a / b ≤ 1 := by rw [div_le_one hb0]; exact a3
  obtain ⟨r0, r1⟩ := fl_unit hn h.small q0 q1
  have htop : |a / b| ≤ φ.top := by
    rw [abs_of_nonneg q0]
    linarith [h.small.four_le_top]
  refine ⟨r0, r1, (hn _ htop).1, ?_⟩
  have hv0 : 0 ≤ variation c k - variation c 0 := by linarith [variation_mono c (Nat.zero_le k)]
  have hv1 : variation c k - variation c 0 ≤ R := by
    have := variation_mono c (show k ≤ N - 2 by omega)
    rw [hRd]
    linarith
  set v := variation c k - variation c 0
  have hE0 : 0 ≤ E := by have := abs_nonneg (a - v); linarith
  have d1 : |a / b - v / R| ≤ 10 * (E / R) := by
    have e : a / b - v / R = ((a - v) + (v / R) * (R - b)) / b := by field_simp; ring
    rw [e, abs_div, abs_of_pos hb0, div_le_iff₀ hb0]
    have x0 : 0 ≤ v / R := div_nonneg hv0 hR.le
    have x1 : v / R ≤ 1 := by rw [div_le_one hR]; exact hv1
    have x2 : |(v / R) * (R - b)| ≤ 5 / 2 * E := by
      rw [abs_mul, abs_of_nonneg x0, abs_sub_comm]
      exact (mul_le_of_le_one_left (abs_nonneg _) x1).trans b1
    have x3 := abs_add_le (a - v) ((v / R) * (R - b))
    have x4 : 10 * (E / R) * (R / 2) = 5 * E := by field_simp; ring
    have x5 := mul_le_mul_of_nonneg_left hb (by have := div_nonneg hE0 hR.le; linarith : 0 ≤ 10 * (E / R))
    linarith
  have d2 := fl_err hn h.small (x := a / b) (c := 1) (by rw [abs_of_nonneg q0]; exact q1) (by norm_num)
  have hη : φ.eta ≤ φ.u := by
    have := h.Neta
    have := le_mul_of_one_le_left φ.eta_pos.le (by linarith [h.N3] : (1 : ℝ) ≤ N)
    linarith
  have := abs_sub_le (fl (a / b)) (a / b) (v / R)
  linarith

/-- The straight line. -/
theorem knee_line (hn : φ.Nearest fl) (hs : SmallOk φ) (hN : 3 ≤ N) (hNe : N * φ.eta ≤ φ.u) {k : ℕ} (hk : k + 1 < N) :
    φ.Mem (linspaceFl fl (N - 1) k) ∧ 0 ≤ linspaceFl fl (N - 1) k ∧ |linspaceFl fl (N - 1) k - (k : ℝ) / ((N : ℝ) - 2)| ≤ 5 * φ.u := by
  have hu := φ.u_pos
  have he := φ.eta_pos
  have hN3 : (3 : ℝ) ≤ N := by exact_mod_cast hN
  have hpos : (0 : ℝ) < (N : ℝ) - 2 := by linarith
  have hη : φ.eta ≤ φ.u := by
    have := le_mul_of_one_le_left he.le (by linarith : (1 : ℝ) ≤ N)
    linarith
  have hsu := hs.u
  unfold linspaceFl
  split_ifs with hl
  · refine ⟨hs.one, zero_le_one, ?_⟩
    have : (k : ℝ) = (N : ℝ) - 2 := by
      have : k + 2 = N := by omega
      rw [← this]; push_cast; ring
    rw [this, div_self hpos.ne', sub_self, abs_zero]
    linarith
  · have hcast : ((N - 1 : ℕ) : ℝ) - 1 = (N : ℝ) - 2 := by
      rw [Nat.cast_sub (by omega)]; push_cast; ring
    rw [hcast]
    set s := 1 / ((N : ℝ) - 2) with hsd
    have hs0 : 0 < s := by positivity
    have hs1 : s ≤ 1 := by rw [hsd, div_le_one hpos]; linarith
    obtain ⟨f0, f1⟩ := fl_unit hn hs hs0.le hs1
    have e1 := hn.err hs.exp (x := s) (by rw [abs_of_pos hs0]; linarith [hs.four_le_top])
    rw [abs_of_pos hs0] at e1
    have hk0 : (0 : ℝ) ≤ k := Nat.cast_nonneg k
    have hkN : (k : ℝ) ≤ (N : ℝ) - 2 := by
      have : ((k + 2 : ℕ) : ℝ) ≤ N := by exact_mod_cast (by omega : k + 2 ≤ N)
      push_cast at this
      linarith
    have hks : (k : ℝ) * s ≤ 1 := by
      rw [hsd, mul_one_div, div_le_one hpos]; exact hkN
    have hks0 : 0 ≤ (k : ℝ) * s := mul_nonneg hk0 hs0.le
    have hkη : (k : ℝ) * φ.eta ≤ φ.u := (mul_le_mul_of_nonneg_right (by linarith : (k : ℝ) ≤ N) he.le).trans hNe
    have e2 : |(k : ℝ) * fl s - k * s| ≤ 2 * φ.u := by
      rw [← mul_sub, abs_mul, abs_of_nonneg hk0]
      have := mul_le_mul_of_nonneg_left e1 hk0
      have e : (k : ℝ) * (φ.u * s + φ.eta) = φ.u * (k * s) + k * φ.eta := by ring
      have := mul_le_mul_of_nonneg_left hks hu.le
      linarith
    have hp0 : 0 ≤ (k : ℝ) * fl s := mul_nonneg hk0 f0
    have hp1 : (k : ℝ) * fl s ≤ 2 := by have := (abs_le.1 e2).2; linarith
    have e3 := fl_err hn hs (x := (k : ℝ) * fl s) (c := 2) (by rw [abs_of_nonneg hp0]; exact hp1) (by norm_num)
    have ht : |(k : ℝ) * fl s| ≤ φ.top := by
      rw [abs_of_nonneg hp0]
      linarith [hs.four_le_top]
    refine ⟨(hn _ ht).1, hn.nonneg hs.exp ((le_abs_self _).trans ht) hp0, ?_⟩
    have e4 : (k : ℝ) / ((N : ℝ) - 2) = k * s := by rw [hsd]; ring
    rw [e4]
    have := abs_sub_le (fl ((k : ℝ) * fl s)) ((k : ℝ) * fl s) (k * s)
    linarith

end Primate
