import Verif.Lemmas.KneeFl
import Verif.Props.SpecialFl

/-!
# C162: the decision of `KneeCriterion` in rounded arithmetic
-/

noncomputable section

namespace Primate

open Spec

variable {φ : Fmt} {fl : ℝ → ℝ} {M S : ℝ} {mv : List ℝ}

/-- Bound on the error of the difference curve: `96 N u (M + Y) / R` for `N` points of magnitude at most `M`, total variation `Y` and range `R` of the curve. -/
def Spec.kneeTol (φ : Fmt) (N : ℕ) (c : ℕ → ℝ) (M : ℝ) : ℝ := 12 * (kneeErr φ N c M / kneeRange c N)

/-- What the code computes, with the height of the knee as computed. -/
theorem kneeDecideFl_run (hn : φ.Nearest fl) (h : KneeRoom φ mv.length (scaledValues mv) M) (hR : 0 < kneeRange (scaledValues mv) mv.length)
    (hE : 5 * kneeErr φ mv.length (scaledValues mv) M ≤ kneeRange (scaledValues mv) mv.length) (S : ℝ) :
    ∃ m b, kneeDecideFl fl S mv = .ok b ∧
      (b = true ↔ fl (m - fl (S / ((mv.length : ℝ) - 2))) < m ∧ 0 < fl (m - fl (S / ((mv.length : ℝ) - 2)))) ∧ φ.Mem m ∧ 0 ≤ m ∧ m ≤ 1 ∧
      (∀ k, k < mv.length - 1 → kneeRise (scaledValues mv) mv.length k ≤ m + kneeTol φ mv.length (scaledValues mv) M) ∧
      ∃ k, k < mv.length - 1 ∧ m ≤ kneeRise (scaledValues mv) mv.length k + kneeTol φ mv.length (scaledValues mv) M := by
  have h3 := h.len
  have hN3 := h.N3
  have hu := φ.u_pos
  have hs := h.small
  have hsu := hs.u
  have hL : 0 < mv.length - 1 := by omega
  set N := mv.length with hNd
  set c := scaledValues mv with hc
  set E := kneeErr φ N c M with hEd
  set R := kneeRange c N with hRd
  have hcast : ((N - 1 : ℕ) : ℝ) - 1 = (N : ℝ) - 2 := by rw [Nat.cast_sub (by omega)]; push_cast; ring
  set y := kneeYFl fl fun i => fl (c i) with hy
  have hmax : arrMax y (N - 1) hL = y (N - 2) := by
    apply le_antisymm
    · exact Finset.sup'_le _ _ fun k hk => kneeYFl_mono hn h (by simp at hk; omega) (by omega)
    · exact Finset.le_sup' _ (by simp; omega)
  have hmin : arrMin y (N - 1) hL = y 0 := by
    apply le_antisymm
    · exact Finset.inf'_le _ (by simp; omega)
    · exact Finset.le_inf' _ _ fun k hk => kneeYFl_mono hn h (Nat.zero_le k) (by simp at hk; omega)
  set w := fl (y (N - 2) - y 0) with hw
  have hw0 : 0 < w := (knee_norm hn h hR hE (k := 0) (by omega)).1
  set D : ℕ → ℝ := fun k => fl (fl (fl (y k - y 0) / w) - linspaceFl fl (N - 1) k) with hD
  have hER : 8 * φ.u ≤ E / R := by
    rw [le_div_iff₀ hR]
    have hY0 : 0 ≤ variation c 0 := Finset.sum_nonneg fun i _ => abs_nonneg _
    have hRY : R ≤ M + variation c (N - 2) := by
      have : R = variation c (N - 2) - variation c 0 := rfl
      linarith [h.M0]
    have h1 : φ.u ≤ N * φ.u := le_mul_of_one_le_left hu.le (by linarith)
    have h2 := mul_le_mul h1 hRY hR.le (by linarith)
    have : E = 8 * (N * φ.u) * (M + variation c (N - 2)) := rfl
    linarith
  have hDk : ∀ k, k < N - 1 → φ.Mem (D k) ∧ D k ≤ 1 ∧ |D k - kneeRise c N k| ≤ kneeTol φ N c M := by
    intro k hk
    obtain ⟨-, hq⟩ := knee_norm hn h hR hE (k := k) (by omega)
    obtain ⟨q0, q1, q2, q3⟩ := hq _ rfl
    obtain ⟨g1, g2, g3⟩ := knee_line hn hs h3 h.Neta (k := k) (by omega)
    set q := fl (fl (y k - y 0) / w)
    set g := linspaceFl fl (N - 1) k
    have hk1 : (k : ℝ) / ((N : ℝ) - 2) ≤ 1 := by
      rw [div_le_one (by linarith)]
      have : ((k + 2 : ℕ) : ℝ) ≤ N := by exact_mod_cast (by omega : k + 2 ≤ N)
      push_cast at this
      linarith
    have hg : g ≤ 2 := by have := (abs_le.1 g3).2; linarith
    have hqg : |q - g| ≤ 2 := by rw [abs_le]; constructor <;> linarith
    have htop : |q - g| ≤ φ.top := by linarith [hs.four_le_top]
    have e1 := hn.err_sub hs.exp q2 g1 htop
    have e2 := mul_le_mul_of_nonneg_left hqg hu.le
    refine ⟨(hn _ htop).1, ?_, ?_⟩
    · have := hn.mono (x := q - g) (y := 1) htop (by rw [abs_one]; linarith [hs.four_le_top]) (by linarith)
      rwa [hn.eq_self hs.one] at this
    · have e3 : D k - kneeRise c N k = (fl (q - g) - (q - g)) + ((q - (variation c k - variation c 0) / R) - (g - (k : ℝ) / ((N : ℝ) - 2))) := by
        show fl (q - g) - ((variation c k - variation c 0) / R - (k : ℝ) / ((N : ℝ) - 2)) = _
        ring
      rw [e3]
      refine (abs_add_le _ _).trans ?_
      have e4 := abs_sub (q - (variation c k - variation c 0) / R) (g - (k : ℝ) / ((N : ℝ) - 2))
      unfold kneeTol
      linarith
  have hlast : D (N - 1 - 1) = 0 := by
    have e1 : linspaceFl fl (N - 1) (N - 1 - 1) = 1 := if_pos rfl
    have e2 : fl (y (N - 1 - 1) - y 0) = w := by rw [show N - 1 - 1 = N - 2 by omega]
    simp only [hD]
    rw [e1, e2, div_self hw0.ne', hn.eq_self hs.one, sub_self, hn.zero hs.exp]
  have hne : (Finset.range (N - 1)).Nonempty := Finset.nonempty_range_iff.mpr hL.ne'
  obtain ⟨k0, hk0, hk0'⟩ := Finset.exists_mem_eq_sup' hne D
  rw [Finset.mem_range] at hk0
  set m := arrMax D (N - 1) hL with hm
  have hm' : m = D k0 := hk0'
  have hle : ∀ k, k < N - 1 → D k ≤ m := fun k hk => Finset.le_sup' D (Finset.mem_range.2 hk)
  refine ⟨m, truth (m > fl (m - fl (S / ((N : ℝ) - 2))) ∧ 0 < fl (m - fl (S / ((N : ℝ) - 2)))), ?_, by rw [truth_eq_true], ?_, ?_, ?_, ?_, k0, hk0, ?_⟩
  · unfold kneeDecideFl
    have hcy : (kneeYFl fl fun i => fl (mv.getD i 0 / ((i : ℝ) + 1))) = y := rfl
    simp only [← hNd, hL, dite_true, hcy, hmax, hmin, hcast]
    rw [if_neg hw0.ne']
    show Except.ok (truth (m > fl (m - fl (S / ((N : ℝ) - 2))) ∧ D (N - 1 - 1) < fl (m - fl (S / ((N : ℝ) - 2))))) = _
    rw [hlast]
  · rw [hm']; exact (hDk k0 hk0).1
  · rw [← hlast]; exact hle _ (by omega)
  · rw [hm']; exact (hDk k0 hk0).2.1
  · intro k hk
    have := (abs_le.1 (hDk k hk).2.2).1
    linarith [hle k hk]
  · rw [hm']
    have := (abs_le.1 (hDk k0 hk0).2.2).2
    linarith

/-- **C162**, no false alarm: if the criterion accepts in rounded arithmetic, then `S > 0` and the exact curve rises above the line by more than `S / (N - 2)` less the
error bound. -/
theorem C162_sound (hn : φ.Nearest fl) (h : KneeRoom φ mv.length (scaledValues mv) M) (hR : 0 < kneeRange (scaledValues mv) mv.length)
    (hE : 5 * kneeErr φ mv.length (scaledValues mv) M ≤ kneeRange (scaledValues mv) mv.length) (hS2 : |S / ((mv.length : ℝ) - 2)| ≤ φ.top / 2)
    (hb : kneeDecideFl fl S mv = .ok true) :
    0 < S ∧ ∃ k, k < mv.length - 1 ∧
      S / ((mv.length : ℝ) - 2) - (2 * φ.u + kneeTol φ mv.length (scaledValues mv) M) < kneeRise (scaledValues mv) mv.length k := by
  obtain ⟨m, b, h1, h2, hm, m0, m1, -, k, hk, hk'⟩ := kneeDecideFl_run hn h hR hE S
  obtain rfl : b = true := (Except.ok.inj (h1.symm.trans hb))
  obtain ⟨a1, a2⟩ := h2.1 rfl
  have hN3 := h.N3
  have hpos : (0 : ℝ) < (mv.length : ℝ) - 2 := by linarith
  have hs := h.small
  have ht := hs.four_le_top
  have hu := φ.u_pos
  have hsu := hs.u
  have hse := hs.eta
  have hη : φ.eta ≤ φ.u := by
    have := h.Neta
    have := le_mul_of_one_le_left φ.eta_pos.le (by linarith : (1 : ℝ) ≤ mv.length)
    linarith
  set s := S / ((mv.length : ℝ) - 2) with hsd
  have hS : |s| ≤ φ.top := by linarith
  have e1 := hn.err hs.exp hS
  have us2 := mul_le_mul_of_nonneg_right hsu (abs_nonneg s)
  obtain ⟨s1, s2⟩ := abs_le.1 hS2
  have hov : |m - fl s| ≤ φ.top := by
    obtain ⟨f1, f2⟩ := abs_le.1 e1
    rw [abs_le]; constructor <;> linarith
  have hfs : fl s < m := by
    by_contra hneg
    have := hn.mono (x := m - fl s) (y := 0) hov (by rw [abs_zero]; exact φ.top_nonneg) (by linarith)
    rw [hn.zero hs.exp] at this
    linarith
  have hS0 : 0 < S := by
    by_contra hneg
    have hs0 : s ≤ 0 := div_nonpos_of_nonpos_of_nonneg (by linarith) hpos.le
    have f0 : fl s ≤ 0 := by
      have := hn.mono (x := s) (y := 0) hS (by rw [abs_zero]; exact φ.top_nonneg) hs0
      rwa [hn.zero hs.exp] at this
    have := hn.mono (x := m) (y := m - fl s) (by rw [abs_of_nonneg m0]; linarith) hov (by linarith)
    rw [hn.eq_self hm] at this
    linarith
  refine ⟨hS0, k, hk, ?_⟩
  have hs0 : 0 < s := div_pos hS0 hpos
  have hs1 : s ≤ 1 := by
    by_contra hneg
    have := hn.mono (x := 1) (y := s) (by rw [abs_one]; linarith) hS (by linarith)
    rw [hn.eq_self hs.one] at this
    linarith
  rw [abs_of_pos hs0] at e1
  have us : φ.u * s ≤ φ.u * 1 := mul_le_mul_of_nonneg_left hs1 hu.le
  have := (abs_le.1 e1).1
  linarith

/-- **C162**, detection: if the exact curve rises above the line by more than `S / (N - 2)` and the error bound, and `S / (N - 2)` is at least `4 u`, the criterion accepts in rounded
arithmetic. -/
theorem C162_complete (hn : φ.Nearest fl) (h : KneeRoom φ mv.length (scaledValues mv) M) (hR : 0 < kneeRange (scaledValues mv) mv.length)
    (hE : 5 * kneeErr φ mv.length (scaledValues mv) M ≤ kneeRange (scaledValues mv) mv.length) (hS0 : 4 * φ.u ≤ S / ((mv.length : ℝ) - 2)) (hS1 : S / ((mv.length : ℝ) - 2) ≤ 1)
    (k : ℕ) (hk : k < mv.length - 1) (hk' : S / ((mv.length : ℝ) - 2) + (2 * φ.u + kneeTol φ mv.length (scaledValues mv) M) < kneeRise (scaledValues mv) mv.length k) :
    kneeDecideFl fl S mv = .ok true := by
  obtain ⟨m, b, h1, h2, hm, m0, m1, hall, -⟩ := kneeDecideFl_run hn h hR hE S
  have hN3 := h.N3
  have hs := h.small
  have ht := hs.four_le_top
  have hu := φ.u_pos
  have hsu := hs.u
  have hη : φ.eta ≤ φ.u := by
    have := h.Neta
    have := le_mul_of_one_le_left φ.eta_pos.le (by linarith : (1 : ℝ) ≤ mv.length)
    linarith
  set s := S / ((mv.length : ℝ) - 2) with hsd
  have hs0 : 0 < s := by linarith
  have hst : |s| ≤ φ.top := by rw [abs_of_pos hs0]; linarith
  have e1 := hn.err hs.exp hst
  rw [abs_of_pos hs0] at e1
  have us : φ.u * s ≤ φ.u * 1 := mul_le_mul_of_nonneg_left hS1 hu.le
  obtain ⟨p1, p2⟩ := abs_le.1 e1
  have hmk := hall k hk
  have hlt : fl s < m := by linarith
  have hf0 : 2 * φ.u ≤ fl s := by linarith
  have e2 := hn.err_sub hs.exp hm (hn _ hst).1 (by rw [abs_le]; constructor <;> linarith)
  rw [abs_of_pos (by linarith : 0 < m - fl s)] at e2
  obtain ⟨p3, p4⟩ := abs_le.1 e2
  have e3 := mul_le_mul_of_nonneg_left (show m - fl s ≤ 1 by linarith) hu.le
  have e4 := mul_le_mul_of_nonneg_right hsu (show 0 ≤ m - fl s by linarith)
  rw [h1, h2.2 ⟨by linarith, by linarith⟩]

/-- Numbers of the format that are at least a quarter are multiples of `u / 2`. -/
theorem mem_quarter {x : ℝ} (hx : φ.Mem x) (h : 1 / 4 ≤ x) : ∃ j : ℤ, x = j * (φ.u / 2) := by
  obtain ⟨m, e, hm, -, -, rfl⟩ := hx
  have hlt : (2 : ℝ) ^ (-2 : ℤ) < (2 : ℝ) ^ ((φ.p : ℤ) + e) := by
    have h1 : (m : ℝ) < 2 ^ φ.p := by
      have := lt_of_abs_lt hm
      exact_mod_cast this
    have h2 : (0 : ℝ) < 2 ^ e := by positivity
    have h3 := mul_lt_mul_of_pos_right h1 h2
    rw [zpow_add₀ two_ne_zero, zpow_natCast]
    have : (2 : ℝ) ^ (-2 : ℤ) = 1 / 4 := by norm_num
    rw [this]
    linarith
  have he : -2 < (φ.p : ℤ) + e := (zpow_lt_zpow_iff_right₀ (by norm_num)).1 hlt
  refine ⟨m * 2 ^ (e + φ.p + 1).toNat, ?_⟩
  have : (2 : ℝ) ^ e = 2 ^ (e + φ.p + 1).toNat * (φ.u / 2) := by
    unfold Fmt.u
    rw [← zpow_natCast, Int.toNat_of_nonneg (by omega)]
    have : (2 : ℝ) ^ (-(φ.p : ℤ)) / 2 = 2 ^ (-(φ.p : ℤ) - 1) := by rw [zpow_sub₀ two_ne_zero, zpow_one]
    rw [this, ← zpow_add₀ two_ne_zero]
    congr 1
    ring
  rw [this]
  push_cast
  ring

/-- **C162**, thresholds below the precision: with `S / (N - 2) ≤ u / 16` the criterion never accepts a curve that rises by more than half (and the error bound) above the line, although
in exact arithmetic it does for every positive `S`: subtracting the threshold does not change the maximum, and `max_diff > threshold` fails. -/
theorem C162_absorbed (hn : φ.Nearest fl) (h : KneeRoom φ mv.length (scaledValues mv) M) (hR : 0 < kneeRange (scaledValues mv) mv.length)
    (hE : 5 * kneeErr φ mv.length (scaledValues mv) M ≤ kneeRange (scaledValues mv) mv.length) (hη : φ.eta ≤ φ.u / 16) (hS0 : 0 < S) (hS1 : S / ((mv.length : ℝ) - 2) ≤ φ.u / 16)
    (k : ℕ) (hk : k < mv.length - 1) (hk' : 1 / 2 + kneeTol φ mv.length (scaledValues mv) M < kneeRise (scaledValues mv) mv.length k) :
    kneeDecideFl fl S mv = .ok false ∧ kneeDecide S (scaledValues mv) mv.length = .ok true := by
  obtain ⟨m, b, h1, h2, hm, m0, m1, hall, -⟩ := kneeDecideFl_run hn h hR hE S
  have hN3 := h.N3
  have hpos : (0 : ℝ) < (mv.length : ℝ) - 2 := by linarith
  have hs := h.small
  have ht := hs.four_le_top
  have hu := φ.u_pos
  have hsu := hs.u
  set s := S / ((mv.length : ℝ) - 2) with hsd
  have hs0 : 0 < s := div_pos hS0 hpos
  have hst : |s| ≤ φ.top := by rw [abs_of_pos hs0]; linarith
  have e1 := hn.err hs.exp hst
  rw [abs_of_pos hs0] at e1
  have us := mul_le_mul_of_nonneg_right hsu hs0.le
  obtain ⟨p1, p2⟩ := abs_le.1 e1
  have hm2 : 1 / 2 < m := by linarith [hall k hk]
  have hf0 : 0 ≤ fl s := hn.nonneg hs.exp ((le_abs_self _).trans hst) hs0.le
  have hf1 : fl s < φ.u / 4 := by linarith
  constructor
  · rw [h1]
    congr 1
    by_contra hb
    obtain ⟨a1, a2⟩ := h2.1 (by simpa using hb)
    obtain ⟨b1, b2⟩ := hn (m - fl s) (by rw [abs_le]; constructor <;> linarith)
    have b3 := b2 m hm
    set x := fl (m - fl s)
    have b4 : |m - fl s - m| = fl s := by
      rw [show m - fl s - m = -fl s by ring, abs_neg, abs_of_nonneg hf0]
    rw [b4] at b3
    have b5 := (abs_le.1 b3).2
    obtain ⟨i, hi⟩ := mem_quarter hm (by linarith)
    obtain ⟨j, hj⟩ := mem_quarter b1 (by linarith)
    have hji : j < i := by
      rw [hi, hj] at a1
      have := lt_of_mul_lt_mul_right a1 (by linarith)
      exact_mod_cast this
    have hji' : (j : ℝ) + 1 ≤ i := by exact_mod_cast hji
    have := mul_le_mul_of_nonneg_right hji' (by linarith : 0 ≤ φ.u / 2)
    rw [← hi] at this
    linarith
  · obtain ⟨b', hb', hiff⟩ := kneeDecide_iff S (scaledValues mv) mv.length h.len
    rw [hb', hiff.2 ⟨hS0, by unfold kneeRange at hR; linarith, k, hk, ?_⟩]
    have htol : 0 ≤ kneeTol φ mv.length (scaledValues mv) M := by
      have hY0 : 0 ≤ variation (scaledValues mv) (mv.length - 2) := Finset.sum_nonneg fun i _ => abs_nonneg _
      unfold kneeTol kneeErr
      have := div_nonneg (mul_nonneg (mul_nonneg (by norm_num : (0 : ℝ) ≤ 8) (mul_nonneg (Nat.cast_nonneg mv.length) hu.le)) (add_nonneg h.M0 hY0)) hR.le
      linarith
    have : s < kneeRise (scaledValues mv) mv.length k := by linarith
    exact this

/-- **C162**, flat curves: if the exact curve has no rise after its first step, the criterion does not accept. -/
theorem C162_flat (hn : φ.Nearest fl) (h : KneeRoom φ mv.length (scaledValues mv) M) (hR : kneeRange (scaledValues mv) mv.length = 0) (S : ℝ) :
    kneeDecideFl fl S mv = .ok false := by
  have h3 := h.len
  have hL : 0 < mv.length - 1 := by omega
  have hex := h.small.exp
  set N := mv.length with hNd
  set c := scaledValues mv with hc
  set y := kneeYFl fl fun i => fl (c i) with hy
  have hconst : ∀ k, k < N - 2 → c (k + 2) = c (k + 1) := by
    intro k hk
    have h1 : variation c (k + 1) = variation c k + |c (k + 2) - c (k + 1)| := variation_succ c k
    have hmono : ∀ i j, i ≤ j → variation c i ≤ variation c j := fun i j hij =>
      Finset.sum_le_sum_of_subset_of_nonneg (Finset.range_subset_range.2 (by omega)) fun _ _ _ => abs_nonneg _
    have h2 := hmono 0 k (Nat.zero_le k)
    have h4 := hmono (k + 1) (N - 2) (by omega)
    have h5 : variation c (N - 2) - variation c 0 = 0 := hR
    have := abs_nonneg (c (k + 2) - c (k + 1))
    exact sub_eq_zero.1 (abs_eq_zero.1 (by linarith))
  have hmem : φ.Mem (y 0) := by
    obtain ⟨a1, a2, a3⟩ := knee_point hn h (i := 0) (by omega)
    obtain ⟨b1, b2, b3⟩ := knee_point hn h (i := 1) (by omega)
    have := abs_sub (fl (c 1)) (fl (c 0))
    have ht := h.top
    have : 3 * M ≤ N * M := mul_le_mul_of_nonneg_right h.N3 h.M0
    exact Mem.abs (hn _ (by linarith [h.M0])).1
  have hyk : ∀ k, k < N - 1 → y k = y 0 := by
    intro k
    induction k with
    | zero => intro _; rfl
    | succ k ih =>
      intro hk
      have e : y (k + 1) = fl (y k + |fl (fl (c (k + 2)) - fl (c (k + 1)))|) := rfl
      rw [e, ih (by omega), hconst k (by omega), sub_self, hn.zero hex, abs_zero, add_zero, hn.eq_self hmem]
  have hmax : arrMax y (N - 1) hL = y 0 := by
    apply le_antisymm
    · exact Finset.sup'_le _ _ fun k hk => (hyk k (by simpa using hk)).le
    · exact Finset.le_sup' _ (by simp; omega)
  have hmin : arrMin y (N - 1) hL = y 0 := by
    apply le_antisymm
    · exact Finset.inf'_le _ (by simp; omega)
    · exact Finset.le_inf' _ _ fun k hk => (hyk k (by simpa using hk)).ge
  unfold kneeDecideFl
  have hcy : (kneeYFl fl fun i => fl (mv.getD i 0 / ((i : ℝ) + 1))) = y := rfl
  simp only [← hNd, hL, dite_true, hcy, hmax, hmin, sub_self, hn.zero hex, if_true]

/-- C162: with nothing recorded or fewer than three values, rounding has no influence; otherwise the decision is made on the flattened values. -/
theorem C162_call (fl : ℝ → ℝ) {d : ℕ} (S : ℝ) (est : EstView d) :
    (est.values = none → kneeCallFl fl S est = .ok false) ∧
    (∀ v, est.values = some v → v.length < 3 → kneeCallFl fl S est = .ok false) ∧
    (∀ v, est.values = some v → 3 ≤ v.length → kneeCallFl fl S est = kneeDecideFl fl S (v.flatMap fun row => List.ofFn row)) ∧
    (∀ v, est.values = some v → 3 ≤ v.length → d = 0 → kneeCallFl fl S est = .error .value) := by
  refine ⟨fun h => by simp [kneeCallFl, h], fun v h hv => by simp [kneeCallFl, h, hv], fun v h hv => ?_, fun v h hv hd => ?_⟩
  · simp only [kneeCallFl, h]
    rw [if_neg (by omega)]
  · subst hd
    simp only [kneeCallFl, h]
    rw [if_neg (by omega)]
    have : (v.flatMap fun row => List.ofFn row) = [] := by simp
    rw [this]
    rfl

/-- The values `0, 2, 6, 8, 10`: divided by `1, ..., 5` they are `0, 1, 2, 2, 2`. -/
theorem kneeEx_scaled : scaledValues [0, 2, 6, 8, 10] 0 = 0 ∧ scaledValues [0, 2, 6, 8, 10] 1 = 1 ∧ scaledValues [0, 2, 6, 8, 10] 2 = 2 ∧
    scaledValues [0, 2, 6, 8, 10] 3 = 2 ∧ scaledValues [0, 2, 6, 8, 10] 4 = 2 := by
  unfold scaledValues
  norm_num [List.getD]

theorem kneeEx_room : KneeRoom binary64 [(0 : ℝ), 2, 6, 8, 10].length (scaledValues [0, 2, 6, 8, 10]) 2 ∧ variation (scaledValues [0, 2, 6, 8, 10]) 3 = 2 ∧
    kneeRange (scaledValues [0, 2, 6, 8, 10]) 5 = 1 ∧ kneeRise (scaledValues [0, 2, 6, 8, 10]) 5 1 = 2 / 3 ∧ binary64.u = 2 ^ (-53 : ℤ) ∧ binary64.eta ≤ 2 ^ (-60 : ℤ) := by
  obtain ⟨c0, c1, c2, c3, c4⟩ := kneeEx_scaled
  have hu : binary64.u = 2 ^ (-53 : ℤ) := rfl
  have he : binary64.eta ≤ 2 ^ (-60 : ℤ) := by
    have : binary64.eta = (2 : ℝ) ^ (-1075 : ℤ) := rfl
    rw [this]
    exact zpow_le_zpow_right₀ (by norm_num) (by norm_num)
  have ht : (1024 : ℝ) ≤ binary64.top := by
    have h1 : (1 : ℝ) ≤ 2 ^ (971 : ℤ) := one_le_zpow₀ (by norm_num) (by norm_num)
    have h2 : binary64.top = (2 ^ 53 - 1) * (2 : ℝ) ^ (971 : ℤ) := rfl
    rw [h2]
    generalize (2 : ℝ) ^ (971 : ℤ) = z at h1
    linarith
  have hu1 : binary64.u = 1 / 9007199254740992 := by rw [hu]; norm_num
  have he1 : binary64.eta ≤ 1 / 1152921504606846976 := he.trans (by norm_num)
  set c := scaledValues [0, 2, 6, 8, 10] with hc
  have v0 : variation c 0 = 1 := by simp [variation, c0, c1]
  have v1 : variation c 1 = 2 := by rw [variation_succ, v0, c1, c2]; norm_num
  have v2 : variation c 2 = 2 := by rw [variation_succ, v1, c2, c3]; norm_num
  have v3 : variation c 3 = 2 := by rw [variation_succ, v2, c3, c4]; norm_num
  refine ⟨⟨binary64_small, by simp, ?_, ?_, ?_, ?_, ?_⟩, v3, ?_, ?_, hu, he⟩
  · simp only [List.length_cons, List.length_nil]; rw [hu1]; norm_num
  · simp only [List.length_cons, List.length_nil]; push_cast; linarith
  · intro i hi
    simp only [List.length_cons, List.length_nil] at hi
    interval_cases i
    · rw [c0]; norm_num
    · rw [c1]; norm_num
    · rw [c2]; norm_num
    · rw [c3]; norm_num
    · rw [c4]; norm_num
  · linarith
  · simp only [List.length_cons, List.length_nil]; push_cast; linarith
  · show variation c 3 - variation c 0 = 1
    rw [v3, v0]; norm_num
  · show (variation c 1 - variation c 0) / (variation c 3 - variation c 0) - ((1 : ℕ) : ℝ) / (((5 : ℕ) : ℝ) - 2) = 2 / 3
    rw [v1, v3, v0]; norm_num

/-- In binary64, with the values `0, 2, 6, 8, 10`: the criterion accepts with `S = 1` and does not with `S = 1e-17`, with which it would in exact arithmetic. -/
example (fl : ℝ → ℝ) (hn : binary64.Nearest fl) : kneeDecideFl fl 1 [0, 2, 6, 8, 10] = .ok true ∧
    kneeDecideFl fl (1 / 10 ^ 17) [0, 2, 6, 8, 10] = .ok false ∧ kneeDecide (1 / 10 ^ 17) (scaledValues [0, 2, 6, 8, 10]) 5 = .ok true := by
  obtain ⟨hroom, hv, hR, hr, hu, he⟩ := kneeEx_room
  have hu1 : binary64.u = 1 / 9007199254740992 := by rw [hu]; norm_num
  have he1 : binary64.eta ≤ 1 / 1152921504606846976 := he.trans (by norm_num)
  have hl : [(0 : ℝ), 2, 6, 8, 10].length = 5 := rfl
  have hE : kneeErr binary64 5 (scaledValues [0, 2, 6, 8, 10]) 2 = 160 / 9007199254740992 := by
    show 8 * (((5 : ℕ) : ℝ) * binary64.u) * (2 + variation _ 3) = _
    rw [hv, hu1]; norm_num
  have hT : kneeTol binary64 5 (scaledValues [0, 2, 6, 8, 10]) 2 = 1920 / 9007199254740992 := by
    unfold kneeTol
    rw [hE, hR]; norm_num
  have hcast : (([(0 : ℝ), 2, 6, 8, 10].length : ℕ) : ℝ) - 2 = 3 := by rw [hl]; norm_num
  refine ⟨C162_complete hn hroom (by rw [hl, hR]; norm_num) (by rw [hl, hR, hE]; norm_num) ?_ ?_ 1 (by rw [hl]; norm_num) ?_,
    C162_absorbed hn hroom (by rw [hl, hR]; norm_num) (by rw [hl, hR, hE]; norm_num) ?_ (by norm_num) ?_ 1 (by rw [hl]; norm_num) ?_⟩
  · rw [hcast, hu1]; norm_num
  · rw [hcast]; norm_num
  · rw [hcast, hl, hT, hr, hu1]; norm_num
  · rw [hu1]; exact he1.trans (by norm_num)
  · rw [hcast, hu1]; norm_num
  · rw [hl, hT, hr]; norm_num

end Primate
