import Verif.Model.FttrFl
import Verif.Props.HutchFl
import Verif.Props.SpecialFl

/-!
# C163: the weights of `fttr` in rounded arithmetic
-/

noncomputable section

namespace Primate

open Spec

variable {φ : Fmt} {fl : ℝ → ℝ} {sum : List ℝ → ℝ} {x m : ℝ} {a b : ℕ → ℝ} {n : ℕ}

/-- No overflow while the polynomials are evaluated at `x`. -/
structure Spec.FttrNode (φ : Fmt) (fl : ℝ → ℝ) (n : ℕ) (x m : ℝ) (a b : ℕ → ℝ) : Prop where
  memx : φ.Mem x
  mema : ∀ j < n, φ.Mem (a j)
  memm : φ.Mem m
  sub : ∀ j < n, |x - a j| ≤ φ.top
  first : 1 < n → |fl (x - a 0) * m| ≤ φ.top ∧ |fl (fl (x - a 0) * m) / b 1| ≤ φ.top
  quot : ∀ j, j + 2 < n → |fl (x - a (j + 1)) / b (j + 2)| ≤ φ.top ∧ |-b (j + 1) / b (j + 2)| ≤ φ.top
  prod : ∀ j, j + 2 < n → |fl (fl (x - a (j + 1)) / b (j + 2)) * orthoPolyFl fl x m a b (j + 1)| ≤ φ.top ∧
    |fl (-b (j + 1) / b (j + 2)) * orthoPolyFl fl x m a b j| ≤ φ.top
  add : ∀ j, j + 2 < n → |fl (fl (fl (x - a (j + 1)) / b (j + 2)) * orthoPolyFl fl x m a b (j + 1)) + fl (fl (-b (j + 1) / b (j + 2)) * orthoPolyFl fl x m a b j)| ≤ φ.top
  sq : ∀ j < n, orthoPolyFl fl x m a b j * orthoPolyFl fl x m a b j ≤ φ.top
  sum : (1 + φ.u) ^ n * ((List.range n).map fun j => fl (orthoPolyFl fl x m a b j * orthoPolyFl fl x m a b j)).sum ≤ φ.top

/-- Two roundings, the second of a product. -/
theorem fttr_mul_near (hn : φ.Nearest fl) (h : SmallOk φ) {s s' p ε κ : ℝ} (hs : |s' - s| ≤ ε * |s| + κ) (ht : |s' * p| ≤ φ.top) :
    |fl (s' * p) - s * p| ≤ ((1 + φ.u) * (1 + ε) - 1) * |s * p| + (1 + φ.u) * κ * |p| + φ.eta := by
  have hu := φ.u_pos
  have h1 := hn.err h.exp ht
  have h2 : |s'| ≤ (1 + ε) * |s| + κ := by
    have := abs_sub_abs_le_abs_sub s' s
    linarith
  have h3 : |s' * p - s * p| ≤ (ε * |s| + κ) * |p| := by
    rw [← sub_mul, abs_mul]
    exact mul_le_mul_of_nonneg_right hs (abs_nonneg p)
  have h4 : φ.u * |s' * p| ≤ φ.u * (((1 + ε) * |s| + κ) * |p|) := by
    rw [abs_mul]
    exact mul_le_mul_of_nonneg_left (mul_le_mul_of_nonneg_right h2 (abs_nonneg p)) hu.le
  have h5 := abs_sub_le (fl (s' * p)) (s' * p) (s * p)
  rw [abs_mul s p]
  calc _ ≤ _ := h5
    _ ≤ (φ.u * (((1 + ε) * |s| + κ) * |p|) + φ.eta) + (ε * |s| + κ) * |p| := by linarith
    _ = _ := by ring

/-- **C163**, recurrence: the computed values satisfy each step of the three-term recurrence up to a few roundings. -/
theorem C163_recurrence (hn : φ.Nearest fl) (h : SmallOk φ) (hx : FttrNode φ fl n x m a b) (hb : ∀ i, 1 ≤ i → i < n → b i ≠ 0) :
    orthoPolyFl fl x m a b 0 = m ∧
    (1 < n → |b 1 * orthoPolyFl fl x m a b 1 - (x - a 0) * m| ≤ 4 * φ.u * |(x - a 0) * m| + (2 + |b 1|) * φ.eta) ∧
    ∀ j, j + 2 < n → |b (j + 2) * orthoPolyFl fl x m a b (j + 2) - ((x - a (j + 1)) * orthoPolyFl fl x m a b (j + 1) - b (j + 1) * orthoPolyFl fl x m a b j)| ≤
      5 * φ.u * (|(x - a (j + 1)) * orthoPolyFl fl x m a b (j + 1)| + |b (j + 1) * orthoPolyFl fl x m a b j|) +
        |b (j + 2)| * (2 * |orthoPolyFl fl x m a b (j + 1)| + 2 * |orthoPolyFl fl x m a b j| + 3) * φ.eta := by
  have hu := φ.u_pos
  have hsu := h.u
  have he := φ.eta_pos
  refine ⟨rfl, fun h1 => ?_, fun j hj => ?_⟩
  · obtain ⟨t1, t2⟩ := hx.first h1
    have hb1 : b 1 ≠ 0 := hb 1 le_rfl h1
    have hbp : 0 < |b 1| := abs_pos.2 hb1
    have e1 := hn.err_sub h.exp hx.memx (hx.mema 0 (by omega)) (hx.sub 0 (by omega))
    have e2 := fttr_mul_near (κ := 0) hn h (by rw [add_zero]; exact e1) t1
    set y := fl (fl (x - a 0) * m)
    set z := (x - a 0) * m
    have e3 := hn.err h.exp t2
    rw [abs_div] at e3
    have e4 : |b 1 * fl (y / b 1) - y| ≤ φ.u * |y| + φ.eta * |b 1| := by
      have : b 1 * fl (y / b 1) - y = b 1 * (fl (y / b 1) - y / b 1) := by field_simp
      rw [this, abs_mul]
      have := mul_le_mul_of_nonneg_left e3 hbp.le
      have e5 : |b 1| * (φ.u * (|y| / |b 1|) + φ.eta) = φ.u * |y| + φ.eta * |b 1| := by field_simp
      linarith
    have e5 := abs_sub_le (b 1 * fl (y / b 1)) y z
    have e6 : |y| ≤ |z| + |y - z| := by linarith [abs_sub_abs_le_abs_sub y z]
    have z0 := abs_nonneg z
    have uz : φ.u * (φ.u * |z|) ≤ 1 / 64 * (φ.u * |z|) := mul_le_mul_of_nonneg_right hsu (by positivity)
    have e7 : |y - z| ≤ (2 + 1 / 64) * (φ.u * |z|) + φ.eta := by
      have : ((1 + φ.u) * (1 + φ.u) - 1) * |z| = 2 * (φ.u * |z|) + φ.u * (φ.u * |z|) := by ring
      linarith
    have e8 := mul_le_mul_of_nonneg_left e6 hu.le
    have e9 := mul_le_mul_of_nonneg_left e7 hu.le
    have e10 := mul_le_mul_of_nonneg_right hsu he.le
    show |b 1 * fl (y / b 1) - z| ≤ _
    nlinarith
  · obtain ⟨q1, q2⟩ := hx.quot j hj
    obtain ⟨p1, p2⟩ := hx.prod j hj
    have ha := hx.add j hj
    have hb2 : b (j + 2) ≠ 0 := hb _ (by omega) hj
    have hbp : 0 < |b (j + 2)| := abs_pos.2 hb2
    show |b (j + 2) * fl (fl (fl (fl (x - a (j + 1)) / b (j + 2)) * orthoPolyFl fl x m a b (j + 1)) + fl (fl (-b (j + 1) / b (j + 2)) * orthoPolyFl fl x m a b j)) - _| ≤ _
    set P := orthoPolyFl fl x m a b (j + 1)
    set Q := orthoPolyFl fl x m a b j
    set B := b (j + 2)
    set C := b (j + 1)
    set w := x - a (j + 1)
    have e1 : |fl w - w| ≤ φ.u * |w| := hn.err_sub h.exp hx.memx (hx.mema _ (by omega)) (hx.sub _ (by omega))
    have e2 : |fl (fl w / B) - w / B| ≤ ((1 + φ.u) * (1 + φ.u) - 1) * |w / B| + φ.eta := by
      have := fttr_mul_near (κ := 0) (p := 1 / B) hn h (by rw [add_zero]; exact e1) (by rw [mul_one_div]; exact q1)
      rw [mul_one_div, mul_one_div] at this
      linarith
    have e3 : |fl (-C / B) - -C / B| ≤ φ.u * |-C / B| + φ.eta := hn.err h.exp q2
    have e4 := fttr_mul_near hn h e2 p1
    have e5 := fttr_mul_near hn h e3 p2
    set X := fl (fl (fl w / B) * P)
    set Y := fl (fl (-C / B) * Q)
    have e6 : |fl (X + Y) - (X + Y)| ≤ φ.u * |X + Y| := hn.err_add h.exp (hn _ p1).1 (hn _ p2).1 ha
    set G := |w / B * P| with hG
    set H := |-C / B * Q| with hH
    have G0 : 0 ≤ G := abs_nonneg _
    have H0 : 0 ≤ H := abs_nonneg _
    have P0 := abs_nonneg P
    have Q0 := abs_nonneg Q
    have eX : |X - w / B * P| ≤ (3 + 1 / 16) * (φ.u * G) + (1 + 1 / 64) * (φ.eta * |P|) + φ.eta := by
      have u1 : φ.u * (φ.u * G) ≤ 1 / 64 * (φ.u * G) := mul_le_mul_of_nonneg_right hsu (by positivity)
      have u2 : φ.u * (φ.u * (φ.u * G)) ≤ 1 / 64 * (φ.u * (φ.u * G)) := mul_le_mul_of_nonneg_right hsu (by positivity)
      have u3 : φ.u * (φ.eta * |P|) ≤ 1 / 64 * (φ.eta * |P|) := mul_le_mul_of_nonneg_right hsu (by positivity)
      have : 0 ≤ φ.u * G := by positivity
      have e : ((1 + φ.u) * (1 + ((1 + φ.u) * (1 + φ.u) - 1)) - 1) * G + (1 + φ.u) * φ.eta * |P| =
        3 * (φ.u * G) + 3 * (φ.u * (φ.u * G)) + φ.u * (φ.u * (φ.u * G)) + φ.eta * |P| + φ.u * (φ.eta * |P|) := by ring
      linarith
    have eY : |Y - -C / B * Q| ≤ (3 + 1 / 16) * (φ.u * H) + (1 + 1 / 64) * (φ.eta * |Q|) + φ.eta := by
      have u1 : φ.u * (φ.u * H) ≤ 1 / 64 * (φ.u * H) := mul_le_mul_of_nonneg_right hsu (by positivity)
      have u3 : φ.u * (φ.eta * |Q|) ≤ 1 / 64 * (φ.eta * |Q|) := mul_le_mul_of_nonneg_right hsu (by positivity)
      have : 0 ≤ φ.u * H := by positivity
      have e : ((1 + φ.u) * (1 + φ.u) - 1) * H + (1 + φ.u) * φ.eta * |Q| = 2 * (φ.u * H) + φ.u * (φ.u * H) + φ.eta * |Q| + φ.u * (φ.eta * |Q|) := by ring
      linarith
    have tot : |fl (X + Y) - (w / B * P + -C / B * Q)| ≤ 5 * φ.u * (G + H) + (2 * |P| + 2 * |Q| + 3) * φ.eta := by
      have f1 : |X + Y - (w / B * P + -C / B * Q)| ≤ |X - w / B * P| + |Y - -C / B * Q| := by
        rw [add_sub_add_comm]; exact abs_add_le _ _
      have f2 : |X + Y| ≤ (G + H) + |X + Y - (w / B * P + -C / B * Q)| := by
        have := abs_sub_abs_le_abs_sub (X + Y) (w / B * P + -C / B * Q)
        have := abs_add_le (w / B * P) (-C / B * Q)
        linarith
      have f3 := abs_sub_le (fl (X + Y)) (X + Y) (w / B * P + -C / B * Q)
      set Z := |X + Y - (w / B * P + -C / B * Q)|
      have f4 : φ.u * |X + Y| ≤ φ.u * (G + H) + 1 / 64 * Z := by
        have := mul_le_mul_of_nonneg_left f2 hu.le
        have := mul_le_mul_of_nonneg_right hsu (abs_nonneg _ : 0 ≤ Z)
        linarith
      have g1 : 0 ≤ φ.u * G := by positivity
      have g2 : 0 ≤ φ.u * H := by positivity
      have g3 : 0 ≤ φ.eta * |P| := by positivity
      have g4 : 0 ≤ φ.eta * |Q| := by positivity
      linarith
    have k1 : B * fl (X + Y) - (w * P - C * Q) = B * (fl (X + Y) - (w / B * P + -C / B * Q)) := by
      field_simp
      ring
    rw [k1, abs_mul]
    have k2 := mul_le_mul_of_nonneg_left tot hbp.le
    have k3 : |B| * G = |w * P| := by rw [hG, ← abs_mul]; congr 1; field_simp
    have k4 : |B| * H = |C * Q| := by rw [hH, ← abs_mul, ← abs_neg]; congr 1; field_simp
    rw [← k3, ← k4]
    linarith

theorem orthoPolyFl_mem (hn : φ.Nearest fl) (hx : FttrNode φ fl n x m a b) {j : ℕ} (hj : j < n) : φ.Mem (orthoPolyFl fl x m a b j) := by
  match j with
  | 0 => exact hx.memm
  | 1 => exact (hn _ (hx.first hj).2).1
  | j + 2 => exact (hn _ (hx.add j hj)).1

/-- A rounded sum of nonnegative numbers is at least each of them. -/
theorem SumOrder.ge (hn : φ.Nearest fl) (he : φ.emin ≤ φ.emax) {xs : List ℝ} {s : ℝ} (h : SumOrder fl xs s)
    (hF : ∀ x ∈ xs, φ.Mem x) (h0 : ∀ x ∈ xs, 0 ≤ x) (htop : (1 + φ.u) ^ xs.length * xs.sum ≤ φ.top) : ∀ x ∈ xs, x ≤ s := by
  have hu := φ.u_pos
  have habs : ∀ l : List ℝ, (∀ x ∈ l, 0 ≤ x) → (l.map abs).sum = l.sum := fun l hl => by
    congr 1
    conv_rhs => rw [← List.map_id l]
    exact List.map_congr_left fun x hx => abs_of_nonneg (hl x hx)
  have hsum : ∀ l : List ℝ, (∀ x ∈ l, 0 ≤ x) → 0 ≤ l.sum := fun l hl => List.sum_nonneg hl
  induction h with
  | single x => intro y hy; simp at hy; exact hy.le
  | @node xs ys s t h1 h2 ih1 ih2 =>
    have Fx : ∀ x ∈ xs, φ.Mem x := fun x hx => hF x (by simp [hx])
    have Fy : ∀ x ∈ ys, φ.Mem x := fun x hx => hF x (by simp [hx])
    have Px : ∀ x ∈ xs, 0 ≤ x := fun x hx => h0 x (by simp [hx])
    have Py : ∀ x ∈ ys, 0 ≤ x := fun x hx => h0 x (by simp [hx])
    have l1 := h1.length_pos
    have l2 := h2.length_pos
    rw [List.length_append, List.sum_append] at htop
    have X0 := hsum xs Px
    have Y0 := hsum ys Py
    have one : ∀ i j : ℕ, i ≤ j → (1 + φ.u) ^ i ≤ (1 + φ.u) ^ j := fun i j hij => pow_le_pow_right₀ (by linarith) hij
    have tx : (1 + φ.u) ^ xs.length * xs.sum ≤ φ.top := by
      refine le_trans ?_ htop
      exact mul_le_mul (one _ _ (by omega)) (by linarith) X0 (by positivity)
    have ty : (1 + φ.u) ^ ys.length * ys.sum ≤ φ.top := by
      refine le_trans ?_ htop
      exact mul_le_mul (one _ _ (by omega)) (by linarith) Y0 (by positivity)
    have ex := SumOrder.err hn he h1 Fx (by rw [habs xs Px]; exact tx)
    have ey := SumOrder.err hn he h2 Fy (by rw [habs ys Py]; exact ty)
    rw [habs xs Px] at ex
    rw [habs ys Py] at ey
    have s0 := SumOrder.nonneg hn he h1 Fx Px (by rw [habs xs Px]; exact tx)
    have t0 := SumOrder.nonneg hn he h2 Fy Py (by rw [habs ys Py]; exact ty)
    have sx : s ≤ (1 + φ.u) ^ (xs.length + ys.length) * xs.sum := by
      have e1 := (abs_le.1 ex.2).2
      have e2 := mul_le_mul_of_nonneg_right (one (xs.length - 1) (xs.length + ys.length) (by omega)) X0
      linarith
    have sy : t ≤ (1 + φ.u) ^ (xs.length + ys.length) * ys.sum := by
      have e1 := (abs_le.1 ey.2).2
      have e2 := mul_le_mul_of_nonneg_right (one (ys.length - 1) (xs.length + ys.length) (by omega)) Y0
      linarith
    have hst : |s + t| ≤ φ.top := by rw [abs_of_nonneg (by linarith)]; linarith
    have gs : s ≤ fl (s + t) := by
      have := hn.mono (x := s) (y := s + t) (by rw [abs_of_nonneg s0]; rw [abs_of_nonneg (by linarith)] at hst; linarith) hst (by linarith)
      rwa [hn.eq_self ex.1] at this
    have gt : t ≤ fl (s + t) := by
      have := hn.mono (x := t) (y := s + t) (by rw [abs_of_nonneg t0]; rw [abs_of_nonneg (by linarith)] at hst; linarith) hst (by linarith)
      rwa [hn.eq_self ey.1] at this
    intro y hy
    rw [List.mem_append] at hy
    rcases hy with hy | hy
    · exact (ih1 Fx Px tx y hy).trans gs
    · exact (ih2 Fy Py ty y hy).trans gt
  | perm p h ih =>
    intro y hy
    exact ih (fun x hx => hF x (p.subset hx)) (fun x hx => h0 x (p.subset hx)) (by rw [p.length_eq, p.sum_eq]; exact htop) y (p.symm.subset hy)

/-- The computed sum `mu` of the magnitudes of the nodes is well inside the range of the format. -/
structure Spec.FttrScale (φ : Fmt) (mu : ℝ) : Prop where
  pos : 0 < mu
  eta : 16 * φ.eta ≤ φ.u
  low : 16 * φ.eta ≤ φ.u * mu
  high : 16 * (φ.eta * mu) ≤ φ.u
  top : 2 * mu ≤ φ.top
  inv : 2 ≤ φ.top * mu

/-- The first polynomial is `1 / sqrt mu` up to the roundings. -/
theorem fttr_start (hn : φ.Nearest fl) (h : SmallOk φ) {mu : ℝ} (hm : FttrScale φ mu) :
    0 < fl (Real.sqrt mu) ∧ 0 < fl (1 / fl (Real.sqrt mu)) ∧ |fl (1 / fl (Real.sqrt mu)) ^ 2 * mu - 1| ≤ 5 * φ.u := by
  have hu := φ.u_pos
  have hsu := h.u
  have he := φ.eta_pos
  have ht := h.four_le_top
  have hmu := hm.pos
  set z := Real.sqrt mu with hz
  have z0 : 0 < z := Real.sqrt_pos.2 hmu
  have zz : z * z = mu := Real.mul_self_sqrt hmu.le
  -- bounds of the root
  have hlow : 16 * φ.eta ≤ φ.u * z := by
    rcases le_total z 1 with h1 | h1
    · have : mu ≤ z := by rw [← zz]; nlinarith
      exact hm.low.trans (mul_le_mul_of_nonneg_left this hu.le)
    · exact hm.eta.trans (le_mul_of_one_le_right hu.le h1)
  have hhigh : 16 * (φ.eta * z) ≤ φ.u := by
    rcases le_total z 1 with h1 | h1
    · have := mul_le_mul_of_nonneg_left h1 he.le
      linarith [hm.eta]
    · have : z ≤ mu := by rw [← zz]; nlinarith
      have := mul_le_mul_of_nonneg_left this he.le
      linarith [hm.high]
  have htop : z ≤ φ.top := by
    rcases le_total z 1 with h1 | h1
    · linarith
    · have : z ≤ mu := by rw [← zz]; nlinarith
      linarith [hm.top]
  have hrec : 2 ≤ φ.top * z := by
    rcases le_total z 1 with h1 | h1
    · have : mu ≤ z := by rw [← zz]; nlinarith
      exact hm.inv.trans (mul_le_mul_of_nonneg_left this φ.top_nonneg)
    · have := mul_le_mul_of_nonneg_left h1 φ.top_nonneg
      linarith
  have e1 := hn.err h.exp (x := z) (by rwa [abs_of_pos z0])
  rw [abs_of_pos z0] at e1
  obtain ⟨a1, a2⟩ := abs_le.1 e1
  set q := fl z
  have uz : φ.u * z ≤ 1 / 64 * z := mul_le_mul_of_nonneg_right hsu z0.le
  have q1 : q ≤ z + 17 / 16 * (φ.u * z) := by linarith
  have q2 : z - 17 / 16 * (φ.u * z) ≤ q := by linarith
  have q0 : 0 < q := by linarith
  have hqt : |1 / q| ≤ φ.top := by
    rw [abs_of_pos (by positivity), div_le_iff₀ q0]
    have : φ.top * (z / 2) ≤ φ.top * q := mul_le_mul_of_nonneg_left (by linarith) φ.top_nonneg
    linarith
  have e2 := hn.err h.exp hqt
  rw [abs_of_pos (by positivity : 0 < 1 / q)] at e2
  set r := fl (1 / q)
  have e3 : |r * q - 1| ≤ 9 / 8 * φ.u := by
    have : r * q - 1 = (r - 1 / q) * q := by field_simp
    rw [this, abs_mul, abs_of_pos q0]
    have k1 := mul_le_mul_of_nonneg_right e2 q0.le
    have k2 : (φ.u * (1 / q) + φ.eta) * q = φ.u + φ.eta * q := by field_simp
    have k3 : φ.eta * q ≤ φ.eta * (2 * z) := mul_le_mul_of_nonneg_left (by linarith) he.le
    linarith
  obtain ⟨b1, b2⟩ := abs_le.1 e3
  have r0 : 0 < r := by
    by_contra hr
    have := mul_nonpos_of_nonpos_of_nonneg (not_lt.1 hr) q0.le
    linarith
  refine ⟨q0, r0, ?_⟩
  -- y = r z
  have e : r ^ 2 * mu = (r * z) ^ 2 := by rw [← zz]; ring
  rw [e]
  set y := r * z with hy
  have y0 : 0 < y := by positivity
  have c1 := mul_le_mul_of_nonneg_left q1 r0.le
  have c2 := mul_le_mul_of_nonneg_left q2 r0.le
  have c3 : r * (z + 17 / 16 * (φ.u * z)) = y + 17 / 16 * (φ.u * y) := by rw [hy]; ring
  have c4 : r * (z - 17 / 16 * (φ.u * z)) = y - 17 / 16 * (φ.u * y) := by rw [hy]; ring
  have uy : φ.u * y ≤ 1 / 64 * y := mul_le_mul_of_nonneg_right hsu y0.le
  have y1 : y ≤ 67 / 64 := by linarith
  have uy2 : φ.u * y ≤ φ.u * (67 / 64) := mul_le_mul_of_nonneg_left y1 hu.le
  have d1 : y - 1 ≤ 12 / 5 * φ.u := by linarith
  have d2 : -(12 / 5 * φ.u) ≤ y - 1 := by linarith
  have d3 : y ^ 2 - 1 = (y - 1) * (y + 1) := by ring
  rw [d3, abs_mul, abs_of_pos (by linarith : 0 < y + 1)]
  have d4 : |y - 1| ≤ 12 / 5 * φ.u := abs_le.2 ⟨d2, d1⟩
  have d5 := mul_le_mul d4 (by linarith : y + 1 ≤ 131 / 64) (by linarith) (by positivity)
  linarith

theorem squares_nonneg (hn : φ.Nearest fl) (h : SmallOk φ) (hx : FttrNode φ fl n x m a b) : ∀ y ∈ (List.range n).map (fun j => fl (orthoPolyFl fl x m a b j * orthoPolyFl fl x m a b j)), φ.Mem y ∧ 0 ≤ y := by
  intro y hy
  obtain ⟨j, hj, rfl⟩ := List.mem_map.1 hy
  rw [List.mem_range] at hj
  have := hx.sq j hj
  have h0 := mul_self_nonneg (orthoPolyFl fl x m a b j)
  exact ⟨(hn _ (by rwa [abs_of_nonneg h0])).1, hn.nonneg h.exp this h0⟩

/-- The computed sum of squares is at least `(1 - 11/10 u) m^2`, and positive. -/
theorem squareSum_ge (hn : φ.Nearest fl) (h : SmallOk φ) (hsum : ∀ l, l ≠ [] → SumOrder fl l (sum l)) (hx : FttrNode φ fl n x m a b) (h1 : 1 < n) :
    m ^ 2 - φ.u * m ^ 2 - φ.eta ≤ squareSumFl fl sum x m a b n := by
  have hsq := squares_nonneg hn h hx
  have hne : (List.range n).map (fun j => fl (orthoPolyFl fl x m a b j * orthoPolyFl fl x m a b j)) ≠ [] := by
    simp; omega
  have hle := SumOrder.ge hn h.exp (hsum _ hne) (fun y hy => (hsq y hy).1) (fun y hy => (hsq y hy).2) (by simpa using hx.sum) (fl (m * m))
    (List.mem_map.2 ⟨0, by simp; omega, rfl⟩)
  have h0 := mul_self_nonneg m
  have := hn.err h.exp (x := m * m) (by rw [abs_of_nonneg h0]; exact hx.sq 0 (by omega))
  rw [abs_of_nonneg h0] at this
  have := (abs_le.1 this).1
  have e : m ^ 2 = m * m := sq m
  rw [e]
  exact le_trans (by linarith) hle

/-- **C163**, range of the weights: whatever the errors of nodes and polynomials, each weight lies between `0` and `1 + 10 u`. -/
theorem C163_bounds (hn : φ.Nearest fl) (h : SmallOk φ) (hsum : ∀ l, l ≠ [] → SumOrder fl l (sum l)) (theta alpha beta weights : Buf ℝ) (k : ℕ) (hk : 0 < k)
    (hlen : 1 < alpha.len) (hth : k ≤ theta.len) (hw : k ≤ weights.len) (hbl : alpha.len ≤ beta.len) (hb : ∀ i, 1 ≤ i → i < alpha.len → beta.get i ≠ 0)
    (hm : FttrScale φ (sum ((List.range k).map fun i => |theta.get i|)))
    (hx : ∀ i < k, FttrNode φ fl alpha.len (theta.get i) (fl (1 / fl (Real.sqrt (sum ((List.range k).map fun i => |theta.get i|))))) alpha.get beta.get) :
    ∃ w, fttrFl fl sum theta alpha beta k weights = .ok (some w) ∧ w.len = weights.len ∧ (∀ i, k ≤ i → w.get i = weights.get i) ∧
      ∀ i < k, 0 ≤ w.get i ∧ w.get i ≤ 1 + 10 * φ.u := by
  have hu := φ.u_pos
  have hsu := h.u
  have he := φ.eta_pos
  have ht := h.four_le_top
  set mu := sum ((List.range k).map fun i => |theta.get i|) with hmu
  have mu0 := hm.pos
  obtain ⟨q0, r0, hr⟩ := fttr_start hn h hm
  set r := fl (1 / fl (Real.sqrt mu)) with hrd
  obtain ⟨r1, r2⟩ := abs_le.1 hr
  have hS : ∀ i, i < k → 1 - 61 / 10 * φ.u ≤ squareSumFl fl sum (theta.get i) r alpha.get beta.get alpha.len * mu := by
    intro i hi
    have h1 := squareSum_ge hn h hsum (hx i hi) hlen
    have h2 := mul_le_mul_of_nonneg_right h1 mu0.le
    have e : (r ^ 2 - φ.u * r ^ 2 - φ.eta) * mu = r ^ 2 * mu - φ.u * (r ^ 2 * mu) - φ.eta * mu := by ring
    have h3 := mul_le_mul_of_nonneg_left (show r ^ 2 * mu ≤ 1 + 5 / 64 by linarith) hu.le
    have := hm.high
    have h4 : r ^ 2 * mu - φ.u * (r ^ 2 * mu) = (1 - φ.u) * (r ^ 2 * mu) := by ring
    have h5 := mul_le_mul_of_nonneg_left (show 1 - 5 * φ.u ≤ r ^ 2 * mu by linarith) (show 0 ≤ 1 - φ.u by linarith)
    have h6 : 0 ≤ φ.u * φ.u := by positivity
    linarith
  have hpos : ∀ i, i < k → 0 < squareSumFl fl sum (theta.get i) r alpha.get beta.get alpha.len := by
    intro i hi
    by_contra hneg
    have := mul_nonpos_of_nonpos_of_nonneg (not_lt.1 hneg) mu0.le
    linarith [hS i hi]
  have hrun : fttrFl fl sum theta alpha beta k weights = .ok (some ⟨weights.len, fun i => if i < k then
      fl (fl (1 / squareSumFl fl sum (theta.get i) r alpha.get beta.get alpha.len) / mu) else weights.get i⟩) := by
    unfold fttrFl
    rw [if_neg hk.ne', if_neg (by omega)]
    simp only [← hmu, ← hrd]
    rw [if_neg]
    rintro (h1 | ⟨i, h1, h2, h3⟩ | ⟨i, h1, h2⟩)
    · exact q0.ne' h1
    · exact hb i h1 h2 h3
    · exact (hpos i h1).ne' h2
  refine ⟨_, hrun, rfl, fun i hi => if_neg (by omega), fun i hi => ?_⟩
  simp only [hi, if_true]
  have hSi := hS i hi
  have s0 := hpos i hi
  set S := squareSumFl fl sum (theta.get i) r alpha.get beta.get alpha.len
  -- the reciprocal
  have g1 : 1 / S ≤ (1 + 34 / 5 * φ.u) * mu := by
    rw [div_le_iff₀ s0]
    have k1 := mul_le_mul_of_nonneg_left hSi (show 0 ≤ 1 + 34 / 5 * φ.u by linarith)
    have k2 := mul_le_mul_of_nonneg_left hsu hu.le
    have k3 : (1 + 34 / 5 * φ.u) * mu * S = (1 + 34 / 5 * φ.u) * (S * mu) := by ring
    rw [k3]
    refine le_trans ?_ k1
    have : (1 + 34 / 5 * φ.u) * (1 - 61 / 10 * φ.u) = 1 + 7 / 10 * φ.u - 2074 / 50 * (φ.u * φ.u) := by ring
    linarith
  have hmt := hm.top
  have g0 : 0 < 1 / S := by positivity
  have um := mul_le_mul_of_nonneg_right hsu mu0.le
  have gt : |1 / S| ≤ φ.top := by
    rw [abs_of_pos g0]
    linarith
  have e1 := hn.err h.exp gt
  have v0 := hn.nonneg h.exp ((le_abs_self _).trans gt) g0.le
  rw [abs_of_pos g0] at e1
  set v := fl (1 / S)
  have v1 : v / mu ≤ 1 + 8 * φ.u := by
    rw [div_le_iff₀ mu0]
    have k1 := (abs_le.1 e1).2
    have k2 := mul_le_mul_of_nonneg_left g1 hu.le
    have k3 := mul_le_mul_of_nonneg_left um hu.le
    have := hm.low
    linarith
  have v2 : 0 ≤ v / mu := by positivity
  have vt : |v / mu| ≤ φ.top := by rw [abs_of_nonneg v2]; linarith
  have e2 := hn.err h.exp vt
  rw [abs_of_nonneg v2] at e2
  refine ⟨hn.nonneg h.exp ((le_abs_self _).trans vt) v2, ?_⟩
  have k1 := (abs_le.1 e2).2
  have k2 := mul_le_mul_of_nonneg_left (show v / mu ≤ 1 + 1 / 8 by linarith) hu.le
  have := hm.eta
  linarith

/-- The computed sum of squares, relative to the sum `S` of the exact squares. -/
theorem squareSum_near (hn : φ.Nearest fl) (h : SmallOk φ) (hsum : ∀ l, l ≠ [] → SumOrder fl l (sum l)) (hx : FttrNode φ fl n x m a b) (h1 : 1 < n)
    (hη : 14 * φ.eta ≤ φ.u * m ^ 2) (hg : (1 + φ.u) ^ n - 1 ≤ 1 / 8) :
    |squareSumFl fl sum x m a b n - ∑ j ∈ Finset.range n, orthoPolyFl fl x m a b j ^ 2| ≤ 9 / 8 * ((1 + φ.u) ^ n - 1) * ∑ j ∈ Finset.range n, orthoPolyFl fl x m a b j ^ 2 := by
  have hu := φ.u_pos
  have he := φ.eta_pos
  have hsq := squares_nonneg hn h hx
  set p := orthoPolyFl fl x m a b with hp
  set L := (List.range n).map (fun j => fl (p j * p j)) with hL
  have hne : L ≠ [] := by simp [hL]; omega
  have habs : (L.map abs).sum = L.sum := by
    congr 1
    conv_rhs => rw [← List.map_id L]
    exact List.map_congr_left fun y hy => abs_of_nonneg (hsq y hy).2
  have hlen : L.length = n := by simp [hL]
  obtain ⟨-, e1⟩ := SumOrder.err hn h.exp (hsum L hne) (fun y hy => (hsq y hy).1) (by rw [habs, hlen]; exact hx.sum)
  rw [habs, hlen] at e1
  have hLs : L.sum = ∑ j ∈ Finset.range n, fl (p j * p j) := by
    rw [hL, Finset.sum_range, ← List.sum_ofFn]
    congr 1
    rw [List.ofFn_eq_map, ← List.map_coe_finRange_eq_range, List.map_map]
    rfl
  set S := ∑ j ∈ Finset.range n, p j ^ 2 with hS
  have e2 : |L.sum - S| ≤ φ.u * S + n * φ.eta := by
    rw [hLs, hS, ← Finset.sum_sub_distrib, Finset.mul_sum]
    refine (Finset.abs_sum_le_sum_abs _ _).trans ?_
    have : (n : ℝ) * φ.eta = ∑ _j ∈ Finset.range n, φ.eta := by simp
    rw [this, ← Finset.sum_add_distrib]
    refine Finset.sum_le_sum fun j hj => ?_
    have h0 := mul_self_nonneg (p j)
    have := hn.err h.exp (x := p j * p j) (by rw [abs_of_nonneg h0]; exact hx.sq j (Finset.mem_range.1 hj))
    rw [abs_of_nonneg h0] at this
    rw [sq]
    exact this
  have hmS : m ^ 2 ≤ S := Finset.single_le_sum (f := fun j => p j ^ 2) (fun j _ => sq_nonneg _) (Finset.mem_range.2 (by omega : 0 < n))
  have S0 : 0 ≤ S := (sq_nonneg m).trans hmS
  obtain ⟨n', rfl⟩ : ∃ n', n = n' + 1 := ⟨n - 1, by omega⟩
  rw [Nat.add_sub_cancel] at e1
  have hB : 1 + ((n' + 1 : ℕ) : ℝ) * φ.u ≤ (1 + φ.u) ^ (n' + 1) := one_add_mul_le_pow (by linarith) (n' + 1)
  have hG1 : (1 : ℝ) ≤ (1 + φ.u) ^ n' := one_le_pow₀ (by linarith)
  have hGG : (1 + φ.u) ^ (n' + 1) = (1 + φ.u) ^ n' * (1 + φ.u) := pow_succ _ _
  set G := (1 + φ.u) ^ n' with hGd
  set g := (1 + φ.u) ^ (n' + 1) - 1 with hgd
  have hgp : 0 ≤ g := by
    have : 0 ≤ ((n' + 1 : ℕ) : ℝ) * φ.u := by positivity
    linarith
  set N := ((n' + 1 : ℕ) : ℝ) with hN
  have hG8 : G ≤ 9 / 8 := by
    have : G ≤ G * (1 + φ.u) := le_mul_of_one_le_right (by linarith) (by linarith)
    linarith
  have f1 : squareSumFl fl sum x m a b (n' + 1) = sum L := rfl
  rw [f1]
  have f2 := abs_sub_le (sum L) L.sum S
  have f3 : L.sum ≤ (1 + φ.u) * S + N * φ.eta := by linarith [(abs_le.1 e2).2]
  have f4 := mul_le_mul_of_nonneg_left f3 (show 0 ≤ G - 1 by linarith)
  have f5 : N * φ.eta ≤ 1 / 14 * (g * S) := by
    have k1 : 14 * φ.eta ≤ φ.u * S := hη.trans (mul_le_mul_of_nonneg_left hmS hu.le)
    have k2 := mul_le_mul_of_nonneg_left k1 (show 0 ≤ N by positivity)
    have k3 : N * φ.u * S ≤ g * S := mul_le_mul_of_nonneg_right (by linarith) S0
    linarith
  have f6 : G * (N * φ.eta) ≤ 9 / 8 * (N * φ.eta) := mul_le_mul_of_nonneg_right hG8 (by positivity)
  have f7 : (G - 1) * ((1 + φ.u) * S + N * φ.eta) + (φ.u * S + N * φ.eta) = g * S + G * (N * φ.eta) := by
    have : g = G * (1 + φ.u) - 1 := by rw [hgd, hGG]
    rw [this]; ring
  have f8 : 0 ≤ g * S := by positivity
  linarith

/-- **C163**, the weights: up to `7 ((1+u)^n - 1)`, relatively, and quantities in the range of the subnormal numbers, weight `i` is `1 / sum_j (p_j / p_0)^2` for the values `p_j` as computed. -/
theorem C163_weights (hn : φ.Nearest fl) (h : SmallOk φ) (hsum : ∀ l, l ≠ [] → SumOrder fl l (sum l)) (theta alpha beta weights : Buf ℝ) (k : ℕ) (hk : 0 < k)
    (hlen : 1 < alpha.len) (hth : k ≤ theta.len) (hw : k ≤ weights.len) (hbl : alpha.len ≤ beta.len) (hb : ∀ i, 1 ≤ i → i < alpha.len → beta.get i ≠ 0) (mu m : ℝ)
    (hmu : mu = sum ((List.range k).map fun i => |theta.get i|)) (hmr : m = fl (1 / fl (Real.sqrt mu))) (hm : FttrScale φ mu)
    (hx : ∀ i < k, FttrNode φ fl alpha.len (theta.get i) m alpha.get beta.get) (hg : (1 + φ.u) ^ alpha.len - 1 ≤ 1 / 8) :
    0 < m ∧ ∃ w, fttrFl fl sum theta alpha beta k weights = .ok (some w) ∧
      ∀ i < k, ∀ T, T = ∑ j ∈ Finset.range alpha.len, (orthoPolyFl fl (theta.get i) m alpha.get beta.get j / m) ^ 2 →
        1 ≤ T ∧ |w.get i - 1 / T| ≤ 7 * ((1 + φ.u) ^ alpha.len - 1) * (1 / T) + 2 * (φ.eta / mu) + φ.eta := by
  have hu := φ.u_pos
  have hsu := h.u
  have he := φ.eta_pos
  have ht := h.four_le_top
  obtain ⟨w, hrun, -, -, -⟩ := C163_bounds hn h hsum theta alpha beta weights k hk hlen hth hw hbl hb (hmu ▸ hm) (by rw [← hmu, ← hmr]; exact hx)
  have mu0 := hm.pos
  obtain ⟨q0, r0, hr⟩ := fttr_start hn h hm
  rw [← hmr] at r0 hr
  obtain ⟨r1, r2⟩ := abs_le.1 hr
  refine ⟨r0, w, hrun, fun i hi T hT => ?_⟩
  have hwi : w.get i = fl (fl (1 / squareSumFl fl sum (theta.get i) m alpha.get beta.get alpha.len) / mu) := by
    unfold fttrFl at hrun
    rw [if_neg hk.ne', if_neg (by omega)] at hrun
    simp only [← hmu, ← hmr] at hrun
    split_ifs at hrun with hc
    · simp at hrun
    · have := Option.some.inj (Except.ok.inj hrun)
      rw [← this]
      simp only [hi, if_true]
  have hη : 14 * φ.eta ≤ φ.u * m ^ 2 := by
    have k1 := hm.high
    have k2 : 14 * φ.eta * mu ≤ φ.u * m ^ 2 * mu := by
      have := mul_le_mul_of_nonneg_left (show 59 / 64 ≤ m ^ 2 * mu by linarith) hu.le
      linarith
    exact le_of_mul_le_mul_right k2 mu0
  have hS := squareSum_near hn h hsum (hx i hi) hlen hη hg
  have hST : ∑ j ∈ Finset.range alpha.len, orthoPolyFl fl (theta.get i) m alpha.get beta.get j ^ 2 = m ^ 2 * T := by
    rw [hT, Finset.mul_sum]
    refine Finset.sum_congr rfl fun j _ => ?_
    field_simp
  rw [hST] at hS
  set s := squareSumFl fl sum (theta.get i) m alpha.get beta.get alpha.len
  set g := (1 + φ.u) ^ alpha.len - 1 with hgd
  have hgu : 2 * φ.u ≤ g := by
    have h1 : 1 + (alpha.len : ℝ) * φ.u ≤ (1 + φ.u) ^ alpha.len := one_add_mul_le_pow (by linarith) _
    have h2 : (2 : ℝ) ≤ alpha.len := by exact_mod_cast hlen
    have := mul_le_mul_of_nonneg_right h2 hu.le
    linarith
  have hT1 : 1 ≤ T := by
    rw [hT]
    have : (1 : ℝ) = (orthoPolyFl fl (theta.get i) m alpha.get beta.get 0 / m) ^ 2 := by
      show (1 : ℝ) = (m / m) ^ 2
      rw [div_self r0.ne']; norm_num
    conv_lhs => rw [this]
    exact Finset.single_le_sum (f := fun j => (orthoPolyFl fl (theta.get i) m alpha.get beta.get j / m) ^ 2) (fun j _ => sq_nonneg _) (Finset.mem_range.2 (by omega : 0 < alpha.len))
  refine ⟨hT1, ?_⟩
  have T0 : 0 < T := by linarith
  have m2 : 0 < m ^ 2 := by positivity
  -- s mu / T = 1 up to 9/8 g and 5 u
  have hsT : |s * mu / T - m ^ 2 * mu| ≤ 9 / 8 * g * (m ^ 2 * mu) := by
    have e : s * mu / T - m ^ 2 * mu = (s - m ^ 2 * T) * (mu / T) := by field_simp
    rw [e, abs_mul, abs_of_pos (by positivity : 0 < mu / T)]
    have := mul_le_mul_of_nonneg_right hS (show 0 ≤ mu / T by positivity)
    have e2 : 9 / 8 * g * (m ^ 2 * T) * (mu / T) = 9 / 8 * g * (m ^ 2 * mu) := by field_simp
    linarith
  set y := s * mu / T with hy
  have g0 : 0 ≤ g := by linarith
  have hmm := mul_le_mul_of_nonneg_left (show m ^ 2 * mu ≤ 69 / 64 by linarith) (show 0 ≤ 9 / 8 * g by linarith)
  obtain ⟨y1, y2⟩ := abs_le.1 hsT
  have y3 : |y - 1| ≤ 4 * g := by rw [abs_le]; constructor <;> linarith
  have y4 : 3 / 4 ≤ y := by
    have := mul_le_mul_of_nonneg_right hg (show 0 ≤ 9 / 8 * (m ^ 2 * mu) by positivity)
    have : 9 / 8 * g * (m ^ 2 * mu) = g * (9 / 8 * (m ^ 2 * mu)) := by ring
    linarith
  have s0 : 0 < s := by
    by_contra hneg
    have : y ≤ 0 := div_nonpos_of_nonpos_of_nonneg (mul_nonpos_of_nonpos_of_nonneg (not_lt.1 hneg) mu0.le) T0.le
    linarith
  have y0 : 0 < y := by linarith
  have hsy : 1 / s = mu * (1 / T) * (1 / y) := by rw [hy]; field_simp
  set t := 1 / T with htd
  have t0 : 0 < t := by positivity
  have t1 : t ≤ 1 := by rw [htd, div_le_one T0]; exact hT1
  have z1 : |1 / y - 1| ≤ 16 / 3 * g := by
    have e : 1 / y - 1 = -(y - 1) / y := by field_simp; ring
    rw [e, abs_div, abs_neg, abs_of_pos y0, div_le_iff₀ y0]
    have := mul_le_mul_of_nonneg_left y4 (show 0 ≤ 16 / 3 * g by linarith)
    linarith
  have z2 : 1 / y ≤ 4 / 3 := by rw [div_le_iff₀ y0]; linarith
  have mt0 : 0 < mu * t := by positivity
  have a1 : |1 / s - mu * t| ≤ 16 / 3 * (g * (mu * t)) := by
    have e : 1 / s - mu * t = mu * t * (1 / y - 1) := by rw [hsy]; ring
    rw [e, abs_mul, abs_of_pos mt0]
    have := mul_le_mul_of_nonneg_left z1 mt0.le
    linarith
  have a2 : 1 / s ≤ 4 / 3 * (mu * t) := by
    rw [hsy]
    have := mul_le_mul_of_nonneg_left z2 mt0.le
    linarith
  have s1 : 0 < 1 / s := by positivity
  have mt1 : mu * t ≤ mu := mul_le_of_le_one_right mu0.le t1
  have st : |1 / s| ≤ φ.top := by rw [abs_of_pos s1]; linarith [hm.top]
  have b1 := hn.err h.exp st
  rw [abs_of_pos s1] at b1
  have v0 := hn.nonneg h.exp ((le_abs_self _).trans st) s1.le
  rw [hwi]
  set v := fl (1 / s)
  have b2 : |v - mu * t| ≤ 6 * (g * (mu * t)) + φ.eta := by
    have k1 := abs_sub_le v (1 / s) (mu * t)
    have k2 := mul_le_mul_of_nonneg_left a2 hu.le
    have k3 := mul_le_mul_of_nonneg_right hgu mt0.le
    linarith
  set d := φ.eta / mu with hd
  have d0 : 0 < d := by positivity
  have b3 : |v / mu - t| ≤ 6 * (g * t) + d := by
    have e : v / mu - t = (v - mu * t) * (1 / mu) := by field_simp
    rw [e, abs_mul, abs_of_pos (by positivity : 0 < 1 / mu)]
    have := mul_le_mul_of_nonneg_right b2 (show 0 ≤ 1 / mu by positivity)
    have e2 : (6 * (g * (mu * t)) + φ.eta) * (1 / mu) = 6 * (g * t) + d := by rw [hd]; field_simp
    linarith
  have gt : g * t ≤ 1 / 8 * t := mul_le_mul_of_nonneg_right hg t0.le
  have d1 : d ≤ 1 / 1024 := by
    rw [hd, div_le_iff₀ mu0]
    have := hm.low
    have := mul_le_mul_of_nonneg_right hsu mu0.le
    linarith
  have v2 : 0 ≤ v / mu := by positivity
  have b4 : v / mu ≤ 7 / 4 * t + d := by linarith [(abs_le.1 b3).2]
  have b5 := hn.err h.exp (x := v / mu) (by rw [abs_of_nonneg v2]; linarith)
  rw [abs_of_nonneg v2] at b5
  have b6 := abs_sub_le (fl (v / mu)) (v / mu) t
  have b7 := mul_le_mul_of_nonneg_left b4 hu.le
  have b8 := mul_le_mul_of_nonneg_right hgu t0.le
  have b9 := mul_le_mul_of_nonneg_right hsu d0.le
  have b10 : 0 ≤ g * t := by positivity
  linarith

/-- C163: rounding does not change the exceptions. -/
theorem C163_errors (fl : ℝ → ℝ) (sum : List ℝ → ℝ) (theta alpha beta weights : Buf ℝ) (k : ℕ) (e : PyErr) :
    fttrFl fl sum theta alpha beta k weights = .error e ↔ fttr theta alpha beta k weights = .error e := by
  unfold fttrFl fttr
  simp only
  by_cases h0 : k = 0
  · simp [h0]
  · rw [if_neg h0, if_neg h0]
    by_cases h1 : alpha.len ≤ 1 ∨ theta.len < k ∨ weights.len < k ∨ beta.len < alpha.len
    · rw [if_pos h1, if_pos h1]
    · rw [if_neg h1, if_neg h1]
      split_ifs <;> simp

/-- C163: degree zero leaves the weights as they are, and a vanishing off-diagonal entry gives a division by zero. -/
theorem C163_degenerate (fl : ℝ → ℝ) (sum : List ℝ → ℝ) (theta alpha beta weights : Buf ℝ) :
    fttrFl fl sum theta alpha beta 0 weights = .ok (some weights) ∧
    ∀ k, 0 < k → 1 < alpha.len → k ≤ theta.len → k ≤ weights.len → alpha.len ≤ beta.len → (∃ i, 1 ≤ i ∧ i < alpha.len ∧ beta.get i = 0) →
      fttrFl fl sum theta alpha beta k weights = .ok none := by
  refine ⟨rfl, fun k hk h1 h2 h3 h4 h5 => ?_⟩
  unfold fttrFl
  simp only
  rw [if_neg hk.ne', if_neg (by omega), if_pos (Or.inr (Or.inl h5))]

/-- In binary64, the matrix `[[0, 1], [1, 0]]` with its eigenvalues `1, -1`: both weights are within `1e-14` of one half. -/
example (fl : ℝ → ℝ) (hn : binary64.Nearest fl) (sum : List ℝ → ℝ) (hsum : ∀ l, l ≠ [] → SumOrder fl l (sum l)) :
    ∃ w, fttrFl fl sum ⟨2, ofFin ![1, -1]⟩ ⟨2, fun _ => 0⟩ ⟨2, ofFin ![0, 1]⟩ 2 ⟨2, fun _ => 0⟩ = .ok (some w) ∧
      ∀ i < 2, |w.get i - 1 / 2| ≤ 1 / 10 ^ 14 := by
  have h := binary64_small
  have hu : binary64.u = 1 / 9007199254740992 := by
    have : binary64.u = (2 : ℝ) ^ (-53 : ℤ) := rfl
    rw [this]; norm_num
  have he : binary64.eta ≤ 1 / 10 ^ 30 := by
    have : binary64.eta = (2 : ℝ) ^ (-1075 : ℤ) := rfl
    rw [this]
    exact (zpow_le_zpow_right₀ (by norm_num) (show (-1075 : ℤ) ≤ -100 by norm_num)).trans (by norm_num)
  have he0 := binary64.eta_pos
  have ht : (1024 : ℝ) ≤ binary64.top := by
    have h1 : (1 : ℝ) ≤ 2 ^ (971 : ℤ) := one_le_zpow₀ (by norm_num) (by norm_num)
    have h2 : binary64.top = (2 ^ 53 - 1) * (2 : ℝ) ^ (971 : ℤ) := rfl
    rw [h2]
    generalize (2 : ℝ) ^ (971 : ℤ) = z at h1
    linarith
  have hth : ∀ i < 2, ofFin ![(1 : ℝ), -1] i = 1 ∨ ofFin ![(1 : ℝ), -1] i = -1 := by
    intro i hi
    interval_cases i <;> simp [ofFin]
  have hmu : |sum ((List.range 2).map fun i => |ofFin ![(1 : ℝ), -1] i|) - 2| ≤ 2 * binary64.u := by
    have e : ((List.range 2).map fun i => |ofFin ![(1 : ℝ), -1] i|) = [1, 1] := by
      simp [List.range_succ, ofFin]
    rw [e]
    obtain ⟨-, h3⟩ := SumOrder.err hn h.exp (hsum [1, 1] (by simp)) (by simp [h.one]) (by simp [hu]; norm_num; linarith)
    have e2 : ([(1 : ℝ), 1].map abs).sum = 2 := by norm_num
    have e3 : [(1 : ℝ), 1].sum = 2 := by norm_num
    rw [e2, e3] at h3
    have e4 : (1 + binary64.u) ^ ([(1 : ℝ), 1].length - 1) = 1 + binary64.u := pow_one _
    rw [e4] at h3
    linarith
  set mu := sum ((List.range 2).map fun i => |ofFin ![(1 : ℝ), -1] i|) with hmd
  obtain ⟨m1, m2⟩ := abs_le.1 hmu
  have mu1 : 1 ≤ mu := by linarith
  have mu3 : mu ≤ 3 := by linarith
  have hm : FttrScale binary64 mu := by
    refine ⟨by linarith, by linarith, ?_, ?_, by linarith, ?_⟩
    · have := le_mul_of_one_le_right binary64.u_pos.le mu1
      linarith
    · have := mul_le_mul_of_nonneg_left mu3 he0.le
      linarith
    · have := le_mul_of_one_le_right binary64.top_nonneg mu1
      linarith
  obtain ⟨-, r0, hr⟩ := fttr_start hn h hm
  set r := fl (1 / fl (Real.sqrt mu)) with hrd
  have hr1 : r ≤ 1 := by
    have h1 := (abs_le.1 hr).2
    have h2 := mul_le_mul_of_nonneg_left (show 3 / 2 ≤ mu by linarith) (sq_nonneg r)
    nlinarith
  have hrm : binary64.Mem r := by
    have hz : 0 < Real.sqrt mu := Real.sqrt_pos.2 (by linarith)
    have hz1 : 1 ≤ Real.sqrt mu := Real.one_le_sqrt.2 mu1
    have hz3 : Real.sqrt mu ≤ 3 := (Real.sqrt_le_left (by norm_num)).2 (by linarith)
    have hq : 1 ≤ fl (Real.sqrt mu) := by
      have := hn.mono (x := 1) (y := Real.sqrt mu) (by rw [abs_one]; linarith) (by rw [abs_of_pos hz]; linarith) hz1
      rwa [hn.eq_self h.one] at this
    refine (hn _ ?_).1
    rw [abs_of_pos (by positivity), div_le_iff₀ (by linarith)]
    have := le_mul_of_one_le_right binary64.top_nonneg hq
    linarith
  have m1' : binary64.Mem (-1) := h.one.neg
  have z0 : binary64.Mem 0 := by simpa using h.int 0 (by norm_num)
  have hb1 : ofFin ![(0 : ℝ), 1] 1 = 1 := by simp [ofFin]
  have hp1 : ∀ x : ℝ, x = 1 ∨ x = -1 → orthoPolyFl fl x r (fun _ => 0) (ofFin ![0, 1]) 1 = x * r := by
    intro x hx
    show fl (fl (fl (x - 0) * r) / ofFin ![(0 : ℝ), 1] 1) = x * r
    rw [hb1, sub_zero, div_one]
    rcases hx with rfl | rfl
    · rw [hn.eq_self h.one, one_mul, hn.eq_self hrm, hn.eq_self hrm]
    · rw [hn.eq_self m1', neg_one_mul, hn.eq_self hrm.neg, hn.eq_self hrm.neg]
  have hsq : ∀ x : ℝ, x = 1 ∨ x = -1 → ∀ j < 2, orthoPolyFl fl x r (fun _ => 0) (ofFin ![0, 1]) j * orthoPolyFl fl x r (fun _ => 0) (ofFin ![0, 1]) j = r * r := by
    intro x hx j hj
    interval_cases j
    · rfl
    · rw [hp1 x hx]
      rcases hx with rfl | rfl <;> ring
  have hrr : r * r ≤ 1 := by nlinarith
  have hnode : ∀ x : ℝ, x = 1 ∨ x = -1 → FttrNode binary64 fl 2 x r (fun _ => 0) (ofFin ![0, 1]) := by
    intro x hx
    have hmx : binary64.Mem x := hx.elim (fun e => e ▸ h.one) fun e => e ▸ m1'
    have hax : |x| = 1 := by rcases hx with rfl | rfl <;> simp
    have hxr : |x * r| ≤ 1 := by rw [abs_mul, hax, one_mul, abs_of_pos r0]; exact hr1
    refine ⟨hmx, fun _ _ => z0, hrm, fun j _ => ?_, fun _ => ?_, fun j hj => by omega, fun j hj => by omega, fun j hj => by omega, fun j hj => ?_, ?_⟩
    · rw [sub_zero, hax]; linarith
    · have e1 : fl (x - 0) = x := by rw [sub_zero, hn.eq_self hmx]
      have e2 : fl (x * r) = x * r := by
        have := hp1 x hx
        rcases hx with rfl | rfl
        · rw [one_mul, hn.eq_self hrm]
        · rw [neg_one_mul, hn.eq_self hrm.neg]
      rw [e1, e2, hb1, div_one]
      exact ⟨by linarith, by linarith⟩
    · rw [hsq x hx j hj]; linarith
    · have hl : ((List.range 2).map fun j => fl (orthoPolyFl fl x r (fun _ => 0) (ofFin ![0, 1]) j * orthoPolyFl fl x r (fun _ => 0) (ofFin ![0, 1]) j)) = [fl (r * r), fl (r * r)] := by
        have e0 := hsq x hx 0 (by norm_num)
        have e1 := hsq x hx 1 (by norm_num)
        simp only [List.range_succ, List.range_zero, List.nil_append, List.map_cons, List.map_nil, List.cons_append, e0, e1]
      rw [hl]
      obtain ⟨f0, f1⟩ := fl_unit hn h (mul_self_nonneg r) hrr
      have e2 : [fl (r * r), fl (r * r)].sum = fl (r * r) + fl (r * r) := by simp
      rw [e2]
      have e3 : (1 + binary64.u) ^ 2 ≤ 2 := by rw [hu]; norm_num
      have := mul_le_mul e3 (show fl (r * r) + fl (r * r) ≤ 2 by linarith) (by linarith) (by norm_num)
      linarith
  have hg : (1 + binary64.u) ^ 2 - 1 ≤ 3 * binary64.u := by rw [hu]; norm_num
  obtain ⟨-, w, hw, hw2⟩ := C163_weights hn h hsum ⟨2, ofFin ![1, -1]⟩ ⟨2, fun _ => 0⟩ ⟨2, ofFin ![0, 1]⟩ ⟨2, fun _ => 0⟩ 2 (by norm_num) (by norm_num) le_rfl le_rfl le_rfl
    (fun i h1 h2 => by
      have : i = 1 := by simp at h2; omega
      subst this
      simp only [hb1]
      exact one_ne_zero) mu r rfl rfl hm (fun i hi => hnode _ (hth i hi)) (by show (1 + binary64.u) ^ 2 - 1 ≤ 1 / 8; linarith)
  refine ⟨w, hw, fun i hi => ?_⟩
  obtain ⟨-, h2⟩ := hw2 i hi 2 (by
    show (2 : ℝ) = ∑ j ∈ Finset.range 2, (orthoPolyFl fl (ofFin ![1, -1] i) r (fun _ => 0) (ofFin ![0, 1]) j / r) ^ 2
    have e : ∀ j < 2, (orthoPolyFl fl (ofFin ![1, -1] i) r (fun _ => 0) (ofFin ![0, 1]) j / r) ^ 2 = 1 := by
      intro j hj
      rw [div_pow, sq, hsq _ (hth i hi) j hj, sq, div_self (by positivity)]
    rw [Finset.sum_congr rfl fun j hj => e j (Finset.mem_range.1 hj)]
    norm_num)
  refine h2.trans ?_
  have hd : binary64.eta / mu ≤ binary64.eta := div_le_self he0.le mu1
  have : 7 * ((1 + binary64.u) ^ (2 : ℕ) - 1) * (1 / 2) ≤ 7 * (3 * binary64.u) * (1 / 2) := by linarith
  show 7 * ((1 + binary64.u) ^ (2 : ℕ) - 1) * (1 / 2) + 2 * (binary64.eta / mu) + binary64.eta ≤ _
  refine le_trans (add_le_add (add_le_add this (mul_le_mul_of_nonneg_left hd (by norm_num))) le_rfl) ?_
  rw [hu]
  have e30 : (1 : ℝ) / 10 ^ 30 ≤ 1 / 10 ^ 16 := by norm_num
  have : binary64.eta ≤ 1 / 10 ^ 16 := he.trans e30
  norm_num at this ⊢
  linarith

end Primate
