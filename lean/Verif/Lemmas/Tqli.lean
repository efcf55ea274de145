import Verif.Props.Quadrature

/-!
# The implicit QL sweep of `tqli` as a similarity transformation
-/

set_option linter.unusedSimpArgs false

noncomputable section

namespace Primate

open Matrix

/-- A plane rotation of the coordinates `i`, `i + 1`. -/
def rot (i : ℕ) (s c : ℝ) (f : ℕ → ℝ) : ℕ → ℝ := fun l =>
  if l = i + 1 then s * f i + c * f (i + 1) else if l = i then c * f i - s * f (i + 1) else f l

/-- The rotation on both sides. -/
def rotS (i : ℕ) (s c : ℝ) (S : ℕ → ℕ → ℝ) : ℕ → ℕ → ℝ := fun a b => rot i s c (fun a' => rot i s c (S a') b) a

/-- A symmetric array given by its diagonals `U · 0`, `U · 1`, ... -/
def band (U : ℕ → ℕ → ℝ) : ℕ → ℕ → ℝ := fun a b => if a ≤ b then U a (b - a) else U b (a - b)

theorem band_symm (U : ℕ → ℕ → ℝ) (a b : ℕ) : band U a b = band U b a := by
  unfold band
  rcases lt_trichotomy a b with h | h | h
  · rw [if_pos h.le, if_neg (by omega)]
  · rw [h]
  · rw [if_neg (by omega), if_pos h.le]

theorem band_add (U : ℕ → ℕ → ℝ) (a t : ℕ) : band U a (a + t) = U a t := by
  unfold band
  rw [if_pos (by omega), Nat.add_sub_cancel_left]

theorem rotS_symm (i : ℕ) (s c : ℝ) (S : ℕ → ℕ → ℝ) (hS : ∀ a b, S a b = S b a) (a b : ℕ) :
    rotS i s c S a b = rotS i s c S b a := by
  unfold rotS rot
  have h1 := hS i (i + 1)
  have h2 := hS a b
  have h3 := hS a i
  have h4 := hS a (i + 1)
  have h5 := hS b i
  have h6 := hS b (i + 1)
  split_ifs <;> simp only [h1, h2, h3, h4, h5, h6] <;> ring

theorem band_ext {U U' : ℕ → ℕ → ℝ} (h : ∀ a t, U a t = U' a t) : band U = band U' := by
  funext a b
  unfold band
  split_ifs <;> exact h _ _

/-- The array of the tridiagonal matrix: `e i` couples `i` and `i + 1`. -/
def triBand (d e : ℕ → ℝ) : ℕ → ℕ → ℝ := fun j t => if t = 0 then d j else if t = 1 then e j else 0

/-- The array during a sweep towards `m`, after the rotations of the planes above and including `(i, i+1)`. -/
def bulge (m i : ℕ) (x : SweepState) : ℕ → ℕ → ℝ := fun j t =>
  if t = 0 then (if j = i then x.t.d j - x.p else x.t.d j)
  else if t = 1 then (if j = m then 0 else if j = i then x.g else if j + 1 = i then x.c * x.t.e j else x.t.e j)
  else if t = 2 then (if j + 1 = i ∧ i < m then x.s * x.t.e j else 0)
  else 0

/-- One iteration of the inner loop with a nonzero `r`. -/
def sweepNext (n : ℕ) (withZ : Bool) (i : ℕ) (x : SweepState) : SweepState :=
  let f := x.s * x.t.e i
  let b := x.c * x.t.e i
  let r := hypot f x.g
  let e := Function.update x.t.e (i + 1) r
  let s := f / r
  let c := x.g / r
  let g := x.t.d (i + 1) - x.p
  let r := (x.t.d i - g) * s + 2 * c * b
  let p := s * r
  let d := Function.update x.t.d (i + 1) (g + p)
  let g := c * r - b
  ⟨⟨d, e, if withZ then rotZ n x.t.Z i s c else x.t.Z⟩, s, c, p, g, r, i⟩

theorem hypot_sq (x y : ℝ) : hypot x y ^ 2 = x ^ 2 + y ^ 2 := by
  unfold hypot
  exact Real.sq_sqrt (by positivity)

theorem rot_unit (x y : ℝ) (h : hypot x y ≠ 0) : (x / hypot x y) ^ 2 + (y / hypot x y) ^ 2 = 1 := by
  have := hypot_sq x y
  rw [div_pow, div_pow, ← add_div, ← this, div_self (pow_ne_zero 2 h)]

theorem bulge_step (n : ℕ) (withZ : Bool) (m i : ℕ) (hi : i < m) (x : SweepState)
    (hr : hypot (x.s * x.t.e i) x.g ≠ 0) :
    rotS i (sweepNext n withZ i x).s (sweepNext n withZ i x).c (band (bulge m (i + 1) x)) =
      band (bulge m i (sweepNext n withZ i x)) := by
  have hu := rot_unit _ _ hr
  have hsq := hypot_sq (x.s * x.t.e i) x.g
  obtain ⟨r, hrd⟩ : ∃ r, r = hypot (x.s * x.t.e i) x.g := ⟨_, rfl⟩
  have key : ∀ a t, rotS i (sweepNext n withZ i x).s (sweepNext n withZ i x).c (band (bulge m (i + 1) x)) a (a + t) =
      bulge m i (sweepNext n withZ i x) a t := by
    intro a t
    generalize hs : (sweepNext n withZ i x).s = s' at *
    generalize hc : (sweepNext n withZ i x).c = c' at *
    have hs1 : s' = x.s * x.t.e i / hypot (x.s * x.t.e i) x.g := hs.symm
    have hc1 : c' = x.g / hypot (x.s * x.t.e i) x.g := hc.symm
    have hfg : s' * (x.s * x.t.e i) + c' * x.g = hypot (x.s * x.t.e i) x.g := by
      rw [hs1, hc1, div_mul_eq_mul_div, div_mul_eq_mul_div, ← add_div, div_eq_iff hr]
      nlinarith [hsq]
    have hfg0 : c' * (x.s * x.t.e i) = s' * x.g := by
      rw [hs1, hc1]; ring
    rw [← hs1, ← hc1] at hu
    rcases t with _ | _ | _ | t
    · rcases (by omega : a = i ∨ a = i + 1 ∨ (a ≠ i ∧ a ≠ i + 1)) with h | h | ⟨h, h'⟩
      · subst h
        simp [rotS, rot, band, bulge, sweepNext, hi.ne, ← hs1, ← hc1]
        linear_combination (x.t.d a) * hu
      · subst h
        simp [rotS, rot, band, bulge, sweepNext, hi.ne, ← hs1, ← hc1]
        linear_combination (x.t.d (i + 1) - x.p) * hu
      · simp [rotS, rot, band, bulge, sweepNext, h, h']
    · rcases (by omega : a + 1 = i ∨ a = i ∨ a = i + 1 ∨ (a + 1 ≠ i ∧ a ≠ i ∧ a ≠ i + 1)) with h | h | h | ⟨h, h', h''⟩
      · subst h
        have hm : a ≠ m := by omega
        have hm' : a + 1 ≠ m := by omega
        simp [rotS, rot, Nat.add_assoc, band, bulge, sweepNext, hm, ← hs1, ← hc1]
      · subst h
        have hm : a ≠ m := by omega
        simp [rotS, rot, Nat.add_assoc, band, bulge, sweepNext, hm, ← hs1, ← hc1]
        linear_combination (-(x.c * x.t.e a)) * hu
      · subst h
        by_cases hm : i + 1 = m
        · subst hm; simp [rotS, rot, Nat.add_assoc, band, bulge, sweepNext, ← hs1, ← hc1]
        · have hm' : i + 1 < m := by omega
          simp [rotS, rot, Nat.add_assoc, band, bulge, sweepNext, hm, hm', ← hs1, ← hc1]
          exact hfg
      · simp [rotS, rot, Nat.add_assoc, band, bulge, sweepNext, h, h', h'']
    · rcases (by omega : a + 2 = i ∨ a + 1 = i ∨ a = i ∨ a = i + 1 ∨ (a + 2 ≠ i ∧ a + 1 ≠ i ∧ a ≠ i ∧ a ≠ i + 1)) with
        h | h | h | h | ⟨h, h', h'', h3⟩
      · subst h
        simp [rotS, rot, Nat.add_assoc, band, bulge, sweepNext, ← hs1, ← hc1]
      · subst h
        have hm : a ≠ m := by omega
        simp [rotS, rot, Nat.add_assoc, band, bulge, sweepNext, hm, hi, ← hs1, ← hc1]
      · subst h
        by_cases hm : a + 1 = m
        · subst hm; simp [rotS, rot, Nat.add_assoc, band, bulge, sweepNext, ← hs1, ← hc1]
        · have hm' : a + 1 < m := by omega
          simp [rotS, rot, Nat.add_assoc, band, bulge, sweepNext, hm, hm', ← hs1, ← hc1]
          linear_combination hfg0
      · subst h
        simp [rotS, rot, Nat.add_assoc, band, bulge, sweepNext, ← hs1, ← hc1]
      · simp [rotS, rot, Nat.add_assoc, band, bulge, sweepNext, h, h', h'', h3]
    · have hz : ∀ a b, a + 3 ≤ b → band (bulge m (i + 1) x) a b = 0 := by
        intro a b hab
        obtain ⟨u, rfl⟩ := Nat.exists_eq_add_of_le hab
        rw [add_assoc, band_add]
        unfold bulge
        rw [if_neg (by omega), if_neg (by omega), if_neg (by omega)]
      have hz2 : ∀ a, a ≠ i → band (bulge m (i + 1) x) a (a + 2) = 0 := by
        intro a ha
        rw [band_add]
        unfold bulge
        rw [if_neg (by omega), if_neg (by omega), if_pos rfl, if_neg (by omega)]
      have hR : bulge m i (sweepNext n withZ i x) a (t + 3) = 0 := by
        unfold bulge
        rw [if_neg (by omega), if_neg (by omega), if_neg (by omega)]
      show rotS i s' c' (band (bulge m (i + 1) x)) a (a + (t + 3)) = bulge m i (sweepNext n withZ i x) a (t + 3)
      rw [hR]
      unfold rotS rot
      have g1 : ∀ a b, a + 2 ≤ b → a ≠ i → band (bulge m (i + 1) x) a b = 0 := by
        intro a b hab ha
        rcases (by omega : b = a + 2 ∨ a + 3 ≤ b) with h | h
        · rw [h]; exact hz2 a ha
        · exact hz a b h
      by_cases h1 : a + (t + 3) = i + 1
      · simp only [h1, if_pos, if_neg (by omega : ¬ a = i + 1), if_neg (by omega : ¬ a = i)]
        rw [g1 a i (by omega) (by omega), g1 a (i + 1) (by omega) (by omega)]; ring
      · by_cases h2 : a + (t + 3) = i
        · simp only [h2, if_neg (by omega : ¬ i = i + 1), if_pos, if_neg (by omega : ¬ a = i + 1), if_neg (by omega : ¬ a = i)]
          rw [g1 a i (by omega) (by omega), g1 a (i + 1) (by omega) (by omega)]; ring
        · simp only [if_neg h1, if_neg h2]
          by_cases h3 : a = i + 1
          · rw [if_pos h3, hz i _ (by omega), g1 (i + 1) _ (by omega) (by omega)]; ring
          · rw [if_neg h3]
            by_cases h4 : a = i
            · rw [if_pos h4, hz i _ (by omega), g1 (i + 1) _ (by omega) (by omega)]; ring
            · rw [if_neg h4]; exact hz _ _ (by omega)
  funext a b
  rcases le_total a b with h | h
  · obtain ⟨t, rfl⟩ := Nat.exists_eq_add_of_le h
    rw [key, band_add]
  · obtain ⟨t, rfl⟩ := Nat.exists_eq_add_of_le h
    rw [rotS_symm _ _ _ _ (band_symm _), key, band_symm, band_add]

/-! ## Matrices -/

/-- The `n × n` corner of an array. -/
def corner (n : ℕ) (S : ℕ → ℕ → ℝ) : Matrix (Fin n) (Fin n) ℝ := Matrix.of fun a b => S a b

/-- The rotation as a matrix. -/
def givens (n i : ℕ) (s c : ℝ) : Matrix (Fin n) (Fin n) ℝ := corner n (rotZ n eyeN i s c)

theorem sum_eye (n : ℕ) (f : ℕ → ℝ) (j : ℕ) (hj : j < n) : ∑ k : Fin n, f k * eyeN k j = f j := by
  rw [Finset.sum_eq_single ⟨j, hj⟩]
  · simp [eyeN]
  · intro b _ hb
    have : (b : ℕ) ≠ j := fun h => hb (Fin.ext h)
    simp [eyeN, this]
  · simp

theorem sum_eye' (n : ℕ) (f : ℕ → ℝ) (j : ℕ) (hj : j < n) : ∑ k : Fin n, eyeN k j * f k = f j := by
  rw [← sum_eye n f j hj]
  exact Finset.sum_congr rfl fun k _ => mul_comm _ _

theorem sum_rot (n i : ℕ) (hi : i + 1 < n) (s c : ℝ) (f : ℕ → ℝ) (l : ℕ) (hl : l < n) :
    ∑ k : Fin n, f k * rotZ n eyeN i s c k l = rot i s c f l := by
  have h0 := sum_eye n f i (by omega)
  have h1 := sum_eye n f (i + 1) hi
  have h2 := sum_eye n f l hl
  unfold rotZ rot
  simp only [Fin.is_lt, if_true]
  split_ifs
  · rw [← h0, ← h1, Finset.mul_sum, Finset.mul_sum, ← Finset.sum_add_distrib]
    exact Finset.sum_congr rfl fun k _ => by ring
  · rw [← h0, ← h1, Finset.mul_sum, Finset.mul_sum, ← Finset.sum_sub_distrib]
    exact Finset.sum_congr rfl fun k _ => by ring
  · exact h2

theorem corner_rotZ (n i : ℕ) (hi : i + 1 < n) (s c : ℝ) (Z : ℕ → ℕ → ℝ) :
    corner n (rotZ n Z i s c) = corner n Z * givens n i s c := by
  ext a b
  rw [Matrix.mul_apply]
  show rotZ n Z i s c a b = ∑ k : Fin n, Z a k * rotZ n eyeN i s c k b
  rw [sum_rot n i hi s c (Z a) b b.2]
  unfold rotZ rot
  rw [if_pos a.2]

theorem corner_rotS (n i : ℕ) (hi : i + 1 < n) (s c : ℝ) (S : ℕ → ℕ → ℝ) :
    corner n (rotS i s c S) = (givens n i s c)ᵀ * corner n S * givens n i s c := by
  ext a b
  rw [Matrix.mul_assoc, Matrix.mul_apply]
  have : ∀ k : Fin n, (corner n S * givens n i s c) k b = rot i s c (S k) b := by
    intro k
    rw [Matrix.mul_apply]
    exact sum_rot n i hi s c (S k) b b.2
  simp only [this, Matrix.transpose_apply]
  refine (sum_rot n i hi s c (fun a' => rot i s c (S a') b) a a.2).symm.trans ?_
  exact Finset.sum_congr rfl fun k _ => mul_comm _ _

theorem givens_orth (n i : ℕ) (hi : i + 1 < n) (s c : ℝ) (h : s ^ 2 + c ^ 2 = 1) :
    (givens n i s c)ᵀ * givens n i s c = 1 := by
  have := corner_rotS n i hi s c eyeN
  have h1 : corner n eyeN = 1 := by
    ext a b
    simp [corner, eyeN, Matrix.one_apply, Fin.ext_iff]
  rw [h1, Matrix.mul_one] at this
  rw [← this, ← h1]
  congr 1
  funext a b
  unfold rotS rot eyeN
  by_cases ha : a = i + 1
  · subst ha
    by_cases hb : b = i + 1
    · subst hb; simp; linarith
    · by_cases hb' : b = i
      · subst hb'; simp; ring
      · simp [hb, hb', Ne.symm hb, Ne.symm hb']
  · by_cases ha' : a = i
    · subst ha'
      by_cases hb : b = a + 1
      · subst hb; simp; ring
      · by_cases hb' : b = a
        · subst hb'; simp; linarith
        · simp [hb, hb', Ne.symm hb, Ne.symm hb']
    · by_cases hb : b = i + 1
      · subst hb; simp [ha, ha', Ne.symm ha']
      · by_cases hb' : b = i
        · subst hb'; simp [ha, ha']
        · simp [ha, ha', hb, hb']

/-! ## The sweep -/

open Classical in
theorem tqliSweep_succ (n : ℕ) (withZ : Bool) (m it k : ℕ) (x : SweepState)
    (hr : hypot (x.s * x.t.e (it + k)) x.g ≠ 0) :
    tqliSweep n withZ m it (k + 1) x = tqliSweep n withZ m it k (sweepNext n withZ (it + k) x) := by
  rw [tqliSweep]
  simp only
  rw [if_neg hr]
  rfl

theorem hypot_ne_zero {x : ℝ} (y : ℝ) (h : x ≠ 0) : hypot x y ≠ 0 := by
  unfold hypot
  have : 0 < x ^ 2 + y ^ 2 := by positivity
  exact (Real.sqrt_pos.2 this).ne'

/-- A full sweep with nonzero off-diagonals: the rotations accumulate in an orthogonal `G`. -/
theorem sweep_sim (n m it : ℕ) (hm : m < n) : ∀ (k : ℕ) (x : SweepState), it + k ≤ m → x.s ≠ 0 →
    (∀ j, it ≤ j → j < it + k → x.t.e j ≠ 0) →
    ∃ G : Matrix (Fin n) (Fin n) ℝ, Gᵀ * G = 1 ∧
      corner n (tqliSweep n true m it k x).t.Z = corner n x.t.Z * G ∧
      corner n (band (bulge m it (tqliSweep n true m it k x))) = Gᵀ * corner n (band (bulge m (it + k) x)) * G ∧
      (tqliSweep n true m it k x).i = (if k = 0 then x.i else it) ∧
      (∀ j, j < it → (tqliSweep n true m it k x).t.e j = x.t.e j) ∧
      (∀ j, j < it → (tqliSweep n true m it k x).t.d j = x.t.d j)
  | 0, x, _, _, _ => ⟨1, by simp, by simp [tqliSweep], by simp [tqliSweep], by simp [tqliSweep], fun _ _ => rfl, fun _ _ => rfl⟩
  | k + 1, x, hk, hs, he => by
    have he0 : x.t.e (it + k) ≠ 0 := he _ (by omega) (by omega)
    have hr := hypot_ne_zero x.g (mul_ne_zero hs he0)
    rw [tqliSweep_succ n true m it k x hr]
    obtain ⟨y, hy⟩ : ∃ y, y = sweepNext n true (it + k) x := ⟨_, rfl⟩
    have hys : y.s ≠ 0 := by rw [hy]; exact div_ne_zero (mul_ne_zero hs he0) hr
    have hye : ∀ j, j ≤ it + k → y.t.e j = x.t.e j := by
      intro j hj
      rw [hy]
      exact Function.update_of_ne (by omega) _ _
    have hyd : ∀ j, j ≤ it + k → y.t.d j = x.t.d j := by
      intro j hj
      rw [hy]
      exact Function.update_of_ne (by omega) _ _
    have hyi : y.i = it + k := by rw [hy]; rfl
    obtain ⟨G, hG, hZ, hB, hi, h1, h2⟩ := sweep_sim n m it hm k y (by omega) hys
      (fun j hj hj' => by rw [hye j (by omega)]; exact he j hj (by omega))
    have hu : y.s ^ 2 + y.c ^ 2 = 1 := by rw [hy]; exact rot_unit _ _ hr
    have hg := givens_orth n (it + k) (by omega) y.s y.c hu
    rw [← hy]
    refine ⟨givens n (it + k) y.s y.c * G, ?_, ?_, ?_, ?_, ?_, ?_⟩
    · rw [Matrix.transpose_mul, Matrix.mul_assoc, ← Matrix.mul_assoc (givens n (it + k) y.s y.c)ᵀ, hg, Matrix.one_mul, hG]
    · rw [hZ, ← Matrix.mul_assoc, ← corner_rotZ n (it + k) (by omega)]
      rw [hy]
      rfl
    · have hst := bulge_step n true m (it + k) (by omega) x hr
      rw [← hy] at hst
      rw [hB, ← hst, corner_rotS n (it + k) (by omega), Matrix.transpose_mul]
      simp only [Matrix.mul_assoc, Nat.add_assoc]
    · rw [hi]
      rw [if_neg (by omega : ¬ k + 1 = 0)]
      split_ifs with h0
      · rw [hyi, h0]; rfl
      · rfl
    · intro j hj
      rw [h1 j hj, hye j (by omega)]
    · intro j hj
      rw [h2 j hj, hyd j (by omega)]

/-- Any sweep: what it does to `Z`, to the trace and to the earlier rows. -/
theorem sweep_any (n m it : ℕ) (withZ : Bool) (hm : m < n) : ∀ (k : ℕ) (x : SweepState), it + k ≤ m → it < m →
    ∃ G : Matrix (Fin n) (Fin n) ℝ, Gᵀ * G = 1 ∧
      corner n (tqliSweep n withZ m it k x).t.Z = corner n x.t.Z * (if withZ then G else 1) ∧
      (∀ j, j < it → (tqliSweep n withZ m it k x).t.e j = x.t.e j) ∧
      ((k = 0 ∧ tqliSweep n withZ m it k x = x) ∨
        (0 < k ∧ (tqliSweep n withZ m it k x).r = 0 ∧ it ≤ (tqliSweep n withZ m it k x).i ∧
          ∑ j ∈ Finset.range n, (tqliSweep n withZ m it k x).t.d j = ∑ j ∈ Finset.range n, x.t.d j - x.p) ∨
        (0 < k ∧ (tqliSweep n withZ m it k x).r ≠ 0 ∧
          ∑ j ∈ Finset.range n, (tqliSweep n withZ m it k x).t.d j - (tqliSweep n withZ m it k x).p =
            ∑ j ∈ Finset.range n, x.t.d j - x.p))
  | 0, x, _, _ => ⟨1, by simp, by cases withZ <;> simp [tqliSweep], fun _ _ => rfl, Or.inl ⟨rfl, rfl⟩⟩
  | k + 1, x, hk, hlt => by
    have hsum : ∀ v : ℝ, ∑ j ∈ Finset.range n, Function.update x.t.d (it + k + 1) v j =
        ∑ j ∈ Finset.range n, x.t.d j - x.t.d (it + k + 1) + v := by
      intro v
      have hmem : it + k + 1 ∈ Finset.range n := Finset.mem_range.2 (by omega)
      rw [Finset.sum_update_of_mem hmem, ← Finset.add_sum_erase _ _ hmem, Finset.erase_eq]
      ring
    by_cases hr : hypot (x.s * x.t.e (it + k)) x.g = 0
    · rw [tqliSweep]
      simp only
      rw [if_pos hr]
      refine ⟨1, by simp, by cases withZ <;> simp, ?_, Or.inr (Or.inl ⟨by omega, hr, by simp, ?_⟩)⟩
      · intro j hj
        simp only
        rw [Function.update_of_ne (by omega), Function.update_of_ne (by omega)]
      · simp only
        rw [hsum]
        ring
    · rw [tqliSweep_succ n withZ m it k x hr]
      obtain ⟨y, hy⟩ : ∃ y, y = sweepNext n withZ (it + k) x := ⟨_, rfl⟩
      have hye : ∀ j, j ≤ it + k → y.t.e j = x.t.e j := by
        intro j hj
        rw [hy]
        exact Function.update_of_ne (by omega) _ _
      have hyd : ∑ j ∈ Finset.range n, y.t.d j - y.p = ∑ j ∈ Finset.range n, x.t.d j - x.p := by
        rw [hy]
        simp only [sweepNext]
        rw [hsum]
        ring
      have hyr : y.r = 0 → y.p = 0 := by
        rw [hy]
        intro h
        simp only [sweepNext] at h ⊢
        rw [h, mul_zero]
      have hyi : y.i = it + k := by rw [hy]; rfl
      obtain ⟨G, hG, hZ, h1, h2⟩ := sweep_any n m it withZ hm k y (by omega) hlt
      have hu : y.s ^ 2 + y.c ^ 2 = 1 := by rw [hy]; exact rot_unit _ _ hr
      have hg := givens_orth n (it + k) (by omega) y.s y.c hu
      have hyZ : corner n y.t.Z = corner n x.t.Z * (if withZ then givens n (it + k) y.s y.c else 1) := by
        cases withZ
        · rw [hy]; simp [sweepNext]
        · simp only [if_true]
          rw [← corner_rotZ n (it + k) (by omega), hy]
          rfl
      rw [← hy]
      refine ⟨givens n (it + k) y.s y.c * G, ?_, ?_, ?_, ?_⟩
      · rw [Matrix.transpose_mul, Matrix.mul_assoc, ← Matrix.mul_assoc (givens n (it + k) y.s y.c)ᵀ, hg, Matrix.one_mul, hG]
      · rw [hZ, hyZ]
        cases withZ
        · simp
        · simp [Matrix.mul_assoc]
      · intro j hj
        rw [h1 j hj, hye j (by omega)]
      · rcases h2 with ⟨h, h'⟩ | ⟨_, h, hi, h'⟩ | ⟨_, h, h'⟩
        · rw [h']
          by_cases h0 : y.r = 0
          · refine Or.inr (Or.inl ⟨by omega, h0, by omega, ?_⟩)
            rw [← hyd, hyr h0, sub_zero]
          · exact Or.inr (Or.inr ⟨by omega, h0, hyd⟩)
        · exact Or.inr (Or.inl ⟨by omega, h, hi, by rw [h', hyd]⟩)
        · exact Or.inr (Or.inr ⟨by omega, h, by rw [h', hyd]⟩)

/-! ## Passes, rows -/

/-- The shift of a pass (`src/primate/tqli.py:60-61`). -/
def passShift (m it : ℕ) (t : TriState) : ℝ :=
  (t.d m - t.d it) + t.e it / ((t.d m - t.d it) +
    tqliSign (hypot ((t.d (it + 1) - t.d it) / (2 * t.e it)) 1) (t.d m - t.d it))

/-- The inner loop of a pass. -/
def passSweep (n : ℕ) (withZ : Bool) (m it : ℕ) (t : TriState) : SweepState :=
  tqliSweep n withZ m it (m - it)
    ⟨t, 1, 1, 0, passShift m it t, hypot ((t.d (it + 1) - t.d it) / (2 * t.e it)) 1, m⟩

/-- The tridiagonal matrix of a state. -/
def TriState.mat (n : ℕ) (t : TriState) : Matrix (Fin n) (Fin n) ℝ := corner n (band (triBand t.d t.e))

/-- A pass that completes: either `r` ends as zero and the pass stops, or the last writes happen. -/
theorem pass_cases (n : ℕ) (withZ : Bool) (m it : ℕ) (t t' : TriState) (h : tqliPass n withZ m it t = some t') :
    ((passSweep n withZ m it t).r = 0 ∧ it ≤ (passSweep n withZ m it t).i ∧ t' = (passSweep n withZ m it t).t) ∨
    (¬ ((passSweep n withZ m it t).r = 0 ∧ it ≤ (passSweep n withZ m it t).i) ∧
      t' = ⟨Function.update (passSweep n withZ m it t).t.d it ((passSweep n withZ m it t).t.d it - (passSweep n withZ m it t).p),
        Function.update (Function.update (passSweep n withZ m it t).t.e it (passSweep n withZ m it t).g) m 0,
        (passSweep n withZ m it t).t.Z⟩) := by
  unfold tqliPass at h
  simp only at h
  split_ifs at h with h1 h2
  · left
    exact ⟨h2.1, h2.2, (Option.some.inj h).symm⟩
  · right
    exact ⟨h2, (Option.some.inj h).symm⟩

/-- Any pass: `Z` is multiplied by an orthogonal matrix, the trace is kept, earlier rows are not touched. -/
theorem pass_any (n : ℕ) (withZ : Bool) (m it : ℕ) (hm : m < n) (hit : it < m) (t t' : TriState)
    (h : tqliPass n withZ m it t = some t') :
    (∃ G : Matrix (Fin n) (Fin n) ℝ, Gᵀ * G = 1 ∧ corner n t'.Z = corner n t.Z * (if withZ then G else 1)) ∧
      ∑ j ∈ Finset.range n, t'.d j = ∑ j ∈ Finset.range n, t.d j ∧ ∀ j, j < it → t'.e j = t.e j := by
  obtain ⟨G, hG, hZ, he, hd⟩ := sweep_any n m it withZ hm (m - it)
    ⟨t, 1, 1, 0, passShift m it t, hypot ((t.d (it + 1) - t.d it) / (2 * t.e it)) 1, m⟩ (by omega) hit
  change corner n (passSweep n withZ m it t).t.Z = _ at hZ
  change ∀ j, j < it → (passSweep n withZ m it t).t.e j = t.e j at he
  have hd' : ((passSweep n withZ m it t).r = 0 ∧ it ≤ (passSweep n withZ m it t).i ∧
          ∑ j ∈ Finset.range n, (passSweep n withZ m it t).t.d j = ∑ j ∈ Finset.range n, t.d j) ∨
        ((passSweep n withZ m it t).r ≠ 0 ∧
          ∑ j ∈ Finset.range n, (passSweep n withZ m it t).t.d j - (passSweep n withZ m it t).p =
            ∑ j ∈ Finset.range n, t.d j) := by
    rcases hd with ⟨h0, _⟩ | ⟨_, h1, h2, h3⟩ | ⟨_, h1, h2⟩
    · omega
    · exact Or.inl ⟨h1, h2, by rw [← sub_zero (∑ j ∈ Finset.range n, t.d j)]; exact h3⟩
    · exact Or.inr ⟨h1, by rw [← sub_zero (∑ j ∈ Finset.range n, t.d j)]; exact h2⟩
  rcases pass_cases n withZ m it t t' h with ⟨h1, h2, rfl⟩ | ⟨h1, rfl⟩
  · refine ⟨⟨G, hG, hZ⟩, ?_, he⟩
    rcases hd' with ⟨_, _, h3⟩ | ⟨h3, _⟩
    · exact h3
    · exact absurd h1 h3
  · refine ⟨⟨G, hG, hZ⟩, ?_, ?_⟩
    · rcases hd' with ⟨h3, h4, _⟩ | ⟨_, h3⟩
      · exact absurd ⟨h3, h4⟩ h1
      · have hmem : it ∈ Finset.range n := Finset.mem_range.2 (by omega)
        rw [Finset.sum_update_of_mem hmem, ← h3, ← Finset.add_sum_erase _ _ hmem, Finset.erase_eq]
        ring
    · intro j hj
      simp only
      rw [Function.update_of_ne (by omega), Function.update_of_ne (by omega)]
      exact he j hj

/-- A pass whose last `r` is nonzero is an orthogonal similarity. -/
theorem pass_sim (n m it : ℕ) (hm : m < n) (hit : it < m) (t t' : TriState) (h : tqliPass n true m it t = some t')
    (hem : t.e m = 0) (hep : ∀ j, j + 1 = it → t.e j = 0) (hne : ∀ j, it ≤ j → j < m → t.e j ≠ 0)
    (hreg : (passSweep n true m it t).r ≠ 0) :
    ∃ G : Matrix (Fin n) (Fin n) ℝ, Gᵀ * G = 1 ∧ corner n t'.Z = corner n t.Z * G ∧ t'.mat n = Gᵀ * t.mat n * G ∧
      t'.e m = 0 ∧ (∀ j, m < j → t'.e j = t.e j) := by
  obtain ⟨G, hG, hZ, hB, hi, h1, h2⟩ := sweep_sim n m it hm (m - it)
    ⟨t, 1, 1, 0, passShift m it t, hypot ((t.d (it + 1) - t.d it) / (2 * t.e it)) 1, m⟩ (by omega) one_ne_zero
    (fun j hj hj' => hne j hj (by omega))
  change corner n (passSweep n true m it t).t.Z = _ at hZ
  change corner n (band (bulge m it (passSweep n true m it t))) = _ at hB
  change ∀ j, j < it → (passSweep n true m it t).t.e j = t.e j at h1
  rw [show it + (m - it) = m by omega] at hB
  have hstart : band (bulge m m ⟨t, 1, 1, 0, passShift m it t, hypot ((t.d (it + 1) - t.d it) / (2 * t.e it)) 1, m⟩) =
      band (triBand t.d t.e) := by
    apply band_ext
    intro a u
    unfold bulge triBand
    simp only [sub_zero, one_mul, lt_irrefl, and_false, if_false, ite_self]
    split_ifs with q1 q2 q3
    · rfl
    · rw [q3, hem]
    · rfl
    · rfl
  rw [hstart] at hB
  have hab : ∀ (k : ℕ) (x : SweepState), it + k ≤ m → ∀ j, m < j → (tqliSweep n true m it k x).t.e j = x.t.e j := by
    intro k
    induction k with
    | zero => intro x _ j _; rfl
    | succ k ih =>
      intro x hk j hj
      by_cases hr : hypot (x.s * x.t.e (it + k)) x.g = 0
      · rw [tqliSweep]
        simp only
        rw [if_pos hr]
        simp only
        rw [Function.update_of_ne (by omega), Function.update_of_ne (by omega)]
      · rw [tqliSweep_succ n true m it k x hr, ih _ (by omega) j hj]
        exact Function.update_of_ne (by omega) _ _
  rcases pass_cases n true m it t t' h with ⟨h3, _, _⟩ | ⟨_, ht'⟩
  · exact absurd h3 hreg
  · refine ⟨G, hG, by rw [ht']; exact hZ, ?_, ?_, ?_⟩
    · change t'.mat n = Gᵀ * corner n (band (triBand t.d t.e)) * G
      rw [← hB]
      unfold TriState.mat
      congr 1
      apply band_ext
      intro a u
      rw [ht']
      unfold bulge triBand
      simp only
      by_cases u0 : u = 0
      · rw [if_pos u0, if_pos u0]
        by_cases ha : a = it
        · rw [if_pos ha, ha, Function.update_self]
        · rw [if_neg ha, Function.update_of_ne ha]
      · rw [if_neg u0, if_neg u0]
        by_cases u1 : u = 1
        · rw [if_pos u1, if_pos u1]
          by_cases ha : a = m
          · rw [if_pos ha, ha, Function.update_self]
          · rw [if_neg ha, Function.update_of_ne ha]
            by_cases hb : a = it
            · rw [if_pos hb, hb, Function.update_self]
            · rw [if_neg hb, Function.update_of_ne hb]
              by_cases hc : a + 1 = it
              · rw [if_pos hc, h1 a (by omega), hep a hc, mul_zero]
              · rw [if_neg hc]
        · rw [if_neg u1, if_neg u1]
          split_ifs with q1 q2
          · rw [h1 a (by omega), hep a q2.1, mul_zero]
          · rfl
          · rfl
    · rw [ht']
      simp
    · intro j hj
      rw [ht']
      simp only
      rw [Function.update_of_ne (by omega), Function.update_of_ne (by omega)]
      exact hab (m - it) _ (by omega) j hj

/-- The search stops at a column where the test succeeds, or at the last one. -/
theorem scan_spec (absorb : ℝ → ℝ → Bool) (t : TriState) : ∀ rem m,
    m ≤ tqliScan absorb t rem m ∧ tqliScan absorb t rem m ≤ m + rem ∧
      (∀ j, m ≤ j → j < tqliScan absorb t rem m → absorb |t.e j| (|t.d j| + |t.d (j + 1)|) = false) ∧
      (tqliScan absorb t rem m < m + rem →
        absorb |t.e (tqliScan absorb t rem m)| (|t.d (tqliScan absorb t rem m)| + |t.d (tqliScan absorb t rem m + 1)|) = true)
  | 0, m => ⟨le_rfl, le_rfl, fun j h h' => absurd (lt_of_le_of_lt h h') (lt_irrefl _), fun h => absurd h (lt_irrefl _)⟩
  | rem + 1, m => by
    unfold tqliScan
    split_ifs with h
    · exact ⟨le_rfl, by omega, fun j h h' => by omega, fun _ => h⟩
    · obtain ⟨h1, h2, h3, h4⟩ := scan_spec absorb t rem (m + 1)
      refine ⟨by omega, by omega, ?_, fun h' => h4 (by omega)⟩
      intro j hj hj'
      rcases (by omega : j = m ∨ m + 1 ≤ j) with h5 | h5
      · rw [h5]; simpa using h
      · exact h3 j h5 hj'

end Primate
