import Verif.Lemmas.Tqli

/-!
# C53, C54, C55: the tridiagonal eigensolvers
-/

set_option linter.unusedSimpArgs false

noncomputable section

namespace Primate

open Matrix

/-! ## Specification -/

/-- The test `x + y == y` in exact arithmetic. -/
def Spec.ExactAbsorb (absorb : ℝ → ℝ → Bool) : Prop := ∀ x y, 0 ≤ x → (absorb x y = true ↔ x = 0)

/-- Every pass of the loop for row `it` ends with a nonzero `r`, the variable tested on line 84 of `tqli.py`. -/
def Spec.RowRegular (absorb : ℝ → ℝ → Bool) (n maxIter it : ℕ) : ℕ → ℕ → TriState → Prop
  | 0, _, _ => True
  | fuel + 1, ii, t =>
    let m := tqliScan absorb t (n - 1 - it) it
    m ≠ it → ii ≤ maxIter → (passSweep n true m it t).r ≠ 0 ∧
      ∀ t', tqliPass n true m it t = some t' → Spec.RowRegular absorb n maxIter it fuel (ii + 1) t'

/-- Every pass of the run of `tqli` ends with a nonzero `r`. -/
def Spec.RowsRegular (absorb : ℝ → ℝ → Bool) (n maxIter fuel : ℕ) : ℕ → ℕ → TriState → Prop
  | 0, _, _ => True
  | rem + 1, it, t => Spec.RowRegular absorb n maxIter it fuel 0 t ∧
      ∀ t', tqliRow absorb n true maxIter it fuel 0 t = some (some t') →
        Spec.RowsRegular absorb n maxIter fuel rem (it + 1) t'

/-- The state `tqli` starts its loops from: the off-diagonals moved down by one. -/
def tqliStart (d e : Buf ℝ) (Z : ℕ → ℕ → ℝ) : TriState :=
  ⟨d.get, fun i => if i + 1 < d.len then e.get (i + 1) else if i + 1 = d.len then 0 else e.get i, Z⟩

theorem tqli_ok {absorb : ℝ → ℝ → Bool} {d e : Buf ℝ} {Z : ℕ → ℕ → ℝ} {withZ : Bool} {maxIter fuel : ℕ}
    {r : Option TriState} (h : tqli absorb d e Z withZ maxIter fuel = some (.ok r)) :
    d.len = e.len ∧ 0 < d.len ∧ |e.get 0| ≤ 1e-8 ∧
      tqliRows absorb d.len withZ maxIter fuel d.len 0 (tqliStart d e Z) = some r := by
  unfold tqli at h
  split_ifs at h with h1 h2 h3
  · cases h
  · cases h
  · refine ⟨not_not.1 h1, by omega, h3, ?_⟩
    change (tqliRows absorb d.len withZ maxIter fuel d.len 0 (tqliStart d e Z)).map Except.ok = _ at h
    rcases hr : tqliRows absorb d.len withZ maxIter fuel d.len 0 (tqliStart d e Z) with _ | r'
    · rw [hr] at h; cases h
    · rw [hr] at h
      simp only [Option.map_some, Option.some.injEq, Except.ok.injEq] at h
      rw [h]
  · cases h

/-! ## Runs -/

theorem row_any (absorb : ℝ → ℝ → Bool) (n : ℕ) (withZ : Bool) (maxIter it : ℕ) (hit : it < n) :
    ∀ (fuel ii : ℕ) (t t' : TriState), tqliRow absorb n withZ maxIter it fuel ii t = some (some t') →
    (∃ G : Matrix (Fin n) (Fin n) ℝ, Gᵀ * G = 1 ∧ corner n t'.Z = corner n t.Z * (if withZ then G else 1)) ∧
      ∑ j ∈ Finset.range n, t'.d j = ∑ j ∈ Finset.range n, t.d j ∧ ∀ j, j < it → t'.e j = t.e j
  | 0, ii, t, t', h => by cases h
  | fuel + 1, ii, t, t', h => by
    have hrefl : (∃ G : Matrix (Fin n) (Fin n) ℝ, Gᵀ * G = 1 ∧ corner n t.Z = corner n t.Z * (if withZ then G else 1)) :=
      ⟨1, by simp, by cases withZ <;> simp⟩
    rw [tqliRow] at h
    obtain ⟨hs1, hs2, -, -⟩ := scan_spec absorb t (n - 1 - it) it
    generalize tqliScan absorb t (n - 1 - it) it = m at h hs1 hs2
    split_ifs at h with h1 h2
    · obtain rfl := Option.some.inj (Option.some.inj h)
      exact ⟨hrefl, rfl, fun _ _ => rfl⟩
    · obtain rfl := Option.some.inj (Option.some.inj h)
      exact ⟨hrefl, rfl, fun _ _ => rfl⟩
    · rcases hp : tqliPass n withZ m it t with _ | t1
      · rw [hp] at h; cases h
      · rw [hp] at h
        obtain ⟨⟨G, hG, hZ⟩, hd, he⟩ := pass_any n withZ m it (by omega) (by omega) t t1 hp
        obtain ⟨⟨G', hG', hZ'⟩, hd', he'⟩ := row_any absorb n withZ maxIter it hit fuel (ii + 1) t1 t' h
        refine ⟨⟨G * G', ?_, ?_⟩, hd'.trans hd, fun j hj => (he' j hj).trans (he j hj)⟩
        · rw [Matrix.transpose_mul, Matrix.mul_assoc, ← Matrix.mul_assoc Gᵀ, hG, Matrix.one_mul, hG']
        · rw [hZ', hZ]
          cases withZ <;> simp [Matrix.mul_assoc]

theorem rows_any (absorb : ℝ → ℝ → Bool) (n : ℕ) (withZ : Bool) (maxIter fuel : ℕ) :
    ∀ (rem it : ℕ) (t t' : TriState), it + rem ≤ n → tqliRows absorb n withZ maxIter fuel rem it t = some (some t') →
    (∃ G : Matrix (Fin n) (Fin n) ℝ, Gᵀ * G = 1 ∧ corner n t'.Z = corner n t.Z * (if withZ then G else 1)) ∧
      ∑ j ∈ Finset.range n, t'.d j = ∑ j ∈ Finset.range n, t.d j ∧ ∀ j, j < it → t'.e j = t.e j
  | 0, it, t, t', _, h => by
    obtain rfl := Option.some.inj (Option.some.inj h)
    exact ⟨⟨1, by simp, by cases withZ <;> simp⟩, rfl, fun _ _ => rfl⟩
  | rem + 1, it, t, t', hn, h => by
    rw [tqliRows] at h
    rcases hr : tqliRow absorb n withZ maxIter it fuel 0 t with _ | _ | t1
    · rw [hr] at h; cases h
    · rw [hr] at h; cases h
    · rw [hr] at h
      obtain ⟨⟨G, hG, hZ⟩, hd, he⟩ := row_any absorb n withZ maxIter it (by omega) fuel 0 t t1 hr
      obtain ⟨⟨G', hG', hZ'⟩, hd', he'⟩ := rows_any absorb n withZ maxIter fuel rem (it + 1) t1 t' (by omega) h
      refine ⟨⟨G * G', ?_, ?_⟩, hd'.trans hd, fun j hj => (he' j (by omega)).trans (he j hj)⟩
      · rw [Matrix.transpose_mul, Matrix.mul_assoc, ← Matrix.mul_assoc Gᵀ, hG, Matrix.one_mul, hG']
      · rw [hZ', hZ]
        cases withZ <;> simp [Matrix.mul_assoc]

/-- What holds between the passes of a regular run. -/
structure TqliInv (n : ℕ) (T : Matrix (Fin n) (Fin n) ℝ) (it : ℕ) (t : TriState) : Prop where
  done : ∀ j, j < it → t.e j = 0
  last : t.e (n - 1) = 0
  orth : (corner n t.Z)ᵀ * corner n t.Z = 1
  sim : t.mat n = (corner n t.Z)ᵀ * T * corner n t.Z

theorem row_inv (absorb : ℝ → ℝ → Bool) (ha : Spec.ExactAbsorb absorb) (n maxIter it : ℕ) (hit : it < n)
    (T : Matrix (Fin n) (Fin n) ℝ) : ∀ (fuel ii : ℕ) (t t' : TriState), TqliInv n T it t →
    Spec.RowRegular absorb n maxIter it fuel ii t →
    tqliRow absorb n true maxIter it fuel ii t = some (some t') → TqliInv n T it t'
  | 0, ii, t, t', _, _, h => by cases h
  | fuel + 1, ii, t, t', hI, hreg, h => by
    rw [tqliRow] at h
    rw [Spec.RowRegular] at hreg
    obtain ⟨hs1, hs2, hs3, hs4⟩ := scan_spec absorb t (n - 1 - it) it
    generalize tqliScan absorb t (n - 1 - it) it = m at h hs1 hs2 hs3 hs4 hreg
    split_ifs at h with h1 h2
    · obtain rfl := Option.some.inj (Option.some.inj h)
      exact hI
    · obtain rfl := Option.some.inj (Option.some.inj h)
      exact hI
    · obtain ⟨hr1, hr2⟩ := hreg h1 (by rw [not_or] at h2; omega)
      rcases hp : tqliPass n true m it t with _ | t1
      · rw [hp] at h; cases h
      · rw [hp] at h
        have hne : ∀ j, it ≤ j → j < m → t.e j ≠ 0 := by
          intro j hj hj' h0
          have := hs3 j hj hj'
          rw [(ha _ _ (abs_nonneg _)).2 (by rw [h0, abs_zero])] at this
          cases this
        have hem : t.e m = 0 := by
          rcases (by omega : m = n - 1 ∨ m < it + (n - 1 - it)) with h3 | h3
          · rw [h3]; exact hI.last
          · exact abs_eq_zero.1 ((ha _ _ (abs_nonneg _)).1 (hs4 h3))
        obtain ⟨-, -, he⟩ := pass_any n true m it (by omega) (by omega) t t1 hp
        obtain ⟨G, hG, hZ, hT, he1, he2⟩ := pass_sim n m it (by omega) (by omega) t t1 hp hem
          (fun j hj => hI.done j (by omega)) hne hr1
        refine row_inv absorb ha n maxIter it hit T fuel (ii + 1) t1 t' ⟨?_, ?_, ?_, ?_⟩ (hr2 t1 hp) h
        · intro j hj
          rw [he j hj, hI.done j hj]
        · rcases (by omega : m = n - 1 ∨ m < n - 1) with h3 | h3
          · rw [← h3]; exact he1
          · rw [he2 _ h3]; exact hI.last
        · rw [hZ, Matrix.transpose_mul, Matrix.mul_assoc, ← Matrix.mul_assoc (corner n t.Z)ᵀ, hI.orth, Matrix.one_mul, hG]
        · rw [hT, hI.sim, hZ, Matrix.transpose_mul]
          simp only [Matrix.mul_assoc]

theorem rows_inv (absorb : ℝ → ℝ → Bool) (ha : Spec.ExactAbsorb absorb) (n maxIter fuel : ℕ)
    (T : Matrix (Fin n) (Fin n) ℝ) : ∀ (rem it : ℕ) (t t' : TriState), it + rem = n → TqliInv n T it t →
    Spec.RowsRegular absorb n maxIter fuel rem it t →
    tqliRows absorb n true maxIter fuel rem it t = some (some t') → (∀ j, j < n → t'.e j = 0) → TqliInv n T n t'
  | 0, it, t, t', hn, hI, _, h, _ => by
    obtain rfl := Option.some.inj (Option.some.inj h)
    have : it = n := by omega
    rw [this] at hI
    exact hI
  | rem + 1, it, t, t', hn, hI, hreg, h, hz => by
    rw [tqliRows] at h
    obtain ⟨hreg1, hreg2⟩ := hreg
    rcases hr : tqliRow absorb n true maxIter it fuel 0 t with _ | _ | t1
    · rw [hr] at h; cases h
    · rw [hr] at h; cases h
    · rw [hr] at h
      have hI1 := row_inv absorb ha n maxIter it (by omega) T fuel 0 t t1 hI hreg1 hr
      obtain ⟨-, -, he⟩ := rows_any absorb n true maxIter fuel rem (it + 1) t1 t' (by omega) h
      refine rows_inv absorb ha n maxIter fuel T rem (it + 1) t1 t' (by omega) ⟨?_, hI1.last, hI1.orth, hI1.sim⟩ (hreg2 t1 hr) h hz
      intro j hj
      rcases (by omega : j = it ∨ j < it) with h3 | h3
      · rw [← he j hj, hz j (by omega)]
      · exact hI1.done j h3

theorem corner_eye (n : ℕ) : corner n eyeN = 1 := by
  ext a b
  simp [corner, eyeN, Matrix.one_apply, Fin.ext_iff]

theorem start_mat (d e : Buf ℝ) (Z : ℕ → ℕ → ℝ) : (tqliStart d e Z).mat d.len = triMat d.len d.get e.get := by
  ext a b
  have ha := a.2
  have hb := b.2
  show band (triBand _ _) (a : ℕ) (b : ℕ) = if a = b then d.get a else if (a : ℕ) + 1 = b then e.get b else if (b : ℕ) + 1 = a then e.get a else 0
  unfold band triBand tqliStart
  simp only [Fin.ext_iff]
  rcases lt_trichotomy (a : ℕ) (b : ℕ) with h | h | h
  · have q1 : ¬ ((b : ℕ) - a = 0) := by omega
    have q2 : ¬ ((a : ℕ) = b) := by omega
    by_cases h1 : (a : ℕ) + 1 = b
    · have q3 : (b : ℕ) - a = 1 := by omega
      have q4 : (a : ℕ) + 1 < d.len := by omega
      simp only [if_pos h.le, q1, q2, q3, q4, h1, if_true, if_false, one_ne_zero, hb]
    · have q3 : ¬ ((b : ℕ) - a = 1) := by omega
      have q4 : ¬ ((b : ℕ) + 1 = a) := by omega
      simp only [if_pos h.le, q1, q2, q3, q4, h1, if_false]
  · simp [h]
  · have q0 : ¬ ((a : ℕ) ≤ b) := by omega
    have q1 : ¬ ((a : ℕ) - b = 0) := by omega
    have q2 : ¬ ((a : ℕ) = b) := by omega
    have q5 : ¬ ((a : ℕ) + 1 = b) := by omega
    by_cases h1 : (b : ℕ) + 1 = a
    · have q3 : (a : ℕ) - b = 1 := by omega
      have q4 : (b : ℕ) + 1 < d.len := by omega
      simp only [q0, q1, q2, q3, q4, q5, h1, if_true, if_false, one_ne_zero, ha]
    · have q3 : ¬ ((a : ℕ) - b = 1) := by omega
      simp only [q0, q1, q2, q3, q5, h1, if_false]

/-! ## C53 -/

/-- C53 (partial: a pass whose last `r` is zero is excluded): a pass of `tqli` for row `it` towards `m`, where the
off-diagonals before `it` and at `m` vanish and those between do not, replaces the tridiagonal matrix `T` by `Gᵀ T G` and `Z` by
`Z G` with the same orthogonal `G`.  See `C53_counterexample` for the missing case. -/
theorem C53_sweep_partial (n m it : ℕ) (hm : m < n) (hit : it < m) (t t' : TriState) (h : tqliPass n true m it t = some t')
    (hem : t.e m = 0) (hep : ∀ j, j + 1 = it → t.e j = 0) (hne : ∀ j, it ≤ j → j < m → t.e j ≠ 0)
    (hreg : (passSweep n true m it t).r ≠ 0) :
    ∃ G : Matrix (Fin n) (Fin n) ℝ, Gᵀ * G = 1 ∧ corner n t'.Z = corner n t.Z * G ∧ t'.mat n = Gᵀ * t.mat n * G := by
  obtain ⟨G, h1, h2, h3, -⟩ := pass_sim n m it hm hit t t' h hem hep hne hreg
  exact ⟨G, h1, h2, h3⟩

/-- C53: whatever the input and the number of passes, `Z` stays orthogonal and the values returned sum to the trace. -/
theorem C53_orthogonal_trace (absorb : ℝ → ℝ → Bool) (d e : Buf ℝ) (maxIter fuel : ℕ) (t' : TriState)
    (h : tqli absorb d e eyeN true maxIter fuel = some (.ok (some t'))) :
    (corner d.len t'.Z)ᵀ * corner d.len t'.Z = 1 ∧ ∑ j ∈ Finset.range d.len, t'.d j = ∑ j ∈ Finset.range d.len, d.get j := by
  obtain ⟨-, -, -, hr⟩ := tqli_ok h
  obtain ⟨⟨G, hG, hZ⟩, hd, -⟩ := rows_any absorb d.len true maxIter fuel d.len 0 _ t' (by omega) hr
  refine ⟨?_, hd⟩
  change corner d.len t'.Z = corner d.len eyeN * _ at hZ
  rw [hZ, corner_eye, Matrix.one_mul, if_pos rfl, hG]

/-- C53 (partial: in exact arithmetic and for runs none of whose passes ends with `r = 0`): when `tqli` returns with
vanishing off-diagonals, `d` and `Z` are the eigenvalues and eigenvectors of the input. -/
theorem C53_eigenpairs_partial (absorb : ℝ → ℝ → Bool) (ha : Spec.ExactAbsorb absorb) (d e : Buf ℝ) (maxIter fuel : ℕ)
    (t' : TriState) (h : tqli absorb d e eyeN true maxIter fuel = some (.ok (some t')))
    (hreg : Spec.RowsRegular absorb d.len maxIter fuel d.len 0 (tqliStart d e eyeN)) (hz : ∀ j, j < d.len → t'.e j = 0) :
    IsEigh (triMat d.len d.get e.get) (fun i => t'.d i) (corner d.len t'.Z) := by
  obtain ⟨-, hpos, -, hr⟩ := tqli_ok h
  have hI := rows_inv absorb ha d.len maxIter fuel (triMat d.len d.get e.get) d.len 0 _ t' (by omega)
    ⟨fun j hj => by omega, by
      show (if d.len - 1 + 1 < d.len then _ else if d.len - 1 + 1 = d.len then (0 : ℝ) else _) = 0
      rw [if_neg (by omega), if_pos (by omega)], by
      show (corner d.len eyeN)ᵀ * corner d.len eyeN = 1
      rw [corner_eye]; simp, by
      rw [start_mat]
      show _ = (corner d.len eyeN)ᵀ * _ * corner d.len eyeN
      rw [corner_eye]; simp⟩ hreg hr hz
  refine ⟨hI.orth, ?_⟩
  have hdiag : t'.mat d.len = Matrix.diagonal fun i : Fin d.len => t'.d i := by
    ext a b
    show band (triBand _ _) (a : ℕ) (b : ℕ) = _
    unfold band triBand
    have ha := a.2
    have hb := b.2
    rw [Matrix.diagonal_apply]
    simp only [Fin.ext_iff]
    rcases lt_trichotomy (a : ℕ) (b : ℕ) with h | h | h
    · have q1 : ¬ ((b : ℕ) - a = 0) := by omega
      have q2 : ¬ ((a : ℕ) = b) := by omega
      simp only [if_pos h.le, q1, q2, if_false, hz a ha, ite_self]
    · simp [h]
    · have q0 : ¬ ((a : ℕ) ≤ b) := by omega
      have q1 : ¬ ((a : ℕ) - b = 0) := by omega
      have q2 : ¬ ((a : ℕ) = b) := by omega
      simp only [q0, q1, q2, if_false, hz b hb, ite_self]
  rw [← hdiag, hI.sim]
  have h2 := mul_eq_one_comm.1 hI.orth
  rw [Matrix.mul_assoc, ← Matrix.mul_assoc, h2, Matrix.one_mul]

/-! ### Two by two -/

theorem passSweep_two (t : TriState) (h : t.e 0 ≠ 0) : passSweep 2 true 1 0 t =
    sweepNext 2 true 0 ⟨t, 1, 1, 0, passShift 1 0 t, hypot ((t.d (0 + 1) - t.d 0) / (2 * t.e 0)) 1, 1⟩ := by
  unfold passSweep
  have hr : hypot (1 * t.e (0 + 0)) (passShift 1 0 t) ≠ 0 := hypot_ne_zero _ (by rw [one_mul]; exact h)
  rw [show 1 - 0 = 0 + 1 from rfl, tqliSweep_succ 2 true 1 0 0 _ hr]
  rfl

/-- The shift of line 61 has no pole. -/
def ShiftOk (m it : ℕ) (t : TriState) : Prop :=
  (t.d m - t.d it) + tqliSign (hypot ((t.d (it + 1) - t.d it) / (2 * t.e it)) 1) (t.d m - t.d it) ≠ 0

open Classical in
theorem tqliPass_eq (n : ℕ) (withZ : Bool) (m it : ℕ) (t : TriState) (h : ShiftOk m it t) :
    tqliPass n withZ m it t = if (passSweep n withZ m it t).r = 0 ∧ it ≤ (passSweep n withZ m it t).i then
      some (passSweep n withZ m it t).t
    else some ⟨Function.update (passSweep n withZ m it t).t.d it ((passSweep n withZ m it t).t.d it - (passSweep n withZ m it t).p),
        Function.update (Function.update (passSweep n withZ m it t).t.e it (passSweep n withZ m it t).g) m 0,
        (passSweep n withZ m it t).t.Z⟩ := by
  unfold tqliPass
  simp only
  rw [if_neg h]
  rfl

theorem hypot_nonneg (x y : ℝ) : 0 ≤ hypot x y := Real.sqrt_nonneg _

open Classical in
theorem tqliSign_nonneg {a : ℝ} (h : 0 ≤ a) (b : ℝ) : tqliSign a b = if b > 1 then 2 else 1 := by
  unfold tqliSign
  rw [if_neg (not_lt.2 h)]
  split_ifs <;> norm_num

theorem passShift_two (t : TriState) : passShift 1 0 t = (t.d 1 - t.d 0) + t.e 0 / ((t.d 1 - t.d 0) +
    (tqliSign 1 (t.d 1 - t.d 0))) := by
  unfold passShift
  rw [tqliSign_nonneg (hypot_nonneg _ _), tqliSign_nonneg zero_le_one]

theorem scan_two (absorb : ℝ → ℝ → Bool) (ha : Spec.ExactAbsorb absorb) (t : TriState) :
    (t.e 0 ≠ 0 → tqliScan absorb t (2 - 1 - 0) 0 = 1) ∧ (t.e 0 = 0 → tqliScan absorb t (2 - 1 - 0) 0 = 0) := by
  have h := ha |t.e 0| (|t.d 0| + |t.d (0 + 1)|) (abs_nonneg _)
  constructor
  · intro h0
    rw [show 2 - 1 - 0 = 0 + 1 from rfl]
    unfold tqliScan
    rw [if_neg (by rw [h, abs_eq_zero]; exact h0)]
    rfl
  · intro h0
    rw [show 2 - 1 - 0 = 0 + 1 from rfl]
    unfold tqliScan
    rw [if_pos (by rw [h, abs_eq_zero]; exact h0)]

/-- A pass on `2 × 2` that ends with `r = 0` changes neither the diagonal nor the off-diagonal. -/
theorem stall_pass (t : TriState) (h0 : t.e 0 ≠ 0) (hs : ShiftOk 1 0 t)
    (hb : 2 * passShift 1 0 t = t.d 1 - t.d 0) :
    (passSweep 2 true 1 0 t).r = 0 ∧
    ∃ t', tqliPass 2 true 1 0 t = some t' ∧ t'.d 0 = t.d 0 ∧ t'.d 1 = t.d 1 ∧ t'.e 0 = t.e 0 := by
  have hh : hypot (1 * t.e 0) (passShift 1 0 t) ≠ 0 := hypot_ne_zero _ (by rw [one_mul]; exact h0)
  have hr : (passSweep 2 true 1 0 t).r = 0 := by
    rw [passSweep_two t h0]
    simp only [sweepNext, zero_add, sub_zero, one_mul] at hh ⊢
    field_simp
    linear_combination (t.e 0) * hb
  have hi : (passSweep 2 true 1 0 t).i = 0 := by rw [passSweep_two t h0]; rfl
  refine ⟨hr, _, by rw [tqliPass_eq _ _ _ _ _ hs, if_pos ⟨hr, by omega⟩], ?_, ?_, ?_⟩
  · rw [passSweep_two t h0]
    simp [sweepNext]
  · have hp : (passSweep 2 true 1 0 t).p = 0 := by
      rw [passSweep_two t h0] at hr ⊢
      simp only [sweepNext] at hr ⊢
      rw [hr, mul_zero]
    rw [passSweep_two t h0] at hp ⊢
    simp only [sweepNext, zero_add, sub_zero] at hp ⊢
    rw [Function.update_self, hp, add_zero]
  · rw [passSweep_two t h0]
    simp [sweepNext]

theorem stall_row (absorb : ℝ → ℝ → Bool) (ha : Spec.ExactAbsorb absorb) (maxIter : ℕ) (x y E : ℝ) (hE : E ≠ 0)
    (hs : (y - x) + tqliSign 1 (y - x) ≠ 0) (hb : 2 * ((y - x) + E / ((y - x) + tqliSign 1 (y - x))) = y - x) :
    ∀ (fuel ii : ℕ) (t : TriState), t.d 0 = x → t.d 1 = y → t.e 0 = E → ii ≤ maxIter + 1 → maxIter + 2 ≤ fuel + ii →
    ∃ t', tqliRow absorb 2 true maxIter 0 fuel ii t = some (some t') ∧ t'.d 0 = x ∧ t'.d 1 = y ∧ t'.e 0 = E
  | 0, ii, t, _, _, _, _, h => by omega
  | fuel + 1, ii, t, h0, h1, h2, hi, hf => by
    have he : t.e 0 ≠ 0 := by rw [h2]; exact hE
    rw [tqliRow]
    rw [(scan_two absorb ha t).1 he]
    simp only [one_ne_zero, if_false]
    by_cases hii : maxIter < ii
    · rw [if_pos (Or.inl hii)]
      exact ⟨t, rfl, h0, h1, h2⟩
    · rw [if_neg (by rw [not_or]; exact ⟨hii, he⟩)]
      obtain ⟨-, t', ht', g0, g1, g2⟩ := stall_pass t he
        (by
          unfold ShiftOk
          rw [tqliSign_nonneg (hypot_nonneg _ _), h0, h1]
          rwa [tqliSign_nonneg zero_le_one] at hs)
        (by rw [passShift_two, h0, h1, h2]; exact hb)
      rw [ht']
      exact stall_row absorb ha maxIter x y E hE hs hb fuel (ii + 1) t' (g0.trans h0) (g1.trans h1) (g2.trans h2) (by omega) (by omega)

/-- C53, the claim fails: for `T = [[x, E], [E, y]]` with `2 E = -(y - x)(y - x + sign)` and `E ≠ 0` every pass ends with
`r = 0`, so the last writes are skipped, the loop stalls and `tqli` returns the diagonal `[x, y]` after `max_iter + 1`
passes; neither value is an eigenvalue.  (In the original algorithm the test on line 84 only catches the early exit.) -/
theorem C53_counterexample (absorb : ℝ → ℝ → Bool) (ha : Spec.ExactAbsorb absorb) (maxIter fuel : ℕ) (hf : maxIter + 2 ≤ fuel)
    (x y E : ℝ) (hE : E ≠ 0) (hs : (y - x) + tqliSign 1 (y - x) ≠ 0)
    (hb : 2 * E = -(y - x) * ((y - x) + tqliSign 1 (y - x))) :
    (∃ t', tqli absorb ⟨2, fun i => if i = 0 then x else y⟩ ⟨2, fun i => if i = 0 then 0 else E⟩ eyeN true maxIter fuel =
      some (.ok (some t')) ∧ t'.d 0 = x ∧ t'.d 1 = y) ∧
    (∀ v : Fin 2 → ℝ, triMat 2 (fun i => if i = 0 then x else y) (fun i => if i = 0 then 0 else E) *ᵥ v = x • v → v = 0) ∧
    (∀ v : Fin 2 → ℝ, triMat 2 (fun i => if i = 0 then x else y) (fun i => if i = 0 then 0 else E) *ᵥ v = y • v → v = 0) := by
  have hb' : 2 * ((y - x) + E / ((y - x) + tqliSign 1 (y - x))) = y - x := by
    have : E = -(y - x) * ((y - x) + tqliSign 1 (y - x)) / 2 := by linarith
    rw [this]
    field_simp
    ring
  have hmat : triMat 2 (fun i => if i = 0 then x else y) (fun i => if i = 0 then 0 else E) = !![x, E; E, y] := by
    ext a b
    fin_cases a <;> fin_cases b <;> simp [triMat]
  refine ⟨?_, ?_, ?_⟩
  · obtain ⟨t', h1, h2, h3, h4⟩ := stall_row absorb ha maxIter x y E hE hs hb' fuel 0
      (tqliStart ⟨2, fun i => if i = 0 then x else y⟩ ⟨2, fun i => if i = 0 then 0 else E⟩ eyeN) (by simp [tqliStart])
      (by simp [tqliStart]) (by simp [tqliStart]) (by omega) (by omega)
    have hrow1 : tqliRow absorb 2 true maxIter 1 fuel 0 t' = some (some t') := by
      obtain ⟨f, rfl⟩ : ∃ f, fuel = f + 1 := ⟨fuel - 1, by omega⟩
      rw [tqliRow]
      simp [tqliScan]
    refine ⟨t', ?_, h2, h3⟩
    unfold tqli
    simp only [ne_eq, not_true_eq_false, if_false, if_true, abs_zero]
    rw [if_neg (by norm_num), if_neg (by norm_num)]
    change (tqliRows absorb 2 true maxIter fuel 2 0
      (tqliStart ⟨2, fun i => if i = 0 then x else y⟩ ⟨2, fun i => if i = 0 then 0 else E⟩ eyeN)).map Except.ok = _
    simp only [tqliRows, h1, hrow1]
    rfl
  · intro v hv
    rw [hmat] at hv
    have e0 := congrFun hv 0
    have e1 := congrFun hv 1
    simp [Matrix.mulVec, dotProduct, Fin.sum_univ_two] at e0 e1
    have hv1 : v 1 = 0 := by
      rcases e0 with h | h
      · exact absurd h hE
      · exact h
    have hv0 : v 0 = 0 := by
      rw [hv1] at e1
      simp only [mul_zero, add_zero, mul_eq_zero] at e1
      exact e1.resolve_left hE
    funext i
    fin_cases i
    · exact hv0
    · exact hv1
  · intro v hv
    rw [hmat] at hv
    have e0 := congrFun hv 0
    have e1 := congrFun hv 1
    simp [Matrix.mulVec, dotProduct, Fin.sum_univ_two] at e0 e1
    have hv0 : v 0 = 0 := by
      rcases e1 with h | h
      · exact absurd h hE
      · exact h
    have hv1 : v 1 = 0 := by
      rw [hv0] at e0
      simp only [mul_zero, zero_add, mul_eq_zero] at e0
      exact e0.resolve_left hE
    funext i
    fin_cases i
    · exact hv0
    · exact hv1

/-- The exact test exists. -/
theorem exactAbsorb_exists : ∃ absorb, Spec.ExactAbsorb absorb := by
  classical
  exact ⟨fun x _ => decide (x = 0), fun x _ _ => by simp⟩

/-- `C53_counterexample` applies to `[[0, -1], [-1, 1]]`, whose eigenvalues are `(1 ± √5)/2`: the result is `[0, 1]`. -/
example (absorb : ℝ → ℝ → Bool) (ha : Spec.ExactAbsorb absorb) :
    ∃ t', tqli absorb ⟨2, fun i => if i = 0 then 0 else 1⟩ ⟨2, fun i => if i = 0 then 0 else -1⟩ eyeN true 30 32 =
      some (.ok (some t')) ∧ t'.d 0 = 0 ∧ t'.d 1 = 1 := by
  have hsgn : tqliSign 1 (1 - 0) = 1 := by rw [tqliSign_nonneg zero_le_one]; norm_num
  exact (C53_counterexample absorb ha 30 32 (by norm_num) 0 1 (-1) (by norm_num) (by rw [hsgn]; norm_num)
    (by rw [hsgn]; norm_num)).1

/-- C53, the claim fails in a second way: when the diagonal entries satisfy `d[m] - d[it] = -1` the shift divides by zero
and the result is NaN, e.g. for `[[1, 1], [1, 0]]`. -/
theorem C53_division_by_zero (absorb : ℝ → ℝ → Bool) (ha : Spec.ExactAbsorb absorb) (maxIter fuel : ℕ) (hf : 0 < fuel)
    (x E : ℝ) (hE : E ≠ 0) :
    tqli absorb ⟨2, fun i => if i = 0 then x else x - 1⟩ ⟨2, fun i => if i = 0 then 0 else E⟩ eyeN true maxIter fuel =
      some (.ok none) := by
  obtain ⟨f, rfl⟩ : ∃ f, fuel = f + 1 := ⟨fuel - 1, by omega⟩
  obtain ⟨t, ht⟩ : ∃ t, t = tqliStart ⟨2, fun i => if i = 0 then x else x - 1⟩ ⟨2, fun i => if i = 0 then 0 else E⟩ eyeN := ⟨_, rfl⟩
  have h0 : t.d 0 = x := by rw [ht]; simp [tqliStart]
  have h1 : t.d 1 = x - 1 := by rw [ht]; simp [tqliStart]
  have h2 : t.e 0 = E := by rw [ht]; simp [tqliStart]
  have hp : tqliPass 2 true 1 0 t = none := by
    unfold tqliPass
    simp only
    rw [if_pos]
    rw [tqliSign_nonneg (hypot_nonneg _ _), h0, h1, if_neg (by linarith)]
    ring
  have hrow : tqliRow absorb 2 true maxIter 0 (f + 1) 0 t = some none := by
    rw [tqliRow]
    rw [(scan_two absorb ha t).1 (by rw [h2]; exact hE)]
    simp only [one_ne_zero, if_false]
    rw [if_neg (by rw [not_or, h2]; exact ⟨by omega, hE⟩), hp]
  unfold tqli
  simp only [ne_eq, not_true_eq_false, if_false, if_true, abs_zero]
  rw [if_neg (by norm_num), if_neg (by norm_num)]
  change (tqliRows absorb 2 true maxIter (f + 1) 2 0
      (tqliStart ⟨2, fun i => if i = 0 then x else x - 1⟩ ⟨2, fun i => if i = 0 then 0 else E⟩ eyeN)).map Except.ok = _
  rw [← ht]
  simp only [tqliRows, hrow]
  rfl

/-- The pass of `tqli` for `[[a, b], [b, a]]`. -/
theorem swap_pass (a b : ℝ) (hb : b ≠ 0) (t : TriState) (h0 : t.d 0 = a) (h1 : t.d 1 = a) (h2 : t.e 0 = b) :
    (passSweep 2 true 1 0 t).r ≠ 0 ∧ ∃ t', tqliPass 2 true 1 0 t = some t' ∧ t'.e 0 = 0 ∧ t'.e 1 = 0 ∧ t'.d 0 = a - b ∧ t'.d 1 = a + b := by
  have he : t.e 0 ≠ 0 := by rw [h2]; exact hb
  have hsgn : tqliSign 1 (0 : ℝ) = 1 := by rw [tqliSign_nonneg zero_le_one]; norm_num
  have hsh : passShift 1 0 t = b := by
    rw [passShift_two, h0, h1, h2, sub_self, hsgn]; simp
  have hso : ShiftOk 1 0 t := by
    unfold ShiftOk
    rw [tqliSign_nonneg (hypot_nonneg _ _), h0, h1]
    norm_num
  have hh : hypot b b ≠ 0 := hypot_ne_zero _ hb
  have hsq : hypot b b ^ 2 = b ^ 2 + b ^ 2 := hypot_sq b b
  have hsw : passSweep 2 true 1 0 t = sweepNext 2 true 0 ⟨t, 1, 1, 0, b, hypot ((t.d (0 + 1) - t.d 0) / (2 * t.e 0)) 1, 1⟩ := by
    rw [passSweep_two t he, hsh]
  have hr : (passSweep 2 true 1 0 t).r = 2 * b ^ 2 / hypot b b := by
    rw [hsw]
    simp only [sweepNext, zero_add, sub_zero, one_mul, h0, h1, h2]
    field_simp
    ring
  have hr0 : (passSweep 2 true 1 0 t).r ≠ 0 := by
    rw [hr]
    exact div_ne_zero (by positivity) hh
  have hp : (passSweep 2 true 1 0 t).p = b := by
    have : (passSweep 2 true 1 0 t).p = b / hypot b b * (passSweep 2 true 1 0 t).r := by
      rw [hsw]; simp only [sweepNext, one_mul, h2]
    rw [this, hr, div_mul_div_comm, div_eq_iff (mul_ne_zero hh hh)]
    linear_combination (-b) * hsq
  have hg : (passSweep 2 true 1 0 t).g = 0 := by
    have : (passSweep 2 true 1 0 t).g = b / hypot b b * (passSweep 2 true 1 0 t).r - b := by
      rw [hsw]; simp only [sweepNext, one_mul, h2]
    rw [this, hr, sub_eq_zero, div_mul_div_comm, div_eq_iff (mul_ne_zero hh hh)]
    linear_combination (-b) * hsq
  have hpass := tqliPass_eq 2 true 1 0 t hso
  rw [if_neg (fun h => hr0 h.1)] at hpass
  obtain ⟨t', ht'⟩ : ∃ t', t' = (⟨Function.update (passSweep 2 true 1 0 t).t.d 0 ((passSweep 2 true 1 0 t).t.d 0 - (passSweep 2 true 1 0 t).p),
        Function.update (Function.update (passSweep 2 true 1 0 t).t.e 0 (passSweep 2 true 1 0 t).g) 1 0,
        (passSweep 2 true 1 0 t).t.Z⟩ : TriState) := ⟨_, rfl⟩
  rw [← ht'] at hpass
  have e0 : t'.e 0 = 0 := by rw [ht']; simp [hg]
  have e1 : t'.e 1 = 0 := by rw [ht']; simp
  have d0 : t'.d 0 = a - b := by
    rw [ht']
    simp only [Function.update_self, hp]
    rw [hsw]
    simp [sweepNext, h0]
  have d1 : t'.d 1 = a + b := by
    rw [ht']
    simp only
    rw [Function.update_of_ne one_ne_zero]
    have : (passSweep 2 true 1 0 t).t.d 1 = a + (passSweep 2 true 1 0 t).p := by
      rw [hsw]; simp [sweepNext, h1]
    rw [this, hp]
  exact ⟨hr0, t', hpass, e0, e1, d0, d1⟩

/-- `C53_sweep_partial` and `C53_eigenpairs_partial` apply to `[[a, b], [b, a]]`: one regular pass makes the off-diagonal
vanish and leaves `[a - b, a + b]` on the diagonal. -/
theorem tqli_swap (absorb : ℝ → ℝ → Bool) (ha : Spec.ExactAbsorb absorb) (a b : ℝ) (hb : b ≠ 0) :
    ∃ t', tqli absorb ⟨2, fun _ => a⟩ ⟨2, fun i => if i = 0 then 0 else b⟩ eyeN true 30 32 = some (.ok (some t')) ∧
      Spec.RowsRegular absorb 2 30 32 2 0 (tqliStart ⟨2, fun _ => a⟩ ⟨2, fun i => if i = 0 then 0 else b⟩ eyeN) ∧
      (∀ j, j < 2 → t'.e j = 0) ∧ t'.d 0 = a - b ∧ t'.d 1 = a + b := by
  obtain ⟨t, ht⟩ : ∃ t, t = tqliStart ⟨2, fun _ => a⟩ ⟨2, fun i => if i = 0 then 0 else b⟩ eyeN := ⟨_, rfl⟩
  have h0 : t.d 0 = a := by rw [ht]; simp [tqliStart]
  have h1 : t.d 1 = a := by rw [ht]; simp [tqliStart]
  have h2 : t.e 0 = b := by rw [ht]; simp [tqliStart]
  have he : t.e 0 ≠ 0 := by rw [h2]; exact hb
  obtain ⟨hr0, t', hpass, e0, e1, d0, d1⟩ := swap_pass a b hb t h0 h1 h2
  have hrow : ∀ f ii, tqliRow absorb 2 true 30 0 (f + 1) ii t' = some (some t') := by
    intro f ii
    rw [tqliRow]
    rw [(scan_two absorb ha t').2 e0]
    simp
  have hrow0 : tqliRow absorb 2 true 30 0 32 0 t = some (some t') := by
    rw [tqliRow]
    rw [(scan_two absorb ha t).1 he]
    simp only [one_ne_zero, if_false]
    rw [if_neg (by rw [not_or]; exact ⟨by omega, he⟩), hpass]
    exact hrow 30 1
  have hrow1 : ∀ t, tqliRow absorb 2 true 30 1 32 0 t = some (some t) := by
    intro t
    rw [tqliRow]
    simp [tqliScan]
  refine ⟨t', ?_, ?_, ?_, d0, d1⟩
  · unfold tqli
    simp only [ne_eq, not_true_eq_false, if_false, if_true, abs_zero]
    rw [if_neg (by norm_num), if_neg (by norm_num)]
    change (tqliRows absorb 2 true 30 32 2 0 (tqliStart ⟨2, fun _ => a⟩ ⟨2, fun i => if i = 0 then 0 else b⟩ eyeN)).map Except.ok = _
    rw [← ht]
    simp only [tqliRows, hrow0, hrow1]
    rfl
  · rw [← ht]
    refine ⟨?_, fun t1 _ => ⟨?_, fun t2 _ => trivial⟩⟩
    · rw [Spec.RowRegular]
      rw [(scan_two absorb ha t).1 he]
      intro _ _
      refine ⟨hr0, fun t2 h2 => ?_⟩
      rw [hpass] at h2
      obtain rfl := Option.some.inj h2
      rw [Spec.RowRegular]
      rw [(scan_two absorb ha t').2 e0]
      exact fun h => absurd rfl h
    · rw [Spec.RowRegular]
      intro h
      exact absurd rfl h
  · intro j hj
    rcases (by omega : j = 0 ∨ j = 1) with h | h
    · rw [h, e0]
    · rw [h, e1]

/-! ## C54 -/

theorem row_total (absorb : ℝ → ℝ → Bool) (n : ℕ) (withZ : Bool) (maxIter it : ℕ) :
    ∀ (fuel ii : ℕ) (t : TriState), maxIter + 2 ≤ fuel + ii → 0 < fuel → tqliRow absorb n withZ maxIter it fuel ii t ≠ none
  | 0, ii, t, _, h => absurd h (lt_irrefl _)
  | fuel + 1, ii, t, hf, _ => by
    rw [tqliRow]
    split_ifs with h1 h2
    · simp
    · simp
    · rcases tqliPass n withZ (tqliScan absorb t (n - 1 - it) it) it t with _ | t'
      · simp
      · simp only
        rw [not_or] at h2
        exact row_total absorb n withZ maxIter it fuel (ii + 1) t' (by omega) (by omega)

theorem rows_total (absorb : ℝ → ℝ → Bool) (n : ℕ) (withZ : Bool) (maxIter fuel : ℕ) (hf : maxIter + 2 ≤ fuel) :
    ∀ (rem it : ℕ) (t : TriState), tqliRows absorb n withZ maxIter fuel rem it t ≠ none
  | 0, it, t => by simp [tqliRows]
  | rem + 1, it, t => by
    rw [tqliRows]
    have := row_total absorb n withZ maxIter it fuel 0 t (by omega) (by omega)
    rcases h : tqliRow absorb n withZ maxIter it fuel 0 t with _ | _ | t'
    · exact absurd h this
    · simp
    · exact rows_total absorb n withZ maxIter fuel hf rem (it + 1) t'

/-- C54: `tqli` returns for every input: `max_iter + 2` turns of the loop `while True` are enough for every row, whatever the
arrays, the test for small elements and the values met on the way. -/
theorem C54_tqli_terminates (absorb : ℝ → ℝ → Bool) (d e : Buf ℝ) (Z : ℕ → ℕ → ℝ) (withZ : Bool) (maxIter fuel : ℕ)
    (hf : maxIter + 2 ≤ fuel) : ∃ r, tqli absorb d e Z withZ maxIter fuel = some r := by
  unfold tqli
  split_ifs
  · exact ⟨_, rfl⟩
  · exact ⟨_, rfl⟩
  · simp only
    rcases h : tqliRows absorb d.len withZ maxIter fuel d.len 0
      ⟨d.get, fun i => if i + 1 < d.len then e.get (i + 1) else if i + 1 = d.len then 0 else e.get i, Z⟩ with _ | r
    · exact absurd h (rows_total absorb d.len withZ maxIter fuel hf d.len 0 _)
    · exact ⟨_, rfl⟩
  · exact ⟨_, rfl⟩

/-- C54: so do `eigh_tridiag` and `eigvalsh_tridiag`, whose fallback uses `max_iter = 30`. -/
theorem C54_solvers_terminate (K : TriKernels) (d e : Buf ℝ) (method : String) (maxiter fuel : ℕ)
    (hf : max maxiter 30 + 2 ≤ fuel) :
    (∃ r, eighTridiag K d e method maxiter fuel = some r) ∧ ∃ r, eigvalshTridiag K d e method maxiter fuel = some r := by
  have h1 : ∀ e iters, iters + 2 ≤ fuel → ∃ r, tqliEigh K d e iters fuel = some r := by
    intro e iters hi
    obtain ⟨r, hr⟩ := C54_tqli_terminates K.absorb d e eyeN true iters fuel hi
    unfold tqliEigh
    rw [hr]
    rcases r with er | _ | t <;> exact ⟨_, rfl⟩
  have h2 : ∀ e iters, iters + 2 ≤ fuel → ∃ r, tqliEigvals K d e iters fuel = some r := by
    intro e iters hi
    obtain ⟨r, hr⟩ := C54_tqli_terminates K.absorb d e (fun _ _ => 0) false iters fuel hi
    unfold tqliEigvals
    rw [hr]
    rcases r with er | _ | t <;> exact ⟨_, rfl⟩
  constructor
  · unfold eighTridiag eighTridiagCore
    by_cases g1 : method ∉ ["tqli", "mrrr", "auto"]
    · rw [if_pos g1]; exact ⟨_, rfl⟩
    rw [if_neg g1]
    by_cases g2 : d.len ≠ e.len + 1 ∧ d.len ≠ e.len
    · rw [if_pos g2]; exact ⟨_, rfl⟩
    rw [if_neg g2]
    by_cases g3 : method = "mrrr"
    · rw [if_pos g3]; exact ⟨_, rfl⟩
    rw [if_neg g3]
    by_cases g4 : method = "tqli"
    · rw [if_pos g4]; exact h1 _ _ (by omega)
    rw [if_neg g4]
    split
    · exact ⟨_, rfl⟩
    · exact h1 _ _ (by omega)
    · exact ⟨_, rfl⟩
  · unfold eigvalshTridiag
    simp only
    by_cases g1 : method ∉ ["tqli", "mrrr", "auto"]
    · rw [if_pos g1]; exact ⟨_, rfl⟩
    rw [if_neg g1]
    by_cases g2 : d.len ≠ e.len + 1 ∧ d.len ≠ e.len
    · rw [if_pos g2]; exact ⟨_, rfl⟩
    rw [if_neg g2]
    by_cases g3 : method = "mrrr"
    · rw [if_pos g3]; exact ⟨_, rfl⟩
    rw [if_neg g3]
    by_cases g4 : method = "tqli"
    · rw [if_pos g4]; exact h2 _ _ (by omega)
    rw [if_neg g4]
    split
    · exact ⟨_, rfl⟩
    · exact h2 _ _ (by omega)
    · exact ⟨_, rfl⟩

theorem stall_row_short (absorb : ℝ → ℝ → Bool) (ha : Spec.ExactAbsorb absorb) (maxIter : ℕ) (x y E : ℝ) (hE : E ≠ 0)
    (hs : (y - x) + tqliSign 1 (y - x) ≠ 0) (hb : 2 * ((y - x) + E / ((y - x) + tqliSign 1 (y - x))) = y - x) :
    ∀ (fuel ii : ℕ) (t : TriState), t.d 0 = x → t.d 1 = y → t.e 0 = E → fuel + ii ≤ maxIter + 1 →
    tqliRow absorb 2 true maxIter 0 fuel ii t = none
  | 0, ii, t, _, _, _, _ => rfl
  | fuel + 1, ii, t, h0, h1, h2, hf => by
    have he : t.e 0 ≠ 0 := by rw [h2]; exact hE
    rw [tqliRow]
    rw [(scan_two absorb ha t).1 he]
    simp only [one_ne_zero, if_false]
    rw [if_neg (by rw [not_or]; exact ⟨by omega, he⟩)]
    obtain ⟨-, t', ht', g0, g1, g2⟩ := stall_pass t he
      (by
        unfold ShiftOk
        rw [tqliSign_nonneg (hypot_nonneg _ _), h0, h1]
        rwa [tqliSign_nonneg zero_le_one] at hs)
      (by rw [passShift_two, h0, h1, h2]; exact hb)
    rw [ht']
    exact stall_row_short absorb ha maxIter x y E hE hs hb fuel (ii + 1) t' (g0.trans h0) (g1.trans h1) (g2.trans h2) (by omega)

/-- `C54`: the bound is attained by the stalling input `[[0, -1], [-1, 1]]`: `max_iter + 2` turns are enough,
`max_iter + 1` are not. -/
example (absorb : ℝ → ℝ → Bool) (ha : Spec.ExactAbsorb absorb) (maxIter : ℕ) (Z : ℕ → ℕ → ℝ) :
    (∃ r, tqliRow absorb 2 true maxIter 0 (maxIter + 2) 0 ⟨fun i => if i = 0 then 0 else 1, fun _ => -1, Z⟩ = some r) ∧
    tqliRow absorb 2 true maxIter 0 (maxIter + 1) 0 ⟨fun i => if i = 0 then 0 else 1, fun _ => -1, Z⟩ = none := by
  have hsgn : tqliSign 1 ((1 : ℝ) - 0) = 1 := by rw [tqliSign_nonneg zero_le_one]; norm_num
  refine ⟨Option.ne_none_iff_exists'.1 (row_total _ _ _ _ _ _ _ _ (by omega) (by omega)), ?_⟩
  exact stall_row_short absorb ha maxIter 0 1 (-1) (by norm_num) (by rw [hsgn]; norm_num) (by rw [hsgn]; norm_num) _ _ _
    rfl rfl rfl (by omega)

/-! ## C55 -/

/-- C55: unknown methods and off-diagonals of any length other than `n` and `n - 1` raise AssertionError, for both
functions. -/
theorem C55_rejects (K : TriKernels) (d e : Buf ℝ) (method : String) (maxiter fuel : ℕ)
    (h : (method ≠ "tqli" ∧ method ≠ "mrrr" ∧ method ≠ "auto") ∨ (e.len + 1 ≠ d.len ∧ e.len ≠ d.len)) :
    eighTridiag K d e method maxiter fuel = some (.error .assertion) ∧
      eigvalshTridiag K d e method maxiter fuel = some (.error .assertion) := by
  unfold eighTridiag eigvalshTridiag
  by_cases h1 : method ∉ ["tqli", "mrrr", "auto"]
  · rw [if_pos h1, if_pos h1]
    exact ⟨rfl, rfl⟩
  · rw [if_neg h1, if_neg h1]
    rcases h with ⟨a, b, c⟩ | ⟨a, b⟩
    · simp [a, b, c] at h1
    · rw [if_pos ⟨fun h => a h.symm, fun h => b h.symm⟩, if_pos ⟨fun h => a h.symm, fun h => b h.symm⟩]
      exact ⟨rfl, rfl⟩

/-- C55: an off-diagonal of length `n - 1` and the same one with a leading zero give the same results, for every method. -/
theorem C55_lengths (K : TriKernels) (d e : Buf ℝ) (h : e.len + 1 = d.len) (method : String) (maxiter fuel : ℕ) :
    eighTridiag K d e method maxiter fuel =
      eighTridiag K d ⟨d.len, fun i => if i = 0 then 0 else e.get (i - 1)⟩ method maxiter fuel ∧
    eigvalshTridiag K d e method maxiter fuel =
      eigvalshTridiag K d ⟨d.len, fun i => if i = 0 then 0 else e.get (i - 1)⟩ method maxiter fuel := by
  have h1 : padE d e = ⟨d.len, fun i => if i = 0 then 0 else e.get (i - 1)⟩ := by
    unfold padE
    rw [if_pos (by omega), h]
  have h2 : padE d ⟨d.len, fun i => if i = 0 then 0 else e.get (i - 1)⟩ = ⟨d.len, fun i => if i = 0 then 0 else e.get (i - 1)⟩ := by
    unfold padE
    rw [if_neg (by simp only; omega)]
  unfold eighTridiag eigvalshTridiag
  simp only [h1, h2, h]
  simp [h.symm]

/-- C55: with `method="auto"` the result is LAPACK's when it succeeds; when it fails with LinAlgError the result is that
of `method="tqli"` with the default `maxiter = 30` on the same input, whatever `maxiter` was passed. -/
theorem C55_auto (K : TriKernels) (d e : Buf ℝ) (h : e.len + 1 = d.len ∨ e.len = d.len) (hd : 0 < d.len) (maxiter fuel : ℕ) :
    ((∀ r, K.eigh d.len (fun i => d.get i) (fun i => (padE d e).get (i + 1)) = .ok r →
        eighTridiag K d e "auto" maxiter fuel = some (.ok (some r)) ∧
        eighTridiag K d e "mrrr" maxiter fuel = some (.ok (some r))) ∧
      (K.eigh d.len (fun i => d.get i) (fun i => (padE d e).get (i + 1)) = .error .linAlg →
        eighTridiag K d e "auto" maxiter fuel = eighTridiag K d e "tqli" 30 fuel ∧
        eighTridiag K d e "mrrr" maxiter fuel = some (.error .linAlg))) ∧
    ((∀ r, K.eigvalsh d.len (fun i => d.get i) (fun i => (padE d e).get (i + 1)) = .ok r →
        eigvalshTridiag K d e "auto" maxiter fuel = some (.ok (some r)) ∧
        eigvalshTridiag K d e "mrrr" maxiter fuel = some (.ok (some r))) ∧
      (K.eigvalsh d.len (fun i => d.get i) (fun i => (padE d e).get (i + 1)) = .error .linAlg →
        eigvalshTridiag K d e "auto" maxiter fuel = eigvalshTridiag K d e "tqli" 30 fuel ∧
        eigvalshTridiag K d e "mrrr" maxiter fuel = some (.error .linAlg))) := by
  have hl : ¬ (d.len ≠ e.len + 1 ∧ d.len ≠ e.len) := by omega
  have h0 : d.len ≠ 0 := by omega
  refine ⟨⟨fun r hr => ?_, fun hr => ?_⟩, fun r hr => ?_, fun hr => ?_⟩
  · unfold eighTridiag eighTridiagCore
    simp only [if_neg hl, TriKernels.scipyEigh, TriKernels.scipyEigvalsh, if_neg h0, hr]
    simp [Except.map]
  · unfold eighTridiag eighTridiagCore
    simp only [if_neg hl, TriKernels.scipyEigh, TriKernels.scipyEigvalsh, if_neg h0, hr]
    simp [Except.map]
  · unfold eigvalshTridiag
    simp only [if_neg hl, TriKernels.scipyEigh, TriKernels.scipyEigvalsh, if_neg h0, hr]
    simp [Except.map]
  · unfold eigvalshTridiag
    simp only [if_neg hl, TriKernels.scipyEigh, TriKernels.scipyEigvalsh, if_neg h0, hr]
    simp [Except.map]

/-- C55: empty arrays always raise: IndexError for `method="tqli"`, ValueError otherwise. -/
theorem C55_empty (K : TriKernels) (d e : Buf ℝ) (hd : d.len = 0) (he : e.len = 0) (maxiter fuel : ℕ) :
    eighTridiag K d e "tqli" maxiter fuel = some (.error .index) ∧
    eigvalshTridiag K d e "tqli" maxiter fuel = some (.error .index) ∧
    ∀ method, method = "mrrr" ∨ method = "auto" →
      eighTridiag K d e method maxiter fuel = some (.error .value) ∧
      eigvalshTridiag K d e method maxiter fuel = some (.error .value) := by
  have hp : padE d e = e := by unfold padE; rw [if_neg (by omega)]
  refine ⟨?_, ?_, ?_⟩
  · simp [eighTridiag, eighTridiagCore, hp, hd, he, tqliEigh, tqli]
  · simp [eigvalshTridiag, hp, hd, he, tqliEigvals, tqli]
  · rintro method (rfl | rfl) <;>
      simp [eighTridiag, eighTridiagCore, eigvalshTridiag, hp, hd, he, TriKernels.scipyEigh, TriKernels.scipyEigvalsh, Except.map]

/-- The result of a heap version cut to the `n` values that exist. -/
def Spec.cut (n : ℕ) (r : Py (Option ((ℕ → ℝ) × (ℕ → ℕ → ℝ)))) : Py (EigRes n) :=
  r.map (Option.map fun p => (fun i => p.1 i, Matrix.of fun i j => p.2 i j))

def Spec.cutVals (n : ℕ) (r : Py (Option (ℕ → ℝ))) : Py (Option (Fin n → ℝ)) :=
  r.map (Option.map fun w => fun i => w i)

theorem tqliHeap_frame (K : TriKernels) (heap : ArrHeap) (ld le : ℕ) (Z : ℕ → ℕ → ℝ) (withZ : Bool) (maxiter fuel : ℕ)
    (r : Py (Option (ℕ → ℕ → ℝ))) (heap' : ArrHeap) (h : tqliHeap K heap ld le Z withZ maxiter fuel = some (r, heap'))
    (l : ℕ) (h1 : l ≠ ld) (h2 : l ≠ le) : heap' l = heap l := by
  unfold tqliHeap at h
  generalize tqli K.absorb (heap ld) (heap le) Z withZ maxiter fuel = q at h
  rcases q with _ | er | _ | t
  · cases h
  · cases h; rfl
  · cases h; rfl
  · simp only [Option.some.injEq, Prod.mk.injEq] at h
    rw [← h.2, Function.update_of_ne h2, Function.update_of_ne h1]

theorem eighCoreHeap_frame (K : TriKernels) (heap : ArrHeap) (ld le : ℕ) (method : String) (maxiter fuel : ℕ)
    (r : Py (Option ((ℕ → ℝ) × (ℕ → ℕ → ℝ)))) (heap' : ArrHeap)
    (h : eighCoreHeap K heap ld le method maxiter fuel = some (r, heap')) (l : ℕ) (h1 : l ≠ ld) (h2 : l ≠ le) :
    heap' l = heap l := by
  have key : ∀ iters, (eighTqliHeap K heap ld le iters fuel) = some (r, heap') → heap' l = heap l := by
    intro iters h
    unfold eighTqliHeap at h
    rcases ht : tqliHeap K heap ld le eyeN true iters fuel with _ | ⟨er | _ | Z, hp⟩
    · rw [ht] at h; cases h
    all_goals
      rw [ht] at h
      simp only [Option.some.injEq, Prod.mk.injEq] at h
      rw [← h.2]
      exact tqliHeap_frame K heap ld le eyeN true iters fuel _ hp ht l h1 h2
  unfold eighCoreHeap at h
  simp only at h
  by_cases g3 : method = "mrrr"
  · rw [if_pos g3] at h
    cases h; rfl
  rw [if_neg g3] at h
  by_cases g4 : method = "tqli"
  · rw [if_pos g4] at h; exact key _ h
  rw [if_neg g4] at h
  split at h
  · cases h; rfl
  · exact key _ h
  · cases h; rfl

theorem eigvalshCoreHeap_frame (K : TriKernels) (heap : ArrHeap) (ld le : ℕ) (method : String) (maxiter fuel : ℕ)
    (r : Py (Option (ℕ → ℝ))) (heap' : ArrHeap)
    (h : eigvalshCoreHeap K heap ld le method maxiter fuel = some (r, heap')) (l : ℕ) (h1 : l ≠ ld) (h2 : l ≠ le) :
    heap' l = heap l := by
  have key : ∀ iters, (eigvalshTqliHeap K heap ld le iters fuel) = some (r, heap') → heap' l = heap l := by
    intro iters h
    unfold eigvalshTqliHeap at h
    rcases ht : tqliHeap K heap ld le (fun _ _ => 0) false iters fuel with _ | ⟨er | _ | Z, hp⟩
    · rw [ht] at h; cases h
    all_goals
      rw [ht] at h
      simp only [Option.some.injEq, Prod.mk.injEq] at h
      rw [← h.2]
      exact tqliHeap_frame K heap ld le (fun _ _ => 0) false iters fuel _ hp ht l h1 h2
  unfold eigvalshCoreHeap at h
  simp only at h
  by_cases g3 : method = "mrrr"
  · rw [if_pos g3] at h
    cases h; rfl
  rw [if_neg g3] at h
  by_cases g4 : method = "tqli"
  · rw [if_pos g4] at h; exact key _ h
  rw [if_neg g4] at h
  split at h
  · cases h; rfl
  · exact key _ h
  · cases h; rfl

/-- C55: neither function modifies an array that existed before the call, in particular not `d` and `e` (which may be the
same array), whatever the method and the outcome, errors included. -/
theorem C55_caller_arrays (K : TriKernels) (heap : ArrHeap) (ld le fresh : ℕ) (method : String) (maxiter fuel : ℕ) :
    (∀ r heap', eighTridiagHeap K heap ld le fresh method maxiter fuel = some (r, heap') → ∀ l, l < fresh → heap' l = heap l) ∧
    (∀ r heap', eigvalshTridiagHeap K heap ld le fresh method maxiter fuel = some (r, heap') →
      ∀ l, l < fresh → heap' l = heap l) := by
  constructor
  · intro r heap' h l hl
    unfold eighTridiagHeap at h
    by_cases g1 : method ∉ ["tqli", "mrrr", "auto"]
    · rw [if_pos g1] at h; cases h; rfl
    rw [if_neg g1] at h
    by_cases g2 : (heap ld).len ≠ (heap le).len + 1 ∧ (heap ld).len ≠ (heap le).len
    · rw [if_pos g2] at h; cases h; rfl
    rw [if_neg g2] at h
    simp only at h
    rw [eighCoreHeap_frame K _ _ _ method maxiter fuel r heap' h l (by omega) (by omega), Function.update_of_ne (by omega),
      Function.update_of_ne (by omega)]
    split_ifs
    · rw [Function.update_of_ne (by omega)]
    · rfl
  · intro r heap' h l hl
    unfold eigvalshTridiagHeap at h
    by_cases g1 : method ∉ ["tqli", "mrrr", "auto"]
    · rw [if_pos g1] at h; cases h; rfl
    rw [if_neg g1] at h
    by_cases g2 : (heap ld).len ≠ (heap le).len + 1 ∧ (heap ld).len ≠ (heap le).len
    · rw [if_pos g2] at h; cases h; rfl
    rw [if_neg g2] at h
    simp only at h
    rw [eigvalshCoreHeap_frame K _ _ _ method maxiter fuel r heap' h l (by omega) (by omega), Function.update_of_ne (by omega),
      Function.update_of_ne (by omega)]
    split_ifs
    · rw [Function.update_of_ne (by omega)]
    · rfl

theorem eighCoreHeap_eq (K : TriKernels) (heap : ArrHeap) (ld le : ℕ) (hne : ld ≠ le) (method : String) (maxiter fuel : ℕ)
    (d e : Buf ℝ) (hd : heap ld = d) (he : heap le = e) :
    (eighCoreHeap K heap ld le method maxiter fuel).map (fun p => Spec.cut d.len p.1) =
      eighTridiagCore K d e method maxiter fuel := by
  subst hd he
  have key : ∀ iters, (eighTqliHeap K heap ld le iters fuel).map (fun p => Spec.cut (heap ld).len p.1) =
      tqliEigh K (heap ld) (heap le) iters fuel := by
    intro iters
    unfold eighTqliHeap tqliHeap tqliEigh
    rcases tqli K.absorb (heap ld) (heap le) eyeN true iters fuel with _ | er | _ | t
    · rfl
    · rfl
    · rfl
    · simp [Spec.cut, Except.map, Function.update_of_ne hne]
  unfold eighCoreHeap eighTridiagCore
  simp only
  by_cases g3 : method = "mrrr"
  · rw [if_pos g3, if_pos g3]
    rcases K.scipyEigh (heap ld).len (fun i => (heap ld).get i) (fun i => (heap le).get (i + 1)) with er | r
    · rfl
    · simp [Spec.cut, Except.map]
      rfl
  rw [if_neg g3, if_neg g3]
  by_cases g4 : method = "tqli"
  · rw [if_pos g4, if_pos g4]; exact key _
  rw [if_neg g4, if_neg g4]
  rcases K.scipyEigh (heap ld).len (fun i => (heap ld).get i) (fun i => (heap le).get (i + 1)) with er | r
  · cases er
    case linAlg => exact key 30
    all_goals rfl
  · simp [Spec.cut, Except.map]
    rfl

theorem eigvalshCoreHeap_eq (K : TriKernels) (heap : ArrHeap) (ld le : ℕ) (hne : ld ≠ le) (method : String)
    (maxiter fuel : ℕ) (d e : Buf ℝ) (hd : heap ld = d) (he : heap le = e) :
    (eigvalshCoreHeap K heap ld le method maxiter fuel).map (fun p => Spec.cutVals d.len p.1) =
      if method = "mrrr" then some ((K.scipyEigvalsh d.len (fun i => d.get i) fun i => e.get (i + 1)).map some)
      else if method = "tqli" then tqliEigvals K d e maxiter fuel
      else
        match K.scipyEigvalsh d.len (fun i => d.get i) fun i => e.get (i + 1) with
        | .ok r => some (.ok (some r))
        | .error .linAlg => tqliEigvals K d e 30 fuel
        | .error er => some (.error er) := by
  subst hd he
  have key : ∀ iters, (eigvalshTqliHeap K heap ld le iters fuel).map (fun p => Spec.cutVals (heap ld).len p.1) =
      tqliEigvals K (heap ld) (heap le) iters fuel := by
    intro iters
    unfold eigvalshTqliHeap tqliHeap tqliEigvals
    rcases tqli K.absorb (heap ld) (heap le) (fun _ _ => 0) false iters fuel with _ | er | _ | t
    · rfl
    · rfl
    · rfl
    · simp [Spec.cutVals, Except.map, Function.update_of_ne hne]
  unfold eigvalshCoreHeap
  simp only
  by_cases g3 : method = "mrrr"
  · rw [if_pos g3, if_pos g3]
    rcases K.scipyEigvalsh (heap ld).len (fun i => (heap ld).get i) (fun i => (heap le).get (i + 1)) with er | r
    · rfl
    · simp [Spec.cutVals, Except.map]
  rw [if_neg g3, if_neg g3]
  by_cases g4 : method = "tqli"
  · rw [if_pos g4, if_pos g4]; exact key _
  rw [if_neg g4, if_neg g4]
  rcases K.scipyEigvalsh (heap ld).len (fun i => (heap ld).get i) (fun i => (heap le).get (i + 1)) with er | r
  · cases er
    case linAlg => exact key 30
    all_goals rfl
  · simp [Spec.cutVals, Except.map]

/-- C55: the values returned by the functions working on memory are those of the functions on values above, so all the
theorems about the latter hold for the former. -/
theorem C55_memory_results (K : TriKernels) (heap : ArrHeap) (ld le fresh : ℕ) (hld : ld < fresh) (hle : le < fresh)
    (method : String) (maxiter fuel : ℕ) :
    (eighTridiagHeap K heap ld le fresh method maxiter fuel).map (fun p => Spec.cut (heap ld).len p.1) =
      eighTridiag K (heap ld) (heap le) method maxiter fuel ∧
    (eigvalshTridiagHeap K heap ld le fresh method maxiter fuel).map (fun p => Spec.cutVals (heap ld).len p.1) =
      eigvalshTridiag K (heap ld) (heap le) method maxiter fuel := by
  obtain ⟨h3, hh3⟩ : ∃ h3 : ArrHeap, h3 = Function.update
      (Function.update (if (heap le).len + 1 = (heap ld).len then Function.update heap fresh (padE (heap ld) (heap le)) else heap)
        (fresh + 1) ((if (heap le).len + 1 = (heap ld).len then Function.update heap fresh (padE (heap ld) (heap le)) else heap) ld))
      (fresh + 2) ((Function.update (if (heap le).len + 1 = (heap ld).len then Function.update heap fresh (padE (heap ld) (heap le)) else heap)
        (fresh + 1) ((if (heap le).len + 1 = (heap ld).len then Function.update heap fresh (padE (heap ld) (heap le)) else heap) ld))
          (if (heap le).len + 1 = (heap ld).len then fresh else le)) := ⟨_, rfl⟩
  have e1 : h3 (fresh + 1) = heap ld := by
    rw [hh3, Function.update_of_ne (by omega), Function.update_self]
    split_ifs
    · rw [Function.update_of_ne (by omega)]
    · rfl
  have e2 : h3 (fresh + 2) = padE (heap ld) (heap le) := by
    rw [hh3, Function.update_self]
    split_ifs with h
    · rw [Function.update_of_ne (by omega), Function.update_self]
    · rw [Function.update_of_ne (by omega)]
      unfold padE
      rw [if_neg (by omega)]
  constructor
  · unfold eighTridiagHeap eighTridiag
    by_cases g1 : method ∉ ["tqli", "mrrr", "auto"]
    · rw [if_pos g1, if_pos g1]; rfl
    rw [if_neg g1, if_neg g1]
    by_cases g2 : (heap ld).len ≠ (heap le).len + 1 ∧ (heap ld).len ≠ (heap le).len
    · rw [if_pos g2, if_pos g2]; rfl
    rw [if_neg g2, if_neg g2]
    simp only
    rw [← hh3]
    exact eighCoreHeap_eq K h3 _ _ (by omega) method maxiter fuel _ _ e1 e2
  · unfold eigvalshTridiagHeap eigvalshTridiag
    by_cases g1 : method ∉ ["tqli", "mrrr", "auto"]
    · rw [if_pos g1, if_pos g1]; rfl
    rw [if_neg g1, if_neg g1]
    by_cases g2 : (heap ld).len ≠ (heap le).len + 1 ∧ (heap ld).len ≠ (heap le).len
    · rw [if_pos g2, if_pos g2]; rfl
    rw [if_neg g2, if_neg g2]
    simp only
    rw [← hh3]
    exact eigvalshCoreHeap_eq K h3 _ _ (by omega) method maxiter fuel _ _ e1 e2

/-- `C55_caller_arrays` covers the case where `tqli` does write: the copy at `fresh + 1` changes for `[[a, b], [b, a]]`. -/
example : ∃ (K : TriKernels) (heap : ArrHeap) (heap' : ArrHeap) (r : _),
    eighTridiagHeap K heap 0 1 2 "tqli" 30 32 = some (r, heap') ∧ heap' 0 = heap 0 ∧ heap' 1 = heap 1 ∧
      heap' 4 ≠ padE (heap 0) (heap 1) := by
  obtain ⟨absorb, ha⟩ := exactAbsorb_exists
  obtain ⟨t', ht', -, hz, -⟩ := tqli_swap absorb ha 2 1 one_ne_zero
  refine ⟨⟨fun _ _ _ => .error .linAlg, fun _ _ _ => .error .linAlg, absorb⟩,
    fun l => if l = 0 then ⟨2, fun _ => 2⟩ else ⟨1, fun _ => 1⟩, ?_⟩
  obtain ⟨K, hK⟩ : ∃ K : TriKernels, K = ⟨fun _ _ _ => .error .linAlg, fun _ _ _ => .error .linAlg, absorb⟩ := ⟨_, rfl⟩
  obtain ⟨heap, hheap⟩ : ∃ heap : ArrHeap, heap = fun l => if l = 0 then ⟨2, fun _ => 2⟩ else ⟨1, fun _ => 1⟩ := ⟨_, rfl⟩
  rw [← hK, ← hheap]
  have hpad : padE (heap 0) (heap 1) = ⟨2, fun i => if i = 0 then 0 else 1⟩ := by
    rw [hheap]; simp [padE]
  rcases hrun : eighTridiagHeap K heap 0 1 2 "tqli" 30 32 with _ | ⟨r, heap'⟩
  · exfalso
    have := (C55_memory_results K heap 0 1 2 (by norm_num) (by norm_num) "tqli" 30 32).1
    rw [hrun] at this
    obtain ⟨⟨r, hr⟩, -⟩ := C54_solvers_terminate K (heap 0) (heap 1) "tqli" 30 32 (by norm_num)
    rw [hr] at this
    cases this
  · refine ⟨heap', r, rfl, (C55_caller_arrays K heap 0 1 2 "tqli" 30 32).1 r heap' hrun 0 (by norm_num),
      (C55_caller_arrays K heap 0 1 2 "tqli" 30 32).1 r heap' hrun 1 (by norm_num), ?_⟩
    have h0 : heap 0 = ⟨2, fun _ => 2⟩ := by rw [hheap]; rfl
    have h1 : heap 1 = ⟨1, fun _ => 1⟩ := by rw [hheap]; rfl
    unfold eighTridiagHeap at hrun
    rw [if_neg (by simp), if_neg (by rw [h0, h1]; simp)] at hrun
    have hp : (heap 1).len + 1 = (heap 0).len := by rw [h0, h1]
    simp only [if_pos hp] at hrun
    obtain ⟨h3, hh3⟩ : ∃ h3 : ArrHeap, h3 = Function.update
      (Function.update (Function.update heap 2 (padE (heap 0) (heap 1))) (2 + 1)
        (Function.update heap 2 (padE (heap 0) (heap 1)) 0)) (2 + 2)
      (Function.update (Function.update heap 2 (padE (heap 0) (heap 1))) (2 + 1)
        (Function.update heap 2 (padE (heap 0) (heap 1)) 0) 2) := ⟨_, rfl⟩
    rw [← hh3] at hrun
    have e3 : h3 (2 + 1) = ⟨2, fun _ => 2⟩ := by
      rw [hh3, Function.update_of_ne (by omega), Function.update_self, Function.update_of_ne (by omega), h0]
    have e4 : h3 (2 + 2) = ⟨2, fun i => if i = 0 then 0 else 1⟩ := by
      rw [hh3, Function.update_self, Function.update_of_ne (by omega), Function.update_self, hpad]
    unfold eighCoreHeap at hrun
    simp only at hrun
    rw [if_neg (by decide), if_pos trivial] at hrun
    unfold eighTqliHeap tqliHeap at hrun
    have hKa : K.absorb = absorb := by rw [hK]
    rw [e3, e4, hKa, ht'] at hrun
    simp only [Option.some.injEq, Prod.mk.injEq] at hrun
    rw [← hrun.2, hpad]
    simp only [show (4 : ℕ) = 2 + 2 from rfl, Function.update_self]
    intro hc
    have := congrFun (congrArg Buf.get hc) 1
    simp only [hz 1 (by norm_num)] at this
    norm_num at this

end Primate
