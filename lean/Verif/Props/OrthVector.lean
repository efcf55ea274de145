import Verif.Lemmas.LanczosRun
import Mathlib.LinearAlgebra.Span.Basic

/-!
# C85: `orth_vector` removes the components along the columns it visits
-/

noncomputable section

namespace Primate

open Matrix

variable {n : ℕ}

/-- One projection: the new vector is shorter, differs by a multiple of `u`, and is orthogonal to `u` up to the tolerance. -/
theorem project_step (tol : ℝ) (htol : 0 ≤ tol) (v u w : Vec n)
    (hw : w = v - ((v ⬝ᵥ u) / (u ⬝ᵥ u)) • u ∧ tol < u ⬝ᵥ u ∧ tol < |v ⬝ᵥ u| ∨
      w = v ∧ ¬ (tol < u ⬝ᵥ u ∧ tol < |v ⬝ᵥ u|)) :
    (∃ a : ℝ, w = v - a • u) ∧ w ⬝ᵥ w ≤ v ⬝ᵥ v ∧ (tol < u ⬝ᵥ u → |w ⬝ᵥ u| ≤ tol) ∧
      (¬ tol < u ⬝ᵥ u → w ⬝ᵥ u = v ⬝ᵥ u) := by
  rcases hw with ⟨rfl, h1, h2⟩ | ⟨rfl, h⟩
  · have hu : u ⬝ᵥ u ≠ 0 := by linarith [lt_of_le_of_lt htol h1]
    have hpos : 0 < u ⬝ᵥ u := lt_of_le_of_lt htol h1
    have hz : (v - ((v ⬝ᵥ u) / (u ⬝ᵥ u)) • u) ⬝ᵥ u = 0 := by
      rw [sub_dotProduct, smul_dotProduct, smul_eq_mul]
      field_simp
      ring
    refine ⟨⟨_, rfl⟩, ?_, fun _ => ?_, fun hn => absurd h1 hn⟩
    · have : (v - ((v ⬝ᵥ u) / (u ⬝ᵥ u)) • u) ⬝ᵥ (v - ((v ⬝ᵥ u) / (u ⬝ᵥ u)) • u) =
          v ⬝ᵥ v - (v ⬝ᵥ u) ^ 2 / (u ⬝ᵥ u) := by
        rw [dotProduct_sub, dotProduct_smul, hz, sub_dotProduct, smul_dotProduct, dotProduct_comm u v]
        simp only [smul_eq_mul, mul_zero, sub_zero]
        ring
      rw [this]
      have : 0 ≤ (v ⬝ᵥ u) ^ 2 / (u ⬝ᵥ u) := by positivity
      linarith
    · rw [hz, abs_zero]
      exact htol
  · refine ⟨⟨0, by simp⟩, le_refl _, fun h1 => ?_, fun _ => rfl⟩
    by_contra hc
    exact h ⟨h1, not_le.mp hc⟩

theorem orthLoop_spec (tol : ℝ) (htol : 0 ≤ tol) (U : Buf (Vec n)) (diff : ℤ) (c : ℕ) :
    ∀ (i : ℤ) (v : Vec n), 0 ≤ i → i < U.len → ∃ v', orthLoop tol U diff c i v = .ok v' ∧
      v - v' ∈ Submodule.span ℝ ((fun t : ℕ => U.get ((i + t * diff) % U.len).toNat) '' {t | t < c}) ∧
      v' ⬝ᵥ v' ≤ v ⬝ᵥ v ∧
      (∀ w, (∀ t : ℕ, t < c → U.get ((i + t * diff) % U.len).toNat ⬝ᵥ w = 0) → v' ⬝ᵥ w = v ⬝ᵥ w) ∧
      ((∀ s t : ℕ, s < c → t < c → s ≠ t →
          U.get ((i + s * diff) % U.len).toNat ⬝ᵥ U.get ((i + t * diff) % U.len).toNat = 0) →
        ∀ t : ℕ, t < c →
          (tol < U.get ((i + t * diff) % U.len).toNat ⬝ᵥ U.get ((i + t * diff) % U.len).toNat →
            |v' ⬝ᵥ U.get ((i + t * diff) % U.len).toNat| ≤ tol) ∧
          (¬ tol < U.get ((i + t * diff) % U.len).toNat ⬝ᵥ U.get ((i + t * diff) % U.len).toNat →
            v' ⬝ᵥ U.get ((i + t * diff) % U.len).toNat = v ⬝ᵥ U.get ((i + t * diff) % U.len).toNat)) := by
  induction c with
  | zero =>
    intro i v _ _
    exact ⟨v, rfl, by simp, le_refl _, fun _ _ => rfl, fun _ t ht => absurd ht (by omega)⟩
  | succ c ih =>
    intro i v h0 h1
    have hpos : (0 : ℤ) < U.len := by omega
    unfold orthLoop
    simp only [Buf.read, h0, h1, and_self, if_true, bind, Except.bind]
    have hi0 : ((i + ((0 : ℕ) : ℤ) * diff) % U.len).toNat = i.toNat := by
      simp [Int.emod_eq_of_lt h0 h1]
    set u := U.get i.toNat with hu
    obtain ⟨w, hweq⟩ : ∃ w, w = (if tol < u ⬝ᵥ u ∧ tol < |v ⬝ᵥ u| then v - ((v ⬝ᵥ u) / (u ⬝ᵥ u)) • u else v) := ⟨_, rfl⟩
    rw [← hweq]
    obtain ⟨⟨a, ha⟩, hn, hp1, hp2⟩ := project_step tol htol v u w (by
      rw [hweq]
      split_ifs with h
      · exact Or.inl ⟨rfl, h.1, h.2⟩
      · exact Or.inr ⟨rfl, h⟩)
    have hsh : ∀ t : ℕ, ((cmod (i + diff) U.len + t * diff) % U.len).toNat = ((i + ((t + 1 : ℕ) : ℤ) * diff) % U.len).toNat := by
      intro t
      rw [cmod_eq _ _ hpos, Int.emod_add_emod]
      congr 2
      push_cast
      ring
    obtain ⟨v', h', hs, hle, hinv, hort⟩ := ih (cmod (i + diff) U.len) w
      (by rw [cmod_eq _ _ hpos]; exact Int.emod_nonneg _ (by omega))
      (by rw [cmod_eq _ _ hpos]; exact Int.emod_lt_of_pos _ hpos)
    simp only [hsh] at hs hinv hort
    refine ⟨v', h', ?_, hle.trans hn, ?_, ?_⟩
    · have e : v - v' = a • u + (w - v') := by rw [ha]; abel
      rw [e]
      refine Submodule.add_mem _ (Submodule.smul_mem _ _ (Submodule.subset_span ⟨0, by simp, ?_⟩)) ?_
      · simp only [hi0, hu]
      · refine Submodule.span_mono ?_ hs
        rintro _ ⟨t, ht, rfl⟩
        exact ⟨t + 1, by simpa using ht, rfl⟩
    · intro x hx
      rw [hinv x fun t ht => hx (t + 1) (by omega), ha, sub_dotProduct, smul_dotProduct]
      have := hx 0 (by omega)
      rw [hi0, ← hu] at this
      rw [this]
      simp
    · intro ho t ht
      rcases Nat.eq_zero_or_pos t with rfl | htp
      · rw [hi0, ← hu]
        rw [hinv u fun s hs => ?_]
        · exact ⟨hp1, hp2⟩
        · have := ho (s + 1) 0 (by omega) (by omega) (by omega)
          rw [hi0, ← hu] at this
          exact this
      · obtain ⟨t, rfl⟩ : ∃ r, t = r + 1 := ⟨t - 1, by omega⟩
        have := hort (fun s r hs hr hne => ho (s + 1) (r + 1) (by omega) (by omega) (by omega)) t (by omega)
        refine ⟨this.1, fun hn => ?_⟩
        rw [this.2 hn, ha, sub_dotProduct, smul_dotProduct]
        have h00 := ho 0 (t + 1) (by omega) (by omega) (by omega)
        rw [hi0, ← hu] at h00
        rw [h00]
        simp

/-- C85: for every matrix with at least one column, every start and every number of projections, `orth_vector` stays inside the
matrix, the new vector differs from the old one by a combination of the columns visited (the `p` columns from `start` on, cyclically,
forwards or backwards), and it is not longer. -/
theorem C85_span (eps : ℝ) (heps : 0 ≤ eps) (v : Vec n) (U : Buf (Vec n)) (hU : 0 < U.len) (start p : ℤ) (reverse : Bool) :
    ∃ v', orthVector eps v U start p reverse = .ok v' ∧ nrm v' ≤ nrm v ∧
      v - v' ∈ Submodule.span ℝ {u | ∃ t : ℕ, (t : ℤ) < p ∧
        u = U.get ((start + t * if reverse then -1 else 1) % U.len).toNat} := by
  have hpos : (0 : ℤ) < U.len := by exact_mod_cast hU
  obtain ⟨v', h1, h2, h3, -, -⟩ := orthLoop_spec (2 * eps * Real.sqrt n) (by positivity) U (if reverse then -1 else 1) p.toNat
    (cmod start U.len) v (by rw [cmod_eq _ _ hpos]; exact Int.emod_nonneg _ (by omega))
    (by rw [cmod_eq _ _ hpos]; exact Int.emod_lt_of_pos _ hpos)
  refine ⟨v', h1, Real.sqrt_le_sqrt h3, Submodule.span_mono ?_ h2⟩
  rintro _ ⟨t, ht, rfl⟩
  refine ⟨t, by have : t < p.toNat := ht; omega, ?_⟩
  simp only [cmod_eq _ _ hpos, Int.emod_add_emod]

/-- C85: if moreover the columns of the matrix are pairwise orthogonal (orthonormal ones and zero columns in the use made by the Lanczos
iteration) and no column is visited twice, the new vector is orthogonal to every visited column that is not tiny, up to the
tolerance `2 eps sqrt n`; its product with every column that is orthogonal to the visited ones has not changed. -/
theorem C85_orthogonal (eps : ℝ) (heps : 0 ≤ eps) (v : Vec n) (U : Buf (Vec n)) (start p : ℤ) (reverse : Bool)
    (hp : p ≤ U.len) (hU : 0 < U.len)
    (horth : ∀ i j, i < U.len → j < U.len → i ≠ j → U.get i ⬝ᵥ U.get j = 0) (v' : Vec n)
    (h : orthVector eps v U start p reverse = .ok v') (t : ℕ) (ht : t < U.len) :
    ((∃ c : ℕ, (c : ℤ) < p ∧ (start + c * if reverse then -1 else 1) % U.len = t) →
      2 * eps * Real.sqrt n < U.get t ⬝ᵥ U.get t → |v' ⬝ᵥ U.get t| ≤ 2 * eps * Real.sqrt n) ∧
    ((¬ ∃ c : ℕ, (c : ℤ) < p ∧ (start + c * if reverse then -1 else 1) % U.len = t) →
      v' ⬝ᵥ U.get t = v ⬝ᵥ U.get t) := by
  have hpos : (0 : ℤ) < U.len := by exact_mod_cast hU
  obtain ⟨v'', h1, -, -, h3, h4⟩ := orthLoop_spec (2 * eps * Real.sqrt n) (by positivity) U (if reverse then -1 else 1) p.toNat
    (cmod start U.len) v (by rw [cmod_eq _ _ hpos]; exact Int.emod_nonneg _ (by omega))
    (by rw [cmod_eq _ _ hpos]; exact Int.emod_lt_of_pos _ hpos)
  have hv : v'' = v' := by
    have : orthVector eps v U start p reverse = .ok v'' := h1
    rw [h] at this
    exact (Except.ok.inj this).symm
  subst hv
  simp only [cmod_eq _ _ hpos, Int.emod_add_emod] at h3 h4
  set d : ℤ := if reverse then -1 else 1 with hd
  have hdd : d = 1 ∨ d = -1 := by rw [hd]; cases reverse <;> simp
  have hlt : ∀ c : ℕ, ((start + c * d) % U.len).toNat < U.len := fun c => by
    have := Int.emod_lt_of_pos (start + c * d) hpos
    have := Int.emod_nonneg (start + c * d) hpos.ne'
    omega
  constructor
  · rintro ⟨c, hc, hct⟩ hbig
    have := (h4 (fun s r hs hr hne => horth _ _ (hlt s) (hlt r) fun he => ?_) c (by omega)).1
    · rw [hct, Int.toNat_natCast] at this
      exact this hbig
    · have e : (start + s * d) % U.len = (start + r * d) % U.len := by
        have := Int.emod_nonneg (start + s * d) hpos.ne'
        have := Int.emod_nonneg (start + r * d) hpos.ne'
        omega
      have hdv : (U.len : ℤ) ∣ (start + s * d) - (start + r * d) := (Int.emod_eq_emod_iff_emod_sub_eq_zero.mp e) |> Int.dvd_of_emod_eq_zero
      have hdv' : (U.len : ℤ) ∣ (s : ℤ) - r := by
        rcases hdd with h | h <;> rw [h] at hdv
        · convert hdv using 1; ring
        · rw [← Int.dvd_neg]; convert hdv using 1; ring
      obtain ⟨k, hk⟩ := hdv'
      have hk0 : k = 0 := by
        by_contra hk0
        have : (U.len : ℤ) ≤ |(s : ℤ) - r| := by
          rw [hk, abs_mul, abs_of_pos hpos]
          have : 1 ≤ |k| := Int.one_le_abs hk0
          nlinarith
        have : |(s : ℤ) - r| < U.len := by rw [abs_lt]; omega
        omega
      rw [hk0] at hk
      omega
  · intro hno
    refine h3 _ fun c hc => horth _ _ (hlt c) ht fun he => hno ⟨c, by omega, ?_⟩
    have := Int.emod_nonneg (start + c * d) hpos.ne'
    omega

/-- Exact arithmetic (`eps = 0`): the visited columns are removed completely.  Here the columns are the axes of the plane, the start is
column 0, and two projections are made, so all of `(3, 4)` is removed; one projection leaves `(0, 4)`. -/
example : orthVector (n := 2) 0 ![3, 4] ⟨2, fun i => if i = 0 then ![1, 0] else ![0, 1]⟩ 0 1 true = .ok ![0, 4] := by
  have c0 : cmod 0 ((2 : ℕ) : ℤ) = 0 := by decide
  unfold orthVector
  simp only [c0]
  have e : (1 : ℤ).toNat = 1 := rfl
  rw [e]
  unfold orthLoop orthLoop
  simp [Buf.read, bind, Except.bind, dotProduct, Fin.sum_univ_two]

example : ∃ v', orthVector (n := 2) 0 ![3, 4] ⟨2, fun i => if i = 0 then ![1, 0] else ![0, 1]⟩ 0 2 true = .ok v' ∧
    |v' ⬝ᵥ ![1, 0]| ≤ 2 * 0 * Real.sqrt (2 : ℕ) := by
  obtain ⟨v', h, -⟩ := C85_span (n := 2) 0 le_rfl ![3, 4] ⟨2, fun i => if i = 0 then ![1, 0] else ![0, 1]⟩ (by norm_num) 0 2 true
  refine ⟨v', h, ?_⟩
  have := (C85_orthogonal (n := 2) 0 le_rfl ![3, 4] ⟨2, fun i => if i = 0 then ![1, 0] else ![0, 1]⟩ 0 2 true (by norm_num)
    (by norm_num) (fun i j hi hj hne => by
      have hi : i < 2 := hi
      have hj : j < 2 := hj
      interval_cases i <;> interval_cases j <;> simp_all [dotProduct, Fin.sum_univ_two]) v' h 0 (by norm_num)).1
    ⟨0, by norm_num, by norm_num⟩ (by simp [dotProduct, Fin.sum_univ_two])
  simpa using this

end Primate
