import Verif.Lemmas.Krylov
import Verif.Model.LanczosBase
import Mathlib.LinearAlgebra.Matrix.Notation
import Mathlib.Tactic.NormNum
import Mathlib.Tactic.Linarith

/-! # C91: the baseline recurrence `_lanczos_py` -/

noncomputable section

namespace Primate

open Matrix

variable {n : ℕ}

/-- `a 0, ..., a (m-1)` and `b 1, ..., b m` are the coefficients of `m` Lanczos steps with `A` from `v`: there are orthonormal vectors
`q 0, ..., q (m-1)` with `q 0 = v / ‖v‖` such that the residual of step `i` is orthogonal to the vectors so far, has norm `b (i+1)`, and
is a multiple of the next vector. -/
def Spec.LanczosCoeffs (A : Matrix (Fin n) (Fin n) ℝ) (v : Vec n) (m : ℕ) (a b : ℕ → ℝ) : Prop :=
  ∃ q : ℕ → Vec n, Real.sqrt (v ⬝ᵥ v) • q 0 = v ∧ (∀ i < m, ∀ j < m, q i ⬝ᵥ q j = if i = j then 1 else 0) ∧
    ∀ i < m, ∃ r : Vec n,
      A *ᵥ q i = (if i = 0 then 0 else b i • q (i - 1)) + a i • q i + r ∧ (∀ j ≤ i, r ⬝ᵥ q j = 0) ∧
        b (i + 1) = Real.sqrt (r ⬝ᵥ r) ∧ (i + 1 < m → r = b (i + 1) • q (i + 1))

/-- The recurrence of the lemmas meets the specification. -/
theorem lz_coeffs (A : Matrix (Fin n) (Fin n) ℝ) (hA : A.IsSymm) (v : Vec n) (hv : v ≠ 0) (m : ℕ)
    (hb : ∀ i, i + 1 < m → lzb A.mulVec v (i + 1) ≠ 0) : Spec.LanczosCoeffs A v m (lza A.mulVec v) (lzb A.mulVec v) := by
  have hsa := SelfAdj.mulVec hA
  refine ⟨lzq A.mulVec v, ?_, ?_, ?_⟩
  · rw [lzq_zero]; exact (normalized_smul v).symm
  · intro i hi j hj
    exact lz_orthonormal _ v hsa hv (m - 1) (fun j hj => hb j (by omega)) i j (by omega) (by omega)
  · intro i hi
    refine ⟨lzr A.mulVec v i, ?_, fun j hj => lzr_orth _ v hsa i (fun l hl => hb l (by omega)) j hj, rfl, fun _ => lzr_eq _ _ _⟩
    have h := lz_rec A.mulVec v i
    rw [h, lzr_eq]
    congr 2
    cases i with
    | zero => simp [lzb_zero]
    | succ i => simp [lzp_succ]

/-- The loop once the current vector is `nan`. -/
theorem baseLoop_nan (A : Matrix (Fin n) (Fin n) ℝ) (tol : ℝ) (rem : ℕ) : ∀ (i : ℕ) (s : BaseState n), s.qc = none →
    i + rem < s.alpha.len → i + rem < s.beta.len →
    ∃ t, baseLoop A tol rem i s = .ok t ∧ t.alpha.len = s.alpha.len ∧ t.beta.len = s.beta.len ∧
      (∀ j, t.alpha.get j = if i ≤ j ∧ j < i + rem then .nan else s.alpha.get j) ∧
      (∀ j, t.beta.get j = if i < j ∧ j ≤ i + rem then .nan else s.beta.get j) := by
  induction rem with
  | zero =>
    intro i s _ _ _
    refine ⟨s, rfl, rfl, rfl, fun j => ?_, fun j => ?_⟩ <;> rw [if_neg (by omega)]
  | succ rem ih =>
    intro i s hq h1 h2
    have hr : s.beta.read (i : ℤ) = .ok (s.beta.get i) := by
      unfold Buf.read; rw [if_pos (by omega)]; simp
    have hw1 : s.alpha.write (i : ℤ) .nan = .ok ⟨s.alpha.len, Function.update s.alpha.get i .nan⟩ := by
      unfold Buf.write; rw [if_pos (by omega)]; simp
    have hw2 : s.beta.write ((i : ℤ) + 1) .nan = .ok ⟨s.beta.len, Function.update s.beta.get (i + 1) .nan⟩ := by
      unfold Buf.write; rw [if_pos (by omega)]
      congr 3
    obtain ⟨t, ht, l1, l2, g1, g2⟩ := ih (i + 1) ⟨⟨s.alpha.len, Function.update s.alpha.get i .nan⟩,
      ⟨s.beta.len, Function.update s.beta.get (i + 1) .nan⟩, none, none⟩ rfl (by simp only; omega) (by simp only; omega)
    refine ⟨t, ?_, l1, l2, fun j => ?_, fun j => ?_⟩
    · rw [baseLoop]
      simp only [hr, hq, bind, Except.bind, hw1, hw2]
      exact ht
    · rw [g1 j]
      simp only [Function.update_apply]
      split_ifs <;> first | rfl | omega
    · rw [g2 j]
      simp only [Function.update_apply]
      split_ifs <;> first | rfl | omega

/-- The loop from a finite state. -/
theorem baseLoop_run (A : Matrix (Fin n) (Fin n) ℝ) (tol : ℝ) (v : Vec n) (rem : ℕ) : ∀ (i : ℕ) (s : BaseState n),
    s.qc = some (lzq A.mulVec v i) → s.qp = some (lzp A.mulVec v i) → i + rem < s.alpha.len → i + rem < s.beta.len →
    (∀ j, s.alpha.get j = .fin (if j < i then lza A.mulVec v j else 0)) →
    (∀ j, s.beta.get j = .fin (if j ≤ i then lzb A.mulVec v j else 0)) →
    ∃ t m, baseLoop A tol rem i s = .ok t ∧ t.alpha.len = s.alpha.len ∧ t.beta.len = s.beta.len ∧
      i ≤ m ∧ m ≤ i + rem ∧ (0 < rem → i < m) ∧
      (∀ j, i ≤ j → j + 1 < m → ¬ npIsclose (.fin (lzb A.mulVec v (j + 1))) tol ∧ lzb A.mulVec v (j + 1) ≠ 0) ∧
      (((m = i + rem ∨ npIsclose (.fin (lzb A.mulVec v m)) tol) ∧
        (∀ j, t.alpha.get j = .fin (if j < m then lza A.mulVec v j else 0)) ∧
        (∀ j, t.beta.get j = .fin (if j ≤ m then lzb A.mulVec v j else 0))) ∨
       (m < i + rem ∧ ¬ npIsclose (.fin (lzb A.mulVec v m)) tol ∧ lzb A.mulVec v m = 0 ∧
        (∀ j, t.alpha.get j = if j < m then .fin (lza A.mulVec v j) else if j < i + rem then .nan else .fin 0) ∧
        (∀ j, t.beta.get j = if j ≤ m then .fin (lzb A.mulVec v j) else if j ≤ i + rem then .nan else .fin 0))) := by
  induction rem with
  | zero =>
    intro i s _ _ _ _ ha hb
    exact ⟨s, i, rfl, rfl, rfl, le_refl _, le_refl _, by omega, fun j _ _ => by omega, Or.inl ⟨Or.inl rfl, ha, hb⟩⟩
  | succ rem ih =>
    intro i s hqc hqp h1 h2 ha hb
    have hr : s.beta.read (i : ℤ) = .ok (.fin (lzb A.mulVec v i)) := by
      unfold Buf.read; rw [if_pos (by omega)]; simp [hb]
    have hw1 : ∀ x, s.alpha.write (i : ℤ) x = .ok ⟨s.alpha.len, Function.update s.alpha.get i x⟩ := by
      intro x; unfold Buf.write; rw [if_pos (by omega)]; simp
    have hw2 : ∀ x, s.beta.write ((i : ℤ) + 1) x = .ok ⟨s.beta.len, Function.update s.beta.get (i + 1) x⟩ := by
      intro x; unfold Buf.write; rw [if_pos (by omega)]
      congr 3
    have hw : A *ᵥ lzq A.mulVec v i - lzb A.mulVec v i • lzp A.mulVec v i = lzw A.mulVec v i := rfl
    have hal : lzw A.mulVec v i ⬝ᵥ lzq A.mulVec v i = lza A.mulVec v i := dotProduct_comm _ _
    have hrr : lzw A.mulVec v i - lza A.mulVec v i • lzq A.mulVec v i = lzr A.mulVec v i := rfl
    have hbs : nrm (lzr A.mulVec v i) = lzb A.mulVec v (i + 1) := rfl
    set s' : Option (Vec n) → BaseState n := fun x => ⟨⟨s.alpha.len, Function.update s.alpha.get i (.fin (lza A.mulVec v i))⟩,
      ⟨s.beta.len, Function.update s.beta.get (i + 1) (.fin (lzb A.mulVec v (i + 1)))⟩, some (lzq A.mulVec v i), x⟩ with hs'
    have ga : ∀ x j, (s' x).alpha.get j = .fin (if j < i + 1 then lza A.mulVec v j else 0) := by
      intro x j
      simp only [hs', Function.update_apply, ha]
      split_ifs with h3 h4 h5 <;> first | rfl | omega | (subst h3; rfl)
    have gb : ∀ x j, (s' x).beta.get j = .fin (if j ≤ i + 1 then lzb A.mulVec v j else 0) := by
      intro x j
      simp only [hs', Function.update_apply, hb]
      split_ifs with h3 h4 h5 <;> first | rfl | omega | (subst h3; rfl)
    have hcond : nrm (A *ᵥ lzq A.mulVec v i - lzb A.mulVec v i • lzp A.mulVec v i -
        ((A *ᵥ lzq A.mulVec v i - lzb A.mulVec v i • lzp A.mulVec v i) ⬝ᵥ lzq A.mulVec v i) • lzq A.mulVec v i) =
        lzb A.mulVec v (i + 1) := by rw [hw, hal, hrr, hbs]
    by_cases hc : npIsclose (.fin (lzb A.mulVec v (i + 1))) tol
    · have hc' := hc
      rw [← hcond] at hc'
      refine ⟨{ s' s.qc with qp := s.qp }, i + 1, ?_, rfl, rfl, by omega, by omega, by omega, fun j _ _ => by omega,
        Or.inl ⟨Or.inr hc, ga s.qc, gb s.qc⟩⟩
      rw [baseLoop]
      simp only [hr, hqc, hqp, bind, Except.bind, if_pos hc', hw, hal, hrr, hbs, hw1, hw2]
      simp only [hs', hqp, hqc]
    · have hc' := hc
      rw [← hcond] at hc'
      have hstep : baseLoop A tol (rem + 1) i s = baseLoop A tol rem (i + 1) (s' (vecDiv (lzr A.mulVec v i) (lzb A.mulVec v (i + 1)))) := by
        rw [baseLoop]
        simp only [hr, hqc, hqp, bind, Except.bind, if_neg hc', hw, hal, hrr, hbs, hw1, hw2]
        rfl
      by_cases hz : lzb A.mulVec v (i + 1) = 0
      · have hd : vecDiv (lzr A.mulVec v i) (lzb A.mulVec v (i + 1)) = none := by unfold vecDiv; rw [if_pos hz]
        obtain ⟨t, ht, l1, l2, g1, g2⟩ := baseLoop_nan A tol rem (i + 1) (s' none) rfl (by simp only [hs']; omega) (by simp only [hs']; omega)
        refine ⟨t, i + 1, by rw [hstep, hd, ht], l1, l2, by omega, by omega, by omega, fun j _ _ => by omega, ?_⟩
        by_cases h0 : rem = 0
        · refine Or.inl ⟨Or.inl (by omega), fun j => ?_, fun j => ?_⟩
          · rw [g1, if_neg (by omega), ga]
          · rw [g2, if_neg (by omega), gb]
        · refine Or.inr ⟨by omega, hc, hz, fun j => ?_, fun j => ?_⟩
          · rw [g1, ga]; split_ifs <;> first | rfl | omega
          · rw [g2, gb]; split_ifs <;> first | rfl | omega
      · have hd : vecDiv (lzr A.mulVec v i) (lzb A.mulVec v (i + 1)) = some (lzq A.mulVec v (i + 1)) := by
          unfold vecDiv
          rw [if_neg hz, lzq_succ]
          congr 1
          funext l
          simp [div_eq_inv_mul]
        obtain ⟨t, m, ht, l1, l2, m1, m2, m3, m4, m5⟩ := ih (i + 1) (s' (some (lzq A.mulVec v (i + 1)))) rfl rfl
          (by simp only [hs']; omega) (by simp only [hs']; omega) (ga _) (gb _)
        refine ⟨t, m, by rw [hstep, hd, ht], l1, l2, by omega, by omega, by omega, ?_, ?_⟩
        · intro j hj hjm
          rcases Nat.lt_or_ge i j with h | h
          · exact m4 j h hjm
          · obtain rfl : j = i := by omega
            exact ⟨hc, hz⟩
        · rw [show i + (rem + 1) = i + 1 + rem by omega]
          exact m5

/-- C91: `_lanczos_py` asserts that `k ≤ n` and that the starting vector has the right length. -/
theorem C91_asserts {m : ℕ} (A : Matrix (Fin n) (Fin n) ℝ) (v0 : Vec m) (k : ℤ) (tol : ℝ) :
    lanczosBase A v0 k tol = .error .assertion ↔ ¬ (k ≤ n ∧ m = n) := by
  unfold lanczosBase
  by_cases hk : k ≤ n
  · rw [if_neg (not_not.mpr hk)]
    by_cases hm : m = n
    · rw [dif_pos hm]
      subst hm
      have hkn : k.toNat ≤ m := by omega
      simp only [hk, true_and, not_true_eq_false, iff_false]
      by_cases hv : v0 = 0
      · obtain ⟨t, ht, -⟩ := baseLoop_nan A tol k.toNat 0 ⟨⟨m + 1, fun _ => .fin 0⟩, ⟨m + 1, fun _ => .fin 0⟩, some 0, vecDiv v0 (nrm v0)⟩
          (by simp [vecDiv, hv, nrm_zero]) (by simp only; omega) (by simp only; omega)
        simp [ht, bind, Except.bind]
      · have hn : nrm v0 ≠ 0 := fun h => hv (nrm_eq_zero h)
        have hpos : 0 < v0 ⬝ᵥ v0 := lt_of_le_of_ne (dot_self_nonneg v0) fun h => hv (dot_self_eq_zero h.symm)
        obtain ⟨t, l, ht, -⟩ := baseLoop_run A tol v0 k.toNat 0
          ⟨⟨m + 1, fun _ => .fin 0⟩, ⟨m + 1, fun _ => .fin 0⟩, some 0, vecDiv v0 (nrm v0)⟩
          (by simp [vecDiv, hn, lzq_zero, normalized, hpos]) rfl (by simp only; omega) (by simp only; omega) (fun j => by simp)
          (fun j => by by_cases h : j = 0 <;> simp [h, lzb_zero])
        simp [ht, bind, Except.bind]
    · rw [dif_neg hm]; simp [hm]
  · rw [if_pos hk]; simp [hk]

/-- C91 (partial): what `_lanczos_py` computes, for symmetric `A` and a nonzero starting vector.  The numbers of the first `m` steps are
Lanczos coefficients, where no earlier norm was close to `tol`; the run ended because `m = k` or because the last norm is *close to*
`tol` (then everything behind is zero), or it went on after a zero norm and everything behind, up to `k`, is `nan`.  Missing: stopping
when the norm is *below* `tol`, see `C91_counterexample` and `C91_tol_zero_partial`. -/
theorem C91_run_partial (A : Matrix (Fin n) (Fin n) ℝ) (hA : A.IsSymm) (v0 : Vec n) (hv : v0 ≠ 0) (k : ℕ) (hk : k ≤ n) (tol : ℝ) :
    ∃ (al be : Buf Fl) (a b : ℕ → ℝ) (m : ℕ), lanczosBase A v0 k tol = .ok (al, be) ∧ al.len = n + 1 ∧ be.len = n + 1 ∧
      m ≤ k ∧ (0 < k → 0 < m) ∧ b 0 = 0 ∧ Spec.LanczosCoeffs A v0 m a b ∧
      (∀ i < m, al.get i = .fin (a i)) ∧ (∀ i ≤ m, be.get i = .fin (b i)) ∧
      (∀ i, 0 < i → i < m → ¬ |b i - tol| ≤ 1e-8 + 1e-5 * |tol| ∧ b i ≠ 0) ∧
      (((m = k ∨ |b m - tol| ≤ 1e-8 + 1e-5 * |tol|) ∧ (∀ i, m ≤ i → al.get i = .fin 0) ∧ (∀ i, m < i → be.get i = .fin 0)) ∨
       (m < k ∧ b m = 0 ∧ ¬ |b m - tol| ≤ 1e-8 + 1e-5 * |tol| ∧ (∀ i, m ≤ i → al.get i = if i < k then .nan else .fin 0) ∧
        (∀ i, m < i → be.get i = if i ≤ k then .nan else .fin 0))) := by
  have hn : nrm v0 ≠ 0 := fun h => hv (nrm_eq_zero h)
  have hpos : 0 < v0 ⬝ᵥ v0 := lt_of_le_of_ne (dot_self_nonneg v0) fun h => hv (dot_self_eq_zero h.symm)
  obtain ⟨t, m, ht, l1, l2, -, m2, m3, m4, m5⟩ := baseLoop_run A tol v0 k 0
    ⟨⟨n + 1, fun _ => .fin 0⟩, ⟨n + 1, fun _ => .fin 0⟩, some 0, vecDiv v0 (nrm v0)⟩
    (by simp [vecDiv, hn, lzq_zero, normalized, hpos]) rfl (by simp only; omega) (by simp only; omega) (fun j => by simp)
    (fun j => by by_cases h : j = 0 <;> simp [h, lzb_zero])
  rw [Nat.zero_add] at m2 m5
  refine ⟨t.alpha, t.beta, lza A.mulVec v0, lzb A.mulVec v0, m, ?_, l1, l2, m2, m3, lzb_zero _ _,
    lz_coeffs A hA v0 hv m fun i hi => (m4 i (by omega) hi).2, ?_, ?_, ?_, ?_⟩
  · unfold lanczosBase
    rw [if_neg (by simpa using hk), dif_pos rfl]
    simp only [Int.toNat_natCast]
    rw [ht]
    rfl
  · intro i hi
    rcases m5 with ⟨-, h, -⟩ | ⟨-, -, -, h, -⟩ <;> rw [h, if_pos hi]
  · intro i hi
    rcases m5 with ⟨-, -, h⟩ | ⟨-, -, -, -, h⟩ <;> rw [h, if_pos hi]
  · intro i h0 hi
    obtain ⟨i, rfl⟩ : ∃ j, i = j + 1 := ⟨i - 1, by omega⟩
    exact m4 i (by omega) hi
  · rcases m5 with ⟨h, h1, h2⟩ | ⟨h, h0, h3, h1, h2⟩
    · exact Or.inl ⟨h, fun i hi => by rw [h1, if_neg (by omega)], fun i hi => by rw [h2, if_neg (by omega)]⟩
    · exact Or.inr ⟨h, h3, h0, fun i hi => by rw [h1, if_neg (by omega)], fun i hi => by rw [h2, if_neg (by omega)]⟩

/-- C91 (partial): with `tol = 0` the recurrence stops at the first norm that is at most `1e-8`, and nothing is `nan`. -/
theorem C91_tol_zero_partial (A : Matrix (Fin n) (Fin n) ℝ) (hA : A.IsSymm) (v0 : Vec n) (hv : v0 ≠ 0) (k : ℕ) (hk : k ≤ n) :
    ∃ (al be : Buf Fl) (a b : ℕ → ℝ) (m : ℕ), lanczosBase A v0 k 0 = .ok (al, be) ∧ al.len = n + 1 ∧ be.len = n + 1 ∧
      m ≤ k ∧ (0 < k → 0 < m) ∧ Spec.LanczosCoeffs A v0 m a b ∧ (∀ i, 0 < i → i < m → 1e-8 < b i) ∧ (m = k ∨ b m ≤ 1e-8) ∧
      (∀ i, al.get i = .fin (if i < m then a i else 0)) ∧ (∀ i, be.get i = .fin (if 0 < i ∧ i ≤ m then b i else 0)) := by
  obtain ⟨al, be, a, b, m, h, l1, l2, hm, hm0, b0, hc, g1, g2, g3, g4⟩ := C91_run_partial A hA v0 hv k hk 0
  have hbn : ∀ i, 0 < i → i ≤ m → 0 ≤ b i := by
    intro i h0 hi
    obtain ⟨q, -, -, hq⟩ := hc
    obtain ⟨i, rfl⟩ : ∃ j, i = j + 1 := ⟨i - 1, by omega⟩
    obtain ⟨r, -, -, hb, -⟩ := hq i (by omega)
    rw [hb]
    exact Real.sqrt_nonneg _
  have h4 : (m = k ∨ |b m - 0| ≤ 1e-8 + 1e-5 * |(0:ℝ)|) ∧ (∀ i, m ≤ i → al.get i = .fin 0) ∧ (∀ i, m < i → be.get i = .fin 0) := by
    rcases g4 with g4 | ⟨-, hz, hne, -⟩
    · exact g4
    · exact absurd (by rw [hz]; norm_num) hne
  refine ⟨al, be, a, b, m, by simpa using h, l1, l2, hm, hm0, hc, ?_, ?_, ?_, ?_⟩
  · intro i h0 hi
    have := (g3 i h0 hi).1
    simp only [sub_zero, abs_zero, mul_zero, add_zero, not_le, abs_of_nonneg (hbn i h0 hi.le)] at this
    exact this
  · rcases h4.1 with h5 | h5
    · exact Or.inl h5
    · refine Or.inr ?_
      simp only [sub_zero, abs_zero, mul_zero, add_zero] at h5
      exact le_trans (le_abs_self _) h5
  · intro i
    by_cases hi : i < m
    · rw [g1 i hi, if_pos hi]
    · rw [h4.2.1 i (by omega), if_neg hi]
  · intro i
    by_cases hi : i ≤ m
    · rw [g2 i hi]
      by_cases h0 : 0 < i
      · rw [if_pos ⟨h0, hi⟩]
      · obtain rfl : i = 0 := by omega
        rw [if_neg (by omega), b0]
    · rw [h4.2.2 i (by omega), if_neg (by omega)]

/-- C91 is false of the code for other tolerances: the identity matrix has the residual norm 0, which is below `tol = 1/10` but not close
to it; the run goes on and returns `nan`. -/
theorem C91_counterexample :
    ∃ al be, lanczosBase (1 : Matrix (Fin 2) (Fin 2) ℝ) ![1, 0] 2 (1/10) = .ok (al, be) ∧ al.get 1 = .nan ∧ be.get 1 = .fin 0 := by
  obtain ⟨al, be, a, b, m, h, -, -, hm, hm0, b0, hc, g1, g2, g3, g4⟩ := C91_run_partial (1 : Matrix (Fin 2) (Fin 2) ℝ)
    (by rw [Matrix.IsSymm, Matrix.transpose_one]) ![1, 0] (by intro h; simpa using congrFun h 0) 2 le_rfl (1/10)
  have hm1 := hm0 (by norm_num)
  -- the first residual is zero
  have hb1 : b 1 = 0 := by
    obtain ⟨q, -, ho, hq⟩ := hc
    obtain ⟨r, hr, ho1, hb, -⟩ := hq 0 hm1
    have h0 := ho1 0 le_rfl
    have h1 := ho 0 hm1 0 hm1
    simp only [if_true, zero_add, one_mulVec] at hr h1
    have hr' : r = (1 - a 0) • q 0 := by
      rw [sub_smul, one_smul, eq_sub_iff_add_eq, add_comm]
      exact hr.symm
    rw [hr', smul_dotProduct, h1, smul_eq_mul, mul_one] at h0
    rw [hb, hr', h0]
    simp
  have hmeq : m = 1 := by
    by_contra hne
    exact (g3 1 (by omega) (by omega)).2 hb1
  subst hmeq
  have hfar : ¬ |b 1 - 1/10| ≤ 1e-8 + 1e-5 * |(1/10 : ℝ)| := by
    rw [hb1, zero_sub, abs_neg]
    rw [abs_of_pos (by norm_num)]
    norm_num
  rcases g4 with ⟨h1, -⟩ | ⟨-, -, -, ha, -⟩
  · rcases h1 with h1 | h1
    · omega
    · exact absurd h1 hfar
  · refine ⟨al, be, by exact_mod_cast h, ?_, ?_⟩
    · rw [ha 1 le_rfl]; simp
    · rw [g2 1 le_rfl, hb1]

/-- C91: a zero starting vector makes every coefficient `nan`. -/
theorem C91_zero_vector (A : Matrix (Fin n) (Fin n) ℝ) (k : ℕ) (hk : k ≤ n) (tol : ℝ) :
    ∃ al be, lanczosBase A (0 : Vec n) k tol = .ok (al, be) ∧ (∀ i < k, al.get i = .nan) ∧ ∀ i, 0 < i → i ≤ k → be.get i = .nan := by
  obtain ⟨t, ht, -, -, h1, h2⟩ := baseLoop_nan A tol k 0 ⟨⟨n + 1, fun _ => .fin 0⟩, ⟨n + 1, fun _ => .fin 0⟩, some 0, vecDiv 0 (nrm (0 : Vec n))⟩
    (by simp [vecDiv, nrm_zero]) (by simp only; omega) (by simp only; omega)
  refine ⟨t.alpha, t.beta, ?_, ?_, ?_⟩
  · unfold lanczosBase
    rw [if_neg (by simpa using hk), dif_pos rfl]
    simp only [Int.toNat_natCast]
    rw [ht]
    rfl
  · intro i hi; rw [h1, if_pos ⟨by omega, by omega⟩]
  · intro i h0 hi; rw [h2, if_pos ⟨by omega, by omega⟩]

/-- The hypotheses are met: a symmetric `2 x 2` matrix and a starting vector, two steps. -/
example : ∃ (al be : Buf Fl) (a b : ℕ → ℝ) (m : ℕ), lanczosBase !![2, 1; 1, 3] ![1, 0] 2 0 = .ok (al, be) ∧ 0 < m ∧
    Spec.LanczosCoeffs !![2, 1; 1, 3] ![1, 0] m a b ∧ al.get 0 = .fin (a 0) ∧ a 0 = 2 := by
  obtain ⟨al, be, a, b, m, h, -, -, hm, hm0, hc, -, -, g, -⟩ := C91_tol_zero_partial !![2, 1; 1, 3]
    (by ext i j; fin_cases i <;> fin_cases j <;> rfl) ![1, 0] (by intro h; simpa using congrFun h 0) 2 le_rfl
  have hm1 := hm0 (by norm_num)
  refine ⟨al, be, a, b, m, h, hm1, hc, by rw [g, if_pos hm1], ?_⟩
  obtain ⟨q, hq0, ho, hq⟩ := hc
  have hq1 : q 0 = ![1, 0] := by
    have : Real.sqrt ((![1, 0] : Vec 2) ⬝ᵥ ![1, 0]) = 1 := by simp
    rw [this, one_smul] at hq0
    exact hq0
  obtain ⟨r, hr, ho1, -, -⟩ := hq 0 hm1
  have h0 := ho1 0 le_rfl
  have e0 := congrFun hr 0
  rw [hq1] at h0 e0
  simp [Matrix.mulVec, dotProduct, Fin.sum_univ_two] at h0 e0
  linarith

end Primate
