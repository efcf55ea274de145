import Verif.Model.RandomMatFl
import Verif.Lemmas.SpecialFl
import Verif.Lemmas.Paige
import Verif.Lemmas.QuadPad
import Verif.Props.RandomMat
import Verif.Props.SpecialFl
import Verif.Props.HutchFl
import Mathlib.LinearAlgebra.Matrix.Notation

/-!
# C160: the random matrices in rounded arithmetic
-/

noncomputable section

namespace Primate

open Spec Matrix

variable {φ : Fmt} {fl : ℝ → ℝ} {n : ℕ}

/-- Every entry of a product is an inner product evaluated in some order. -/
def Spec.MatMulOk (fl : ℝ → ℝ) (n : ℕ) (mul : Matrix (Fin n) (Fin n) ℝ → Matrix (Fin n) (Fin n) ℝ → Matrix (Fin n) (Fin n) ℝ) : Prop :=
  ∀ A B i j, DotOrder fl (List.ofFn fun k => (A i k, B k j)) (mul A B i j)

/-- The orthogonal factor is close to a matrix that is exactly orthogonal. -/
def Spec.NearOrth (δ : ℝ) (Q P : Matrix (Fin n) (Fin n) ℝ) : Prop := Pᵀ * P = 1 ∧ ∀ i j, |Q i j - P i j| ≤ δ

/-- Sizes for which nothing overflows and the least positive number does not matter: `E` bounds the eigenvalues. -/
structure Spec.MatRoom (φ : Fmt) (n : ℕ) (E δ : ℝ) : Prop where
  exp : φ.emin ≤ φ.emax
  pos : 0 < n
  small : n * φ.u ≤ 1 / 32
  delta0 : 0 ≤ δ
  delta : δ ≤ 1 / 8
  tiny : n * φ.eta ≤ 1 / 32 * E
  top : 8 * n * E ≤ φ.top

/-- The bound on the entries of the error. -/
def Spec.conjErr (φ : Fmt) (n : ℕ) (E δ : ℝ) : ℝ := n * (8 * (n * (φ.u * E + φ.eta)) + 3 * (δ * E))

theorem orth_entry {P : Matrix (Fin n) (Fin n) ℝ} (hP : Pᵀ * P = 1) (i j : Fin n) : |P i j| ≤ 1 := by
  have h := congrFun (congrFun hP j) j
  rw [Matrix.mul_apply, Matrix.one_apply_eq] at h
  simp only [Matrix.transpose_apply] at h
  have h1 := Finset.single_le_sum (f := fun x => P x j * P x j) (fun x _ => mul_self_nonneg _) (Finset.mem_univ i)
  rw [h] at h1
  rw [← sq_le_one_iff_abs_le_one, sq]
  exact h1

theorem dot_near (hn : φ.Nearest fl) {E δ : ℝ} (h : MatRoom φ n E δ) (a b : Fin n → ℝ) (s S : ℝ) (hs : DotOrder fl (List.ofFn fun k => (a k, b k)) s)
    (hS : ∑ k, |a k * b k| ≤ S) (hS1 : S ≤ 2 * n * E) :
    φ.Mem s ∧ |s - ∑ k, a k * b k| ≤ 17 / 16 * (n * φ.u) * S + 17 / 16 * (n * φ.eta) := by
  have hu := φ.u_pos
  have he := φ.eta_pos
  have hnn : (0 : ℝ) ≤ n := Nat.cast_nonneg n
  have hn1 : (1 : ℝ) ≤ n := by exact_mod_cast h.pos
  have hlen : (List.ofFn fun k => (a k, b k)).length = n := by simp
  have e1 : ((List.ofFn fun k => (a k, b k)).map fun q => |q.1 * q.2|).sum = ∑ k, |a k * b k| := by
    rw [List.map_ofFn, List.sum_ofFn]; rfl
  have e2 : ((List.ofFn fun k => (a k, b k)).map fun q => q.1 * q.2).sum = ∑ k, a k * b k := by
    rw [List.map_ofFn, List.sum_ofFn]; rfl
  have hp := pow_one_add_le' hu.le n h.small
  have hnu := h.small
  have hp2 : (1 + φ.u) ^ n ≤ 17 / 16 := by linarith
  have hp0 : 0 ≤ (1 + φ.u) ^ n := by positivity
  have hS0 : 0 ≤ ∑ k, |a k * b k| := Finset.sum_nonneg fun k _ => abs_nonneg _
  have hne : 0 ≤ n * φ.eta := mul_nonneg hnn he.le
  have hE0 : 0 ≤ E := by linarith [h.tiny]
  have hnE : E ≤ n * E := le_mul_of_one_le_left hE0 hn1
  have ht := h.tiny
  have htop := h.top
  obtain ⟨h1, h2⟩ := hs.err hn h.exp (by
    rw [hlen, e1]
    have := mul_le_mul hp2 (show ∑ k, |a k * b k| + n * φ.eta ≤ 2 * n * E + n * φ.eta by linarith) (by linarith) (by norm_num)
    linarith)
  rw [hlen, e1, e2] at h2
  refine ⟨h1, h2.trans ?_⟩
  have t1 : ((1 + φ.u) ^ n - 1) * ∑ k, |a k * b k| ≤ 17 / 16 * (n * φ.u) * S :=
    mul_le_mul (by linarith) hS hS0 (by have := mul_nonneg hnn hu.le; linarith)
  have t2 := mul_le_mul_of_nonneg_right hp2 hne
  linarith

/-- The two products. -/
theorem conjDiag_near (hn : φ.Nearest fl) {E δ : ℝ} (h : MatRoom φ n E δ) {K : MulKernels} (hK1 : MatMulOk fl n (K.first n)) (hK2 : MatMulOk fl n (K.second n))
    {Q P : Matrix (Fin n) (Fin n) ℝ} (hQ : NearOrth δ Q P) (ew : Fin n → ℝ) (hew : ∀ i, |ew i| ≤ E) (i j : Fin n) :
    φ.Mem (conjDiagFl K Q ew i j) ∧ |conjDiagFl K Q ew i j - conjDiag P ew i j| ≤ n * (3 * (n * (φ.u * E + φ.eta)) + 17 / 8 * (δ * E)) ∧
      |conjDiagFl K Q ew i j| ≤ 2 * n * E := by
  have hu := φ.u_pos
  have he := φ.eta_pos
  have hnn : (0 : ℝ) ≤ n := Nat.cast_nonneg n
  have hn1 : (1 : ℝ) ≤ n := by exact_mod_cast h.pos
  have hne : 0 ≤ n * φ.eta := mul_nonneg hnn he.le
  have hnu : 0 ≤ n * φ.u := mul_nonneg hnn hu.le
  have ht := h.tiny
  have hE0 : 0 ≤ E := by linarith
  have hsm := h.small
  have hnE : E ≤ n * E := le_mul_of_one_le_left hE0 hn1
  have hd0 := h.delta0
  have hd1 := h.delta
  have hP1 := orth_entry hQ.1
  have hQ1 : ∀ i j, |Q i j| ≤ 9 / 8 := fun i j => by
    have h1 := abs_sub_abs_le_abs_sub (Q i j) (P i j)
    linarith [hQ.2 i j, hP1 i j]
  set ν := n * (φ.u * E + φ.eta) with hν
  have hν' : ν = n * φ.u * E + n * φ.eta := by rw [hν]; ring
  have hnuE : n * φ.u * E ≤ 1 / 32 * E := mul_le_mul_of_nonneg_right hsm hE0
  have hnuE0 : 0 ≤ n * φ.u * E := mul_nonneg hnu hE0
  have hν0 : 0 ≤ ν := by linarith
  have hνE : ν ≤ 1 / 16 * E := by linarith
  set C := K.first n Q (diagonal ew) with hC
  have hCn : ∀ i j, |C i j - Q i j * ew j| ≤ 5 / 4 * ν := by
    intro i j
    have e1 : ∑ k, |Q i k * diagonal ew k j| = |Q i j * ew j| := by
      rw [Finset.sum_eq_single j]
      · rw [diagonal_apply_eq]
      · intro k _ hk
        rw [diagonal_apply_ne _ hk, mul_zero, abs_zero]
      · intro hj
        exact absurd (Finset.mem_univ j) hj
    have e2 : ∑ k, Q i k * diagonal ew k j = Q i j * ew j := by
      rw [Finset.sum_eq_single j]
      · rw [diagonal_apply_eq]
      · intro k _ hk
        rw [diagonal_apply_ne _ hk, mul_zero]
      · intro hj
        exact absurd (Finset.mem_univ j) hj
    have hb : |Q i j * ew j| ≤ 9 / 8 * E := by
      rw [abs_mul]
      exact mul_le_mul (hQ1 i j) (hew j) (abs_nonneg _) (by norm_num)
    obtain ⟨-, h2⟩ := dot_near hn h (fun k => Q i k) (fun k => diagonal ew k j) (C i j) (9 / 8 * E) (hK1 Q (diagonal ew) i j) (by rw [e1]; exact hb) (by linarith)
    rw [e2] at h2
    refine h2.trans ?_
    have : 17 / 16 * (n * φ.u) * (9 / 8 * E) = 153 / 128 * (n * φ.u * E) := by ring
    linarith
  have hC1 : ∀ i j, |C i j| ≤ 5 / 4 * E := fun i j => by
    have h1 := abs_sub_abs_le_abs_sub (C i j) (Q i j * ew j)
    have h2 : |Q i j * ew j| ≤ 9 / 8 * E := by
      rw [abs_mul]
      exact mul_le_mul (hQ1 i j) (hew j) (abs_nonneg _) (by norm_num)
    linarith [hCn i j]
  have hprod : ∀ k, |C i k * Q j k| ≤ 45 / 32 * E := fun k => by
    rw [abs_mul]
    have := mul_le_mul (hC1 i k) (hQ1 j k) (abs_nonneg _) (by linarith)
    linarith
  have hsum : ∑ k, |C i k * Qᵀ k j| ≤ n * (45 / 32 * E) := by
    have := Finset.sum_le_card_nsmul Finset.univ (fun k => |C i k * Qᵀ k j|) (45 / 32 * E) (fun k _ => hprod k)
    simpa using this
  obtain ⟨hm, h2⟩ := dot_near hn h (fun k => C i k) (fun k => Qᵀ k j) (conjDiagFl K Q ew i j) _ (hK2 C Qᵀ i j) hsum (by linarith [mul_nonneg hnn hE0])
  have hterm : ∀ k, |C i k * Qᵀ k j - P i k * ew k * P j k| ≤ 3 / 2 * ν + 17 / 8 * (δ * E) := by
    intro k
    have e : C i k * Qᵀ k j - P i k * ew k * P j k = (C i k - Q i k * ew k) * Q j k + ((Q i k - P i k) * (ew k * Q j k) + P i k * (ew k * (Q j k - P j k))) := by
      rw [transpose_apply]; ring
    rw [e]
    refine (abs_add_le _ _).trans ?_
    have a0 := abs_add_le ((Q i k - P i k) * (ew k * Q j k)) (P i k * (ew k * (Q j k - P j k)))
    rw [abs_mul (C i k - Q i k * ew k)]
    rw [abs_mul (Q i k - P i k), abs_mul (ew k), abs_mul (P i k), abs_mul (ew k)] at a0
    have a1 := mul_le_mul (hCn i k) (hQ1 j k) (abs_nonneg _) (by linarith)
    have a2 := mul_le_mul (hQ.2 i k) (mul_le_mul (hew k) (hQ1 j k) (abs_nonneg _) hE0) (mul_nonneg (abs_nonneg _) (abs_nonneg _)) hd0
    have a3 := mul_le_mul (hP1 i k) (mul_le_mul (hew k) (hQ.2 j k) (abs_nonneg _) hE0) (mul_nonneg (abs_nonneg _) (abs_nonneg _)) zero_le_one
    have e2 : δ * (E * (9 / 8)) = 9 / 8 * (δ * E) := by ring
    have e3 : 1 * (E * δ) = δ * E := by ring
    linarith
  have hex : conjDiag P ew i j = ∑ k, P i k * ew k * P j k := by
    unfold conjDiag
    rw [Matrix.mul_apply]
    exact Finset.sum_congr rfl fun k _ => by rw [mul_diagonal, transpose_apply]
  have hdiff : |∑ k, C i k * Qᵀ k j - conjDiag P ew i j| ≤ n * (3 / 2 * ν + 17 / 8 * (δ * E)) := by
    rw [hex, ← Finset.sum_sub_distrib]
    refine (Finset.abs_sum_le_sum_abs _ _).trans ?_
    have := Finset.sum_le_card_nsmul Finset.univ (fun k => |C i k * Qᵀ k j - P i k * ew k * P j k|) _ (fun k _ => hterm k)
    rwa [Finset.card_univ, Fintype.card_fin, nsmul_eq_mul] at this
  have hroot : 17 / 16 * (n * φ.u) * (n * (45 / 32 * E)) + 17 / 16 * (n * φ.eta) ≤ n * (3 / 2 * ν) := by
    have e : 17 / 16 * (n * φ.u) * (n * (45 / 32 * E)) = n * (765 / 512 * (n * φ.u * E)) := by ring
    have e2 : n * φ.eta ≤ n * (n * φ.eta) := le_mul_of_one_le_left hne hn1
    have e3 : n * (3 / 2 * ν) = n * (3 / 2 * (n * φ.u * E)) + 3 / 2 * (n * (n * φ.eta)) := by rw [hν']; ring
    have e4 : (n : ℝ) * (765 / 512 * (n * φ.u * E)) ≤ n * (3 / 2 * (n * φ.u * E)) := mul_le_mul_of_nonneg_left (by linarith) hnn
    have e5 : 0 ≤ n * (n * φ.eta) := mul_nonneg hnn hne
    linarith
  have hmain : |conjDiagFl K Q ew i j - conjDiag P ew i j| ≤ n * (3 * ν + 17 / 8 * (δ * E)) := by
    have := abs_sub_le (conjDiagFl K Q ew i j) (∑ k, C i k * Qᵀ k j) (conjDiag P ew i j)
    have e : n * (3 * ν + 17 / 8 * (δ * E)) = n * (3 / 2 * ν + 17 / 8 * (δ * E)) + n * (3 / 2 * ν) := by ring
    linarith
  refine ⟨hm, hmain, ?_⟩
  have hPE : |conjDiag P ew i j| ≤ n * E := by
    rw [hex]
    refine (Finset.abs_sum_le_sum_abs _ _).trans ?_
    have := Finset.sum_le_card_nsmul Finset.univ (fun k => |P i k * ew k * P j k|) E (fun k _ => by
      rw [abs_mul, abs_mul]
      have a1 := mul_le_mul (hP1 i k) (hew k) (abs_nonneg _) zero_le_one
      have a2 := mul_le_mul a1 (hP1 j k) (abs_nonneg _) (by linarith)
      linarith)
    simpa using this
  have := abs_sub_abs_le_abs_sub (conjDiagFl K Q ew i j) (conjDiag P ew i j)
  have hδE : δ * E ≤ 1 / 8 * E := mul_le_mul_of_nonneg_right hd1 hE0
  have : n * (3 * ν + 17 / 8 * (δ * E)) ≤ n * E := mul_le_mul_of_nonneg_left (by linarith) hnn
  linarith

/-- The final averaging. -/
theorem symmetrize_near (hn : φ.Nearest fl) {E δ : ℝ} (h : MatRoom φ n E δ) {K : MulKernels} (hK1 : MatMulOk fl n (K.first n)) (hK2 : MatMulOk fl n (K.second n))
    {Q P : Matrix (Fin n) (Fin n) ℝ} (hQ : NearOrth δ Q P) (ew : Fin n → ℝ) (hew : ∀ i, |ew i| ≤ E) (i j : Fin n) :
    |symmetrizeFl fl (conjDiagFl K Q ew) i j - conjDiag P ew i j| ≤ conjErr φ n E δ := by
  have hu := φ.u_pos
  have he := φ.eta_pos
  have hnn : (0 : ℝ) ≤ n := Nat.cast_nonneg n
  have hn1 : (1 : ℝ) ≤ n := by exact_mod_cast h.pos
  have hne : 0 ≤ n * φ.eta := mul_nonneg hnn he.le
  have hη : φ.eta ≤ n * φ.eta := le_mul_of_one_le_left he.le hn1
  have ht := h.tiny
  have hE0 : 0 ≤ E := by linarith
  have htop := h.top
  have hnE : E ≤ n * E := le_mul_of_one_le_left hE0 hn1
  have hnE0 : 0 ≤ n * E := mul_nonneg hnn hE0
  obtain ⟨-, b1, b2⟩ := conjDiag_near hn h hK1 hK2 hQ ew hew i j
  obtain ⟨-, c1, c2⟩ := conjDiag_near hn h hK1 hK2 hQ ew hew j i
  have hsym : conjDiag P ew j i = conjDiag P ew i j := congrFun (congrFun (conjDiag_spectrum P hQ.1 ew).symm i) j
  rw [hsym] at c1
  unfold symmetrizeFl
  rw [transpose_apply]
  set x := conjDiagFl K Q ew i j
  set y := conjDiagFl K Q ew j i
  set ν := n * (φ.u * E + φ.eta) with hν
  have hν' : ν = φ.u * (n * E) + n * φ.eta := by rw [hν]; ring
  have hu0 : 0 ≤ φ.u * (n * E) := mul_nonneg hu.le hnE0
  have hxy : |x + y| ≤ 4 * (n * E) := (abs_add_le _ _).trans (by linarith)
  have d1 := hn.err h.exp (x := x + y) (by linarith)
  have d1' : |fl (x + y) - (x + y)| ≤ 4 * ν := by
    have := mul_le_mul_of_nonneg_left hxy hu.le
    linarith
  have hνE : ν ≤ 1 / 16 * (n * E) := by
    have : φ.u ≤ 1 / 32 := by
      have := h.small
      have := le_mul_of_one_le_left hu.le hn1
      linarith
    have := mul_le_mul_of_nonneg_right this hnE0
    linarith
  have hz : |fl (x + y) / 2| ≤ 3 * (n * E) := by
    rw [abs_div, abs_two]
    have := abs_sub_abs_le_abs_sub (fl (x + y)) (x + y)
    linarith
  have d2 := hn.err h.exp (x := fl (x + y) / 2) (by linarith)
  have d2' : |fl (fl (x + y) / 2) - fl (x + y) / 2| ≤ 3 * ν := by
    have := mul_le_mul_of_nonneg_left hz hu.le
    linarith
  have hν0 : 0 ≤ ν := by linarith
  have hnν : ν ≤ n * ν := le_mul_of_one_le_left hν0 hn1
  have hδE : 0 ≤ n * (δ * E) := mul_nonneg hnn (mul_nonneg h.delta0 hE0)
  unfold conjErr
  have e1 : n * (8 * ν + 3 * (δ * E)) = 8 * (n * ν) + 3 * (n * (δ * E)) := by ring
  have e2 : n * (3 * ν + 17 / 8 * (δ * E)) = 3 * (n * ν) + 17 / 8 * (n * (δ * E)) := by ring
  rw [e1]
  rw [e2] at b1 c1
  obtain ⟨p1, p2⟩ := abs_le.1 b1
  obtain ⟨p3, p4⟩ := abs_le.1 c1
  obtain ⟨p5, p6⟩ := abs_le.1 d1'
  obtain ⟨p7, p8⟩ := abs_le.1 d2'
  rw [abs_le]
  constructor <;> linarith

/-- **C160**, `symmetric`: the array returned is exactly symmetric, whatever the rounding, the matrix products and the orthogonal factor are. -/
theorem C160_exactly_symmetric (fl : ℝ → ℝ) (K : MulKernels) (qr : SquareQR) (m : ℤ) (dist : String) (pd : Bool) (ew : Option (List ℝ)) (rng : Rng) (S : SquareArr)
    (h : symmetricFl fl K qr m dist pd ew rng = .ok S) : S.2.IsSymm := by
  have key : ∀ {r : ℕ} (B : Matrix (Fin r) (Fin r) ℝ), (symmetrizeFl fl B).IsSymm := by
    intro r B
    ext i j
    simp only [symmetrizeFl, transpose_apply]
    rw [add_comm]
  unfold symmetricFl at h
  simp only at h
  split_ifs at h <;>
  · obtain rfl := (Except.ok.inj h).symm
    exact key _

/-- C160: rounding changes neither the exceptions raised by `symmetric` and `haar` nor when they are raised. -/
theorem C160_errors (fl : ℝ → ℝ) (K : MulKernels) (qr : SquareQR) (m : ℤ) (dist : String) (pd : Bool) (ew : Option (List ℝ)) (rng : Rng) (e : PyErr)
    (U : Matrix (Fin n) (Fin n) ℝ) :
    (symmetricFl fl K qr m dist pd ew rng = .error e ↔ symmetric qr m dist pd ew rng = .error e) ∧
    (haarFl fl K n U ew rng = .error e ↔ haar n U ew rng = .error e) := by
  have l1 : ∀ r low pos, (uniformEwFl fl r low rng pos).length = r := fun r low pos => by simp [uniformEwFl]
  have l2 : ∀ r low pos, (uniformEw r low rng pos).length = r := fun r low pos => by simp [uniformEw]
  constructor
  · unfold symmetricFl symmetric
    by_cases h1 : dist ≠ "uniform" ∧ dist ≠ "normal"
    · rw [if_pos h1, if_pos h1]
    rw [if_neg h1, if_neg h1]
    by_cases h2 : m ≤ 0
    · rw [if_pos h2, if_pos h2]
    rw [if_neg h2, if_neg h2]
    cases ew with
    | none =>
      dsimp only
      rw [dif_pos (l1 _ _ _), dif_pos (l2 _ _ _)]
      simp
    | some l =>
      by_cases h3 : l.length = m.toNat
      · simp [h3]
      · simp [h3]
  · unfold haarFl haar
    cases ew with
    | none =>
      dsimp only
      rw [dif_pos (l1 _ _ _), dif_pos (l2 _ _ _)]
      simp
    | some l =>
      by_cases h3 : l.length = n
      · simp [h3]
      · simp [h3]

/-- **C160**, accuracy: if the orthogonal factor is within `δ` of an orthogonal matrix, every entry of the array returned by `symmetric` is within `n (8 n (u E + η) + 3 δ E)` of
a matrix that has the requested eigenvalues, and so is every entry of the array returned by `haar`. -/
theorem C160_accuracy (hn : φ.Nearest fl) {E δ : ℝ} (h : MatRoom φ n E δ) {K : MulKernels} (hK1 : MatMulOk fl n (K.first n)) (hK2 : MatMulOk fl n (K.second n))
    (ew : Fin n → ℝ) (hew : ∀ i, |ew i| ≤ E) :
    (∀ (qr : SquareQR) (P : Matrix (Fin n) (Fin n) ℝ) (dist : String) (pd : Bool) (rng : Rng), dist = "uniform" ∨ dist = "normal" →
      NearOrth δ (qr n (squareform n (if dist = "uniform" then rng.unif else rng.norm) fun i => rng.unif (n * (n - 1) / 2 + i))) P →
      ∃ S A : Matrix (Fin n) (Fin n) ℝ, symmetricFl fl K qr n dist pd (some (List.ofFn ew)) rng = .ok ⟨n, S⟩ ∧ HasSpectrum A ew ∧ ∀ i j, |S i j - A i j| ≤ conjErr φ n E δ) ∧
    (∀ (U P : Matrix (Fin n) (Fin n) ℝ) (rng : Rng), NearOrth δ U P →
      ∃ S A : Matrix (Fin n) (Fin n) ℝ, haarFl fl K n U (some (List.ofFn ew)) rng = .ok S ∧ HasSpectrum A ew ∧ ∀ i j, |S i j - A i j| ≤ conjErr φ n E δ) := by
  constructor
  · intro qr P dist pd rng hdist hQ
    refine ⟨_, conjDiag P ew, ?_, conjDiag_spectrum P hQ.1 ew, fun i j => symmetrize_near hn h hK1 hK2 hQ ew hew i j⟩
    unfold symmetricFl
    rw [if_neg (by rcases hdist with h | h <;> simp [h]), if_neg (by have := h.pos; omega)]
    simp only [Int.toNat_natCast, List.length_ofFn, List.getElem_ofFn, Fin.eta, dif_pos]
  · intro U P rng hQ
    refine ⟨conjDiagFl K U ew, conjDiag P ew, by simp [haarFl], conjDiag_spectrum P hQ.1 ew, fun i j => ?_⟩
    refine (conjDiag_near hn h hK1 hK2 hQ ew hew i j).2.1.trans ?_
    have hu := φ.u_pos
    have he := φ.eta_pos
    have hnn : (0 : ℝ) ≤ n := Nat.cast_nonneg n
    have hne : 0 ≤ n * φ.eta := mul_nonneg hnn he.le
    have hE0 : 0 ≤ E := by linarith [h.tiny]
    have h1 : 0 ≤ n * (φ.u * E + φ.eta) := mul_nonneg hnn (add_nonneg (mul_nonneg hu.le hE0) he.le)
    have h2 : 0 ≤ δ * E := mul_nonneg h.delta0 hE0
    exact mul_le_mul_of_nonneg_left (by linarith) hnn

/-- Matrices whose entries are close. -/
theorem mulVec_near {S A : Matrix (Fin n) (Fin n) ℝ} {β : ℝ} (hβ : 0 ≤ β) (h : ∀ i j, |S i j - A i j| ≤ β) (y : Vec n) : nrm ((S - A) *ᵥ y) ≤ n * β * nrm y := by
  refine (frob_mulVec_le (S - A) y).trans (mul_le_mul_of_nonneg_right ?_ (nrm_nonneg y))
  have h1 : frobSq (S - A) ≤ (n * β) ^ 2 := by
    unfold frobSq
    calc ∑ i, ∑ j, (S - A) i j ^ 2 ≤ ∑ _i : Fin n, ∑ _j : Fin n, β ^ 2 :=
          Finset.sum_le_sum fun i _ => Finset.sum_le_sum fun j _ => by
            rw [Matrix.sub_apply, ← sq_abs]
            exact pow_le_pow_left₀ (abs_nonneg _) (h i j) 2
      _ = (n * β) ^ 2 := by simp; ring
  rw [Real.sqrt_le_left (mul_nonneg (Nat.cast_nonneg n) hβ)]
  exact h1

/-- **C160**, eigenvalues: each eigenvalue of a symmetric array `S` is within `n β` of an eigenvalue of `A`, and the other way round, if the entries differ by at most `β`. -/
theorem C160_spectrum (hn0 : 0 < n) {S A : Matrix (Fin n) (Fin n) ℝ} {ew : Fin n → ℝ} (hA : HasSpectrum A ew) (hS : S.IsSymm) {β : ℝ} (hβ : 0 ≤ β)
    (h : ∀ i j, |S i j - A i j| ≤ β) :
    ∃ th W, Eigen S th W ∧ (∀ i, ∃ j, |th i - ew j| ≤ n * β) ∧ (∀ j, ∃ i, |th i - ew j| ≤ n * β) := by
  obtain ⟨th, W, hW⟩ := exists_isEigh S hS
  have hW' := isEigh_iff_eigen.1 hW
  obtain ⟨V, hV1, hV2⟩ := hA.basis
  have hU : Eigen A ew (Matrix.of V)ᵀ := by
    refine ⟨?_, fun j => hV2 j⟩
    ext i j
    rw [Matrix.mul_apply, Matrix.one_apply]
    exact hV1 i j
  have hcol : ∀ {R : Matrix (Fin n) (Fin n) ℝ} {w : Fin n → ℝ} {T : Matrix (Fin n) (Fin n) ℝ}, Eigen R w T → ∀ j, nrm (fun i => T i j) = 1 := by
    intro R w T hT j
    have := congrFun (congrFun hT.orthonormal j) j
    rw [Matrix.mul_apply, Matrix.one_apply_eq] at this
    unfold nrm
    rw [show ((fun i => T i j) ⬝ᵥ fun i => T i j) = 1 from this, Real.sqrt_one]
  refine ⟨th, W, hW', fun i => ?_, fun j => ?_⟩
  · obtain ⟨j, hj⟩ := eigen_near hU hn0 (th i) (fun k => W k i)
    refine ⟨j, ?_⟩
    rw [hcol hW' i, mul_one] at hj
    rw [abs_sub_comm]
    refine hj.trans ?_
    have e : A *ᵥ (fun k => W k i) - th i • (fun k => W k i) = -((S - A) *ᵥ fun k => W k i) := by
      rw [← hW'.eigen i, Matrix.sub_mulVec, neg_sub]
    rw [e, nrm_neg]
    have := mulVec_near hβ h (fun k => W k i)
    rwa [hcol hW' i, mul_one] at this
  · obtain ⟨i, hi⟩ := eigen_near hW' hn0 (ew j) (V j)
    refine ⟨i, ?_⟩
    have hVn : nrm (V j) = 1 := hcol hU j
    rw [hVn, mul_one] at hi
    refine hi.trans ?_
    have e : S *ᵥ V j - ew j • V j = (S - A) *ᵥ V j := by
      rw [← hV2 j, Matrix.sub_mulVec]
    rw [e]
    have := mulVec_near hβ h (V j)
    rwa [hVn, mul_one] at this

/-- C160, end to end: the eigenvalues of the array returned by `symmetric` are within `n² (8 n (u E + η) + 3 δ E)` of the requested ones. -/
theorem C160_symmetric (hn : φ.Nearest fl) {E δ : ℝ} (h : MatRoom φ n E δ) {K : MulKernels} (hK1 : MatMulOk fl n (K.first n)) (hK2 : MatMulOk fl n (K.second n))
    (ew : Fin n → ℝ) (hew : ∀ i, |ew i| ≤ E) (qr : SquareQR) (P : Matrix (Fin n) (Fin n) ℝ) (dist : String) (hdist : dist = "uniform" ∨ dist = "normal") (pd : Bool) (rng : Rng)
    (hQ : NearOrth δ (qr n (squareform n (if dist = "uniform" then rng.unif else rng.norm) fun i => rng.unif (n * (n - 1) / 2 + i))) P) :
    ∃ (S : Matrix (Fin n) (Fin n) ℝ) (th : Fin n → ℝ) (W : Matrix (Fin n) (Fin n) ℝ), symmetricFl fl K qr n dist pd (some (List.ofFn ew)) rng = .ok ⟨n, S⟩ ∧ S.IsSymm ∧
      Eigen S th W ∧ (∀ i, ∃ j, |th i - ew j| ≤ n * conjErr φ n E δ) ∧ (∀ j, ∃ i, |th i - ew j| ≤ n * conjErr φ n E δ) := by
  obtain ⟨S, A, h1, h2, h3⟩ := (C160_accuracy hn h hK1 hK2 ew hew).1 qr P dist pd rng hdist hQ
  have hS := C160_exactly_symmetric fl K qr n dist pd _ rng ⟨n, S⟩ h1
  obtain ⟨th, W, k1, k2, k3⟩ := C160_spectrum h.pos h2 hS ((abs_nonneg _).trans (h3 ⟨0, h.pos⟩ ⟨0, h.pos⟩)) h3
  exact ⟨S, th, W, h1, hS, k1, k2, k3⟩

/-- The eigenvalues drawn stay in the documented interval in spite of rounding. -/
theorem uniform_unit (hn : φ.Nearest fl) (hs : SmallOk φ) {w : ℝ} (h0 : 0 ≤ w) (h1 : w ≤ 1) :
    (0 ≤ fl (0 + fl (fl (1 - 0) * w)) ∧ fl (0 + fl (fl (1 - 0) * w)) ≤ 1) ∧ (-1 ≤ fl (-1 + fl (fl (1 - -1) * w)) ∧ fl (-1 + fl (fl (1 - -1) * w)) ≤ 1) := by
  have ht := hs.four_le_top
  have e1 : fl (1 - 0) = 1 := by rw [sub_zero, hn.eq_self hs.one]
  have e2 : fl (1 - -1) = 2 := by rw [sub_neg_eq_add, one_add_one_eq_two, hn.eq_self hs.two]
  rw [e1, e2, one_mul]
  obtain ⟨a1, a2⟩ := fl_unit hn hs h0 h1
  refine ⟨by rw [zero_add]; exact fl_unit hn hs a1 a2, ?_⟩
  have b1 : 0 ≤ fl (2 * w) := hn.nonneg hs.exp (by linarith) (by linarith)
  have b2 : fl (2 * w) ≤ 2 := by
    have := hn.mono (x := 2 * w) (y := 2) (by rw [abs_of_nonneg (by linarith)]; linarith) (by rw [abs_two]; linarith) (by linarith)
    rwa [hn.eq_self hs.two] at this
  have hab : |(-1 : ℝ) + fl (2 * w)| ≤ φ.top := by rw [abs_le]; constructor <;> linarith
  constructor
  · have := hn.mono (x := -1) (y := -1 + fl (2 * w)) (by rw [abs_neg, abs_one]; linarith) hab (by linarith)
    rwa [hn.eq_self hs.one.neg] at this
  · have := hn.mono (x := -1 + fl (2 * w)) (y := 1) hab (by rw [abs_one]; linarith) (by linarith)
    rwa [hn.eq_self hs.one] at this

/-- C160, defaults: without `ew` the eigenvalues of the array are within `n² (8 n (u + η) + 3 δ)` of numbers in `[-1, 1]`, in `[0, 1]` if `pd`.  So `pd=True` guarantees no
eigenvalue below minus that bound, which is all it can guarantee. -/
theorem C160_default (hn : φ.Nearest fl) (hs : SmallOk φ) {δ : ℝ} (h : MatRoom φ n 1 δ) {K : MulKernels} (hK1 : MatMulOk fl n (K.first n)) (hK2 : MatMulOk fl n (K.second n))
    (qr : SquareQR) (P : Matrix (Fin n) (Fin n) ℝ) (dist : String) (hdist : dist = "uniform" ∨ dist = "normal") (pd : Bool) (rng : Rng)
    (hr : ∀ i, 0 ≤ rng.unif i ∧ rng.unif i ≤ 1)
    (hQ : NearOrth δ (qr n (squareform n (if dist = "uniform" then rng.unif else rng.norm) fun i => rng.unif (n * (n - 1) / 2 + i))) P) :
    ∃ (S : Matrix (Fin n) (Fin n) ℝ) (th : Fin n → ℝ) (W : Matrix (Fin n) (Fin n) ℝ), symmetricFl fl K qr n dist pd none rng = .ok ⟨n, S⟩ ∧ S.IsSymm ∧
      Eigen S th W ∧ ∀ i, (if pd then 0 else -1) - n * conjErr φ n 1 δ ≤ th i ∧ th i ≤ 1 + n * conjErr φ n 1 δ := by
  have key : ∀ w, 0 ≤ w → w ≤ 1 → (if pd then 0 else -1) ≤ fl ((if pd then 0 else -1) + fl (fl (1 - (if pd then 0 else -1)) * w)) ∧
      fl ((if pd then 0 else -1) + fl (fl (1 - (if pd then 0 else -1)) * w)) ≤ 1 := by
    intro w h0 h1
    have := uniform_unit hn hs h0 h1
    cases pd
    · simpa using this.2
    · simpa using this.1
  set ew : Fin n → ℝ := fun i => fl ((if pd then 0 else -1) + fl (fl (1 - (if pd then 0 else -1)) * rng.unif (n * (n - 1) / 2 + n + i))) with hew
  have hk : ∀ i, (if pd then 0 else -1) ≤ ew i ∧ ew i ≤ 1 := fun i => key _ (hr _).1 (hr _).2
  have hab : ∀ i, |ew i| ≤ 1 := fun i => by
    rw [abs_le]
    refine ⟨le_trans ?_ (hk i).1, (hk i).2⟩
    cases pd <;> simp
  obtain ⟨S, th, W, h1, h2, h3, h4, -⟩ := C160_symmetric hn h hK1 hK2 ew hab qr P dist hdist pd rng hQ
  refine ⟨S, th, W, ?_, h2, h3, fun i => ?_⟩
  · rw [← h1]
    have : uniformEwFl fl n (if pd then 0 else -1) rng (n * (n - 1) / 2 + n) = List.ofFn ew := by
      unfold uniformEwFl
      rw [List.ofFn_eq_map, ← List.map_coe_finRange_eq_range, List.map_map]
      rfl
    unfold symmetricFl
    simp only [Int.toNat_natCast, this]
  · obtain ⟨j, hj⟩ := h4 i
    obtain ⟨p1, p2⟩ := abs_le.1 hj
    obtain ⟨q1, q2⟩ := hk j
    constructor <;> linarith

/-- C160: the eigenvalues used without `ew`.  Both functions draw `n` numbers, `symmetric` after those of the matrix, and scale them to `[low, 1]` with three roundings; the rest is
the same as with `ew` given.  `haar` uses `[-1, 1]`, where its documentation says `[0, 1]`. -/
theorem C160_draws (fl : ℝ → ℝ) (K : MulKernels) (qr : SquareQR) (dist : String) (pd : Bool) (rng : Rng) (U : Matrix (Fin n) (Fin n) ℝ) :
    (symmetricFl fl K qr n dist pd none rng = symmetricFl fl K qr n dist pd (some (List.ofFn fun i : Fin n =>
      fl ((if pd then 0 else -1) + fl (fl (1 - (if pd then 0 else -1)) * rng.unif (n * (n - 1) / 2 + n + i))))) rng) ∧
    haarFl fl K n U none rng = haarFl fl K n U (some (List.ofFn fun i : Fin n => fl (-1 + fl (fl (1 - -1) * rng.unif i)))) rng := by
  have key : ∀ low pos, uniformEwFl fl n low rng pos = List.ofFn fun i : Fin n => fl (low + fl (fl (1 - low) * rng.unif (pos + i))) := fun low pos => by
    unfold uniformEwFl
    rw [List.ofFn_eq_map, ← List.map_coe_finRange_eq_range, List.map_map]
    rfl
  constructor
  · unfold symmetricFl
    simp only [Int.toNat_natCast, key]
  · unfold haarFl
    simp only [key, zero_add]

/-- C160, `haar` without `ew`: every entry is within the bound of a matrix with the eigenvalues drawn, which lie in `[-1, 1]`. -/
theorem C160_haar_default (hn : φ.Nearest fl) (hs : SmallOk φ) {δ : ℝ} (h : MatRoom φ n 1 δ) {K : MulKernels} (hK1 : MatMulOk fl n (K.first n)) (hK2 : MatMulOk fl n (K.second n))
    (U P : Matrix (Fin n) (Fin n) ℝ) (hU : NearOrth δ U P) (rng : Rng) (hr : ∀ i, 0 ≤ rng.unif i ∧ rng.unif i ≤ 1) :
    ∃ (S A : Matrix (Fin n) (Fin n) ℝ) (ew : Fin n → ℝ), haarFl fl K n U none rng = .ok S ∧ (∀ i, -1 ≤ ew i ∧ ew i ≤ 1 ∧ |ew i - (-1 + 2 * rng.unif i)| ≤ 3 * φ.u + 2 * φ.eta) ∧
      HasSpectrum A ew ∧ ∀ i j, |S i j - A i j| ≤ conjErr φ n 1 δ := by
  have hu := φ.u_pos
  have he := φ.eta_pos
  have hk : ∀ i, -1 ≤ fl (-1 + fl (fl (1 - -1) * rng.unif i)) ∧ fl (-1 + fl (fl (1 - -1) * rng.unif i)) ≤ 1 := fun i => (uniform_unit hn hs (hr i).1 (hr i).2).2
  obtain ⟨S, A, h1, h2, h3⟩ := (C160_accuracy hn h hK1 hK2 (fun i : Fin n => fl (-1 + fl (fl (1 - -1) * rng.unif i))) (fun i => abs_le.2 (hk i))).2 U P rng hU
  refine ⟨S, A, _, (C160_draws fl K (fun _ _ => 1) "normal" true rng U).2.trans h1, fun i => ⟨(hk i).1, (hk i).2, ?_⟩, h2, h3⟩
  obtain ⟨r0, r1⟩ := hr i
  have e2 : fl (1 - -1) = 2 := by rw [sub_neg_eq_add, one_add_one_eq_two, hn.eq_self hs.two]
  rw [e2]
  have ht := hs.four_le_top
  have d1 := fl_err hn hs (x := 2 * rng.unif i) (c := 2) (by rw [abs_of_nonneg (by linarith)]; linarith) (by norm_num)
  have b1 : 0 ≤ fl (2 * rng.unif i) := hn.nonneg hs.exp (by linarith) (by linarith)
  have b2 : fl (2 * rng.unif i) ≤ 2 := by
    have := hn.mono (x := 2 * rng.unif i) (y := 2) (by rw [abs_of_nonneg (by linarith)]; linarith) (by rw [abs_two]; linarith) (by linarith)
    rwa [hn.eq_self hs.two] at this
  have d2 := fl_err hn hs (x := -1 + fl (2 * rng.unif i)) (c := 1) (by rw [abs_le]; constructor <;> linarith) (by norm_num)
  obtain ⟨p1, p2⟩ := abs_le.1 d1
  obtain ⟨p3, p4⟩ := abs_le.1 d2
  rw [abs_le]
  constructor <;> linarith

/-! ## `haar` is not symmetrised -/

/-- All numbers of the format are multiples of the least positive one. -/
theorem mem_grid {x : ℝ} (h : φ.Mem x) : ∃ k : ℤ, x = k * (2 : ℝ) ^ φ.emin := by
  obtain ⟨m, e, -, he, -, rfl⟩ := h
  refine ⟨m * 2 ^ (e - φ.emin).toNat, ?_⟩
  have : (2 : ℝ) ^ e = (2 : ℝ) ^ (e - φ.emin).toNat * (2 : ℝ) ^ φ.emin := by
    rw [← zpow_natCast, Int.toNat_of_nonneg (by omega), ← zpow_add₀ two_ne_zero]
    congr 1
    omega
  rw [this]
  push_cast
  ring

theorem fl_grid (hn : φ.Nearest fl) (he : φ.emin ≤ φ.emax) {x : ℝ} (k : ℤ) (hk : |k| < 2 ^ φ.p) (h : |x - k * (2 : ℝ) ^ φ.emin| < 1 / 2 * (2 : ℝ) ^ φ.emin) (hx : |x| ≤ φ.top) :
    fl x = k * (2 : ℝ) ^ φ.emin := by
  obtain ⟨h1, h2⟩ := hn x hx
  have h3 := h2 (k * (2 : ℝ) ^ φ.emin) ⟨k, φ.emin, hk, le_refl _, he, rfl⟩
  obtain ⟨k', hk'⟩ := mem_grid h1
  rw [hk'] at h3 ⊢
  have hg : (0 : ℝ) < (2 : ℝ) ^ φ.emin := by positivity
  have h4 : |((k' : ℝ) - k) * (2 : ℝ) ^ φ.emin| < 1 * (2 : ℝ) ^ φ.emin := by
    have e : ((k' : ℝ) - k) * (2 : ℝ) ^ φ.emin = (x - k * (2 : ℝ) ^ φ.emin) - (x - k' * (2 : ℝ) ^ φ.emin) := by ring
    rw [e]
    refine (abs_sub _ _).trans_lt ?_
    linarith
  rw [abs_mul, abs_of_pos hg] at h4
  have h5 : |((k' - k : ℤ) : ℝ)| < 1 := by
    push_cast
    exact lt_of_mul_lt_mul_right h4 hg.le
  have h6 : |k' - k| < 1 := by exact_mod_cast h5
  rw [Int.abs_lt_one_iff] at h6
  rw [show k' = k by omega]

/-- An inner product of two pairs, one of which has a zero. -/
theorem Spec.DotOrder.pair (hn : φ.Nearest fl) (he : φ.emin ≤ φ.emax) {l : List (ℝ × ℝ)} {s : ℝ} (h : DotOrder fl l s) :
    ((∀ q ∈ l, q.1 * q.2 = 0) → s = 0) ∧ ∀ c, |c| ≤ φ.top → (l.map fun q => q.1 * q.2).filter (fun x => x ≠ 0) = [c] → s = fl c := by
  have hz := hn.zero he
  induction h with
  | single a b =>
    constructor
    · intro h
      rw [h (a, b) (by simp), hz]
    · intro c _ h
      by_cases hx : a * b = 0
      · simp [hx] at h
      · simp [hx] at h
        rw [h]
  | @node xs ys s t _ _ ih1 ih2 =>
    have hzero : ∀ zs : List (ℝ × ℝ), (zs.map fun q => q.1 * q.2).filter (fun x => x ≠ 0) = [] → ∀ q ∈ zs, q.1 * q.2 = 0 := by
      intro zs h q hq
      by_contra hc
      have : q.1 * q.2 ∈ (zs.map fun q => q.1 * q.2).filter (fun x => x ≠ 0) := List.mem_filter.2 ⟨List.mem_map.2 ⟨q, hq, rfl⟩, by simpa using hc⟩
      rw [h] at this
      simp at this
    constructor
    · intro h
      rw [ih1.1 fun q hq => h q (by simp [hq]), ih2.1 fun q hq => h q (by simp [hq]), add_zero, hz]
    · intro c hc h
      rw [List.map_append, List.filter_append] at h
      rcases List.append_eq_singleton_iff.1 h with ⟨h1, h2⟩ | ⟨h1, h2⟩
      · rw [ih1.1 (hzero _ h1), ih2.2 c hc h2, zero_add, hn.eq_self (hn c hc).1]
      · rw [ih1.2 c hc h1, ih2.1 (hzero _ h2), add_zero, hn.eq_self (hn c hc).1]
  | @fma a b ys t _ ih =>
    constructor
    · intro h
      rw [ih.1 fun q hq => h q (by simp [hq]), h (a, b) (by simp), add_zero, hz]
    · intro c hc h
      by_cases hx : a * b = 0
      · rw [List.map_cons, List.filter_cons_of_neg (by simp [hx])] at h
        rw [ih.2 c hc h, hx, zero_add, hn.eq_self (hn c hc).1]
      · rw [List.map_cons, List.filter_cons_of_pos (by simp [hx])] at h
        obtain ⟨h1, h2⟩ := List.cons_eq_cons.1 h
        have : t = 0 := ih.1 fun q hq => by
          by_contra hc'
          have : q.1 * q.2 ∈ (ys.map fun q => q.1 * q.2).filter (fun x => x ≠ 0) := List.mem_filter.2 ⟨List.mem_map.2 ⟨q, hq, rfl⟩, by simpa using hc'⟩
          rw [h2] at this
          simp at this
        rw [this, add_zero, h1]
  | perm p _ ih =>
    constructor
    · intro h
      exact ih.1 fun q hq => h q (p.mem_iff.1 hq)
    · intro c hc h
      have := (p.map fun q => q.1 * q.2).filter (fun x => x ≠ 0)
      rw [h] at this
      exact ih.2 c hc (List.perm_singleton.1 this)

/-- **C160**, `haar` does not symmetrise: for the rotation with cosine `8/17` and sine `15/17`, known to two digits or better, and the eigenvalues `6 g` and `0`, where `g` is the
least positive number, the array it returns is not symmetric; this holds in every format and for every rounding to nearest and every order of summation. -/
theorem C160_haar_not_symmetric (hn : φ.Nearest fl) (he : φ.emin ≤ φ.emax) (hp : 4 ≤ φ.p) {K : MulKernels} (hK1 : MatMulOk fl 2 (K.first 2)) (hK2 : MatMulOk fl 2 (K.second 2))
    (U : Matrix (Fin 2) (Fin 2) ℝ) (hU : NearOrth (1 / 100) U !![8 / 17, -15 / 17; 15 / 17, 8 / 17]) (rng : Rng) :
    ∃ S, haarFl fl K 2 U (some [6 * (2 : ℝ) ^ φ.emin, 0]) rng = .ok S ∧ S 0 1 = 3 * (2 : ℝ) ^ φ.emin ∧ S 1 0 = 2 * (2 : ℝ) ^ φ.emin ∧ ¬ S.IsSymm := by
  have hg : (0 : ℝ) < (2 : ℝ) ^ φ.emin := by positivity
  have hpow : (2 : ℤ) ^ 4 ≤ 2 ^ φ.p := pow_le_pow_right₀ (by norm_num) hp
  have htop : 15 * (2 : ℝ) ^ φ.emin ≤ φ.top := by
    have := Fmt.Mem.le_top (φ := φ) (x := ((15 : ℤ) : ℝ) * (2 : ℝ) ^ φ.emin) ⟨15, φ.emin, by rw [abs_of_pos (by norm_num)]; linarith, le_refl _, he, rfl⟩
    rw [abs_of_pos (by push_cast; linarith)] at this
    exact_mod_cast this
  set g := (2 : ℝ) ^ φ.emin with hgd
  have hc := hU.2 0 0
  have hsn := hU.2 1 0
  simp only [Matrix.of_apply, Matrix.cons_val', Matrix.cons_val_zero, Matrix.cons_val_one, Matrix.cons_val_fin_one] at hc hsn
  obtain ⟨c1, c2⟩ := abs_le.1 hc
  obtain ⟨s1, s2⟩ := abs_le.1 hsn
  set c := U 0 0
  set sn := U 1 0
  have grid : ∀ (x : ℝ) (k : ℤ), 0 ≤ k → k ≤ 8 → (k - 1 / 2) * g < x → x < (k + 1 / 2) * g → fl x = k * g := by
    intro x k h0 h8 h1 h2
    have h0' : (0 : ℝ) ≤ k := by exact_mod_cast h0
    have h8' : (k : ℝ) ≤ 8 := by exact_mod_cast h8
    refine fl_grid hn he k (by rw [abs_of_nonneg h0]; linarith) (by rw [abs_lt]; constructor <;> linarith) ?_
    have := mul_le_mul_of_nonneg_right h8' hg.le
    have := mul_nonneg h0' hg.le
    rw [abs_le]
    constructor <;> linarith
  have cg1 : c * g ≤ (8 / 17 + 1 / 100) * g := mul_le_mul_of_nonneg_right (by linarith) hg.le
  have cg2 : (8 / 17 - 1 / 100) * g ≤ c * g := mul_le_mul_of_nonneg_right (by linarith) hg.le
  have sg1 : sn * g ≤ (15 / 17 + 1 / 100) * g := mul_le_mul_of_nonneg_right (by linarith) hg.le
  have sg2 : (15 / 17 - 1 / 100) * g ≤ sn * g := mul_le_mul_of_nonneg_right (by linarith) hg.le
  have f1 : fl (c * (6 * g)) = 3 * g := by exact_mod_cast grid (c * (6 * g)) 3 (by norm_num) (by norm_num) (by push_cast; linarith) (by push_cast; linarith)
  have f2 : fl (sn * (6 * g)) = 5 * g := by exact_mod_cast grid (sn * (6 * g)) 5 (by norm_num) (by norm_num) (by push_cast; linarith) (by push_cast; linarith)
  have f3 : fl (3 * g * sn) = 3 * g := by exact_mod_cast grid (3 * g * sn) 3 (by norm_num) (by norm_num) (by push_cast; linarith) (by push_cast; linarith)
  have f4 : fl (5 * g * c) = 2 * g := by exact_mod_cast grid (5 * g * c) 2 (by norm_num) (by norm_num) (by push_cast; linarith) (by push_cast; linarith)
  set ew : Fin 2 → ℝ := ![6 * g, 0] with hew
  set C := K.first 2 U (diagonal ew) with hC
  have hcol : ∀ i, (0 < U i 0 ∧ U i 0 ≤ 1) → C i 0 = fl (U i 0 * (6 * g)) ∧ C i 1 = 0 := by
    intro i hi
    constructor
    · refine ((hK1 U (diagonal ew) i 0).pair hn he).2 _ ?_ ?_
      · rw [abs_of_pos (by have := mul_pos hi.1 hg; linarith)]
        have := mul_le_mul_of_nonneg_right hi.2 hg.le
        linarith
      · have h0 : U i 0 * (6 * g) ≠ 0 := by have := mul_pos hi.1 hg; intro h; linarith
        simp only [ne_eq, List.ofFn_succ, List.ofFn_zero, List.map_cons, List.map_nil, Fin.isValue, Fin.succ_zero_eq_one, diagonal_apply_eq, hew, Matrix.cons_val_zero]
        rw [diagonal_apply_ne _ (by decide), mul_zero, List.filter_cons_of_pos (by simpa using h0), List.filter_cons_of_neg (by simp), List.filter_nil]
    · refine ((hK1 U (diagonal ew) i 1).pair hn he).1 fun q hq => ?_
      rw [List.mem_ofFn] at hq
      obtain ⟨k, rfl⟩ := hq
      fin_cases k <;> simp [hew, diagonal]
  have hc00 : C 0 0 = 3 * g ∧ C 0 1 = 0 := by
    rw [← f1]; exact hcol 0 ⟨by linarith, by linarith⟩
  have hc10 : C 1 0 = 5 * g ∧ C 1 1 = 0 := by
    rw [← f2]; exact hcol 1 ⟨by linarith, by linarith⟩
  have out : ∀ i j v, C i 0 = v * g → C i 1 = 0 → 0 < v → v ≤ 6 → (0 < U j 0 ∧ U j 0 ≤ 1) → conjDiagFl K U ew i j = fl (v * g * U j 0) := by
    intro i j v h0 h1 v0 v6 hj
    have hv : 0 < v * g := mul_pos v0 hg
    refine ((hK2 C Uᵀ i j).pair hn he).2 _ ?_ ?_
    · rw [abs_of_pos (mul_pos hv hj.1)]
      have a1 := mul_le_of_le_one_right hv.le hj.2
      have a2 := mul_le_mul_of_nonneg_right v6 hg.le
      linarith
    · have hne : v * g * U j 0 ≠ 0 := (mul_pos hv hj.1).ne'
      simp only [ne_eq, List.ofFn_succ, List.ofFn_zero, List.map_cons, List.map_nil, Fin.isValue, Fin.succ_zero_eq_one, transpose_apply]
      rw [h0, h1, zero_mul, List.filter_cons_of_pos (by simpa using hne), List.filter_cons_of_neg (by simp), List.filter_nil]
  have r1 : conjDiagFl K U ew 0 1 = 3 * g := by
    rw [out 0 1 3 hc00.1 hc00.2 (by norm_num) (by norm_num) ⟨by linarith, by linarith⟩]; exact f3
  have r2 : conjDiagFl K U ew 1 0 = 2 * g := by
    rw [out 1 0 5 hc10.1 hc10.2 (by norm_num) (by norm_num) ⟨by linarith, by linarith⟩]; exact f4
  refine ⟨conjDiagFl K U ew, ?_, r1, r2, fun hS => ?_⟩
  · unfold haarFl
    simp only [List.length_cons, List.length_nil, dif_pos]
    congr 2
    funext i
    fin_cases i <;> rfl
  · have := hS.apply 0 1
    rw [r1, r2] at this
    linarith

/-! ## Examples -/

/-- There are such kernels for every rounding. -/
theorem mulKernels_exist (fl : ℝ → ℝ) : ∃ K : MulKernels, ∀ n, 0 < n → MatMulOk fl n (K.first n) ∧ MatMulOk fl n (K.second n) := by
  have h1 : ∀ (m : ℕ) (f : Fin m → ℝ × ℝ), ∃ s, 0 < m → DotOrder fl (List.ofFn f) s := fun m f => by
    rcases Nat.eq_zero_or_pos m with rfl | hm
    · exact ⟨0, fun h => absurd h (lt_irrefl _)⟩
    · obtain ⟨s, hs⟩ := DotOrder.exists fl (List.ofFn f) (by simpa [List.ofFn_eq_nil_iff] using hm.ne')
      exact ⟨s, fun _ => hs⟩
  choose D hD using h1
  exact ⟨⟨fun m A B i j => D m fun k => (A i k, B k j), fun m A B i j => D m fun k => (A i k, B k j)⟩,
    fun n hn => ⟨fun A B i j => hD n _ hn, fun A B i j => hD n _ hn⟩⟩

/-- binary64 has room for matrices of size 100 with eigenvalues in `[-1, 1]` and an orthogonal factor known to twelve digits; the eigenvalues then are known to seven digits. -/
theorem binary64_matRoom : MatRoom binary64 100 1 (10 ^ (-12 : ℤ)) ∧ ((100 : ℕ) : ℝ) * conjErr binary64 100 1 (10 ^ (-12 : ℤ)) ≤ 10 ^ (-7 : ℤ) := by
  have hu : binary64.u = (2 : ℝ) ^ (-53 : ℤ) := rfl
  have he : binary64.eta ≤ (2 : ℝ) ^ (-60 : ℤ) := by
    have : binary64.eta = (2 : ℝ) ^ (-1075 : ℤ) := rfl
    rw [this]
    exact zpow_le_zpow_right₀ (by norm_num) (by norm_num)
  have ht : (1024 : ℝ) ≤ binary64.top := by
    have h1 : (1 : ℝ) ≤ 2 ^ (971 : ℤ) := one_le_zpow₀ (by norm_num) (by norm_num)
    have h2 : binary64.top = (2 ^ 53 - 1) * (2 : ℝ) ^ (971 : ℤ) := rfl
    rw [h2]
    generalize (2 : ℝ) ^ (971 : ℤ) = z at h1
    linarith
  have hd : (10 : ℝ) ^ (-12 : ℤ) = 1 / 1000000000000 := by norm_num
  have h7 : (10 : ℝ) ^ (-7 : ℤ) = 1 / 10000000 := by norm_num
  have hu' : binary64.u ≤ 1 / 5000000000000000 := by rw [hu]; norm_num
  have he' : binary64.eta ≤ 1 / 1000000000000000000 := he.trans (by norm_num)
  refine ⟨⟨by norm_num [binary64], by norm_num, ?_, by positivity, by norm_num, ?_, by push_cast; linarith⟩, ?_⟩
  · push_cast; linarith
  · push_cast; linarith
  · unfold conjErr
    rw [hd, h7]
    push_cast
    linarith

/-- A matrix `symmetric` returns in binary64 for the eigenvalues `1/100, ..., 1`. -/
example : ∃ fl : ℝ → ℝ, ∃ K : MulKernels, binary64.Nearest fl ∧ ∀ rng : Rng, ∃ (S : Matrix (Fin 100) (Fin 100) ℝ) (th : Fin 100 → ℝ) (W : Matrix (Fin 100) (Fin 100) ℝ),
    symmetricFl fl K (fun _ _ => 1) (100 : ℕ) "normal" true (some (List.ofFn fun i : Fin 100 => ((i : ℝ) + 1) / 100)) rng = .ok ⟨100, S⟩ ∧ S.IsSymm ∧ Eigen S th W ∧
      ∀ i, 0 < th i := by
  obtain ⟨fl, hn⟩ := Fmt.exists_nearest (φ := binary64) (by norm_num [binary64])
  obtain ⟨K, hK⟩ := mulKernels_exist fl
  refine ⟨fl, K, hn, fun rng => ?_⟩
  obtain ⟨k1, k2⟩ := hK 100 (by norm_num)
  obtain ⟨r1, r2⟩ := binary64_matRoom
  have hi : ∀ i : Fin 100, (0 : ℝ) ≤ i ∧ (i : ℝ) ≤ 99 := fun i => ⟨Nat.cast_nonneg _, by exact_mod_cast (by omega : i.1 ≤ 99)⟩
  obtain ⟨S, th, W, h1, h2, h3, h4, -⟩ := C160_symmetric hn r1 k1 k2 (fun i : Fin 100 => ((i : ℝ) + 1) / 100)
    (fun i => by rw [abs_of_nonneg (by linarith [(hi i).1])]; linarith [(hi i).2]) (fun _ _ => 1) 1 "normal" (Or.inr rfl) true rng
    ⟨by simp, fun i j => by rw [sub_self, abs_zero]; positivity⟩
  refine ⟨S, th, W, h1, h2, h3, fun i => ?_⟩
  obtain ⟨j, hj⟩ := h4 i
  have a1 := (abs_le.1 (hj.trans r2)).1
  have a2 := (hi j).1
  have a3 : (10 : ℝ) ^ (-7 : ℤ) ≤ 1 / 1000 := by norm_num
  clear h1 h2 h3 h4
  linarith

/-- A rotation that meets the hypothesis of `C160_haar_not_symmetric`. -/
example : NearOrth (1 / 100) !![8 / 17, -15 / 17; 15 / 17, 8 / 17] !![8 / 17, -15 / 17; 15 / 17, 8 / 17] := by
  refine ⟨?_, fun i j => by rw [sub_self, abs_zero]; norm_num⟩
  ext i j
  fin_cases i <;> fin_cases j <;> norm_num [Matrix.mul_apply, Fin.sum_univ_two, Matrix.one_apply]

end Primate
