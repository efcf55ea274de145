import Verif.Model.Stats
import Verif.Spec.Sample
import Mathlib.Algebra.CharZero.Defs
import Mathlib.Data.Nat.Cast.Field
import Mathlib.Tactic.FieldSimp
import Mathlib.Tactic.Ring
import Mathlib.Tactic.LinearCombination

namespace Primate

variable {K : Type} [Field K] {d : ℕ}

theorem sum_map_centered (xs : List (Fin d → K)) (i j : Fin d) (a b : K) :
    (xs.map fun x => (x i - a) * (x j - b)).sum =
      (xs.map fun x => x i * x j).sum - b * (xs.map fun x => x i).sum
        - a * (xs.map fun x => x j).sum + (xs.length : K) * (a * b) := by
  induction xs with
  | nil => simp
  | cons x xs ih =>
    simp only [List.map_cons, List.sum_cons, ih, List.length_cons, Nat.cast_add, Nat.cast_one]
    ring

/-- Invariant of `Mean` after having seen exactly the observations `xs`. -/
structure MeanInv (m : Mean K d) (xs : List (Fin d → K)) : Prop where
  n : m.n = xs.length
  nan : m.nan = false
  mu : ∀ i, (xs.length : K) * m.mu i = (xs.map fun x => x i).sum
  mu0 : xs = [] → ∀ i, m.mu i = 0

/-- Invariant of `Covariance` after having seen exactly the observations `xs`. -/
structure CovInv (c : Covariance K d) (xs : List (Fin d → K)) : Prop where
  n : c.n = xs.length
  nan : c.nan = false
  mu : ∀ i, (xs.length : K) * c.mu i = (xs.map fun x => x i).sum
  mu0 : xs = [] → ∀ i, c.mu i = 0
  S : ∀ i j, c.S i j = (xs.map fun x => x i * x j).sum - (xs.length : K) * (c.mu i * c.mu j)

theorem MeanInv.init : MeanInv (Mean.init K d) [] :=
  ⟨rfl, rfl, by simp [Mean.init], by simp [Mean.init]⟩

theorem CovInv.init : CovInv (Covariance.init K d) [] :=
  ⟨rfl, rfl, by simp [Covariance.init], by simp [Covariance.init], by simp [Covariance.init]⟩

variable [CharZero K]

theorem mu_step (xs X : List (Fin d → K)) (hX : X ≠ []) (mu : Fin d → K) (i : Fin d)
    (h : (xs.length : K) * mu i = (xs.map fun x => x i).sum) :
    (((xs ++ X).length : ℕ) : K) *
      (mu i + ((X.length : K) / ((xs.length + X.length : ℕ) : K)) * (colMean X i - mu i)) =
      ((xs ++ X).map fun x => x i).sum := by
  have hl : 0 < X.length := List.length_pos_iff.mpr hX
  have h1 : (X.length : K) ≠ 0 := by exact_mod_cast hl.ne'
  have h2 : ((xs.length + X.length : ℕ) : K) ≠ 0 := by
    exact_mod_cast (show xs.length + X.length ≠ 0 by omega)
  have hc : (X.length : K) * colMean X i = (X.map fun x => x i).sum := by
    unfold colMean; field_simp
  simp only [List.length_append, List.map_append, List.sum_append, ← h, ← hc]
  field_simp
  push_cast
  ring

theorem MeanInv.step {m : Mean K d} {xs : List (Fin d → K)} (h : MeanInv m xs)
    (X : List (Fin d → K)) (hX : X ≠ []) :
    ∃ m', m.updateRows X = .ok m' ∧ MeanInv m' (xs ++ X) := by
  have hl : 0 < X.length := List.length_pos_iff.mpr hX
  unfold Mean.updateRows
  dsimp only
  rw [if_neg (by omega), if_neg (by omega)]
  refine ⟨_, rfl, ?_, ?_, ?_, ?_⟩
  · simp [h.n]
  · exact h.nan
  · intro i
    have := mu_step xs X hX m.mu i (h.mu i)
    simpa [h.n] using this
  · intro he; simp [hX] at he

theorem CovInv.step {c : Covariance K d} {xs : List (Fin d → K)} (h : CovInv c xs)
    (X : List (Fin d → K)) (hX : X ≠ []) :
    ∃ c', c.updateRows X = .ok c' ∧ CovInv c' (xs ++ X) := by
  have hl : 0 < X.length := List.length_pos_iff.mpr hX
  unfold Covariance.updateRows
  dsimp only
  rw [if_neg (by omega), if_neg (by omega)]
  refine ⟨_, rfl, ?_, ?_, ?_, ?_, ?_⟩
  · simp [h.n]
  · exact h.nan
  · intro i
    have := mu_step xs X hX c.mu i (h.mu i)
    simpa [h.n] using this
  · intro he; simp [hX] at he
  · intro i j
    have h1 : (X.length : K) ≠ 0 := by exact_mod_cast hl.ne'
    have h2 : ((xs.length : K) + (X.length : K)) ≠ 0 := by
      exact_mod_cast (show xs.length + X.length ≠ 0 by omega)
    have hc : ∀ i, (X.map fun x => x i).sum = (X.length : K) * colMean X i := by
      intro i; unfold colMean; field_simp
    simp only [List.map_map, Function.comp_def, h.n]
    rw [sum_map_centered, h.S, hc, hc]
    simp only [List.length_append, List.map_append, List.sum_append]
    push_cast
    field_simp
    ring

theorem MeanInv.steps {m : Mean K d} {xs : List (Fin d → K)} (h : MeanInv m xs)
    (Xs : List (List (Fin d → K))) (hX : ∀ X ∈ Xs, X ≠ []) :
    ∃ m', m.updates (Xs.map fun X => .mat ⟨d, X⟩) = .ok m' ∧ MeanInv m' (xs ++ Xs.flatten) := by
  induction Xs generalizing m xs with
  | nil => exact ⟨m, rfl, by simpa using h⟩
  | cons X Xs ih =>
    obtain ⟨m1, h1, i1⟩ := h.step X (hX X (by simp))
    obtain ⟨m2, h2, i2⟩ := ih i1 (fun Y hY => hX Y (by simp [hY]))
    refine ⟨m2, ?_, by simpa using i2⟩
    simp only [Mean.updates, List.map_cons, List.foldlM_cons, Mean.update, ArrayLike.promote,
      dite_true, h1] at h2 ⊢
    exact h2

theorem CovInv.steps {c : Covariance K d} {xs : List (Fin d → K)} (h : CovInv c xs)
    (Xs : List (List (Fin d → K))) (hX : ∀ X ∈ Xs, X ≠ []) :
    ∃ c', c.updates (Xs.map fun X => .mat ⟨d, X⟩) = .ok c' ∧ CovInv c' (xs ++ Xs.flatten) := by
  induction Xs generalizing c xs with
  | nil => exact ⟨c, rfl, by simpa using h⟩
  | cons X Xs ih =>
    obtain ⟨c1, h1, i1⟩ := h.step X (hX X (by simp))
    obtain ⟨c2, h2, i2⟩ := ih i1 (fun Y hY => hX Y (by simp [hY]))
    refine ⟨c2, ?_, by simpa using i2⟩
    simp only [Covariance.updates, List.map_cons, List.foldlM_cons, Covariance.update,
      ArrayLike.promote, dite_true, h1] at h2 ⊢
    exact h2

theorem MeanInv.mean_eq {m : Mean K d} {xs : List (Fin d → K)} (h : MeanInv m xs)
    (hx : xs ≠ []) : m.mu = Spec.sampleMean xs := by
  funext i
  have h1 : (xs.length : K) ≠ 0 := by exact_mod_cast (List.length_pos_iff.mpr hx).ne'
  unfold Spec.sampleMean
  rw [← h.mu i]; field_simp

theorem CovInv.mean_eq {c : Covariance K d} {xs : List (Fin d → K)} (h : CovInv c xs)
    (hx : xs ≠ []) : c.mu = Spec.sampleMean xs := by
  funext i
  have h1 : (xs.length : K) ≠ 0 := by exact_mod_cast (List.length_pos_iff.mpr hx).ne'
  unfold Spec.sampleMean
  rw [← h.mu i]; field_simp

theorem CovInv.S_eq {c : Covariance K d} {xs : List (Fin d → K)} (h : CovInv c xs)
    (i j : Fin d) :
    c.S i j = (xs.map fun x => (x i - Spec.sampleMean xs i) * (x j - Spec.sampleMean xs j)).sum := by
  by_cases hx : xs = []
  · subst hx; rw [h.S]; simp
  · rw [sum_map_centered, h.S, ← h.mean_eq hx, ← h.mu i, ← h.mu j]; ring

theorem CovInv.cov_eq {c : Covariance K d} {xs : List (Fin d → K)} (h : CovInv c xs)
    (ddof : ℤ) (hn : ddof < xs.length) :
    c.covariance ddof = .ok (.val (Spec.sampleCov ddof xs)) := by
  unfold Covariance.covariance
  rw [if_neg (by rw [h.n]; omega), h.nan]
  simp only [Bool.false_eq_true, if_false]
  congr 2
  funext i j
  rw [h.S_eq, h.n]; rfl

end Primate
