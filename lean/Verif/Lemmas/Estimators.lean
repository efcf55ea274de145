import Verif.Prelude
import Verif.Model.Estimators
import Verif.Lemmas.Stats

namespace Primate

variable {d : ℕ}

/-- The accumulator has seen exactly `xs`. -/
def AccInv (a : Acc d) (xs : List (Fin d → ℝ)) : Prop :=
  match a with
  | .cov c => CovInv c xs
  | .mean m => MeanInv m xs

def Acc.isCov : Acc d → Bool
  | .cov _ => true
  | .mean _ => false

theorem AccInv.nan {a : Acc d} {xs : List (Fin d → ℝ)} (h : AccInv a xs) : a.nan = false := by
  cases a with
  | cov c => exact CovInv.nan h
  | mean m => exact MeanInv.nan h

theorem AccInv.mu_eq {a : Acc d} {xs : List (Fin d → ℝ)} (h : AccInv a xs) (hx : xs ≠ []) :
    a.mu = Spec.sampleMean xs := by
  cases a with
  | cov c => exact CovInv.mean_eq h hx
  | mean m => exact MeanInv.mean_eq h hx

theorem AccInv.mu0 {a : Acc d} (h : AccInv a []) : a.mu = 0 := by
  funext i
  cases a with
  | cov c => exact CovInv.mu0 h rfl i
  | mean m => exact MeanInv.mu0 h rfl i

theorem AccInv.step {a : Acc d} {xs : List (Fin d → ℝ)} (h : AccInv a xs)
    (X : List (Fin d → ℝ)) (hX : X ≠ []) :
    ∃ a', a.update (.mat ⟨d, X⟩) = .ok a' ∧ AccInv a' (xs ++ X) ∧ a'.isCov = a.isCov := by
  cases a with
  | cov c =>
    obtain ⟨c', e, i⟩ := CovInv.step h X hX
    refine ⟨.cov c', ?_, i, rfl⟩
    simp [Acc.update, Covariance.update, ArrayLike.promote, e, Except.map]
  | mean m =>
    obtain ⟨m', e, i⟩ := MeanInv.step h X hX
    refine ⟨.mean m', ?_, i, rfl⟩
    simp [Acc.update, Mean.update, ArrayLike.promote, e, Except.map]

/-- `e` is a `MeanEstimator(dim=d, covariance, record)` that has seen `xs`. -/
structure MeanEstInv (covariance record : Bool) (e : MeanEst d) (xs : List (Fin d → ℝ)) :
    Prop where
  acc : AccInv e.acc xs
  isCov : e.acc.isCov = covariance
  n : e.nSamples = xs.length
  values : e.values = if record then some xs else none

theorem MeanEstInv.init (covariance record : Bool) :
    MeanEstInv covariance record (MeanEst.init d covariance record) [] := by
  refine ⟨?_, ?_, rfl, ?_⟩
  · cases covariance
    · exact MeanInv.init
    · exact CovInv.init
  · cases covariance <;> rfl
  · cases record <;> rfl

theorem MeanEstInv.step {covariance record : Bool} {e : MeanEst d} {xs : List (Fin d → ℝ)}
    (h : MeanEstInv covariance record e xs) (X : List (Fin d → ℝ)) (hX : X ≠ []) :
    ∃ e', e.update (.mat ⟨d, X⟩) = .ok e' ∧ MeanEstInv covariance record e' (xs ++ X) ∧
      e'.delta = .val fun i => e'.acc.mu i - e.acc.mu i := by
  obtain ⟨a, ha, ia, ic⟩ := h.acc.step X hX
  unfold MeanEst.update
  simp only [ArrayLike.promote, ha, ia.nan, h.acc.nan]
  refine ⟨_, rfl, ⟨ia, ?_, ?_, ?_⟩, rfl⟩
  · simp [ic, h.isCov]
  · simp [h.n]
  · cases record <;> simp [h.values]

theorem MeanEstInv.steps {covariance record : Bool} {e : MeanEst d} {xs : List (Fin d → ℝ)}
    (h : MeanEstInv covariance record e xs) (Xs : List (List (Fin d → ℝ)))
    (hX : ∀ X ∈ Xs, X ≠ []) :
    ∃ e', e.updates (Xs.map fun X => .mat ⟨d, X⟩) = .ok e' ∧
      MeanEstInv covariance record e' (xs ++ Xs.flatten) := by
  induction Xs generalizing e xs with
  | nil => exact ⟨e, rfl, by simpa using h⟩
  | cons X Xs ih =>
    obtain ⟨e1, h1, i1, -⟩ := h.step X (hX X (by simp))
    obtain ⟨e2, h2, i2⟩ := ih i1 (fun Y hY => hX Y (by simp [hY]))
    refine ⟨e2, ?_, by simpa using i2⟩
    simp only [MeanEst.updates, List.map_cons, List.foldlM_cons, h1] at h2 ⊢
    exact h2

theorem MeanEstInv.estimate_eq {covariance record : Bool} {e : MeanEst d}
    {xs : List (Fin d → ℝ)} (h : MeanEstInv covariance record e xs) (hx : xs ≠ []) :
    e.estimate = .val (Spec.sampleMean xs) := by
  have hl : xs.length ≠ 0 := (List.length_pos_iff.mpr hx).ne'
  have ha := h.acc
  unfold MeanEst.estimate
  revert ha
  cases e.acc with
  | cov c =>
    intro ha
    have ha : CovInv c xs := ha
    simp [Covariance.mean, ha.n, hx, ha.nan, ha.mean_eq hx]
  | mean m =>
    intro ha
    have ha : MeanInv m xs := ha
    simp [Mean.mean, ha.n, hx, ha.nan, ha.mean_eq hx]

theorem MeanEstInv.estimate_nil {covariance record : Bool} {e : MeanEst d}
    (h : MeanEstInv covariance record e []) : e.estimate = .nan := by
  have ha := h.acc
  unfold MeanEst.estimate
  revert ha
  cases e.acc with
  | cov c =>
    intro ha
    have ha : CovInv c [] := ha
    simp [Covariance.mean, ha.n]
  | mean m =>
    intro ha
    have ha : MeanInv m [] := ha
    simp [Mean.mean, ha.n]

/-- All facts about a history ending in a non-empty batch. -/
theorem MeanEst.history (covariance record : Bool) (Xs : List (List (Fin d → ℝ)))
    (X : List (Fin d → ℝ)) (hne : ∀ Y ∈ Xs, Y ≠ []) (hX : X ≠ []) :
    ∃ e, (MeanEst.init d covariance record).updates
        ((Xs ++ [X]).map fun X => .mat ⟨d, X⟩) = .ok e ∧
      MeanEstInv covariance record e ((Xs ++ [X]).flatten) ∧
      e.delta = .val fun i => Spec.sampleMean (Xs ++ [X]).flatten i -
        (if Xs.flatten = [] then 0 else Spec.sampleMean Xs.flatten i) := by
  obtain ⟨e, h, i⟩ := (MeanEstInv.init (d := d) covariance record).steps Xs hne
  simp only [List.nil_append] at i
  obtain ⟨e', h', i', hd⟩ := i.step X hX
  have hfl : (Xs ++ [X]).flatten = Xs.flatten ++ X := by simp
  refine ⟨e', ?_, by rw [hfl]; exact i', ?_⟩
  · simp only [MeanEst.updates, List.map_append, List.foldlM_append] at h ⊢
    rw [h]
    simp [bind, Except.bind, h', pure, Except.pure]
  · rw [hd, hfl, i'.acc.mu_eq (by simp [hX])]
    congr 1
    funext k
    by_cases hz : Xs.flatten = []
    · rw [if_pos hz]
      rw [hz] at i
      rw [i.acc.mu0]; rfl
    · rw [if_neg hz, i.acc.mu_eq hz]

theorem MeanEstInv.cov_view {record : Bool} {e : MeanEst d} {xs : List (Fin d → ℝ)}
    (h : MeanEstInv true record e xs) : ∃ c, e.view.cov = some c ∧ CovInv c xs := by
  have h1 := h.acc
  have h2 := h.isCov
  unfold MeanEst.view
  revert h1 h2
  cases e.acc with
  | cov c => intro h1 _; exact ⟨c, rfl, h1⟩
  | mean m => intro _ h2; simp [Acc.isCov] at h2

theorem MeanEstInv.nocov_view {record : Bool} {e : MeanEst d} {xs : List (Fin d → ℝ)}
    (h : MeanEstInv false record e xs) : e.view.cov = none := by
  have h2 := h.isCov
  unfold MeanEst.view
  revert h2
  cases e.acc with
  | cov c => intro h2; simp [Acc.isCov] at h2
  | mean m => intro _; rfl

end Primate
