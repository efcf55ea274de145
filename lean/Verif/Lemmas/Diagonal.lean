import Verif.Prelude
import Verif.Model.Diagonal
import Verif.Spec.Diagonal
import Verif.Lemmas.Hutch

namespace Primate

variable {N : ℕ}

/-- The estimator after `k` passes. -/
noncomputable def destAt (A : Operand N) (pdf : Pdf N) (record : Bool) : ℕ → MeanEst N
  | 0 => MeanEst.init N false record
  | k + 1 =>
    match (destAt A pdf record k).update
      (.mat ⟨N, [Spec.bks A.apply (Spec.draw1 pdf) (k + 1)]⟩) with
    | .ok e => e
    | .error _ => destAt A pdf record k

theorem destAt_inv (A : Operand N) (pdf : Pdf N) (record : Bool) (k : ℕ) :
    MeanEstInv false record (destAt A pdf record k)
      ((List.range k).map fun t => Spec.bks A.apply (Spec.draw1 pdf) (t + 1)) ∧
    (destAt A pdf record k).update (.mat ⟨N, [Spec.bks A.apply (Spec.draw1 pdf) (k + 1)]⟩) =
      .ok (destAt A pdf record (k + 1)) ∧
    (destAt A pdf record (k + 1)).delta = .val fun i =>
      (destAt A pdf record (k + 1)).acc.mu i - (destAt A pdf record k).acc.mu i := by
  have key : ∀ k, MeanEstInv false record (destAt A pdf record k)
      ((List.range k).map fun t => Spec.bks A.apply (Spec.draw1 pdf) (t + 1)) := by
    intro k
    induction k with
    | zero => exact MeanEstInv.init false record
    | succ k ih =>
      obtain ⟨e', he, hi, -⟩ := ih.step [Spec.bks A.apply (Spec.draw1 pdf) (k + 1)] (by simp)
      have : destAt A pdf record (k + 1) = e' := by simp only [destAt, he]
      rw [this, List.range_succ, List.map_append]
      exact hi
  refine ⟨key k, ?_⟩
  obtain ⟨e', he, -, hd⟩ := (key k).step [Spec.bks A.apply (Spec.draw1 pdf) (k + 1)] (by simp)
  have : destAt A pdf record (k + 1) = e' := by simp only [destAt, he]
  rw [this]
  exact ⟨he, hd⟩

noncomputable def dstateAt (A : Operand N) (pdf : Pdf N) (record : Bool) (k : ℕ) : DiagState N :=
  ⟨List.replicate k 1,
    fun i => ∑ t ∈ Finset.range k, A.apply (Spec.draw1 pdf t) i * Spec.draw1 pdf t i,
    fun i => ∑ t ∈ Finset.range k, Spec.draw1 pdf t i ^ 2,
    destAt A pdf record k, (List.range k).map fun t => destAt A pdf record (t + 1)⟩

theorem diagBody_dstateAt (A : Operand N) (pdf : Pdf N) (record : Bool) (k : ℕ) :
    diagBody A pdf (dstateAt A pdf record k) = .ok (dstateAt A pdf record (k + 1)) := by
  have h := (destAt_inv A pdf record k).2.1
  unfold diagBody dstateAt
  dsimp only
  have e : (fun i => ((∑ t ∈ Finset.range k, A.apply (Spec.draw1 pdf t) i * Spec.draw1 pdf t i) +
      A.apply (pdf (List.replicate k 1) 1 0) i * pdf (List.replicate k 1) 1 0 i) /
      ((∑ t ∈ Finset.range k, Spec.draw1 pdf t i ^ 2) + pdf (List.replicate k 1) 1 0 i ^ 2)) =
      Spec.bks A.apply (Spec.draw1 pdf) (k + 1) := by
    funext i
    simp only [Spec.bks, Finset.sum_range_succ]
    rfl
  rw [e, h]
  simp only [Finset.sum_range_succ, List.range_succ, List.map_append, List.map_cons, List.map_nil,
    List.replicate_succ']
  rfl

theorem diagLoop_ok (A : Operand N) (pdf : Pdf N) (record : Bool)
    (crit : Crit) (fuel i : ℕ) (s' : DiagState N) :
    diagLoop A pdf crit fuel (dstateAt A pdf record i) = some (.ok s') ↔
      ∃ k, i ≤ k ∧ k < i + fuel ∧ s' = dstateAt A pdf record k ∧
        crit.eval (destAt A pdf record k).view = .ok true ∧
        ∀ j, i ≤ j → j < k → crit.eval (destAt A pdf record j).view = .ok false := by
  induction fuel generalizing i with
  | zero =>
    simp only [diagLoop, reduceCtorEq, false_iff, not_exists, not_and]
    intro k h1 h2; omega
  | succ fuel ih =>
    have hst : (dstateAt A pdf record i).est = destAt A pdf record i := rfl
    unfold diagLoop
    rw [hst]
    rcases hc : crit.eval (destAt A pdf record i).view with e | ⟨_ | _⟩
    · simp only [Option.some.injEq, reduceCtorEq, false_iff, not_exists, not_and]
      intro k h1 h2 h3 h4 h5
      rcases Nat.eq_or_lt_of_le h1 with rfl | h
      · rw [hc] at h4; cases h4
      · have := h5 i le_rfl h; rw [hc] at this; cases this
    · simp only [diagBody_dstateAt, ih]
      constructor
      · rintro ⟨k, h1, h2, h3, h4, h5⟩
        refine ⟨k, by omega, by omega, h3, h4, fun j hj hk => ?_⟩
        rcases Nat.eq_or_lt_of_le hj with rfl | h
        · exact hc
        · exact h5 j h hk
      · rintro ⟨k, h1, h2, h3, h4, h5⟩
        refine ⟨k, ?_, by omega, h3, h4, fun j hj hk => h5 j (by omega) hk⟩
        rcases Nat.eq_or_lt_of_le h1 with rfl | h
        · rw [hc] at h4; cases h4
        · exact h
    · simp only [Option.some.injEq, Except.ok.injEq]
      constructor
      · rintro rfl
        exact ⟨i, le_rfl, by omega, rfl, hc, fun j h1 h2 => by omega⟩
      · rintro ⟨k, h1, h2, h3, h4, h5⟩
        rcases Nat.eq_or_lt_of_le h1 with rfl | h
        · exact h3.symm
        · have := h5 i le_rfl h; rw [hc] at this; cases this

theorem diagLoop_error (A : Operand N) (pdf : Pdf N) (record : Bool)
    (crit : Crit) (fuel i : ℕ) (err : PyErr) :
    diagLoop A pdf crit fuel (dstateAt A pdf record i) = some (.error err) ↔
      ∃ k, i ≤ k ∧ k < i + fuel ∧
        crit.eval (destAt A pdf record k).view = .error err ∧
        ∀ j, i ≤ j → j < k → crit.eval (destAt A pdf record j).view = .ok false := by
  induction fuel generalizing i with
  | zero =>
    simp only [diagLoop, reduceCtorEq, false_iff, not_exists, not_and]
    intro k h1 h2; omega
  | succ fuel ih =>
    have hst : (dstateAt A pdf record i).est = destAt A pdf record i := rfl
    unfold diagLoop
    rw [hst]
    rcases hc : crit.eval (destAt A pdf record i).view with e | ⟨_ | _⟩
    · simp only [Option.some.injEq, Except.error.injEq]
      constructor
      · rintro rfl
        exact ⟨i, le_rfl, by omega, hc, fun j h1 h2 => by omega⟩
      · rintro ⟨k, h1, h2, h4, h5⟩
        rcases Nat.eq_or_lt_of_le h1 with rfl | h
        · rw [hc] at h4; exact Except.error.inj h4
        · have := h5 i le_rfl h; rw [hc] at this; cases this
    · simp only [diagBody_dstateAt, ih]
      constructor
      · rintro ⟨k, h1, h2, h4, h5⟩
        refine ⟨k, by omega, by omega, h4, fun j hj hk => ?_⟩
        rcases Nat.eq_or_lt_of_le hj with rfl | h
        · exact hc
        · exact h5 j h hk
      · rintro ⟨k, h1, h2, h4, h5⟩
        refine ⟨k, ?_, by omega, h4, fun j hj hk => h5 j (by omega) hk⟩
        rcases Nat.eq_or_lt_of_le h1 with rfl | h
        · rw [hc] at h4; cases h4
        · exact h
    · simp only [Option.some.injEq, reduceCtorEq, false_iff, not_exists, not_and]
      intro k h1 h2 h4 h5
      rcases Nat.eq_or_lt_of_le h1 with rfl | h
      · rw [hc] at h4; cases h4
      · have := h5 i le_rfl h; rw [hc] at this; cases this

theorem list_sum_range (k : ℕ) (f : ℕ → ℝ) : ((List.range k).map f).sum = ∑ t ∈ Finset.range k, f t := by
  induction k with
  | zero => simp
  | succ k ih => rw [List.range_succ, List.map_append, List.sum_append, ih, Finset.sum_range_succ]; simp

/-- The estimate after `k` passes is the mean of the running ratios. -/
theorem destAt_estimate (A : Operand N) (pdf : Pdf N) (record : Bool) (k : ℕ) :
    (destAt A pdf record k).estimate = if k = 0 then .nan else .val fun i =>
      (∑ t ∈ Finset.range k, Spec.bks A.apply (Spec.draw1 pdf) (t + 1) i) / k := by
  have h := (destAt_inv A pdf record k).1
  split_ifs with hk
  · subst hk; exact h.estimate_nil
  · rw [h.estimate_eq (by simpa using hk)]
    congr 1
    funext i
    simp only [Spec.sampleMean, List.map_map, Function.comp_def, List.length_map, List.length_range,
      list_sum_range]

theorem destAt_n (A : Operand N) (pdf : Pdf N) (record : Bool) (k : ℕ) :
    (destAt A pdf record k).nSamples = k := by
  rw [(destAt_inv A pdf record k).1.n]; simp

theorem destAt_mu (A : Operand N) (pdf : Pdf N) (record : Bool) (k : ℕ) (i : Fin N) :
    (destAt A pdf record k).acc.mu i =
      (∑ t ∈ Finset.range k, Spec.bks A.apply (Spec.draw1 pdf) (t + 1) i) / k := by
  have h := (destAt_inv A pdf record k).1
  rcases Nat.eq_zero_or_pos k with rfl | hk
  · rw [AccInv.mu0 h.acc]; simp
  · rw [h.acc.mu_eq (by simp; omega)]
    simp only [Spec.sampleMean, List.map_map, Function.comp_def, List.length_map, List.length_range,
      list_sum_range]

end Primate
