import Verif.Prelude
import Verif.Lemmas.Estimators
import Verif.Spec.Hutch

namespace Primate

variable {N : ℕ}

theorem update_vec {d : ℕ} (e : MeanEst d) (xs : List ℝ) :
    e.update (.vec xs) = e.update (.mat ⟨1, xs.map fun x _ => x⟩) := rfl

/-- The estimator after `i` passes of the loop. -/
noncomputable def estAt (A : Operand N) (pdf : Pdf N) (b : ℕ) (record : Bool) : ℕ → MeanEst 1
  | 0 => MeanEst.init 1 true record
  | i + 1 =>
    match (estAt A pdf b record i).update
      (.vec (List.ofFn fun j => A.quadForm (pdf (List.replicate i b) b j))) with
    | .ok e => e
    | .error _ => estAt A pdf b record i

noncomputable def stateAt (A : Operand N) (pdf : Pdf N) (b : ℕ) (record : Bool) (i : ℕ) :
    HutchState :=
  ⟨List.replicate i b, estAt A pdf b record i,
    (List.range i).map fun t => estAt A pdf b record (t + 1)⟩

/-- The rows fed to the estimator by `k` passes. -/
noncomputable def rowsAt (A : Operand N) (pdf : Pdf N) (b k : ℕ) : List (List (Fin 1 → ℝ)) :=
  (Spec.observations A.quadForm pdf b k).map fun l => l.map fun x _ => x

theorem rowsAt_succ (A : Operand N) (pdf : Pdf N) (b k : ℕ) :
    rowsAt A pdf b (k + 1) = rowsAt A pdf b k ++
      [(List.ofFn fun j => A.quadForm (pdf (List.replicate k b) b j)).map fun x _ => x] := by
  simp [rowsAt, Spec.observations, List.range_succ]

theorem rowsAt_ne (A : Operand N) (pdf : Pdf N) {b : ℕ} (hb : 0 < b) (k : ℕ) :
    ∀ X ∈ rowsAt A pdf b k, X ≠ [] := by
  intro X hX
  simp only [rowsAt, Spec.observations, List.mem_map] at hX
  obtain ⟨l, ⟨i, -, rfl⟩, rfl⟩ := hX
  simp only [ne_eq, List.map_eq_nil_iff, List.ofFn_eq_nil_iff]
  omega

theorem rowsAt_flatten (A : Operand N) (pdf : Pdf N) (b k : ℕ) :
    (rowsAt A pdf b k).flatten =
      ((Spec.drawn pdf b k).map A.quadForm).map fun x _ => x := by
  induction k with
  | zero => rfl
  | succ k ih =>
    rw [rowsAt_succ, List.flatten_append, ih]
    simp [Spec.drawn, List.range_succ, List.map_ofFn, Function.comp_def]

theorem drawn_length (pdf : Pdf N) (b k : ℕ) : (Spec.drawn pdf b k).length = k * b := by
  induction k with
  | zero => simp [Spec.drawn]
  | succ k ih =>
    have : Spec.drawn pdf b (k + 1) = Spec.drawn pdf b k ++ List.ofFn (pdf (List.replicate k b) b) := by
      simp [Spec.drawn, List.range_succ]
    rw [this, List.length_append, ih, List.length_ofFn]; ring

theorem updates_append {d : ℕ} (e : MeanEst d) (xs : List (ArrayLike ℝ)) (x : ArrayLike ℝ)
    {e' : MeanEst d} (h : e.updates xs = .ok e') : e.updates (xs ++ [x]) = e'.update x := by
  simp only [MeanEst.updates, List.foldlM_append] at h ⊢
  rw [h]
  simp only [bind, Except.bind, List.foldlM_cons, List.foldlM_nil, pure, Except.pure]
  cases e'.update x <;> rfl

theorem estAt_inv (A : Operand N) (pdf : Pdf N) {b : ℕ} (hb : 0 < b) (record : Bool) (i : ℕ) :
    MeanEstInv true record (estAt A pdf b record i) (rowsAt A pdf b i).flatten ∧
    (MeanEst.init 1 true record).updates
      ((rowsAt A pdf b i).map fun X => .mat ⟨1, X⟩) = .ok (estAt A pdf b record i) := by
  induction i with
  | zero => exact ⟨MeanEstInv.init true record, rfl⟩
  | succ i ih =>
    obtain ⟨h, hu⟩ := ih
    obtain ⟨e', he, hi, -⟩ := h.step ((List.ofFn fun j => A.quadForm
      (pdf (List.replicate i b) b j)).map fun x _ => x) (by
        simp only [ne_eq, List.map_eq_nil_iff, List.ofFn_eq_nil_iff]; omega)
    have hs : estAt A pdf b record (i + 1) = e' := by
      simp only [estAt, update_vec, he]
    rw [hs, rowsAt_succ]
    refine ⟨by simpa using hi, ?_⟩
    rw [List.map_append, List.map_cons, List.map_nil, updates_append _ _ _ hu, he]

theorem hutchBody_stateAt (A : Operand N) (pdf : Pdf N) {b : ℕ} (hb : 0 < b) (record : Bool)
    (i : ℕ) : hutchBody A pdf b (stateAt A pdf b record i) = .ok (stateAt A pdf b record (i + 1)) := by
  have h := (estAt_inv A pdf hb record i).1
  obtain ⟨e', he, -, -⟩ := h.step ((List.ofFn fun j => A.quadForm
    (pdf (List.replicate i b) b j)).map fun x _ => x) (by
      simp only [ne_eq, List.map_eq_nil_iff, List.ofFn_eq_nil_iff]; omega)
  have hs : estAt A pdf b record (i + 1) = e' := by
    simp only [estAt, update_vec, he]
  simp only [hutchBody, stateAt, update_vec, he, hs, List.range_succ, List.map_append, List.map_cons,
    List.map_nil, List.replicate_succ' ]

theorem hutchLoop_ok (A : Operand N) (pdf : Pdf N) {b : ℕ} (hb : 0 < b) (record : Bool)
    (crit : Crit) (fuel i : ℕ) (s' : HutchState) :
    hutchLoop A pdf b crit fuel (stateAt A pdf b record i) = some (.ok s') ↔
      ∃ k, i ≤ k ∧ k < i + fuel ∧ s' = stateAt A pdf b record k ∧
        crit.eval (estAt A pdf b record k).view = .ok true ∧
        ∀ j, i ≤ j → j < k → crit.eval (estAt A pdf b record j).view = .ok false := by
  induction fuel generalizing i with
  | zero =>
    simp only [hutchLoop, reduceCtorEq, false_iff, not_exists, not_and]
    intro k h1 h2; omega
  | succ fuel ih =>
    have hst : (stateAt A pdf b record i).est = estAt A pdf b record i := rfl
    unfold hutchLoop
    rw [hst]
    rcases hc : crit.eval (estAt A pdf b record i).view with e | ⟨_ | _⟩
    · simp only [Option.some.injEq, reduceCtorEq, false_iff, not_exists, not_and]
      intro k h1 h2 h3 h4 h5
      rcases Nat.eq_or_lt_of_le h1 with rfl | h
      · rw [hc] at h4; cases h4
      · have := h5 i le_rfl h; rw [hc] at this; cases this
    · simp only [hutchBody_stateAt A pdf hb, ih]
      constructor
      · rintro ⟨k, h1, h2, h3, h4, h5⟩
        refine ⟨k, by omega, by omega, h3, h4, fun j hj hk => ?_⟩
        rcases Nat.eq_or_lt_of_le hj with rfl | h
        · exact hc
        · exact h5 j h hk
      · rintro ⟨k, h1, h2, h3, h4, h5⟩
        refine ⟨k, ?_, by omega, h3, h4, fun j hj hk => h5 j (by omega) hk⟩
        rcases Nat.eq_or_lt_of_le h1 with rfl | h
        · rw [hc] at h4; cases h4
        · exact h
    · simp only [Option.some.injEq, Except.ok.injEq]
      constructor
      · rintro rfl
        exact ⟨i, le_rfl, by omega, rfl, hc, fun j h1 h2 => by omega⟩
      · rintro ⟨k, h1, h2, h3, h4, h5⟩
        rcases Nat.eq_or_lt_of_le h1 with rfl | h
        · exact h3.symm
        · have := h5 i le_rfl h; rw [hc] at this; cases this

theorem hutchLoop_error (A : Operand N) (pdf : Pdf N) {b : ℕ} (hb : 0 < b) (record : Bool)
    (crit : Crit) (fuel i : ℕ) (err : PyErr) :
    hutchLoop A pdf b crit fuel (stateAt A pdf b record i) = some (.error err) ↔
      ∃ k, i ≤ k ∧ k < i + fuel ∧
        crit.eval (estAt A pdf b record k).view = .error err ∧
        ∀ j, i ≤ j → j < k → crit.eval (estAt A pdf b record j).view = .ok false := by
  induction fuel generalizing i with
  | zero =>
    simp only [hutchLoop, reduceCtorEq, false_iff, not_exists, not_and]
    intro k h1 h2; omega
  | succ fuel ih =>
    have hst : (stateAt A pdf b record i).est = estAt A pdf b record i := rfl
    unfold hutchLoop
    rw [hst]
    rcases hc : crit.eval (estAt A pdf b record i).view with e | ⟨_ | _⟩
    · simp only [Option.some.injEq, Except.error.injEq]
      constructor
      · rintro rfl
        exact ⟨i, le_rfl, by omega, hc, fun j h1 h2 => by omega⟩
      · rintro ⟨k, h1, h2, h4, h5⟩
        rcases Nat.eq_or_lt_of_le h1 with rfl | h
        · rw [hc] at h4; exact Except.error.inj h4
        · have := h5 i le_rfl h; rw [hc] at this; cases this
    · simp only [hutchBody_stateAt A pdf hb, ih]
      constructor
      · rintro ⟨k, h1, h2, h4, h5⟩
        refine ⟨k, by omega, by omega, h4, fun j hj hk => ?_⟩
        rcases Nat.eq_or_lt_of_le hj with rfl | h
        · exact hc
        · exact h5 j h hk
      · rintro ⟨k, h1, h2, h4, h5⟩
        refine ⟨k, ?_, by omega, h4, fun j hj hk => h5 j (by omega) hk⟩
        rcases Nat.eq_or_lt_of_le h1 with rfl | h
        · rw [hc] at h4; cases h4
        · exact h
    · simp only [Option.some.injEq, reduceCtorEq, false_iff, not_exists, not_and]
      intro k h1 h2 h4 h5
      rcases Nat.eq_or_lt_of_le h1 with rfl | h
      · rw [hc] at h4; cases h4
      · have := h5 i le_rfl h; rw [hc] at this; cases this

theorem estAt_estimate (A : Operand N) (pdf : Pdf N) {b : ℕ} (hb : 0 < b) (record : Bool) (k : ℕ) :
    (estAt A pdf b record k).estimate =
      if k = 0 then .nan else .val fun _ => Spec.mean ((Spec.drawn pdf b k).map A.quadForm) := by
  have h := (estAt_inv A pdf hb record k).1
  rw [rowsAt_flatten] at h
  split_ifs with hk
  · subst hk; exact h.estimate_nil
  · have hl := drawn_length pdf b k
    rw [h.estimate_eq (by
      intro h0
      have := congrArg List.length h0
      simp only [List.length_map, hl, List.length_nil] at this
      simp at this; omega)]
    congr 1
    funext i
    simp [Spec.sampleMean, Spec.mean, Function.comp_def]

theorem estAt_n (A : Operand N) (pdf : Pdf N) {b : ℕ} (hb : 0 < b) (record : Bool) (k : ℕ) :
    (estAt A pdf b record k).nSamples = k * b := by
  have h := (estAt_inv A pdf hb record k).1
  rw [rowsAt_flatten] at h
  rw [h.n]; simp [drawn_length]

end Primate
