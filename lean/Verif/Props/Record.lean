import Verif.Model.Record
import Verif.Props.Estimators

/-! # Property C114: the record of an estimator -/

noncomputable section

namespace Primate

variable {d : ℕ}

/-- The batches as they were when they were passed to `update`. -/
def Spec.observed (len : ℕ → ℕ) (h : RowHeap d) : List (RecEvent d) → List (List (Fin d → ℝ))
  | [] => []
  | .write a X :: l => Spec.observed len (Function.update h a X) l
  | .update a :: l => heapRows len h a :: Spec.observed len h l

/-- No array is overwritten after it was passed to `update`; `seen` are the arrays passed before. -/
def Spec.NeverRewritten (seen : List ℕ) : List (RecEvent d) → Prop
  | [] => True
  | .write a _ :: l => a ∉ seen ∧ Spec.NeverRewritten seen l
  | .update a :: l => Spec.NeverRewritten (a :: seen) l

/-- The memory after a history. -/
def Spec.memory (h : RowHeap d) : List (RecEvent d) → RowHeap d
  | [] => h
  | .write a X :: l => Spec.memory (Function.update h a X) l
  | .update _ :: l => Spec.memory h l

theorem rec_run_cons (len : ℕ → ℕ) (s : RecEst d × RowHeap d) (ev : RecEvent d) (l : List (RecEvent d)) :
    RecEst.run len s (ev :: l) = (RecEst.step len s ev).bind fun s' => RecEst.run len s' l := rfl

theorem mean_updates_cons (e : MeanEst d) (x : ArrayLike ℝ) (l : List (ArrayLike ℝ)) :
    e.updates (x :: l) = (e.update x).bind fun e' => e'.updates l := rfl

theorem rec_run (len : ℕ → ℕ) : ∀ (evs : List (RecEvent d)) (s : RecEst d) (h : RowHeap d),
    (RecEst.run len (s, h) evs).map (fun p => p.1.est) = s.est.updates ((Spec.observed len h evs).map fun X => .mat ⟨d, X⟩) ∧
    ∀ s' h', RecEst.run len (s, h) evs = .ok (s', h') → h' = Spec.memory h evs ∧ s'.views.isSome = s.views.isSome
  | [], s, h => by
    refine ⟨rfl, fun s' h' e => ?_⟩
    cases e
    exact ⟨rfl, rfl⟩
  | .write a X :: l, s, h => by
    rw [rec_run_cons]
    exact rec_run len l s (Function.update h a X)
  | .update a :: l, s, h => by
    rw [rec_run_cons]
    simp only [Spec.observed, List.map_cons, mean_updates_cons, RecEst.step, RecEst.update, Spec.memory]
    cases hu : s.est.update (.mat ⟨d, heapRows len h a⟩) with
    | error e => exact ⟨rfl, fun s' h' e => by cases e⟩
    | ok est =>
      obtain ⟨h1, h2⟩ := rec_run len l ⟨est, s.views.map fun v => v ++ (List.range (len a)).map fun i => (a, i)⟩ h
      refine ⟨h1, fun s' h' e => ?_⟩
      obtain ⟨h3, h4⟩ := h2 s' h' e
      exact ⟨h3, by rw [h4]; simp⟩

/-- C114, what is true: count, estimate and last change depend only on the observations as they were when passed, whatever happens to the arrays afterwards;
the update fails when it does for these observations. -/
theorem C114_numbers (len : ℕ → ℕ) (h : RowHeap d) (covariance record : Bool) (evs : List (RecEvent d)) :
    (RecEst.run len (RecEst.init d covariance record, h) evs).map (fun p => p.1.est) =
      (MeanEst.init d covariance false).updates ((Spec.observed len h evs).map fun X => .mat ⟨d, X⟩) :=
  (rec_run len evs _ h).1

theorem rec_values (len : ℕ → ℕ) : ∀ (evs : List (RecEvent d)) (s : RecEst d) (h : RowHeap d) (seen : List ℕ) (v : List (ℕ × ℕ)) (s' : RecEst d) (h' : RowHeap d),
    Spec.NeverRewritten seen evs → s.views = some v → (∀ p ∈ v, p.1 ∈ seen) → RecEst.run len (s, h) evs = .ok (s', h') →
    s'.values h' = some (v.map (fun p => h p.1 p.2) ++ (Spec.observed len h evs).flatten)
  | [], s, h, seen, v, s', h', _, hv, _, e => by
    cases e
    simp [RecEst.values, hv, Spec.observed]
  | .write a X :: l, s, h, seen, v, s', h', hr, hv, hs, e => by
    rw [rec_run_cons] at e
    rw [rec_values len l s (Function.update h a X) seen v s' h' hr.2 hv hs e]
    congr 2
    refine List.map_congr_left fun p hp => ?_
    have : p.1 ≠ a := fun hpa => hr.1 (hpa ▸ hs p hp)
    rw [Function.update_of_ne this]
  | .update a :: l, s, h, seen, v, s', h', hr, hv, hs, e => by
    rw [rec_run_cons] at e
    simp only [RecEst.step, RecEst.update] at e
    cases hu : s.est.update (.mat ⟨d, heapRows len h a⟩) with
    | error err => rw [hu] at e; cases e
    | ok est =>
      rw [hu] at e
      rw [rec_values len l ⟨est, s.views.map fun v => v ++ (List.range (len a)).map fun i => (a, i)⟩ h (a :: seen)
        (v ++ (List.range (len a)).map fun i => (a, i)) s' h' hr (by simp [hv]) ?_ e]
      · simp [Spec.observed, heapRows, Function.comp_def]
      · intro p hp
        rcases List.mem_append.1 hp with hp | hp
        · exact List.mem_cons_of_mem _ (hs p hp)
        · obtain ⟨i, -, rfl⟩ := List.mem_map.1 hp
          exact List.mem_cons_self

/-- C114: if no array is overwritten after it was passed to `update`, the record holds the observations in order.  Missing: callers that reuse an array, see
`C114_counterexample`. -/
theorem C114_record_partial (len : ℕ → ℕ) (h : RowHeap d) (covariance : Bool) (evs : List (RecEvent d)) (s : RecEst d) (h' : RowHeap d)
    (hr : Spec.NeverRewritten [] evs) (hrun : RecEst.run len (RecEst.init d covariance true, h) evs = .ok (s, h')) :
    s.values h' = some (Spec.observed len h evs).flatten := by
  have := rec_values len evs (RecEst.init d covariance true) h [] [] s h' hr rfl (by simp) hrun
  simpa using this

/-- Without `record` there is no record. -/
theorem C114_no_record (len : ℕ → ℕ) (h : RowHeap d) (covariance : Bool) (evs : List (RecEvent d)) (s : RecEst d) (h' : RowHeap d)
    (hrun : RecEst.run len (RecEst.init d covariance false, h) evs = .ok (s, h')) : s.values h' = none := by
  have := ((rec_run len evs _ h).2 s h' hrun).2
  unfold RecEst.values
  cases hv : s.views with
  | none => rfl
  | some v => rw [hv] at this; cases this

theorem rec_views (len : ℕ → ℕ) : ∀ (evs : List (RecEvent d)) (s : RecEst d) (h : RowHeap d) (v : List (ℕ × ℕ)) (s' : RecEst d) (h' : RowHeap d),
    s.views = some v → RecEst.run len (s, h) evs = .ok (s', h') →
    s'.views = some (v ++ evs.flatMap fun
      | .write _ _ => []
      | .update a => (List.range (len a)).map fun i => (a, i)) ∧ h' = Spec.memory h evs
  | [], s, h, v, s', h', hv, e => by cases e; simp [hv, Spec.memory]
  | .write a X :: l, s, h, v, s', h', hv, e => by
    rw [rec_run_cons] at e
    simpa [Spec.memory] using rec_views len l s (Function.update h a X) v s' h' hv e
  | .update a :: l, s, h, v, s', h', hv, e => by
    rw [rec_run_cons] at e
    simp only [RecEst.step, RecEst.update] at e
    cases hu : s.est.update (.mat ⟨d, heapRows len h a⟩) with
    | error err => rw [hu] at e; cases e
    | ok est =>
      rw [hu] at e
      have := rec_views len l ⟨est, s.views.map fun v => v ++ (List.range (len a)).map fun i => (a, i)⟩ h
        (v ++ (List.range (len a)).map fun i => (a, i)) s' h' (by simp [hv]) e
      simpa [Spec.memory] using this

/-- A caller who fills one buffer with one observation after the other, as a `quad` method that returns its work array does. -/
def Spec.reuse (xs : List (Fin d → ℝ)) : List (RecEvent d) := xs.flatMap fun x => [.write 0 fun _ => x, .update 0]

theorem reuse_observed (h : RowHeap d) (xs : List (Fin d → ℝ)) : Spec.observed (fun _ => 1) h (Spec.reuse xs) = xs.map fun x => [x] := by
  induction xs generalizing h with
  | nil => rfl
  | cons x xs ih =>
    have : Spec.reuse (x :: xs) = .write 0 (fun _ => x) :: .update 0 :: Spec.reuse xs := rfl
    rw [this]
    simp [Spec.observed, ih, heapRows]

theorem reuse_memory (h : RowHeap d) (xs : List (Fin d → ℝ)) (x : Fin d → ℝ) : Spec.memory h (Spec.reuse (xs ++ [x])) 0 = fun _ => x := by
  induction xs generalizing h with
  | nil => simp [Spec.reuse, Spec.memory]
  | cons y xs ih =>
    have : Spec.reuse (y :: xs ++ [x]) = .write 0 (fun _ => y) :: .update 0 :: Spec.reuse (xs ++ [x]) := rfl
    rw [this]
    exact ih _

/-- C114 is false of the code: with a reused buffer every history of observations succeeds with the right count and mean, but the record consists of copies of the
last observation. -/
theorem C114_reused_buffer (h : RowHeap d) (covariance : Bool) (xs : List (Fin d → ℝ)) (x : Fin d → ℝ) :
    ∃ s h', RecEst.run (fun _ => 1) (RecEst.init d covariance true, h) (Spec.reuse (xs ++ [x])) = .ok (s, h') ∧
      s.est.estimate = .val (Spec.sampleMean (xs ++ [x])) ∧ s.est.nSamples = xs.length + 1 ∧
      s.values h' = some (List.replicate (xs.length + 1) x) := by
  have hn := C114_numbers (fun _ => 1) h covariance true (Spec.reuse (xs ++ [x]))
  rw [reuse_observed, List.map_append, List.map_singleton] at hn
  obtain ⟨e, h1, h2, h3, -⟩ := C07_bookkeeping (d := d) covariance false (xs.map fun x => [x]) [x] (by simp) (by simp)
  rw [h1] at hn
  rcases hrun : RecEst.run (fun _ => 1) (RecEst.init d covariance true, h) (Spec.reuse (xs ++ [x])) with err | ⟨s, h'⟩
  · rw [hrun] at hn; cases hn
  · rw [hrun] at hn
    obtain rfl : s.est = e := by simpa [Except.map] using hn
    have hf : ((xs.map fun x => [x]) ++ [[x]]).flatten = xs ++ [x] := by
      simp [List.flatten_eq_flatMap, List.flatMap_map]
    rw [hf] at h2 h3
    obtain ⟨h4, h5⟩ := rec_views (fun _ => 1) _ _ h [] s h' rfl hrun
    refine ⟨s, h', rfl, h3, by simpa [MeanEst.view] using h2, ?_⟩
    have h6 : ∀ ys : List (Fin d → ℝ), ((Spec.reuse ys).flatMap fun
      | .write _ _ => []
      | .update a => (List.range 1).map fun i => (a, i)) = List.replicate ys.length ((0 : ℕ), (0 : ℕ)) := by
      intro ys
      induction ys with
      | nil => rfl
      | cons y ys ih =>
        have : Spec.reuse (y :: ys) = .write 0 (fun _ => y) :: .update 0 :: Spec.reuse ys := rfl
        rw [this]
        simp only [List.flatMap_cons, ih]
        rfl
    unfold RecEst.values
    rw [h4]
    simp only [List.nil_append, h6, Option.map_some, List.map_replicate, h5, reuse_memory, List.length_append, List.length_singleton]

/-- C114 is false of the code: after the observations 1 and 2 in the same buffer the record is [2, 2]. -/
theorem C114_counterexample : ∃ (evs : List (RecEvent 1)) (s : RecEst 1) (h' : RowHeap 1),
    RecEst.run (fun _ => 1) (RecEst.init 1 true true, fun _ _ _ => 0) evs = .ok (s, h') ∧
    Spec.observed (fun _ => 1) (fun _ _ _ => 0) evs = [[![1]], [![2]]] ∧ s.values h' = some [![2], ![2]] := by
  obtain ⟨s, h', h1, -, -, h2⟩ := C114_reused_buffer (d := 1) (fun _ _ _ => 0) true [![1]] ![2]
  exact ⟨_, s, h', h1, reuse_observed _ [![1], ![2]], h2⟩

/-- `C114_record_partial` at work: two different arrays. -/
example : ∃ (s : RecEst 1) (h' : RowHeap 1),
    RecEst.run (fun _ => 1) (RecEst.init 1 true true, fun _ _ _ => 0) [.write 0 fun _ => ![1], .update 0, .write 1 fun _ => ![2], .update 1] = .ok (s, h') ∧
    s.values h' = some [![1], ![2]] := by
  have hn := C114_numbers (fun _ => 1) (fun _ _ _ => (0 : ℝ)) true true [.write 0 fun _ => (![1] : Fin 1 → ℝ), .update 0, .write 1 fun _ => ![2], .update 1]
  have ho : Spec.observed (fun _ => 1) (fun _ _ _ => (0 : ℝ)) [.write 0 fun _ => (![1] : Fin 1 → ℝ), .update 0, .write 1 fun _ => ![2], .update 1] = [[![1]], [![2]]] := by
    simp [Spec.observed, heapRows]
  rw [ho] at hn
  obtain ⟨e, h1, -⟩ := C07_bookkeeping (d := 1) true false [[![1]]] [![2]] (by simp) (by simp)
  have h1' : (MeanEst.init 1 true false).updates ([[![1]], [![2]]].map fun X => .mat ⟨1, X⟩) = .ok e := h1
  rw [h1'] at hn
  rcases hrun : RecEst.run (fun _ => 1) (RecEst.init 1 true true, fun _ _ _ => (0 : ℝ)) [.write 0 fun _ => (![1] : Fin 1 → ℝ), .update 0, .write 1 fun _ => ![2], .update 1]
    with err | ⟨s, h'⟩
  · rw [hrun] at hn; cases hn
  · refine ⟨s, h', rfl, ?_⟩
    rw [C114_record_partial (fun _ => 1) _ true _ s h' (by simp [Spec.NeverRewritten]) hrun, ho]
    rfl

end Primate
