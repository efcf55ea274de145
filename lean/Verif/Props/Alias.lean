import Verif.Model.Alias
import Verif.Lemmas.Stats

/-!
# C90: an estimate that was read does not change afterwards
-/

noncomputable section

namespace Primate

variable {d : ℕ}

/-- The memory model and the value model agree: same exceptions, and the object at the address of `mu` holds the mean. -/
structure MeanObj.Refines (o : MeanObj) (h : MeanHeap d) (m : Mean ℝ d) : Prop where
  n : o.n = m.n
  mu : h o.addr = if m.nan then .nan else .val m.mu

theorem MeanObj.Refines.mean {o : MeanObj} {h : MeanHeap d} {m : Mean ℝ d} (r : o.Refines h m) : (o.mean h).value h = m.mean := by
  unfold MeanObj.mean Mean.mean
  rw [r.n]
  split_ifs with h1 h2 h3 h3
  · rfl
  · show h o.addr = _
    rw [r.mu, if_pos h3]
  · show h o.addr = _
    rw [r.mu, if_neg h3]
  · show h o.addr = _
    rw [r.mu, if_pos h3]
  · show h o.addr = _
    rw [r.mu, if_neg h3]

theorem MeanObj.Refines.update {o : MeanObj} {h : MeanHeap d} {m : Mean ℝ d} (r : o.Refines h m) (X : List (Fin d → ℝ)) :
    (∃ e, o.update h X = .error e ∧ m.update (.mat ⟨d, X⟩) = .error e) ∨
    (∃ o' h' m', o.update h X = .ok (o', h') ∧ m.update (.mat ⟨d, X⟩) = .ok m' ∧ o'.Refines h' m' ∧ o'.addr = o.addr) := by
  unfold MeanObj.update Mean.update Mean.updateRows
  simp only [ArrayLike.promote, r.n]
  by_cases h0 : m.n + X.length = 0
  · left
    simp [h0]
  · right
    simp only [h0, if_false]
    by_cases h1 : X.length = 0
    · simp only [h1, if_true]
      exact ⟨_, _, _, rfl, rfl, ⟨rfl, by simp⟩, rfl⟩
    · simp only [h1, if_false]
      refine ⟨_, _, _, rfl, rfl, ⟨rfl, ?_⟩, rfl⟩
      simp only [Function.update_self, r.mu]
      cases m.nan <;> rfl

/-- C90: for every history of batches the memory model and the value model (C01) raise the same exceptions and return the same value. -/
theorem C90_refines (a : ℕ) (h : MeanHeap d) (Xs : List (List (Fin d → ℝ))) :
    (∃ e, (MeanObj.init d a h).1.updates (MeanObj.init d a h).2 Xs = .error e ∧
      (Mean.init ℝ d).updates (Xs.map fun X => .mat ⟨d, X⟩) = .error e) ∨
    (∃ o h' m, (MeanObj.init d a h).1.updates (MeanObj.init d a h).2 Xs = .ok (o, h') ∧
      (Mean.init ℝ d).updates (Xs.map fun X => .mat ⟨d, X⟩) = .ok m ∧ (o.mean h').value h' = m.mean) := by
  have key : ∀ (Xs : List (List (Fin d → ℝ))) (o : MeanObj) (h : MeanHeap d) (m : Mean ℝ d), o.Refines h m →
      (∃ e, o.updates h Xs = .error e ∧ m.updates (Xs.map fun X => .mat ⟨d, X⟩) = .error e) ∨
      (∃ o' h' m', o.updates h Xs = .ok (o', h') ∧ m.updates (Xs.map fun X => .mat ⟨d, X⟩) = .ok m' ∧ o'.Refines h' m') := by
    intro Xs
    induction Xs with
    | nil => intro o h m r; exact Or.inr ⟨o, h, m, rfl, rfl, r⟩
    | cons X Xs ih =>
      intro o h m r
      unfold MeanObj.updates Mean.updates
      simp only [List.map_cons, List.foldlM_cons, bind, Except.bind]
      rcases r.update X with ⟨e, h1, h2⟩ | ⟨o', h', m', h1, h2, r', -⟩
      · left; exact ⟨e, by rw [h1], by rw [h2]⟩
      · rw [h1, h2]
        exact ih o' h' m' r'
  rcases key Xs (MeanObj.init d a h).1 (MeanObj.init d a h).2 (Mean.init ℝ d) ⟨rfl, by simp [MeanObj.init, Mean.init]; rfl⟩ with h1 | ⟨o, h', m, h1, h2, r⟩
  · exact Or.inl h1
  · exact Or.inr ⟨o, h', m, h1, h2, r.mean⟩

theorem MeanObj.update_addr {o o' : MeanObj} {h h' : MeanHeap d} {X : List (Fin d → ℝ)} (hu : o.update h X = .ok (o', h')) :
    o'.addr = o.addr ∧ (o.n ≠ 0 → o'.n ≠ 0) := by
  unfold MeanObj.update at hu
  dsimp only at hu
  split at hu
  · simp at hu
  · have := Except.ok.inj hu
    rw [← (Prod.mk.inj this).1]
    refine ⟨rfl, fun h => ?_⟩
    show o.n + X.length ≠ 0
    omega

theorem MeanObj.updates_addr {Xs : List (List (Fin d → ℝ))} : ∀ {o o' : MeanObj} {h h' : MeanHeap d},
    o.updates h Xs = .ok (o', h') → o'.addr = o.addr ∧ (o.n ≠ 0 → o'.n ≠ 0) := by
  induction Xs with
  | nil =>
    intro o o' h h' hu
    have := Except.ok.inj hu
    rw [← (Prod.mk.inj this).1]
    exact ⟨rfl, id⟩
  | cons X Xs ih =>
    intro o o' h h' hu
    unfold MeanObj.updates at hu
    simp only [List.foldlM_cons, bind, Except.bind] at hu
    split at hu
    · simp at hu
    · rename_i s hs
      obtain ⟨a1, a2⟩ := MeanObj.update_addr (show o.update h X = .ok (s.1, s.2) from hs)
      obtain ⟨b1, b2⟩ := ih (show s.1.updates s.2 Xs = .ok (o', h') from hu)
      exact ⟨b1.trans a1, b2 ∘ a2⟩

/-- C90 (partial): a scalar estimate (`dim == 1`), and the NaN returned before the first observation, never change: after any further
updates the object that was returned still has the value it had.  Missing: for `dim > 1` this is false (`C90_counterexample`). -/
theorem C90_scalar_partial (o o' : MeanObj) (h h' : MeanHeap d) (Xs : List (List (Fin d → ℝ)))
    (_hu : o.updates h Xs = .ok (o', h')) (hd : d = 1 ∨ o.n = 0) : (o.mean h).value h' = (o.mean h).value h := by
  unfold MeanObj.mean
  rcases hd with hd | hd
  · rw [if_pos hd]
    split_ifs <;> rfl
  · rw [if_pos hd]
    rfl

/-- C90 is false of the code for vector estimates: whatever the further updates, the array that was returned before them now holds the
new estimate. -/
theorem C90_tracks (o o' : MeanObj) (h h' : MeanHeap d) (Xs : List (List (Fin d → ℝ)))
    (hu : o.updates h Xs = .ok (o', h')) (hd : d ≠ 1) (hn : o.n ≠ 0) : (o.mean h).value h' = (o'.mean h').value h' := by
  obtain ⟨h1, h2⟩ := MeanObj.updates_addr hu
  unfold MeanObj.mean
  rw [if_neg hn, if_neg (h2 hn), if_neg hd, if_neg hd, h1]

/-- C90 is false of the code: the mean `(1, 1)` read after one observation reads `(2, 2)` after the observation `(3, 3)`. -/
theorem C90_counterexample : ∃ (h h1 h2 : MeanHeap 2) (o o1 o2 : MeanObj), MeanObj.init 2 0 h = (o, h) ∧
    o.update h [![1, 1]] = .ok (o1, h1) ∧ (o1.mean h1).value h1 = .val ![1, 1] ∧
    o1.update h1 [![3, 3]] = .ok (o2, h2) ∧ (o1.mean h1).value h2 = .val ![2, 2] := by
  have c1 : colMean [(![1, 1] : Fin 2 → ℝ)] = ![1, 1] := by
    funext i; fin_cases i <;> simp [colMean]
  have c2 : colMean [(![3, 3] : Fin 2 → ℝ)] = ![3, 3] := by
    funext i; fin_cases i <;> simp [colMean]
  refine ⟨fun _ => .val 0, fun i => if i = 0 then .val ![1, 1] else .val 0, fun i => if i = 0 then .val ![2, 2] else .val 0, ⟨0, 0⟩,
    ⟨1, 0⟩, ⟨2, 0⟩, ?_, ?_, ?_, ?_, ?_⟩
  · unfold MeanObj.init
    congr 1
    funext i
    by_cases hi : i = 0 <;> simp [hi]
  · unfold MeanObj.update
    simp only [List.length_singleton, zero_add, one_ne_zero, if_false, c1]
    congr 2
    funext i
    by_cases hi : i = 0
    · simp only [hi, Function.update_self, if_true]
      congr 1
      funext j; fin_cases j <;> simp
    · simp [hi]
  · simp [MeanObj.mean, MeanRet.value]
  · unfold MeanObj.update
    simp only [List.length_singleton, one_ne_zero, if_false, c2]
    norm_num
    funext i
    by_cases hi : i = 0
    · simp only [hi, Function.update_self, if_true]
      congr 1
      funext j; fin_cases j <;> norm_num
    · simp [hi]
  · simp [MeanObj.mean, MeanRet.value]

end Primate
