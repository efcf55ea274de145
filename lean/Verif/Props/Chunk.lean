import Verif.Prelude
import Verif.Model.Chunk

/-! # Property C70 (_chunk) -/

namespace Primate

variable {α : Type}

theorem chunkIter_flatten (m : ℕ) (xs : List α) : (chunkIter m xs).flatten = xs := by
  induction xs using chunkIter.induct (m := m) with
  | case1 => simp [chunkIter]
  | case2 x xs ih =>
    rw [chunkIter, List.flatten_cons, ih]
    simp

theorem chunkIter_get (m : ℕ) (xs : List α) (i : ℕ) :
    (chunkIter m xs)[i]? = if i * (m + 1) < xs.length then
      some ((xs.drop (i * (m + 1))).take (m + 1)) else none := by
  induction xs using chunkIter.induct (m := m) generalizing i with
  | case1 => simp [chunkIter]
  | case2 x xs ih =>
    rw [chunkIter]
    cases i with
    | zero => simp
    | succ i =>
      rw [List.getElem?_cons_succ, ih]
      have e : (i + 1) * (m + 1) = (i * (m + 1) + m) + 1 := by ring
      rw [e, List.drop_succ_cons, List.drop_drop, List.length_drop, List.length_cons]
      have : m + i * (m + 1) = i * (m + 1) + m := by ring
      rw [this]
      by_cases h : i * (m + 1) < xs.length - m
      · rw [if_pos h, if_pos (by omega)]
      · rw [if_neg h, if_neg (by omega)]

/-- **C70** for iterables: the pieces concatenate to the input, none is empty, the `i`-th starts
at `i n` and has `n` elements unless the input ends before. -/
theorem C70_iter (xs : List α) (n : ℕ) (hn : 1 ≤ n) :
    ∃ ps, chunk (.iter xs) n = .ok ps ∧ ps.flatten = xs ∧ (∀ p ∈ ps, p ≠ []) ∧
      ∀ i p, ps[i]? = some p → p = (xs.drop (i * n)).take n ∧
        p.length = min n (xs.length - i * n) ∧ (i + 1 < ps.length → p.length = n) := by
  obtain ⟨m, rfl⟩ : ∃ m, n = m + 1 := ⟨n - 1, by omega⟩
  have hc : chunk (.iter xs) ((m + 1 : ℕ) : ℤ) = .ok (chunkIter m xs) := by
    unfold chunk
    rw [if_neg (by omega)]
    simp
  refine ⟨chunkIter m xs, hc, chunkIter_flatten m xs, ?_, ?_⟩
  · intro p hp h0
    obtain ⟨i, hi⟩ := List.mem_iff_getElem?.mp hp
    rw [chunkIter_get] at hi
    split_ifs at hi with h
    rw [Option.some.injEq, h0] at hi
    have := congrArg List.length hi
    simp at this
    omega
  · intro i p hp
    have hp' := hp
    rw [chunkIter_get] at hp
    split_ifs at hp with h
    rw [Option.some.injEq] at hp
    refine ⟨hp.symm, by rw [← hp]; simp, fun hi => ?_⟩
    have := chunkIter_get m xs (i + 1)
    rw [List.getElem?_eq_getElem hi] at this
    split_ifs at this with h'
    rw [← hp]
    simp only [List.length_take, List.length_drop]
    have e : (i + 1) * (m + 1) = (i * (m + 1) + m) + 1 := by ring
    omega

/-- **C70**: `n < 1` is rejected. -/
theorem C70_reject (a : ChunkArg α) (n : ℤ) (hn : n < 1) : chunk a n = .error .assertion := by
  simp [chunk, hn]

/-- **C70**, the part that holds for arrays: the pieces concatenate to the input. Missing: their
size; there are always three, whatever `n`, of sizes that differ by at most one and do not
increase. -/
theorem C70_array_partial (xs : List α) (n : ℤ) (hn : 1 ≤ n) :
    ∃ p q r, chunk (.array xs) n = .ok [p, q, r] ∧ p ++ q ++ r = xs ∧
      p.length ≤ r.length + 1 ∧ q.length ≤ p.length ∧ r.length ≤ q.length := by
  refine ⟨_, _, _, by simp only [chunk, arraySplit3]; rw [if_neg (by omega)], ?_, ?_, ?_, ?_⟩
  · simp
  all_goals
    simp only [List.length_take, List.length_drop]
    split_ifs <;> omega

/-- **C70** fails for arrays: any array of three elements chunked with `n = 3` comes in three
pieces of one element, and an empty array gives three empty pieces. -/
theorem C70_array_counterexample (x y z : α) :
    chunk (.array [x, y, z]) 3 = .ok [[x], [y], [z]] ∧
    chunk (.array ([] : List α)) 3 = .ok [[], [], []] := by
  simp [chunk, arraySplit3]

/-- Non-vacuity: seven elements in pieces of three. -/
example : chunk (.iter [1, 2, 3, 4, 5, 6, 7]) 3 = .ok [[1, 2, 3], [4, 5, 6], [7]] := by
  simp [chunk, chunkIter]

end Primate
