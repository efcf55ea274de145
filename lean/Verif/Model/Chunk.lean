import Verif.Model.Py

/-! # Model of `_chunk` in `trace.py` -/

namespace Primate

/-- The argument of `_chunk`: a NumPy array (split along its first axis) or any other iterable.
Simplification: iterables are finite. -/
inductive ChunkArg (α : Type)
  | array (xs : List α)
  | iter (xs : List α)

/-- `np.array_split(xs, 3)`: the first `len % 3` pieces have `len // 3 + 1` elements, the others
`len // 3`. -/
def arraySplit3 {α : Type} (xs : List α) : List (List α) :=
  let q := xs.length / 3
  let r := xs.length % 3
  let s0 := if 0 < r then q + 1 else q
  let s1 := if 1 < r then q + 1 else q
  [xs.take s0, (xs.drop s0).take s1, (xs.drop s0).drop s1]

/-- `while batch := tuple(islice(iterator, n)): yield batch` (`src/primate/trace.py:29-31`) for
`n = m + 1`. -/
def chunkIter {α : Type} (m : ℕ) : List α → List (List α)
  | [] => []
  | x :: xs => (x :: xs).take (m + 1) :: chunkIter m (xs.drop m)
termination_by xs => xs.length
decreasing_by simp; omega

/-- `list(_chunk(iterable, n))` (`src/primate/trace.py:23-31`); `n` is unused for arrays (line 27). -/
def chunk {α : Type} (a : ChunkArg α) (n : ℤ) : Py (List (List α)) :=
  if n < 1 then .error .assertion
  else
    match a with
    | .array xs => .ok (arraySplit3 xs)
    | .iter xs => .ok (chunkIter (n.toNat - 1) xs)

end Primate
