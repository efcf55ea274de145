import Verif.Model.Tridiag

/-!
# Model of `tqli` with rounding

`src/primate/tqli.py` with the result of every operation rounded.  `np.hypot` is a parameter, since its result need not be the nearest number.  Multiplications by
`2.0` are exact in binary arithmetic but are treated like the others.  Simplification: operations that are contracted by a compiler (Pythran) are not
represented, neither are infinities and NaN.
-/

noncomputable section

namespace Primate

/-- The operations: the rounding and `np.hypot`. -/
structure TqliKernels where
  fl : ℝ → ℝ
  hyp : ℝ → ℝ → ℝ

open Classical in
/-- The search for a small subdiagonal element (`src/primate/tqli.py:42-48`) from `m` on with `rem` elements left. -/
def tqliScanFl (K : TqliKernels) (t : TriState) : ℕ → ℕ → ℕ
  | 0, m => m
  | rem + 1, m =>
    let dd := K.fl (|t.d m| + |t.d (m + 1)|)
    if K.fl (|t.e m| + dd) = dd then m else tqliScanFl K t rem (m + 1)

/-- The rotation of the columns `i`, `i+1` of `Z` (`src/primate/tqli.py:80-83`), for all `n` rows. -/
def rotZFl (K : TqliKernels) (n : ℕ) (Z : ℕ → ℕ → ℝ) (i : ℕ) (s c : ℝ) : ℕ → ℕ → ℝ := fun k l =>
  if k < n then
    if l = i + 1 then K.fl (K.fl (s * Z k i) + K.fl (c * Z k (i + 1)))
    else if l = i then K.fl (K.fl (c * Z k i) - K.fl (s * Z k (i + 1)))
    else Z k l
  else Z k l

open Classical in
/-- The loop `for i in range(m - 1, it - 1, -1)` (`src/primate/tqli.py:64-83`) with `k` iterations left, the next one at `i = it + k - 1`. -/
def tqliSweepFl (K : TqliKernels) (n : ℕ) (withZ : Bool) (m it : ℕ) : ℕ → SweepState → SweepState
  | 0, x => x
  | k + 1, x =>
    let i := it + k
    let f := K.fl (x.s * x.t.e i)
    let b := K.fl (x.c * x.t.e i)
    let r := K.hyp f x.g
    let e := Function.update x.t.e (i + 1) r
    if r = 0 then
      ⟨⟨Function.update x.t.d (i + 1) (K.fl (x.t.d (i + 1) - x.p)), Function.update e m 0, x.t.Z⟩, x.s, x.c, x.p, x.g, r, i⟩
    else
      let s := K.fl (f / r)
      let c := K.fl (x.g / r)
      let g := K.fl (x.t.d (i + 1) - x.p)
      let r := K.fl (K.fl (K.fl (x.t.d i - g) * s) + K.fl (K.fl (2 * c) * b))
      let p := K.fl (s * r)
      let d := Function.update x.t.d (i + 1) (K.fl (g + p))
      let g := K.fl (K.fl (c * r) - b)
      tqliSweepFl K n withZ m it k ⟨⟨d, e, if withZ then rotZFl K n x.t.Z i s c else x.t.Z⟩, s, c, p, g, r, i⟩

open Classical in
/-- The body of `while True` after the search found `m != it` (`src/primate/tqli.py:57-88`); `none` when the shift divides by zero. -/
def tqliPassFl (K : TqliKernels) (n : ℕ) (withZ : Bool) (m it : ℕ) (t : TriState) : Option TriState :=
  let g := K.fl (K.fl (t.d (it + 1) - t.d it) / K.fl (2 * t.e it))
  let r := K.hyp g 1
  let g := K.fl (t.d m - t.d it)
  let den := K.fl (g + tqliSign r g)
  if den = 0 then none
  else
    let g := K.fl (g + K.fl (t.e it / den))
    let x := tqliSweepFl K n withZ m it (m - it) ⟨t, 1, 1, 0, g, r, m⟩
    if x.r = 0 ∧ it ≤ x.i then some x.t
    else some ⟨Function.update x.t.d it (K.fl (x.t.d it - x.p)), Function.update (Function.update x.t.e it x.g) m 0, x.t.Z⟩

open Classical in
/-- The loop `while True` for one row (`src/primate/tqli.py:40-90`), `ii` counts the passes. -/
def tqliRowFl (K : TqliKernels) (n : ℕ) (withZ : Bool) (maxIter : ℕ) (it : ℕ) : ℕ → ℕ → TriState → Option (Option TriState)
  | 0, _, _ => none
  | fuel + 1, ii, t =>
    let m := tqliScanFl K t (n - 1 - it) it
    if m = it then some (some t)
    else if maxIter < ii ∨ t.e it = 0 then some (some t)
    else
      match tqliPassFl K n withZ m it t with
      | none => some none
      | some t' => tqliRowFl K n withZ maxIter it fuel (ii + 1) t'

/-- The loop over the rows (`src/primate/tqli.py:37-90`), `rem` rows left. -/
def tqliRowsFl (K : TqliKernels) (n : ℕ) (withZ : Bool) (maxIter fuel : ℕ) : ℕ → ℕ → TriState → Option (Option TriState)
  | 0, _, t => some (some t)
  | rem + 1, it, t =>
    match tqliRowFl K n withZ maxIter it fuel 0 t with
    | none => none
    | some none => some none
    | some (some t') => tqliRowsFl K n withZ maxIter fuel rem (it + 1) t'

open Classical in
/-- `tqli` (`src/primate/tqli.py:15-90`). -/
def tqliFl (K : TqliKernels) (d e : Buf ℝ) (Z : ℕ → ℕ → ℝ) (withZ : Bool) (maxIter fuel : ℕ) : Option (Py (Option TriState)) :=
  if d.len ≠ e.len then some (.error .assertion)
  else if e.len = 0 then some (.error .index)
  else if ¬ |e.get 0| ≤ 1e-8 then some (.error .assertion)
  else
    let n := d.len
    let e' := fun i => if i + 1 < n then e.get (i + 1) else if i + 1 = n then 0 else e.get i
    (tqliRowsFl K n withZ maxIter fuel n 0 ⟨d.get, e', Z⟩).map .ok

/-- The operations in exact arithmetic. -/
def TqliKernels.exact : TqliKernels := ⟨id, hypot⟩

end Primate
