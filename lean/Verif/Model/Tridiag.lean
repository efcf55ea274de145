import Verif.Model.Lanczos
import Mathlib.Analysis.SpecialFunctions.Sqrt

/-!
# Model of `src/primate/tqli.py` and `src/primate/tridiag.py`

Arrays are functions on the indices together with their length.
-/

noncomputable section

namespace Primate

/-! ## tqli -/

open Classical in
/-- `sign(a, b)` (`src/primate/tqli.py:5-7`): `int(b > 1) - int(a < 0) + 1`. -/
def tqliSign (a b : ℝ) : ℝ := (if b > 1 then 1 else 0) - (if a < 0 then 1 else 0) + 1

/-- `np.hypot`. -/
def hypot (x y : ℝ) : ℝ := Real.sqrt (x ^ 2 + y ^ 2)

/-- The arrays `tqli` works on. -/
structure TriState where
  d : ℕ → ℝ
  e : ℕ → ℝ
  Z : ℕ → ℕ → ℝ

/-- The search for a small subdiagonal element (`src/primate/tqli.py:42-48`) from `m` on with `rem`
elements left.  `absorb x y` is the outcome of `x + y == y` (in floating point it also holds for tiny
nonzero `x`). -/
def tqliScan (absorb : ℝ → ℝ → Bool) (t : TriState) : ℕ → ℕ → ℕ
  | 0, m => m
  | rem + 1, m =>
    if absorb |t.e m| (|t.d m| + |t.d (m + 1)|) then m else tqliScan absorb t rem (m + 1)

/-- Variables of the inner loop of `tqli`. -/
structure SweepState where
  t : TriState
  s : ℝ
  c : ℝ
  p : ℝ
  g : ℝ
  r : ℝ
  i : ℕ

/-- One Givens rotation on the columns `i`, `i+1` of `Z` (`src/primate/tqli.py:80-83`), for all `n`
rows. -/
def rotZ (n : ℕ) (Z : ℕ → ℕ → ℝ) (i : ℕ) (s c : ℝ) : ℕ → ℕ → ℝ := fun k l =>
  if k < n then
    if l = i + 1 then s * Z k i + c * Z k (i + 1)
    else if l = i then c * Z k i - s * Z k (i + 1)
    else Z k l
  else Z k l

open Classical in
/-- The loop `for i in range(m - 1, it - 1, -1)` (`src/primate/tqli.py:64-83`) with `k` iterations
left, the next one at `i = it + k - 1`. -/
def tqliSweep (n : ℕ) (withZ : Bool) (m it : ℕ) : ℕ → SweepState → SweepState
  | 0, x => x
  | k + 1, x =>
    let i := it + k
    let f := x.s * x.t.e i
    let b := x.c * x.t.e i
    let r := hypot f x.g
    let e := Function.update x.t.e (i + 1) r
    if r = 0 then
      ⟨⟨Function.update x.t.d (i + 1) (x.t.d (i + 1) - x.p), Function.update e m 0, x.t.Z⟩,
        x.s, x.c, x.p, x.g, r, i⟩
    else
      let s := f / r
      let c := x.g / r
      let g := x.t.d (i + 1) - x.p
      let r := (x.t.d i - g) * s + 2 * c * b
      let p := s * r
      let d := Function.update x.t.d (i + 1) (g + p)
      let g := c * r - b
      tqliSweep n withZ m it k ⟨⟨d, e, if withZ then rotZ n x.t.Z i s c else x.t.Z⟩, s, c, p, g, r, i⟩

open Classical in
/-- The body of `while True` after the search found `m != it` (`src/primate/tqli.py:57-88`); `none`
when the shift divides by zero (line 61; NumPy continues with infinities and NaN). -/
def tqliPass (n : ℕ) (withZ : Bool) (m it : ℕ) (t : TriState) : Option TriState :=
  let g := (t.d (it + 1) - t.d it) / (2 * t.e it)
  let r := hypot g 1
  let g := t.d m - t.d it
  if g + tqliSign r g = 0 then none
  else
    let g := g + t.e it / (g + tqliSign r g)
    let x := tqliSweep n withZ m it (m - it) ⟨t, 1, 1, 0, g, r, m⟩
    if x.r = 0 ∧ it ≤ x.i then some x.t
    else some ⟨Function.update x.t.d it (x.t.d it - x.p),
      Function.update (Function.update x.t.e it x.g) m 0, x.t.Z⟩

open Classical in
/-- The loop `while True` for one row (`src/primate/tqli.py:40-90`), `ii` counts the passes.  The
outer option: out of fuel; the inner one: NaN. -/
def tqliRow (absorb : ℝ → ℝ → Bool) (n : ℕ) (withZ : Bool) (maxIter : ℕ) (it : ℕ) :
    ℕ → ℕ → TriState → Option (Option TriState)
  | 0, _, _ => none
  | fuel + 1, ii, t =>
    let m := tqliScan absorb t (n - 1 - it) it
    if m = it then some (some t)
    else if maxIter < ii ∨ t.e it = 0 then some (some t)
    else
      match tqliPass n withZ m it t with
      | none => some none
      | some t' => tqliRow absorb n withZ maxIter it fuel (ii + 1) t'

/-- The loop over the rows (`src/primate/tqli.py:37-90`), `rem` rows left. -/
def tqliRows (absorb : ℝ → ℝ → Bool) (n : ℕ) (withZ : Bool) (maxIter fuel : ℕ) :
    ℕ → ℕ → TriState → Option (Option TriState)
  | 0, _, t => some (some t)
  | rem + 1, it, t =>
    match tqliRow absorb n withZ maxIter it fuel 0 t with
    | none => none
    | some none => some none
    | some (some t') => tqliRows absorb n withZ maxIter fuel rem (it + 1) t'

open Classical in
/-- `tqli` (`src/primate/tqli.py:15-90`).  Error: the assertions on lines 32-33 (`np.isclose(e[0], 0)` is
`|e[0]| <= 1e-8`; an empty array raises IndexError).  The state returned holds the overwritten arrays. -/
def tqli (absorb : ℝ → ℝ → Bool) (d e : Buf ℝ) (Z : ℕ → ℕ → ℝ) (withZ : Bool) (maxIter fuel : ℕ) :
    Option (Py (Option TriState)) :=
  if d.len ≠ e.len then some (.error .assertion)
  else if e.len = 0 then some (.error .index)
  else if ¬ |e.get 0| ≤ 1e-8 then some (.error .assertion)
  else
    let n := d.len
    let e' := fun i => if i + 1 < n then e.get (i + 1) else if i + 1 = n then 0 else e.get i
    (tqliRows absorb n withZ maxIter fuel n 0 ⟨d.get, e', Z⟩).map .ok

/-! ## eigh_tridiag -/

/-- The symmetric tridiagonal matrix with diagonal `d` and `e i` coupling `i-1` and `i` (the
convention of the code: `e[0]` is not used). -/
def triMat (k : ℕ) (d e : ℕ → ℝ) : Matrix (Fin k) (Fin k) ℝ := Matrix.of fun i j =>
  if i = j then d i else if (i : ℕ) + 1 = j then e j else if (j : ℕ) + 1 = i then e i else 0

/-- LAPACK through SciPy: `eigh_tridiagonal(d, e)` for `k` rows; `LinAlgError` on failure.  `e i` couples `i`
and `i+1`. -/
abbrev EighKernel := (k : ℕ) → (d : Fin k → ℝ) → (e : Fin (k - 1) → ℝ) →
  Py ((Fin k → ℝ) × Matrix (Fin k) (Fin k) ℝ)

/-- `eigvalsh_tridiagonal(d, e)`. -/
abbrev EigvalshKernel := (k : ℕ) → (d : Fin k → ℝ) → (e : Fin (k - 1) → ℝ) → Py (Fin k → ℝ)

/-- The numerical kernels. -/
structure TriKernels where
  eigh : EighKernel
  eigvalsh : EigvalshKernel
  absorb : ℝ → ℝ → Bool

/-- `eigh_tridiagonal(d, e[1:])` (`src/primate/tridiag.py:10-11`): SciPy requires `d.size == e.size + 1`, so empty arrays (for which
`e[1:]` is empty too) raise ValueError before LAPACK is called. -/
def TriKernels.scipyEigh (K : TriKernels) : EighKernel := fun k d e => if k = 0 then .error .value else K.eigh k d e

/-- `eigvalsh_tridiagonal(d, e[1:])` (`src/primate/tridiag.py:10-11`), with the same check. -/
def TriKernels.scipyEigvalsh (K : TriKernels) : EigvalshKernel := fun k d e =>
  if k = 0 then .error .value else K.eigvalsh k d e

/-- `e = np.append([0], e) if len(e) == len(d) - 1 else e` (`src/primate/tridiag.py:40, 59`,
`src/primate/integrate.py:58`). -/
def padE (d e : Buf ℝ) : Buf ℝ :=
  if (e.len : ℤ) = (d.len : ℤ) - 1 then ⟨e.len + 1, fun i => if i = 0 then 0 else e.get (i - 1)⟩ else e

/-- The identity matrix `np.eye`. -/
def eyeN : ℕ → ℕ → ℝ := fun i j => if i = j then 1 else 0

/-- Eigenpairs returned; `none`: NaN. -/
abbrev EigRes (k : ℕ) := Option ((Fin k → ℝ) × Matrix (Fin k) (Fin k) ℝ)

/-- `tqli(d, e, Z, maxiter); return (d, Z)` (`src/primate/tridiag.py:13-14`). -/
def tqliEigh (K : TriKernels) (d e : Buf ℝ) (maxiter fuel : ℕ) : Option (Py (EigRes d.len)) :=
  match tqli K.absorb d e eyeN true maxiter fuel with
  | none => none
  | some (.error er) => some (.error er)
  | some (.ok none) => some (.ok none)
  | some (.ok (some t)) => some (.ok (some (fun i => t.d i, Matrix.of fun i j => t.Z i j)))

/-- `_eigh_tridiag` with eigenvectors (`src/primate/tridiag.py:7-20`).  In the mode "auto" the fallback
uses the default `maxiter = 30`. -/
def eighTridiagCore (K : TriKernels) (d e : Buf ℝ) (method : String) (maxiter fuel : ℕ) :
    Option (Py (EigRes d.len)) :=
  if method = "mrrr" then some ((K.scipyEigh d.len (fun i => d.get i) fun i => e.get (i + 1)).map some)
  else if method = "tqli" then tqliEigh K d e maxiter fuel
  else
    match K.scipyEigh d.len (fun i => d.get i) fun i => e.get (i + 1) with
    | .ok r => some (.ok (some r))
    | .error .linAlg => tqliEigh K d e 30 fuel
    | .error er => some (.error er)

/-- `eigh_tridiag` (`src/primate/tridiag.py:25-43`). -/
def eighTridiag (K : TriKernels) (d e : Buf ℝ) (method : String) (maxiter fuel : ℕ) :
    Option (Py (EigRes d.len)) :=
  if method ∉ ["tqli", "mrrr", "auto"] then some (.error .assertion)
  else if d.len ≠ e.len + 1 ∧ d.len ≠ e.len then some (.error .assertion)
  else eighTridiagCore K d (padE d e) method maxiter fuel

/-- `tqli(d, e, Z, maxiter); return d` with an empty `Z` (`src/primate/tridiag.py:13-14`). -/
def tqliEigvals (K : TriKernels) (d e : Buf ℝ) (maxiter fuel : ℕ) : Option (Py (Option (Fin d.len → ℝ))) :=
  match tqli K.absorb d e (fun _ _ => 0) false maxiter fuel with
  | none => none
  | some (.error er) => some (.error er)
  | some (.ok none) => some (.ok none)
  | some (.ok (some t)) => some (.ok (some fun i => t.d i))

/-- `eigvalsh_tridiag` (`src/primate/tridiag.py:46-62` with lines 7-20). -/
def eigvalshTridiag (K : TriKernels) (d e : Buf ℝ) (method : String) (maxiter fuel : ℕ) :
    Option (Py (Option (Fin d.len → ℝ))) :=
  if method ∉ ["tqli", "mrrr", "auto"] then some (.error .assertion)
  else if d.len ≠ e.len + 1 ∧ d.len ≠ e.len then some (.error .assertion)
  else
    let e := padE d e
    if method = "mrrr" then some ((K.scipyEigvalsh d.len (fun i => d.get i) fun i => e.get (i + 1)).map some)
    else if method = "tqli" then tqliEigvals K d e maxiter fuel
    else
      match K.scipyEigvalsh d.len (fun i => d.get i) fun i => e.get (i + 1) with
      | .ok r => some (.ok (some r))
      | .error .linAlg => tqliEigvals K d e 30 fuel
      | .error er => some (.error er)

/-! ## Memory

The same functions over a memory of arrays: `loc` and the like are the addresses of arrays. -/

/-- A memory of float arrays. -/
abbrev ArrHeap := ℕ → Buf ℝ

/-- `tqli` on the arrays at `ld` and `le` (`src/primate/tqli.py:15-90`): the assertions (lines 32-33) come before the first
write, the loops write the arrays in place.  With NaN the contents of the two arrays are left open (not modelled: kept). -/
def tqliHeap (K : TriKernels) (heap : ArrHeap) (ld le : ℕ) (Z : ℕ → ℕ → ℝ) (withZ : Bool) (maxiter fuel : ℕ) :
    Option (Py (Option (ℕ → ℕ → ℝ)) × ArrHeap) :=
  match tqli K.absorb (heap ld) (heap le) Z withZ maxiter fuel with
  | none => none
  | some (.error er) => some (.error er, heap)
  | some (.ok none) => some (.ok none, heap)
  | some (.ok (some t)) =>
    some (.ok (some t.Z), Function.update (Function.update heap ld ⟨(heap ld).len, t.d⟩) le ⟨(heap le).len, t.e⟩)

/-- `tqli(d, e, Z, maxiter); return (d, Z)` (`src/primate/tridiag.py:13-14`). -/
def eighTqliHeap (K : TriKernels) (heap : ArrHeap) (ld le : ℕ) (maxiter fuel : ℕ) :
    Option (Py (Option ((ℕ → ℝ) × (ℕ → ℕ → ℝ))) × ArrHeap) :=
  match tqliHeap K heap ld le eyeN true maxiter fuel with
  | none => none
  | some (.error er, heap') => some (.error er, heap')
  | some (.ok none, heap') => some (.ok none, heap')
  | some (.ok (some Z), heap') => some (.ok (some ((heap' ld).get, Z)), heap')

/-- `_eigh_tridiag` on the arrays at `ld`, `le` with eigenvectors (`src/primate/tridiag.py:7-20`); the array of eigenvalues
is returned by address for "tqli". -/
def eighCoreHeap (K : TriKernels) (heap : ArrHeap) (ld le : ℕ) (method : String) (maxiter fuel : ℕ) :
    Option (Py (Option ((ℕ → ℝ) × (ℕ → ℕ → ℝ))) × ArrHeap) :=
  let lapack := (K.scipyEigh (heap ld).len (fun i => (heap ld).get i) fun i => (heap le).get (i + 1)).map fun r =>
    some ((fun i => if h : i < (heap ld).len then r.1 ⟨i, h⟩ else 0),
      fun i j => if h : i < (heap ld).len ∧ j < (heap ld).len then r.2 ⟨i, h.1⟩ ⟨j, h.2⟩ else 0)
  if method = "mrrr" then some (lapack, heap)
  else if method = "tqli" then eighTqliHeap K heap ld le maxiter fuel
  else
    match lapack with
    | .ok r => some (.ok r, heap)
    | .error .linAlg => eighTqliHeap K heap ld le 30 fuel
    | .error er => some (.error er, heap)

/-- `eigh_tridiag` on the caller's arrays at `ld`, `le` (`src/primate/tridiag.py:25-43`): `np.append` allocates at
`fresh`, the copies go to `fresh + 1` and `fresh + 2`. -/
def eighTridiagHeap (K : TriKernels) (heap : ArrHeap) (ld le fresh : ℕ) (method : String) (maxiter fuel : ℕ) :
    Option (Py (Option ((ℕ → ℝ) × (ℕ → ℕ → ℝ))) × ArrHeap) :=
  if method ∉ ["tqli", "mrrr", "auto"] then some (.error .assertion, heap)
  else if (heap ld).len ≠ (heap le).len + 1 ∧ (heap ld).len ≠ (heap le).len then some (.error .assertion, heap)
  else
    let padded := (heap le).len + 1 = (heap ld).len
    let heap1 := if padded then Function.update heap fresh (padE (heap ld) (heap le)) else heap
    let le1 := if padded then fresh else le
    let heap2 := Function.update heap1 (fresh + 1) (heap1 ld)
    let heap3 := Function.update heap2 (fresh + 2) (heap2 le1)
    eighCoreHeap K heap3 (fresh + 1) (fresh + 2) method maxiter fuel

/-- `tqli(d, e, Z, maxiter); return d` (`src/primate/tridiag.py:13-14`). -/
def eigvalshTqliHeap (K : TriKernels) (heap : ArrHeap) (ld le : ℕ) (maxiter fuel : ℕ) :
    Option (Py (Option (ℕ → ℝ)) × ArrHeap) :=
  match tqliHeap K heap ld le (fun _ _ => 0) false maxiter fuel with
  | none => none
  | some (.error er, heap') => some (.error er, heap')
  | some (.ok none, heap') => some (.ok none, heap')
  | some (.ok (some _), heap') => some (.ok (some (heap' ld).get), heap')

/-- `_eigh_tridiag` without eigenvectors on the arrays at `ld`, `le` (`src/primate/tridiag.py:7-20`). -/
def eigvalshCoreHeap (K : TriKernels) (heap : ArrHeap) (ld le : ℕ) (method : String) (maxiter fuel : ℕ) :
    Option (Py (Option (ℕ → ℝ)) × ArrHeap) :=
  let lapack := (K.scipyEigvalsh (heap ld).len (fun i => (heap ld).get i) fun i => (heap le).get (i + 1)).map fun r =>
    some (fun i => if h : i < (heap ld).len then r ⟨i, h⟩ else 0)
  if method = "mrrr" then some (lapack, heap)
  else if method = "tqli" then eigvalshTqliHeap K heap ld le maxiter fuel
  else
    match lapack with
    | .ok r => some (.ok r, heap)
    | .error .linAlg => eigvalshTqliHeap K heap ld le 30 fuel
    | .error er => some (.error er, heap)

/-- `eigvalsh_tridiag` on the caller's arrays at `ld`, `le` (`src/primate/tridiag.py:46-62`). -/
def eigvalshTridiagHeap (K : TriKernels) (heap : ArrHeap) (ld le fresh : ℕ) (method : String) (maxiter fuel : ℕ) :
    Option (Py (Option (ℕ → ℝ)) × ArrHeap) :=
  if method ∉ ["tqli", "mrrr", "auto"] then some (.error .assertion, heap)
  else if (heap ld).len ≠ (heap le).len + 1 ∧ (heap ld).len ≠ (heap le).len then some (.error .assertion, heap)
  else
    let padded := (heap le).len + 1 = (heap ld).len
    let heap1 := if padded then Function.update heap fresh (padE (heap ld) (heap le)) else heap
    let le1 := if padded then fresh else le
    let heap2 := Function.update heap1 (fresh + 1) (heap1 ld)
    let heap3 := Function.update heap2 (fresh + 2) (heap2 le1)
    eigvalshCoreHeap K heap3 (fresh + 1) (fresh + 2) method maxiter fuel

end Primate
