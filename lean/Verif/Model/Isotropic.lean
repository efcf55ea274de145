import Verif.Model.Random
import Mathlib.Algebra.Order.Floor.Semiring
import Mathlib.Data.Rat.Floor

/-!
# Model of `isotropic` and `Isotropic` (`src/primate/random.py:47-142`)
-/

noncomputable section

namespace Primate

/-! ## isotropic -/

/-- The argument `size`: a Python `int`, a NumPy integer (not an instance of `int`) or a tuple. -/
inductive PySize
  | int (n : ℤ)
  | npInt (n : ℤ)
  | tuple (dims : List ℤ)

/-- `size = (size, 1) if isinstance(size, int) else size` (`src/primate/random.py:75`) followed by NumPy's
reading of the shape (line 76): an integer is a shape with one dimension. -/
def PySize.dims : PySize → List ℤ
  | .int n => [n, 1]
  | .npInt n => [n]
  | .tuple ds => ds

/-- An array with at least one axis, as the list of its fibres along the first axis: `data j i` is entry `i` of
fibre `j` (for a matrix: of column `j`).  A zero-dimensional array has the single entry `data 0 0`. -/
structure IsoArr where
  shape : List ℕ
  data : ℕ → ℕ → ℝ

/-- The length of the first axis. -/
def isoRows (shape : List ℕ) : ℕ := shape.headD 1

/-- The number of fibres along the first axis. -/
def isoCols (shape : List ℕ) : ℕ := shape.tail.prod

/-- `iso(rng, out=W)` for a Fortran-ordered float64 array of the given shape (`src/primate/random.py:22-44`): the stream
fills the memory in order, so fibre after fibre along the first axis.  For a zero-dimensional array `_sphere_inplace` fails
on `out.shape[0]` (line 39). -/
def isoFill (dist : IsoDist) (shape : List ℕ) (rng : Rng) (pos : ℕ) : Py (IsoArr × ℕ) :=
  if dist = .sphere ∧ shape = [] then .error .index
  else .ok (⟨shape, fun j i =>
    if h : j < isoCols shape ∧ i < isoRows shape then
      dist.fill (isoRows shape) (isoCols shape) rng pos ⟨j, h.1⟩ ⟨i, h.2⟩
    else 0⟩, pos + isoRows shape * isoCols shape)

/-- `_isotropic(size)` (`src/primate/random.py:74-78`); the position in the stream is returned as well.  Negative sizes:
ValueError by `np.empty`. -/
def isoDraw (dist : IsoDist) (rng : Rng) (pos : ℕ) (size : PySize) : Py (IsoArr × ℕ) :=
  if size.dims.any (· < 0) then .error .value
  else isoFill dist (size.dims.map Int.toNat) rng pos

/-- `isotropic(size, pdf, seed=rng)` with `out=None` and a size given (`src/primate/random.py:64-66, 71-80`); `pos` is the
position of the generator. -/
def isotropicDraw (name : String) (rng : Rng) (pos : ℕ) (size : PySize) : Py (IsoArr × ℕ) :=
  match ISO_DISTRIBUTIONS.lookup name with
  | none => .error .assertion
  | some dist => isoDraw dist rng pos size

/-- `isotropic(None, pdf, seed=rng)` (`src/primate/random.py:80`): the sampler itself, called with the sizes in turn; its
state is the position of the generator.  The list of arrays drawn is returned. -/
def isotropicSampler (name : String) (rng : Rng) (pos : ℕ) : List PySize → Py (List IsoArr × ℕ)
  | [] => match ISO_DISTRIBUTIONS.lookup name with
    | none => .error .assertion
    | some _ => .ok ([], pos)
  | size :: rest =>
    match isotropicDraw name rng pos size with
    | .error er => .error er
    | .ok (W, pos') =>
      match isotropicSampler name rng pos' rest with
      | .error er => .error er
      | .ok (Ws, pos'') => .ok (W :: Ws, pos'')

/-- The element type of an array passed as `out`. -/
inductive OutDtype
  | f64
  | f32
  | other
  deriving DecidableEq

/-- The memory order of an array passed as `out`; `strided`: neither C- nor Fortran-contiguous (or not writable). -/
inductive OutOrder
  | c
  | f
  | strided
  deriving DecidableEq

/-- An object passed as `out`: not an array, or a matrix with `rows` rows and `cols` columns. -/
inductive OutArg
  | notArray
  | mat (rows cols : ℕ) (dtype : OutDtype) (order : OutOrder)

/-- The numbers written: position `k` of the memory gets the number `pos + k` of the stream, then columns are processed.
Rounding to float32 is not modelled. -/
def fillOrdered (dist : IsoDist) (rows : ℕ) (idx : ℕ → ℕ → ℕ) (rng : Rng) (pos : ℕ) : ℕ → ℕ → ℝ := fun j i =>
  match dist with
  | .rademacher => rademacherEntry (rng.unif (pos + idx j i))
  | .normal => rng.norm (pos + idx j i)
  | .sphere => if h : i < rows then sphereCol (fun i' : Fin rows => rng.norm (pos + idx j i')) ⟨i, h⟩ else 0

/-- `isotropic(pdf=name, seed=rng, out=out)` (`src/primate/random.py:64-70`): the values written to `out`.  `rng.random(out=)`
accepts float64 only, `rng.standard_normal(out=, dtype=)` float64 and float32 (TypeError otherwise); both reject
arrays that are not contiguous (ValueError). -/
def isotropicOut (name : String) (rng : Rng) (pos : ℕ) (out : OutArg) : Py (ℕ → ℕ → ℝ) :=
  match ISO_DISTRIBUTIONS.lookup name with
  | none => .error .assertion
  | some dist =>
    match out with
    | .notArray => .error .assertion
    | .mat rows cols dtype order =>
      if dist ≠ .rademacher ∧ dtype = .other then .error .type
      else if order = .strided then .error .value
      else if dist = .rademacher ∧ dtype ≠ .f64 then .error .type
      else .ok (fillOrdered dist rows (fun j i => if order = .f then j * rows + i else i * cols + j) rng pos)

/-! ## Isotropic -/

/-- An `Isotropic` object (`src/primate/random.py:108-131`): `gens i`, `pos i` are the generator of thread `i` and its
position. -/
structure IsoObj where
  dist : IsoDist
  rows : ℕ
  cols : ℕ
  threads : ℕ
  step : ℕ
  gens : ℕ → Rng
  pos : ℕ → ℕ

/-- `Isotropic(size, pdf, seed, threads)` for `size = (rows, cols)` (`src/primate/random.py:101-131`); `cpus` is
`multiprocessing.cpu_count()`, `gens` the generators spawned.  Unknown names: KeyError (line 108, before the assertion);
`threads <= 0`: ValueError by `rng.spawn` or `ThreadPoolExecutor`. -/
def IsoObj.init (rows cols : ℕ) (name : String) (threads : Option ℤ) (cpus : ℕ) (gens : ℕ → Rng) : Py IsoObj :=
  match ISO_DISTRIBUTIONS.lookup name with
  | none => .error .key
  | some dist =>
    let t := threads.getD cpus
    if t ≤ 0 then .error .value
    else .ok ⟨dist, rows, cols, t.toNat, ⌈(cols : ℚ) / (t.toNat : ℚ)⌉₊, gens, fun _ => 0⟩

/-- What a thread holds for one column: the entries and the norm computed on line 38. -/
structure ColState where
  vals : ℕ → ℝ
  norm : ℝ

/-- The elementary steps of the samplers (`src/primate/random.py:22-41`) on one column. -/
inductive ColAct
  | write (i : ℕ) (v : ℝ)
  | mul2 (i : ℕ)
  | floor (i : ℕ)
  | sub1 (i : ℕ)
  | norm
  | div (i : ℕ)
  | mulRoot (i : ℕ)

/-- The effect of a step on a column of `n` entries.  Simplification: reading a column to compute its norm is one
step. -/
def ColAct.exec (n : ℕ) (a : ColAct) (s : ColState) : ColState :=
  match a with
  | .write i v => { s with vals := Function.update s.vals i v }
  | .mul2 i => { s with vals := Function.update s.vals i (s.vals i * 2) }
  | .floor i => { s with vals := Function.update s.vals i (⌊s.vals i⌋ : ℝ) }
  | .sub1 i => { s with vals := Function.update s.vals i (s.vals i - 1) }
  | .norm => { s with norm := Real.sqrt (∑ i ∈ Finset.range n, s.vals i ^ 2) }
  | .div i => { s with vals := Function.update s.vals i (s.vals i / s.norm) }
  | .mulRoot i => { s with vals := Function.update s.vals i (s.vals i * Real.sqrt n) }

/-- A step of a thread: the column it works on and what it does. -/
abbrev FillStep := ℕ × ColAct

/-- The entries of the columns `lo .. lo + w - 1` in memory order. -/
def cellsOf (n lo w : ℕ) (f : ℕ → ℕ → ColAct) : List FillStep :=
  (List.range w).flatMap fun j => (List.range n).map fun i => (lo + j, f j i)

/-- The steps of `self.iso(rng, out=out[:, lo:lo+w])` (`src/primate/random.py:22-41, 134`). -/
def fillProgram (dist : IsoDist) (n lo w : ℕ) (rng : Rng) (pos : ℕ) : List FillStep :=
  match dist with
  | .rademacher =>
    cellsOf n lo w (fun j i => .write i (rng.unif (pos + j * n + i))) ++ cellsOf n lo w (fun _ i => .mul2 i) ++
      cellsOf n lo w (fun _ i => .floor i) ++ cellsOf n lo w (fun _ i => .mul2 i) ++ cellsOf n lo w (fun _ i => .sub1 i)
  | .normal => cellsOf n lo w (fun j i => .write i (rng.norm (pos + j * n + i)))
  | .sphere =>
    cellsOf n lo w (fun j i => .write i (rng.norm (pos + j * n + i))) ++ (List.range w).map (fun j => (lo + j, .norm)) ++
      cellsOf n lo w (fun _ i => .div i) ++ cellsOf n lo w (fun _ i => .mulRoot i)

/-- The slice `out[:, i1:i2]` of thread `i`: first column (`src/primate/random.py:134, 137`; slices are cut at the end). -/
def IsoObj.lo (o : IsoObj) (i : ℕ) : ℕ := min (i * o.step) o.cols

/-- The number of columns of the slice of thread `i`. -/
def IsoObj.width (o : IsoObj) (i : ℕ) : ℕ := min ((i + 1) * o.step) o.cols - o.lo i

/-- The steps of thread `i` of `fill()` (`src/primate/random.py:134-138`). -/
def IsoObj.program (o : IsoObj) (i : ℕ) : List FillStep :=
  fillProgram o.dist o.rows (o.lo i) (o.width i) (o.gens i) (o.pos i)

/-- Execution of steps in a given order on the columns of `self.values`. -/
def runSteps (n : ℕ) (steps : List FillStep) (st : ℕ → ColState) : ℕ → ColState :=
  steps.foldl (fun st a => Function.update st a.1 (a.2.exec n (st a.1))) st

/-- An execution of `fill()` (`src/primate/random.py:133-139`): the steps of all threads, each labelled with its thread, in an
order in which every thread's own steps come in program order. -/
def IsoObj.Schedule (o : IsoObj) (L : List (ℕ × FillStep)) : Prop :=
  ∀ i, (L.filter (fun a => a.1 = i)).map Prod.snd = if i < o.threads then o.program i else []

end Primate
