import Verif.Model.Lanczos

/-!
# Model of the native operator wrappers

`src/primate/include/eigen_operators.h` and `src/primate/include/pylinop.h`.  Raw pointers are buffers with a known length; an access
outside the buffer is the error `PyErr.index` (undefined behaviour in the original).  Timing counters are not modelled.
-/

noncomputable section

namespace Primate

open Matrix

/-- `Eigen::Map< const Vector >(inp, c, 1)`: the first `c` numbers of the buffer. -/
def mapVec (b : Buf ℝ) (c : ℕ) : Py (Fin c → ℝ) := if c ≤ b.len then .ok fun i => b.get i else .error .index

/-- Assignment to `Eigen::Map< Vector >(out, r, 1)`. -/
def storeVec {r : ℕ} (b : Buf ℝ) (x : Fin r → ℝ) : Py (Buf ℝ) :=
  if r ≤ b.len then .ok ⟨b.len, fun i => if h : i < r then x ⟨i, h⟩ else b.get i⟩ else .error .index

/-- `Eigen::Map< const DenseMatrix >(X, c, k)`, column-major: column `j` starts at `j * c`. -/
def mapMat (b : Buf ℝ) (c k : ℕ) : Py (Matrix (Fin c) (Fin k) ℝ) :=
  if c * k ≤ b.len then .ok fun i j => b.get (j * c + i) else .error .index

/-- Assignment to `Eigen::Map< DenseMatrix >(Y, r, k)`, column-major. -/
def storeMat {r k : ℕ} (b : Buf ℝ) (Y : Matrix (Fin r) (Fin k) ℝ) : Py (Buf ℝ) :=
  if r * k ≤ b.len then
    .ok ⟨b.len, fun i => if h : i < r * k then
        Y ⟨i % r, Nat.mod_lt _ (Nat.pos_of_ne_zero fun h0 => by simp [h0] at h)⟩ ⟨i / r, Nat.div_lt_of_lt_mul h⟩ else b.get i⟩
  else .error .index

/-- The methods of an operator wrapper. -/
structure NativeOp where
  shape : ℕ × ℕ
  matvec : Buf ℝ → Buf ℝ → Py (Buf ℝ)
  rmatvec : Buf ℝ → Buf ℝ → Py (Buf ℝ)
  matmat : Buf ℝ → Buf ℝ → ℕ → Py (Buf ℝ)

/-- `DenseEigenLinearOperator` (`src/primate/include/eigen_operators.h:17-55`). -/
def denseOp {r c : ℕ} (A : Matrix (Fin r) (Fin c) ℝ) : NativeOp where
  shape := (r, c)
  matvec inp out := do storeVec out (A *ᵥ (← mapVec inp c))
  rmatvec inp out := do storeVec out (Aᵀ *ᵥ (← mapVec inp r))
  matmat X Y k := do storeMat Y (A * (← mapMat X c k))

/-- `SparseEigenLinearOperator` (`src/primate/include/eigen_operators.h:58-104`).  The storage format of the matrix is not modelled. -/
def sparseOp (gram : Bool) {r c : ℕ} (A : Matrix (Fin r) (Fin c) ℝ) : NativeOp where
  shape := (r, c)
  matvec inp out := do
    let input ← mapVec inp c
    if gram then storeVec out (Aᵀ *ᵥ (A *ᵥ input)) else storeVec out (A *ᵥ input)
  rmatvec inp out :=
    if gram then do storeVec out (Aᵀ *ᵥ (A *ᵥ (← mapVec inp c)))
    else do storeVec out (Aᵀ *ᵥ (← mapVec inp r))
  matmat X Y k := do storeMat Y (A * (← mapMat X c k))

/-- `SparseEigenAffineOperator` (`src/primate/include/eigen_operators.h:106-136`): the two matrices and the parameter. -/
structure AffineOp (r c : ℕ) where
  A : Matrix (Fin r) (Fin c) ℝ
  B : Matrix (Fin r) (Fin c) ℝ
  param : ℝ

/-- The constructor (lines 115-120). -/
def AffineOp.init {r c : ℕ} (A B : Matrix (Fin r) (Fin c) ℝ) : AffineOp r c := ⟨A, B, 0⟩

/-- `set_parameter` (lines 134-136). -/
def AffineOp.setParameter {r c : ℕ} (o : AffineOp r c) (t : ℝ) : AffineOp r c := { o with param := t }

/-- `matvec` (lines 123-128). -/
def AffineOp.matvec {r c : ℕ} (o : AffineOp r c) (inp out : Buf ℝ) : Py (Buf ℝ) := do
  storeVec out ((o.A + o.param • o.B) *ᵥ (← mapVec inp c))

/-! ## `PyLinearOperator` -/

/-- A 1-d NumPy array: the block of memory it lives in, the position of its first element, the stride (in elements) and the length. -/
structure NpVec where
  mem : Buf ℝ
  off : ℤ
  stride : ℤ
  size : ℕ

/-- Every element of the array lies in its block of memory. -/
def NpVec.WF (a : NpVec) : Prop := ∀ i : ℕ, i < a.size → 0 ≤ a.off + i * a.stride ∧ a.off + i * a.stride < a.mem.len

/-- `a[i]`, as Python sees it. -/
def NpVec.elem (a : NpVec) (i : ℕ) : ℝ := a.mem.get (a.off + i * a.stride).toNat

/-- What the native code needs of a Python object: the attributes `shape` and `matvec` (`none` when missing); calling `matvec` may
raise. -/
structure MvObj where
  shape : Option (ℕ × ℕ)
  matvec : Option ((ℕ → ℝ) → Py NpVec)

/-- `PyLinearOperator` (`src/primate/include/pylinop.h:17-21`): the copied shape and the method. -/
structure PyLinOp where
  shape : ℕ × ℕ
  matvec : (ℕ → ℝ) → Py NpVec

/-- The constructor (`src/primate/include/pylinop.h:23-29`); `std::invalid_argument` becomes ValueError. -/
def PyLinOp.init (o : MvObj) : Py PyLinOp :=
  match o.matvec with
  | none => .error .value
  | some mv =>
    match o.shape with
    | none => .error .value
    | some s => .ok ⟨s, mv⟩

/-- `std::copy(output.data(), output.data() + m, out)` (`src/primate/include/pylinop.h:39`): `m` consecutive numbers from the first
element on, whatever the stride and the length of the array (`py::array_t< F >` does not require contiguous memory). -/
def copyOut (a : NpVec) (m : ℕ) : Py (List ℝ) := (List.range m).mapM fun i : ℕ => a.mem.read (a.off + i)

/-- `PyLinearOperator::matvec` (`src/primate/include/pylinop.h:32-41`): the input array of length `shape.second` is passed to Python. -/
def PyLinOp.apply (o : PyLinOp) (inp : Buf ℝ) : Py (List ℝ) := do
  let x ← mapVec inp o.shape.2
  let output ← o.matvec fun i => if h : i < o.shape.2 then x ⟨i, h⟩ else 0
  copyOut output o.shape.1

/-- The array overload of `PyLinearOperator::matvec` (`src/primate/include/pylinop.h:59-63`): a vector of zeros with as many entries as the attribute `shape`
says now (`shape()`, lines 65-67, reads it again; `cur`) is passed to the overload above, which writes as many entries as the shape copied by the constructor
says.  `&out[0]` requires an entry.  The length of `input` is not checked. -/
def PyLinOp.applyArray (o : PyLinOp) (cur : ℕ × ℕ) (input : Buf ℝ) : Py (List ℝ) := do
  if cur.1 = 0 then .error .index
  else
    let y ← o.apply input
    if o.shape.1 ≤ cur.1 then .ok (y ++ List.replicate (cur.1 - o.shape.1) 0) else .error .index

end Primate
