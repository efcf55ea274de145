import Verif.Model.Lanczos

/-!
# Model of the binding `_lanczos.lanczos` (`src/primate/_lanczos.cpp:85-113`): overload resolution and argument conversion

The rules modelled are those of pybind11 2.x: all overloads are tried in the order of their definition, first without implicit
conversions and then with them.  An array argument `py::array_t<F, f_style | forcecast>` is taken as it is if it has the element type
`F`, and is otherwise accepted in the second pass only, as a converted copy; what the native code writes to such a copy is lost.
Element types other than the two floating point types, and non-contiguous arrays, are not modelled.
-/

noncomputable section

namespace Primate

/-- Element types: `float` / float32 and `double` / float64. -/
inductive Prec
  | f32
  | f64
  deriving DecidableEq

/-- The operand as the binding sees it: a two-dimensional NumPy array, a SciPy sparse matrix, or another Python object. -/
inductive OperandKind
  | dense
  | sparse
  | object
  deriving DecidableEq

/-- The arguments whose types matter; `rtolFloat`: the tolerance is a Python `float` (`np.float64` is one; `int` and
`np.float32` are not). -/
structure CallTypes where
  A : OperandKind × Prec
  v : Prec
  rtolFloat : Bool
  alpha : Prec
  beta : Prec
  Q : Prec

/-- Loading `A` as `DenseMatrix<F>`, `Eigen::SparseMatrix<F>` or `py::object`.  The dense caster wants an array of the right element type in
the first pass and any array in the second; the sparse caster passes everything but a `csc_matrix` to `scipy.sparse.csc_matrix`, in both
passes, which succeeds for arrays and sparse matrices of any element type. -/
def loadOperand (want : OperandKind) (F : Prec) (A : OperandKind × Prec) (convert : Bool) : Bool :=
  match want with
  | .dense => decide (A.1 = .dense) && (convert || decide (A.2 = F))
  | .sparse => decide (A.1 = .dense) || decide (A.1 = .sparse)
  | .object => true

/-- Loading an array argument. -/
def loadArray (F p : Prec) (convert : Bool) : Bool := convert || decide (p = F)

/-- Loading a `const F` from the tolerance. -/
def loadTol (isFloat convert : Bool) : Bool := convert || isFloat

/-- Whether an overload accepts a call (`src/primate/_lanczos.cpp:88-92`).  The integer arguments are accepted in both passes. -/
def accepts (o : OperandKind × Prec) (c : CallTypes) (convert : Bool) : Bool :=
  loadOperand o.1 o.2 c.A convert && loadArray o.2 c.v convert && loadTol c.rtolFloat convert &&
    loadArray o.2 c.alpha convert && loadArray o.2 c.beta convert && loadArray o.2 c.Q convert

/-- The overloads in the order of their definition (`src/primate/_lanczos.cpp:104-111`). -/
def overloads : List (OperandKind × Prec) :=
  [(.dense, .f32), (.dense, .f64), (.sparse, .f32), (.sparse, .f64), (.object, .f32), (.object, .f64)]

/-- The overload that is called: two passes over the list. -/
def resolve (c : CallTypes) : Option (OperandKind × Prec) :=
  match overloads.find? fun o => accepts o c false with
  | some o => some o
  | none => overloads.find? fun o => accepts o c true

/-- An output array of element type `p` after a call of the overload for `F`: a converted copy is discarded. -/
def written {α : Type} (F p : Prec) (before after : Buf α) : Buf α := if p = F then after else before

/-- The types chosen by `lanczos`: `adtype` is the element type of `A` (`f_dtype`, `src/primate/lanczos.py:84`), `dtype` the argument,
`qtype` the element type of an array passed as `Q`; `A @ np.zeros(n)` is taken to be float64, as for every NumPy array and SciPy sparse
matrix, because `np.zeros` is (`src/primate/lanczos.py:80`). -/
structure LanczosTypes where
  kind : OperandKind
  adtype : Prec
  dtype : Option Prec
  rtolFloat : Bool
  qtype : Option Prec

/-- The types of the call made in `src/primate/lanczos.py:107` (see lines 80, 84, 93-103). -/
def LanczosTypes.call (t : LanczosTypes) : CallTypes :=
  { A := (t.kind, t.adtype)
    v := t.dtype.getD .f64
    rtolFloat := t.rtolFloat
    alpha := t.adtype
    beta := t.adtype
    Q := t.qtype.getD t.adtype }

/-- `lanczos` (`src/primate/lanczos.py:77-117`) with the element types in view.  Rounding is not modelled: the native code computes
the same numbers in both precisions.  No overload at all: TypeError. -/
def lanczosTyped {n : ℕ} (eps : ℝ) (t : LanczosTypes) (a : LanczosArgs n) : Py (TriOut × Option (Buf (Vec n))) :=
  let deg := lanczosDeg n a.deg
  if deg ≤ 0 then .error .assertion
  else
    let orth := lanczosOrth deg a.orth
    let ncv := lanczosNcv deg orth a.return_basis
    let alpha := a.alpha.getD (Buf.zeros (deg + 1).toNat)
    let beta := a.beta.getD (Buf.zeros (deg + 1).toNat)
    let Q := a.Q.getD (Buf.zeros ncv.toNat)
    if (alpha.len : ℤ) ≠ deg + 1 then .error .assertion
    else if (beta.len : ℤ) ≠ deg + 1 then .error .assertion
    else if (Q.len : ℤ) ≠ ncv then .error .assertion
    else
      match resolve t.call with
      | none => .error .type
      | some (_, F) =>
        match lanczosNative a.A eps a.v0 deg a.rtol orth alpha beta Q with
        | .error e => .error e
        | .ok s =>
          let alpha := written F t.call.alpha alpha s.alpha
          let beta := written F t.call.beta beta s.beta
          let Q := written F t.call.Q Q s.Q
          let basis := if a.return_basis then some Q else none
          if a.sparse_mat then
            .ok (.sparse deg.toNat (spdiags3 (rollLeft beta) alpha beta), basis)
          else
            .ok (.arrays ((List.range deg.toNat).map alpha.get)
              ((List.range (deg.toNat - 1)).map fun i => beta.get (i + 1)), basis)

end Primate
