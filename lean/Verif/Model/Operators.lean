import Verif.Model.MatrixFunction
import Verif.Model.Special

/-!
# Model of the validation code in `src/primate/operators.py`, of the full constructor of `MatrixFunction` and of `normalize_unit`
-/

noncomputable section

namespace Primate

/-- The value of an attribute `dtype`: a NumPy dtype, or something without an attribute `type` (`None`, a scalar class such as
`np.float64`). -/
inductive DtypeAttr
  | float32
  | float64
  | otherDtype
  | notDtype
  deriving DecidableEq

/-- What the validation functions can see of a Python object: which product methods it has, its `shape` (a tuple of integers) and
`dtype` if there are such attributes, and the dtype of `A @ np.zeros(A.shape[1])` (or the exception it raises). -/
structure PyObj where
  hasMatmulOp : Bool
  hasMatmul : Bool
  hasDot : Bool
  hasMatvec : Bool
  shape : Option (List ℕ)
  dtype : Option DtypeAttr
  prodDtype : Py DtypeAttr

/-- `any(attr_checks)` (`src/primate/operators.py:16-17, 28-30`). -/
def PyObj.hasProduct (A : PyObj) : Bool := A.hasMatmulOp || A.hasMatmul || A.hasDot || A.hasMatvec

/-- `A.shape[i]`. -/
def PyObj.shapeAt (A : PyObj) (i : ℕ) : Py ℕ :=
  match A.shape with
  | none => .error .attribute
  | some s => match s[i]? with
    | none => .error .index
    | some d => .ok d

/-- `f_dtype.type in {np.float32, np.float64}` (`src/primate/operators.py:22`). -/
def DtypeAttr.isFloat : DtypeAttr → Py Bool
  | .float32 => .ok true
  | .float64 => .ok true
  | .otherDtype => .ok false
  | .notDtype => .error .attribute

/-- `is_valid_operator(A)` (`src/primate/operators.py:15-23`). -/
def isValidOperator (A : PyObj) : Py DtypeAttr :=
  if !A.hasProduct then .error .assertion
  else match A.shape with
    | none => .error .assertion
    | some s =>
      if s.length < 2 then .error .assertion
      else if s.getD 0 0 ≠ s.getD 1 0 then .error .assertion
      else
        match (match A.dtype with
          | none => A.prodDtype
          | some d => .ok d) with
        | .error er => .error er
        | .ok d => match d.isFloat with
          | .error er => .error er
          | .ok false => .error .assertion
          | .ok true => .ok d

/-- `is_linear_op(A)` (`src/primate/operators.py:26-33`): the comparison on line 32 is evaluated whatever came before. -/
def isLinearOp (A : PyObj) : Py Bool :=
  let ok1 := A.hasProduct
  let ok2 := ok1 && (match A.shape with
    | none => false
    | some s => decide (2 ≤ s.length))
  match A.shapeAt 0 with
  | .error er => .error er
  | .ok s0 => match A.shapeAt 1 with
    | .error er => .error er
    | .ok s1 => .ok (ok2 && decide (s0 = s1))

/-! ## MatrixFunction -/

/-- What a call `value(np.ones(m))` returns: an exception, an object that is no array, or an array of some shape. -/
inductive CallOut
  | raises (er : PyErr)
  | notArray
  | array (shape : List ℕ)

/-- The argument `fun` of the constructor: absent, a name, a callable (described by what it returns on the array of `m` ones, and by its
values), or another object. -/
inductive MFFun
  | none
  | str (s : String)
  | callable (onOnes : ℕ → CallOut) (f : ℝ → Fl)
  | other

/-- The callable an argument stands for (`src/primate/operators.py:65-66`); `none` in the result: the object is not callable.  The builtin
functions act entry by entry. -/
def MFFun.resolve (fun_ : MFFun) (kw : String → Option ℝ) : Py (Option ((ℕ → CallOut) × (ℝ → Fl))) :=
  match fun_ with
  | .none => .ok (some (fun m => .array [m], Fl.fin))
  | .str s => match paramCallable (.str s) kw with
    | .error er => .error er
    | .ok f => .ok (some (fun m => .array [m], f))
  | .callable o f => .ok (some (o, f))
  | .other => .ok Option.none

/-- The setter of `fun` (`src/primate/operators.py:92-97`). -/
def checkFun (s0 s1 : ℕ) : Option ((ℕ → CallOut) × (ℝ → Fl)) → Py (ℝ → Fl)
  | none => .error .assertion
  | some (o, f) => match o s1 with
    | .raises er => .error er
    | .notArray => .error .assertion
    | .array sh => match sh.getLast? with
      | none => .error .index
      | some d => if d = s0 then .ok f else .error .assertion

/-- The attributes set by the constructor. -/
structure MFAttrs where
  f : ℝ → Fl
  deg : ℕ
  alphaLen : ℕ
  betaLen : ℕ
  nodesLen : ℕ
  weightsLen : ℕ
  qRows : ℕ
  qCols : ℕ
  orth : ℤ
  rtol : ℝ

/-- `MatrixFunction.__init__` (`src/primate/operators.py:55-81`) with `dtype` float64. -/
def mfConstruct (A : PyObj) (fun_ : MFFun) (deg orth : ℤ) (kw : String → Option ℝ) : Py MFAttrs :=
  match isLinearOp A with
  | .error er => .error er
  | .ok false => .error .assertion
  | .ok true =>
    if ¬ deg ≥ 2 then .error .assertion
    else
      match fun_.resolve kw with
      | .error er => .error er
      | .ok g =>
        match A.shapeAt 0 with
        | .error er => .error er
        | .ok s0 => match A.shapeAt 1 with
          | .error er => .error er
          | .ok s1 => match checkFun s0 s1 g with
            | .error er => .error er
            | .ok f =>
              let k := (min deg (s0 : ℤ)).toNat
              .ok ⟨f, k, k + 1, k + 1, k, k, s0, k, if orth < 0 ∨ orth > k then k else orth, 1e-8⟩

/-! ## normalize_unit -/

/-- `normalize_unit(A, interval)` (`src/primate/operators.py:186-193`) for an operator of size `n`: the operator returned.  `alpha` is what
`eigsh(A, k=1, which="LM")` returns; ARPACK needs `k < n`, otherwise TypeError.  Division of an operator by a number
multiplies with its inverse, computed by Python's `1.0 / x`. -/
def normalizeUnit {n : ℕ} (A : Vec n → Vec n) (alpha : ℝ) (_interval : ℝ × ℝ) : Py (Vec n → Vec n) :=
  if n ≤ 1 then .error .type
  else if 2 * alpha = 0 then .error .zeroDivision
  else .ok fun x => (1 / (2 * alpha)) • (A x + alpha • x)

end Primate
