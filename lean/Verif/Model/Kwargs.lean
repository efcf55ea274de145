import Mathlib.Algebra.Order.Archimedean.Real.Basic
import Verif.Model.Estimators

/-!
# Model of `src/primate/typing.py` and of `convergence_criterion`
(`src/primate/estimators.py:336-354`)
-/

noncomputable section

namespace Primate

/-- Values of keyword arguments, as far as the modelled code looks at them. -/
inductive KwVal
  | int (z : ℤ)
  | float (r : ℝ)
  | inf
  | none
  | str (s : String)
  | other

/-- A keyword dictionary: insertion-ordered key/value pairs.  Python guarantees
that keys are distinct; theorems assume `(kw.map Prod.fst).Nodup`. -/
abbrev Kwargs (α : Type := KwVal) := List (String × α)

/-- `restrict_kwargs` (`src/primate/typing.py:5-8`); `params` are the names in
`inspect.signature(fun).parameters`. -/
def restrictKwargs {α : Type} (params : List String) (kw : Kwargs α) : Kwargs α :=
  kw.filter fun kv => kv.1 ∈ params

/-- `setdiff_kwargs` (`src/primate/typing.py:11-14`).  Python iterates over a
set, so the order of the result is unspecified; here it is that of `kw`. -/
def setdiffKwargs {α : Type} (params : List String) (kw : Kwargs α) : Kwargs α :=
  ((kw.map Prod.fst).filter fun k => k ∉ params).filterMap fun k => (kw.lookup k).map fun v => (k, v)

/-- The classes in `CRITERIA` (`src/primate/estimators.py:336-341`). -/
inductive CritClass
  | count
  | tolerance
  | confidence
  | knee
  deriving DecidableEq

/-- `CRITERIA` as a dictionary (`src/primate/estimators.py:336-341`). -/
def CRITERIA : List (String × CritClass) :=
  [("count", .count), ("tolerance", .tolerance), ("confidence", .confidence), ("knee", .knee)]

/-- Constructor parameters with defaults (`none` = required)
(`src/primate/estimators.py:210, 222-224, 249, 303`). -/
def CritClass.signature : CritClass → List (String × Option KwVal)
  | .count => [("count", .none)]
  | .tolerance => [("rtol", some (.float 0.01)), ("atol", some (.float 1.49e-08)),
      ("ord", some (.float 2))]
  | .confidence => [("confidence", some (.float 0.95)), ("atol", some (.float 0)),
      ("rtol", some (.float 0.01))]
  | .knee => [("S", some (.float 1))]

/-- Binding of one parameter of a call `f(**kw)`. -/
def bindParam (kw : Kwargs) (name : String) (dflt : Option KwVal) : Py KwVal :=
  match kw.lookup name with
  | some v => .ok v
  | none =>
    match dflt with
    | some v => .ok v
    | none => .error .type

/-- A number passed as an argument.  Simplification: a value of another type is
reported as TypeError at construction; the code stores it unchecked and fails
when the criterion is called.  So is an infinite value, with which the code works. -/
def KwVal.toReal : KwVal → Py ℝ
  | .int z => .ok z
  | .float r => .ok r
  | _ => .error .type

/-- As `toReal`, but `None` is allowed (`src/primate/estimators.py:251-252`). -/
def KwVal.toOptReal : KwVal → Py (Option ℝ)
  | .none => .ok Option.none
  | v => v.toReal.map some

/-- The `count` argument.  The code stores it and only compares `n_samples >= count`, so a float `r` acts like the integer `⌈r⌉`.
Simplification: a value of another type is reported as TypeError at construction, as in `toReal`. -/
def KwVal.toInt : KwVal → Py ℤ
  | .int z => .ok z
  | .float r => .ok ⌈r⌉
  | _ => .error .type

open Classical in
/-- The `ord` argument. Simplification: see `NormOrd`. -/
def KwVal.toOrd : KwVal → Py NormOrd
  | .none => .ok .none
  | .inf => .ok .inf
  | .str _ => .ok .str
  | .int z => if z = 2 then .ok .two else if z = 1 then .ok .one else .error .type
  | .float r => if r = 2 then .ok .two else if r = 1 then .ok .one else .error .type
  | .other => .error .type

/-- `crit(**kw)` for a class in `CRITERIA`; an unexpected keyword raises
TypeError. -/
def CritClass.construct (tppf : ℝ → ℕ → ℝ) (zscore : ℝ → ℝ) (cls : CritClass) (kw : Kwargs) :
    Py Crit :=
  if kw.any fun kv => (cls.signature.lookup kv.1).isNone then .error .type
  else do
    let arg := fun name => bindParam kw name ((cls.signature.lookup name).getD .none)
    match cls with
    | .count =>
      let c ← (← arg "count").toInt
      return .count c
    | .tolerance =>
      let rtol ← (← arg "rtol").toReal
      let atol ← (← arg "atol").toReal
      let ord ← (← arg "ord").toOrd
      return .tol rtol atol ord
    | .confidence =>
      let confidence ← (← arg "confidence").toReal
      let atol ← (← arg "atol").toOptReal
      let rtol ← (← arg "rtol").toOptReal
      let c ← ConfCrit.init tppf zscore confidence atol rtol
      return .conf c
    | .knee =>
      let S ← (← arg "S").toReal
      return .knee S

/-- The `criterion` argument: a criterion object, a string, or anything else. -/
inductive CritArg
  | obj (c : Crit)
  | str (s : String)
  | other

/-- `str.lower`.  Simplification: only ASCII letters are lower-cased. -/
def pyLower (s : String) : String := String.ofList (s.toList.map Char.toLower)

/-- `convergence_criterion` (`src/primate/estimators.py:346-354`). -/
def convergenceCriterion (tppf : ℝ → ℕ → ℝ) (zscore : ℝ → ℝ) (criterion : CritArg)
    (kw : Kwargs) : Py Crit :=
  match criterion with
  | .obj c => .ok c
  | .other => .error .assertion
  | .str s =>
    match CRITERIA.lookup (pyLower s) with
    | none => .error .assertion
    | some cls => cls.construct tppf zscore (restrictKwargs (cls.signature.map Prod.fst) kw)

end Primate
