import Verif.Model.Estimators

/-!
# Model of `arr_summary` and of the `message` methods (`src/primate/estimators.py`)

A message is a list of pieces: literal text and formatted values.  The digits printed for a number are not modelled.
-/

noncomputable section

namespace Primate

/-- A piece of a message. -/
inductive MsgTok
  | lit (s : String)
  /-- a number printed with `:.3f`, `:3f`, `:.0f` or by `np.array2string` -/
  | num (x : Fl)
  /-- an integer -/
  | int (n : ℕ)
  /-- the norm order, printed with `str` -/
  | ord (o : NormOrd)

/-- Entry `i` of an array. -/
def NumArr.entry {d : ℕ} (x : NumArr (Fin d → ℝ)) (i : Fin d) : Fl :=
  match x with
  | .val a => .fin (a i)
  | .inf => .pinf
  | .nan => .nan

/-- Numbers separated by commas: what `np.array2string(x, separator=",")` prints between the brackets for at most three numbers. -/
def commaSep : List Fl → List MsgTok
  | [] => []
  | [x] => [.num x]
  | x :: y :: l => .num x :: .lit "," :: commaSep (y :: l)

/-- `arr_summary(x)` for a 1-d array of length `d`, or a scalar when `d = 1` (`src/primate/estimators.py:18-31`).  The case `x is None` does not occur: the
estimates of the modelled estimators are numbers or arrays. -/
def arrSummary {d : ℕ} (x : NumArr (Fin d → ℝ)) : List MsgTok :=
  if h1 : d = 1 then [.num (x.entry ⟨0, by omega⟩)]
  else if d ≤ 3 then .lit "[" :: (commaSep (List.ofFn x.entry) ++ [.lit "]"])
  else .lit "[" :: (commaSep ((List.ofFn x.entry).take 2) ++ .lit ",...," :: (commaSep ((List.ofFn x.entry).drop (d - 1)) ++ [.lit "]"]))

/-- `arr_summary(est.estimate)`: before the first sample the estimate is the scalar NaN whatever the dimension
(`src/primate/stats.py:13-21`, `src/primate/estimators.py:118-124`), so one number is printed. -/
def estSummary {d : ℕ} (len : ℕ) (x : NumArr (Fin d → ℝ)) : List MsgTok :=
  match x, len with
  | .nan, 0 => arrSummary (.nan : NumArr (Fin 1 → ℝ))
  | x, _ => arrSummary x

/-- `CountCriterion.message` (`src/primate/estimators.py:216-218`). -/
def countMessage {d : ℕ} (est : EstView d) : Py (List MsgTok) := do
  let e ← est.estimate
  return .lit "Est: " :: (estSummary est.len e ++ [.lit " (#S:", .int est.len, .lit ")"])

/-- `np.linalg.norm(np.atleast_1d(est.delta), ord)` (`src/primate/estimators.py:240`): a scalar delta becomes an array of length one. -/
def deltaNorm1 {d : ℕ} (ord : NormOrd) (x : DeltaVal d) : Py Fl :=
  match x with
  | .arr a => arrNorm ord a
  | .scalarInf => arrNorm ord (.inf : NumArr (Fin 1 → ℝ))

/-- `ToleranceCriterion.message` (`src/primate/estimators.py:236-243`). -/
def toleranceMessage {d : ℕ} (rtol atol : ℝ) (ord : NormOrd) (est : EstView d) : Py (List MsgTok) := do
  let e ← est.estimate
  let msg := .lit "Est: " :: estSummary est.len e
  let msg := msg ++ [.lit "(atol=", .num (.fin atol), .lit ", rtol=", .num (.fin rtol), .lit ", #S:", .int est.len, .lit ")"]
  let error ← deltaNorm1 ord est.delta
  let norm ← arrNorm ord e
  return msg ++ [.lit "\nnorm(it - est, ", .ord ord, .lit ") = ", .num error, .lit ", norm(est, ", .ord ord, .lit ") = ", .num norm]

/-- `ConfidenceCriterion._error(est)` followed by the formatting `f"{moe:.3f}"` (`src/primate/estimators.py:280-288, 297-298`): for
estimators of dimension other than one the margin is a `dim x dim` array, which the format `.3f` rejects with TypeError. -/
def ConfCrit.formatError {d : ℕ} (c : ConfCrit) (est : EstView d) : Py Fl :=
  if est.nSamples < 3 then .ok .pinf
  else if d = 1 then (c.error est).map Prod.fst
  else
    match est.cov with
    | none => .error .attribute
    | some cov => do
      let _ ← cov.covariance 1
      let _ ← est.estimate
      .error .type

/-- `ConfidenceCriterion.message` (`src/primate/estimators.py:295-299`). -/
def ConfCrit.message {d : ℕ} (c : ConfCrit) (est : EstView d) : Py (List MsgTok) := do
  let e ← est.estimate
  let moe ← c.formatError est
  return .lit "Est: " :: (estSummary est.len e ++
    [.lit " +/- ", .num moe, .lit " (", .num (.fin (c.confidence * 100)), .lit "% CI, #S:", .int est.len, .lit ")"])

/-- `KneeCriterion.message` (`src/primate/estimators.py:329-333`). -/
def kneeMessage {d : ℕ} (S : ℝ) (est : EstView d) : Py (List MsgTok) := do
  let e ← est.estimate
  return .lit "Est: " :: (estSummary est.len e ++ [.lit " (#S:", .int est.len, .lit ", S=", .num (.fin S), .lit ")"])

/-- `message` of any criterion; composites and user operations inherit `ConvergenceCriterion.message`
(`src/primate/estimators.py:75-76`). -/
def Crit.message {d : ℕ} (est : EstView d) : Crit → Py (List MsgTok)
  | .count _ => countMessage est
  | .tol rtol atol ord => toleranceMessage rtol atol ord est
  | .conf c => c.message est
  | .knee S => kneeMessage S est
  | .custom _ => .ok [.lit "Composite convergence criterion"]
  | .or _ _ => .ok [.lit "Composite convergence criterion"]
  | .and _ _ => .ok [.lit "Composite convergence criterion"]
  | .not _ => .ok [.lit "Composite convergence criterion"]

end Primate
