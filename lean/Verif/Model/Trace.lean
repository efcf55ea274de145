import Verif.Model.Random
import Verif.Model.Kwargs
import Mathlib.LinearAlgebra.Matrix.Trace

/-!
# Model of `src/primate/trace.py`: hutch and hutchpp
-/

noncomputable section

namespace Primate

/-- What the trace estimators use of a valid square operator: its action on
vectors (matrix products act column by column) and, if present, its `quad`
method.  Simplification: dtypes are not modelled; `quad` is a function (the
statefulness of `MatrixFunction.quad` is modelled separately). -/
structure Operand (N : ℕ) where
  apply : Vec N → Vec N
  quad : Option (Vec N → ℝ)

/-- A dense matrix (`np.ndarray`) as operand: it has no `quad` method. -/
def Operand.ofMatrix {N : ℕ} (A : Matrix (Fin N) (Fin N) ℝ) : Operand N :=
  ⟨A.mulVec, none⟩

/-- `quad_form` on one column (`src/primate/trace.py:97, 144`). -/
def Operand.quadForm {N : ℕ} (A : Operand N) (v : Vec N) : ℝ :=
  match A.quad with
  | some q => q v
  | none => ∑ i, v i * A.apply v i

/-- `EstimatorResult` (`src/primate/estimators.py:79-88`); the message text and
`info` are not modelled. -/
structure EstResult where
  estimator : Option (MeanEst 1)
  criterion : Option Crit
  estimate : NumArr (Fin 1 → ℝ)
  nit : ℕ

/-- `EstimatorResult(estimator, converge)`: the other fields keep their defaults
(`src/primate/estimators.py:83-88`). -/
def EstResult.mk2 (estimator : Option (MeanEst 1)) (criterion : Option Crit) : EstResult :=
  ⟨estimator, criterion, .val fun _ => 0, 0⟩

/-- State of the Monte-Carlo loop: batch sizes requested from the sampler so
far, the estimator, and the estimator at each call of the callback. -/
structure HutchState where
  history : List ℕ
  est : MeanEst 1
  calls : List (MeanEst 1)

/-- The body of the loop (`src/primate/trace.py:108-110, 115`): draw `b`
columns, evaluate the quadratic forms, update, call back. -/
def hutchBody {N : ℕ} (A : Operand N) (pdf : Pdf N) (b : ℕ) (s : HutchState) : Py HutchState :=
  let v := pdf s.history b
  match s.est.update (.vec (List.ofFn fun j => A.quadForm (v j))) with
  | .error e => .error e
  | .ok est => .ok ⟨s.history ++ [b], est, s.calls ++ [est]⟩

/-- `while not converge(estimator): ...` (`src/primate/trace.py:107-110,
114-115`) for at most `fuel` evaluations of the condition; `none` when the fuel
does not suffice. -/
def hutchLoop {N : ℕ} (A : Operand N) (pdf : Pdf N) (b : ℕ) (converge : Crit) :
    ℕ → HutchState → Option (Py HutchState)
  | 0, _ => none
  | fuel + 1, s =>
    match converge.eval s.est.view with
    | .error e => some (.error e)
    | .ok true => some (.ok s)
    | .ok false =>
      match hutchBody A pdf b s with
      | .error e => some (.error e)
      | .ok s' => hutchLoop A pdf b converge fuel s'

/-- The `pdf` argument: a name or a callable. -/
inductive PdfArg (N : ℕ)
  | name (s : String)
  | callable (f : Pdf N)

/-- `pdf = isotropic(pdf=pdf, seed=rng) if isinstance(pdf, str) else pdf`
(`src/primate/trace.py:87, 288`). -/
def PdfArg.resolve {N : ℕ} (rng : Rng) : PdfArg N → Py (Pdf N)
  | .name s => isotropicPdf s rng N
  | .callable f => .ok f

/-- The default criterion of `hutch` (`src/primate/trace.py:89-92`). -/
def hutchDefault (tppf : ℝ → ℕ → ℝ) (zscore : ℝ → ℝ) : Py Crit := do
  let cc2 ← ConfCrit.init tppf zscore 0.95 (some 1.0) (some 0.0)
  return .or (.count 200) (.conf cc2)

/-- The `converge` argument of the estimators: `"default"` or what
`convergence_criterion` accepts (`src/primate/trace.py:89-94`). -/
def hutchCriterion (tppf : ℝ → ℕ → ℝ) (zscore : ℝ → ℝ) (converge : CritArg) (kw : Kwargs) :
    Py Crit :=
  match converge with
  | .str s => if s = "default" then hutchDefault tppf zscore
              else convergenceCriterion tppf zscore (.str s) kw
  | c => convergenceCriterion tppf zscore c kw

/-- What `hutch` returns: a float, or a pair of estimate and result object. -/
inductive HutchOut
  | scalar (estimate : NumArr (Fin 1 → ℝ))
  | pair (estimate : NumArr (Fin 1 → ℝ)) (result : EstResult)

/-- The estimate in what `hutch` returns. -/
def HutchOut.estimate : HutchOut → NumArr (Fin 1 → ℝ)
  | .scalar e => e
  | .pair e _ => e

/-- The result object in what `hutch` returns. -/
def HutchOut.result : HutchOut → Option EstResult
  | .scalar _ => none
  | .pair _ r => some r

/-- Arguments of `hutch` (`src/primate/trace.py:34-43`); `record` is the keyword
popped on line 88, `kw` the remaining keywords, `callback` whether one is given.
Simplification: the callback observes the result object and returns. -/
structure HutchArgs (N : ℕ) where
  A : Operand N
  batch : ℕ
  pdf : PdfArg N
  converge : CritArg
  full : Bool
  callback : Bool
  record : Bool
  kw : Kwargs

/-- `hutch` (`src/primate/trace.py:82-116`), together with the estimator states
at which the callback was called.  `none`: the loop did not finish within `fuel`
checks. -/
def hutch {N : ℕ} (tppf : ℝ → ℕ → ℝ) (zscore : ℝ → ℝ) (rng : Rng) (a : HutchArgs N) (fuel : ℕ) :
    Option (Py (HutchOut × List (MeanEst 1))) :=
  match a.pdf.resolve rng with
  | .error e => some (.error e)
  | .ok pdf =>
    let estimator := MeanEst.init 1 true a.record
    match hutchCriterion tppf zscore a.converge a.kw with
    | .error e => some (.error e)
    | .ok converge =>
      if N = 0 then
        if a.full then
          some (.ok (.pair (.val fun _ => 0) (.mk2 (some estimator) (some converge)), []))
        else some (.ok (.scalar (.val fun _ => 0), []))
      else if a.full || a.callback then
        match hutchLoop a.A pdf a.batch converge fuel ⟨[], estimator, []⟩ with
        | none => none
        | some (.error e) => some (.error e)
        | some (.ok s) =>
          some (.ok (.pair s.est.estimate (.mk2 (some s.est) (some converge)),
            if a.callback then s.calls else []))
      else
        match hutchLoop a.A pdf 1 converge fuel ⟨[], estimator, []⟩ with
        | none => none
        | some (.error e) => some (.error e)
        | some (.ok s) => some (.ok (.scalar s.est.estimate, []))

/-! ## hutchpp -/

/-- Number of deflation samples (`src/primate/trace.py:151-152`). -/
def hutchppNb (N : ℕ) (m : Option ℤ) : ℤ :=
  let nb := m.getD ((N / 3 : ℕ) : ℤ)
  nb + nb % 3

/-- What `hutchpp` returns; the result object is represented by the three
attributes that are set. -/
inductive HutchppOut
  | scalar (estimate : ℝ)
  | pair (estimate : ℝ) (resEstimate : ℝ) (nit : ℤ) (samples : List ℝ)

def HutchppOut.estimate : HutchppOut → ℝ
  | .scalar e => e
  | .pair e _ _ _ => e

/-- Lines 157-182 of `src/primate/trace.py` for the sketch vectors `WB` and the
residual vectors `G` (given by columns), with `nb >= 1` of each.  `qr` stands for
`np.linalg.qr(., mode="reduced")[0]`; `qr Y` has `min(N, nb)` columns.  The
contractions `"...i,...i->..."` on lines 166 and 172 sum over the columns, one
value per row. -/
def hutchppCore {N nb : ℕ} (qr : (Fin nb → Vec N) → Fin (min N nb) → Vec N) (A : Operand N)
    (modeFull full : Bool) (WB G : Fin nb → Vec N) : HutchppOut :=
  let Q := qr fun j => A.apply (WB j)
  let rng_ests : List ℝ :=
    if modeFull then List.ofFn fun i : Fin N => ∑ j, A.apply (Q j) i * Q j i
    else List.ofFn fun j => A.quadForm (Q j)
  let tr_rng := rng_ests.sum
  let G' : Fin nb → Vec N := fun j i => G j i - ∑ l, Q l i * ∑ p, Q l p * G j p
  let defl_ests : List ℝ := List.ofFn fun i : Fin N => ∑ j, A.apply (G' j) i * G' j i
  let tr_defl := (1 / (nb : ℝ)) * defl_ests.sum
  if full then .pair (tr_rng + tr_defl) (tr_rng + tr_defl) (2 * nb) (rng_ests ++ defl_ests)
  else .scalar (tr_rng + tr_defl)

/-- `hutchpp` (`src/primate/trace.py:135-182`).  `isotropic` is called even for a
callable `pdf` (line 140), which fails its assertion; `modeFull` is
`mode == "full"`.  A negative number of columns makes `np.empty` raise
ValueError; with zero columns line 173 divides by zero (for a dense or sparse matrix; a
`LinearOperator` without its own `_matmat` already raises ValueError on line 158, where
`np.hstack` gets an empty list).  For `N = 0` and `full` the result object has no attribute `samples`. -/
def hutchpp {N : ℕ} (qr : ∀ nb, (Fin nb → Vec N) → Fin (min N nb) → Vec N) (rng : Rng)
    (A : Operand N) (m : Option ℤ) (modeFull : Bool) (pdf : PdfArg N) (full : Bool) :
    Py HutchppOut :=
  match pdf with
  | .callable _ => .error .assertion
  | .name s =>
    match isotropicPdf s rng N with
    | .error e => .error e
    | .ok pdf =>
      if N = 0 then .ok (if full then .pair 0 0 0 [] else .scalar 0)
      else
        let nb := hutchppNb N m
        if nb < 0 then .error .value
        else if nb = 0 then .error .zeroDivision
        else .ok (hutchppCore (qr nb.toNat) A modeFull full (pdf [] nb.toNat)
          (pdf [nb.toNat] nb.toNat))

end Primate
