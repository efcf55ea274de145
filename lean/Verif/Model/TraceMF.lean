import Verif.Model.Trace
import Verif.Model.MatrixFunction

/-!
# Model of `hutch` applied to a `MatrixFunction` (stochastic Lanczos quadrature)

The model in `Verif.Model.Trace` takes the quadratic form to be a function.  `MatrixFunction.quad` changes the object it is called on; here the
state of the object is carried through the loop.
-/

noncomputable section

namespace Primate

/-- The numbers in a list without NaN. -/
def allSome : List (Option ℝ) → Option (List ℝ)
  | [] => some []
  | none :: _ => none
  | some y :: ys => (allSome ys).map (y :: ·)

/-- The body of the loop of `hutch` (`src/primate/trace.py:108-110, 115`) for an operator with a `quad` method, here `MatrixFunction.quad`
(`src/primate/operators.py:126-151`).  The inner `none`: a sample is NaN, after which the run is not modelled. -/
def hutchMFBody {N : ℕ} (K : TriKernels) (eps : ℝ) (qfuel : ℕ) (pdf : Pdf N) (b : ℕ) (M : MF N) (s : HutchState) :
    Option (Py (Option (MF N × HutchState))) :=
  match M.quad K eps qfuel (List.ofFn (pdf s.history b)) with
  | none => none
  | some (.error e) => some (.error e)
  | some (.ok (M', ys)) =>
    match allSome ys with
    | none => some (.ok none)
    | some ys =>
      match s.est.update (.vec ys) with
      | .error e => some (.error e)
      | .ok est => some (.ok (some (M', ⟨s.history ++ [b], est, s.calls ++ [est]⟩)))

/-- The loop of `hutch` (`src/primate/trace.py:107-110, 114-115`). -/
def hutchMFLoop {N : ℕ} (K : TriKernels) (eps : ℝ) (qfuel : ℕ) (pdf : Pdf N) (b : ℕ) (converge : Crit) :
    ℕ → MF N → HutchState → Option (Py (Option (MF N × HutchState)))
  | 0, _, _ => none
  | fuel + 1, M, s =>
    match converge.eval s.est.view with
    | .error e => some (.error e)
    | .ok true => some (.ok (some (M, s)))
    | .ok false =>
      match hutchMFBody K eps qfuel pdf b M s with
      | none => none
      | some (.error e) => some (.error e)
      | some (.ok none) => some (.ok none)
      | some (.ok (some (M', s'))) => hutchMFLoop K eps qfuel pdf b converge fuel M' s'

/-- `hutch` (`src/primate/trace.py:82-116`) applied to a `MatrixFunction`: the object afterwards, the value returned, and the calls of the
callback.  The operator is `M`; the field `A` of the arguments is not used. -/
def hutchMF {N : ℕ} (tppf : ℝ → ℕ → ℝ) (zscore : ℝ → ℝ) (rng : Rng) (K : TriKernels) (eps : ℝ) (qfuel : ℕ) (M : MF N)
    (a : HutchArgs N) (fuel : ℕ) : Option (Py (Option (MF N × HutchOut × List (MeanEst 1)))) :=
  match a.pdf.resolve rng with
  | .error e => some (.error e)
  | .ok pdf =>
    let estimator := MeanEst.init 1 true a.record
    match hutchCriterion tppf zscore a.converge a.kw with
    | .error e => some (.error e)
    | .ok converge =>
      if N = 0 then
        if a.full then
          some (.ok (some (M, .pair (.val fun _ => 0) (.mk2 (some estimator) (some converge)), [])))
        else some (.ok (some (M, .scalar (.val fun _ => 0), [])))
      else if a.full || a.callback then
        match hutchMFLoop K eps qfuel pdf a.batch converge fuel M ⟨[], estimator, []⟩ with
        | none => none
        | some (.error e) => some (.error e)
        | some (.ok none) => some (.ok none)
        | some (.ok (some (M', s))) =>
          some (.ok (some (M', .pair s.est.estimate (.mk2 (some s.est) (some converge)),
            if a.callback then s.calls else [])))
      else
        match hutchMFLoop K eps qfuel pdf 1 converge fuel M ⟨[], estimator, []⟩ with
        | none => none
        | some (.error e) => some (.error e)
        | some (.ok none) => some (.ok none)
        | some (.ok (some (M', s))) => some (.ok (some (M', .scalar s.est.estimate, [])))

end Primate
