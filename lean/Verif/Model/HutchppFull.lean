import Verif.Model.Trace

/-!
# The result object of `hutchpp`

`hutchppCore` in `Model/Trace.lean` takes the values of `quad_form` to be numbers.  `MatrixFunction.quad` returns an array of length one for a
single vector (`src/primate/operators.py:139-150`); here the shape is taken into account.
-/

noncomputable section

namespace Primate

/-- What `A.quad(q)` returns for a single vector: a number, or an array of shape `(1,)`. -/
inductive QuadShape
  | number
  | array1
  deriving DecidableEq

/-- Lines 157-182 of `src/primate/trace.py` with the shape of `rng_ests`.  With `mode != "full"` and an operand whose `quad` returns arrays of
length one, `rng_ests` has shape `(r, 1)`: its sum is the same number, but `np.concatenate([rng_ests, defl_ests])` with the one-dimensional
`defl_ests` raises ValueError.  Without a `quad` method `quad_form(q)` is a number (lines 144, 166). -/
def hutchppCoreShaped {N nb : ℕ} (qr : (Fin nb → Vec N) → Fin (min N nb) → Vec N) (A : Operand N) (shape : QuadShape)
    (modeFull full : Bool) (WB G : Fin nb → Vec N) : Py HutchppOut :=
  if full && !modeFull && A.quad.isSome && decide (shape = .array1) then .error .value
  else .ok (hutchppCore qr A modeFull full WB G)

/-- `hutchpp` (`src/primate/trace.py:135-182`) as in `Model/Trace.lean`, with the shape of `rng_ests`. -/
def hutchppShaped {N : ℕ} (qr : ∀ nb, (Fin nb → Vec N) → Fin (min N nb) → Vec N) (rng : Rng)
    (A : Operand N) (shape : QuadShape) (m : Option ℤ) (modeFull : Bool) (pdf : PdfArg N) (full : Bool) :
    Py HutchppOut :=
  match pdf with
  | .callable _ => .error .assertion
  | .name s =>
    match isotropicPdf s rng N with
    | .error e => .error e
    | .ok pdf =>
      if N = 0 then .ok (if full then .pair 0 0 0 [] else .scalar 0)
      else
        let nb := hutchppNb N m
        if nb < 0 then .error .value
        else if nb = 0 then .error .zeroDivision
        else hutchppCoreShaped (qr nb.toNat) A shape modeFull full (pdf [] nb.toNat) (pdf [nb.toNat] nb.toNat)

end Primate
