import Verif.Model.RandomFl
import Verif.Model.Trace

/-!
# Model of `hutchpp` with rounding

`src/primate/trace.py:118-182` with the rounding of the element type after every operation.  The orders in which NumPy evaluates products of arrays, contractions and sums
are not specified, so the results of these kernels are parameters; they may depend on the call and on the row and column of the result.  Simplification: overflow and
underflow are not represented.
-/

noncomputable section

namespace Primate

/-- The operations: rounding; `A @ X` for column `j` of the array in the `t`-th product; the `quad` method, if there is one; the inner product that gives entry `(i, j)` of
the `t`-th contraction or product of arrays; the `t`-th call of `np.sum`. -/
structure HppKernels (N : ℕ) where
  fl : ℝ → ℝ
  mv : ℕ → ℕ → Vec N → Vec N
  quad : Option (Vec N → ℝ)
  dot : ℕ → ℕ → ℕ → (n : ℕ) → Vec n → Vec n → ℝ
  sum : ℕ → List ℝ → ℝ

/-- `quad_form(q)` for the `l`-th column `q` of `Q` (`src/primate/trace.py:144, 166`). -/
def HppKernels.quadForm {N : ℕ} (K : HppKernels N) (l : ℕ) (q : Vec N) : ℝ :=
  match K.quad with
  | some f => f q
  | none => K.dot 0 l 0 N q (K.mv 1 l q)

/-- `G - Q @ (Q.T @ G)` for the `j`-th column `g` of `G` (`src/primate/trace.py:171`). -/
def HppKernels.project {N r : ℕ} (K : HppKernels N) (Q : Fin r → Vec N) (j : ℕ) (g : Vec N) : Vec N :=
  let C : Vec r := fun l => K.dot 1 l j N (Q l) g
  fun i => K.fl (g i - K.dot 2 i j r (fun l => Q l i) C)

/-- Lines 157-182 of `src/primate/trace.py`, as `hutchppCore` in `Model/Trace.lean`. -/
def hutchppCoreFl {N nb : ℕ} (K : HppKernels N) (qr : (Fin nb → Vec N) → Fin (min N nb) → Vec N) (modeFull full : Bool) (WB G : Fin nb → Vec N) : HutchppOut :=
  let Q := qr fun j => K.mv 0 j (WB j)
  let rng_ests : List ℝ :=
    if modeFull then List.ofFn fun i : Fin N => K.dot 0 i 0 (min N nb) (fun l => K.mv 1 l (Q l) i) (fun l => Q l i)
    else List.ofFn fun l => K.quadForm l (Q l)
  let tr_rng := K.sum 0 rng_ests
  let G' : Fin nb → Vec N := fun j => K.project Q j (G j)
  let defl_ests : List ℝ := List.ofFn fun i : Fin N => K.dot 3 i 0 nb (fun j => K.mv 2 j (G' j) i) (fun j => G' j i)
  let tr_defl := K.fl (K.fl (1 / (nb : ℝ)) * K.sum 1 defl_ests)
  let est := K.fl (tr_rng + tr_defl)
  if full then .pair est est (2 * nb) (rng_ests ++ defl_ests) else .scalar est

/-- `hutchpp` (`src/primate/trace.py:118-182`), as in `Model/Trace.lean`. -/
def hutchppFl {N : ℕ} (I : IsoKernels) (K : HppKernels N) (qr : ∀ nb, (Fin nb → Vec N) → Fin (min N nb) → Vec N) (rng : Rng) (m : Option ℤ) (modeFull : Bool) (pdf : PdfArg N) (full : Bool) :
    Py HutchppOut :=
  match pdf with
  | .callable _ => .error .assertion
  | .name s =>
    match isotropicPdfFl I s rng N with
    | .error e => .error e
    | .ok pdf =>
      if N = 0 then .ok (if full then .pair 0 0 0 [] else .scalar 0)
      else
        let nb := hutchppNb N m
        if nb < 0 then .error .value
        else if nb = 0 then .error .zeroDivision
        else .ok (hutchppCoreFl K (qr nb.toNat) modeFull full (pdf [] nb.toNat) (pdf [nb.toNat] nb.toNat))

end Primate
