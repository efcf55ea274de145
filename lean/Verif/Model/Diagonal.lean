import Verif.Model.Trace
import Verif.Model.Xtrace

/-! # Model of `diagonal.py` -/

noncomputable section

namespace Primate

/-- Loop state of `diag` (`src/primate/diagonal.py:71-81, 85-91`). -/
structure DiagState (N : ℕ) where
  history : List ℕ
  numer : Vec N
  denom : Vec N
  est : MeanEst N
  calls : List (MeanEst N)

/-- One pass (`src/primate/diagonal.py:75-79, 87-91`); both loops of the function have the same
body.  `pdf(size=N)` returns an `N x 1` array.  Simplification: where an entry of `denom` is zero
NumPy divides `0/0` and gets NaN, the model gets 0; the theorems that look at values exclude
vectors with zero entries, and `Model/DiagSpecial.lean` (C154) has NumPy's division. -/
def diagBody {N : ℕ} (A : Operand N) (pdf : Pdf N) (s : DiagState N) : Py (DiagState N) :=
  let v := pdf s.history 1 0
  let u := A.apply v
  let numer := fun i => s.numer i + u i * v i
  let denom := fun i => s.denom i + v i ^ 2
  match s.est.update (.mat ⟨N, [fun i => numer i / denom i]⟩) with
  | .error e => .error e
  | .ok est => .ok ⟨s.history ++ [1], numer, denom, est, s.calls ++ [est]⟩

/-- `while not converge(estimator)` (`src/primate/diagonal.py:74-81, 86-91`). -/
def diagLoop {N : ℕ} (A : Operand N) (pdf : Pdf N) (converge : Crit) :
    ℕ → DiagState N → Option (Py (DiagState N))
  | 0, _ => none
  | fuel + 1, s =>
    match converge.eval s.est.view with
    | .error e => some (.error e)
    | .ok true => some (.ok s)
    | .ok false =>
      match diagBody A pdf s with
      | .error e => some (.error e)
      | .ok s' => diagLoop A pdf converge fuel s'

/-- What `diag` returns: the scalar 0.0 (alone or with an empty result object) for an empty
operator, else the estimate, with `full` or a callback also the result object
(`estimator`, `criterion`, `estimate`). -/
inductive DiagOut (N : ℕ)
  | zero
  | zeroPair
  | arr (e : NumArr (Fin N → ℝ))
  | pair (e : NumArr (Fin N → ℝ)) (estimator : MeanEst N) (criterion : Crit)
      (estimate : NumArr (Fin N → ℝ))

/-- The estimate in what `diag` returns. -/
def DiagOut.estimate {N : ℕ} : DiagOut N → NumArr (Fin N → ℝ)
  | .zero => .val 0
  | .zeroPair => .val 0
  | .arr e => e
  | .pair e _ _ _ => e

/-- Arguments of `diag` (`src/primate/diagonal.py:11-20`). -/
structure DiagArgs (N : ℕ) where
  A : Operand N
  pdf : PdfArg N
  converge : CritArg
  full : Bool
  callback : Bool
  record : Bool
  kw : Kwargs

/-- `diag` (`src/primate/diagonal.py:56-92`), with the estimator states at which the callback
was called.  A callable `pdf` fails the membership test in `isotropic` (line 61,
`src/primate/random.py:64`). -/
def diag {N : ℕ} (tppf : ℝ → ℕ → ℝ) (zscore : ℝ → ℝ) (rng : Rng) (a : DiagArgs N) (fuel : ℕ) :
    Option (Py (DiagOut N × List (MeanEst N))) :=
  match a.pdf with
  | .callable _ => some (.error .assertion)
  | .name s =>
    match isotropicPdf s rng N with
    | .error e => some (.error e)
    | .ok pdf =>
      let estimator := MeanEst.init N false a.record
      match convergenceCriterion tppf zscore a.converge a.kw with
      | .error e => some (.error e)
      | .ok converge =>
        if N = 0 then some (.ok (if a.full then .zeroPair else .zero, []))
        else
          let s0 : DiagState N := ⟨[], fun _ => 0, fun _ => 0, estimator, []⟩
          match diagLoop a.A pdf converge fuel s0 with
          | none => none
          | some (.error e) => some (.error e)
          | some (.ok s) =>
            if a.full || a.callback then
              some (.ok (.pair s.est.estimate s.est converge s.est.estimate,
                if a.callback then s.calls else []))
            else some (.ok (.arr s.est.estimate, []))

/-! ## xdiag -/

/-- Number of test vectors (`src/primate/diagonal.py:106-107`); `//` and `%` are Python's floor
operations. -/
def xdiagBudget (n : ℕ) (m : Option ℤ) : ℤ :=
  let m := match m with
    | none => 2 * (n : ℤ)
    | some m => min (m + m % 2) (2 * (n : ℤ))
  m / 2

/-- `np.linalg.qr(Y, mode="reduced")` for a matrix with at most as many columns as rows. -/
abbrev QRKernel (n : ℕ) := ∀ m, Matrix (Fin n) (Fin m) ℝ →
  Matrix (Fin n) (Fin m) ℝ × Matrix (Fin m) (Fin m) ℝ

/-- Row-wise sums `diag_prod(A.T, B.T)` (`src/primate/diagonal.py:110`). -/
def rowProd {n m : ℕ} (A B : Matrix (Fin n) (Fin m) ℝ) (k : Fin n) : ℝ := ∑ j, A k j * B k j

/-- The linear algebra of `xdiag` (`src/primate/diagonal.py:115-138`) for `m >= 1` test vectors
`N`; `np.linalg.inv` raises LinAlgError on a singular matrix. -/
def xdiagCore {n m : ℕ} (qr : QRKernel n) (A : Matrix (Fin n) (Fin n) ℝ)
    (N : Matrix (Fin n) (Fin m) ℝ) : Py (Vec n) :=
  let Y := A * N
  let Q := (qr m Y).1
  let R := (qr m Y).2
  let dNY := rowProd N Y
  let Z := A.transpose * Q
  let T := Z.transpose * N
  open Classical in
  if R.det = 0 then .error .linAlg
  else
    let R_inv := R⁻¹
    let S : Matrix (Fin m) (Fin m) ℝ :=
      Matrix.of fun j i => R_inv i j / Real.sqrt (∑ k, R_inv i k ^ 2)
    let QS := Q * S
    let dQZ := rowProd Q Z
    let dQSSZ := rowProd QS (Z * S)
    let dNTQ := rowProd N (Q * T)
    let dNQSST := rowProd N (Matrix.of fun k i => diagProd S T i * QS k i)
    .ok fun k => dQZ k + (- dQSSZ k + dNY k - dNTQ k + dNQSST k) / m

/-- `xdiag` (`src/primate/diagonal.py:99-138`).  A budget of zero vectors ends in the NumPy
division `0/0` (NaN); a negative one is an invalid array shape (ValueError). -/
def xdiag {n : ℕ} (qr : QRKernel n) (rng : Rng) (A : Matrix (Fin n) (Fin n) ℝ) (m : Option ℤ)
    (pdf : PdfArg n) : Py (NumArr (Vec n)) :=
  match pdf with
  | .callable _ => .error .assertion
  | .name s =>
    match isotropicPdf s rng n with
    | .error e => .error e
    | .ok pdf =>
      let mm := xdiagBudget n m
      if mm < 0 then .error .value
      else if mm = 0 then .ok .nan
      else (xdiagCore qr A (Matrix.of fun i j => pdf [] mm.toNat j i)).map .val

end Primate
