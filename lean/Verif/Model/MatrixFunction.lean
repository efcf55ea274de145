import Verif.Model.Integrate

/-!
# Model of `MatrixFunction` in `src/primate/operators.py` and of `rayleigh_ritz`
-/

noncomputable section

namespace Primate

open Matrix

/-- The attributes of a `MatrixFunction` (`src/primate/operators.py:55-81`).  Simplification: `fun`
acts entry by entry and returns finite numbers. -/
structure MF (n : ℕ) where
  A : Vec n → Vec n
  f : ℝ → ℝ
  deg : ℕ
  orth : ℤ
  rtol : ℝ
  alpha : Buf ℝ
  beta : Buf ℝ
  nodes : ℕ → ℝ
  weights : ℕ → ℝ
  Q : Buf (Vec n)

/-- `MatrixFunction.__init__` (`src/primate/operators.py:55-81`) for a valid operator and a callable
accepted by the setter of `fun`. -/
def MF.init {n : ℕ} (A : Vec n → Vec n) (f : ℝ → ℝ) (deg : ℤ) (orth : ℤ) : Py (MF n) :=
  if deg < 2 then .error .assertion
  else
    let k := (min deg (n : ℤ)).toNat
    .ok ⟨A, f, k, if orth < 0 ∨ orth > k then k else orth, 1e-8, Buf.zeros (k + 1), Buf.zeros (k + 1),
      fun _ => 0, fun _ => 0, Buf.zeros k⟩

/-- `self._Q[:, -self._deg:].fill(0)` (`src/primate/operators.py:116`); `Q` has `deg` columns. -/
def MF.zeroQ {n : ℕ} (M : MF n) : Buf (Vec n) :=
  ⟨M.Q.len, fun l => if M.Q.len - M.deg ≤ l then 0 else M.Q.get l⟩

/-- `_matvec` (`src/primate/operators.py:102-124`): the new state and the result (`none`: NaN).  The keyword
defaults of `eigh_tridiag` are "auto" and 30. -/
def MF.matvec {n : ℕ} (K : TriKernels) (eps : ℝ) (fuel : ℕ) (M : MF n) (x : Vec n) :
    Option (Py (MF n × Option (Vec n))) :=
  match lanczosNative M.A eps x M.deg M.rtol M.orth M.alpha M.beta M.zeroQ with
  | .error er => some (.error er)
  | .ok s =>
    let M' : MF n := { M with alpha := s.alpha, beta := s.beta, Q := s.Q }
    let d : Buf ℝ := ⟨M.deg, s.alpha.get⟩
    let e : Buf ℝ := ⟨M.deg - 1, fun i => s.beta.get (i + 1)⟩
    match eighTridiag K d e "auto" 30 fuel with
    | none => none
    | some (.error er) => some (.error er)
    | some (.ok none) => some (.ok (M', none))
    | some (.ok (some (rw, Y))) =>
      some (.ok (M', some fun i => ∑ l : Fin d.len, nrm x * s.Q.get l i *
        ∑ a, Y l a * (M.f (rw a) * Y ⟨0, l.pos⟩ a)))

/-- One column of `quad` (`src/primate/operators.py:146-150`); `none`: NaN. -/
def MF.quadCol {n : ℕ} (K : TriKernels) (eps : ℝ) (fuel : ℕ) (M : MF n) (x : Vec n) :
    Option (Py (MF n × Option ℝ)) :=
  let x_norm_sq := nrm x ^ 2
  match lanczosNative M.A eps x M.deg M.rtol M.orth M.alpha M.beta M.Q with
  | .error er => some (.error er)
  | .ok s =>
    let M' : MF n := { M with alpha := s.alpha, beta := s.beta, Q := s.Q }
    match quadrature K s.alpha s.beta (some M.deg) "gw" (some M.deg) (some M.deg) "auto" 30 fuel with
    | none => none
    | some (.error er) => some (.error er)
    | some (.ok ⟨_, none⟩) => some (.ok (M', none))
    | some (.ok ⟨_, some (theta, tau)⟩) =>
      some (.ok ({ M' with nodes := theta, weights := tau },
        some ((∑ i ∈ Finset.range M.deg, M.f (theta i) * tau i) * x_norm_sq)))

/-- `quad` (`src/primate/operators.py:126-151`) on a list of columns.  The resize on line 139 keeps the
shape. -/
def MF.quad {n : ℕ} (K : TriKernels) (eps : ℝ) (fuel : ℕ) : MF n → List (Vec n) →
    Option (Py (MF n × List (Option ℝ)))
  | M, [] => some (.ok (M, []))
  | M, x :: xs =>
    match M.quadCol K eps fuel x with
    | none => none
    | some (.error er) => some (.error er)
    | some (.ok (M', y)) =>
      match MF.quad K eps fuel M' xs with
      | none => none
      | some (.error er) => some (.error er)
      | some (.ok (M'', ys)) => some (.ok (M'', y :: ys))

/-- The states of an object between calls: `M'` is reached from `M` by any sequence of calls of `quad` and of the
matrix-vector product that return. -/
inductive MF.Reach {n : ℕ} (K : TriKernels) (eps : ℝ) (fuel : ℕ) : MF n → MF n → Prop
  | refl (M : MF n) : MF.Reach K eps fuel M M
  | quad {M M' M'' : MF n} (xs : List (Vec n)) (ys : List (Option ℝ)) : MF.Reach K eps fuel M M' →
      M'.quad K eps fuel xs = some (.ok (M'', ys)) → MF.Reach K eps fuel M M''
  | matvec {M M' M'' : MF n} (x : Vec n) (y : Option (Vec n)) : MF.Reach K eps fuel M M' →
      M'.matvec K eps fuel x = some (.ok (M'', y)) → MF.Reach K eps fuel M M''

/-- `quad` with the columns of the work array in view: the native code leaves its work vector in the column it is
given (`src/primate/include/lanczos.h:111`, `src/primate/operators.py:146-148`). -/
def MF.quadWork {n : ℕ} (K : TriKernels) (eps : ℝ) (fuel : ℕ) : MF n → List (Vec n) →
    Option (Py (MF n × List (Option ℝ) × List (Vec n)))
  | M, [] => some (.ok (M, [], []))
  | M, x :: xs =>
    match lanczosNative M.A eps x M.deg M.rtol M.orth M.alpha M.beta M.Q with
    | .error er => some (.error er)
    | .ok s =>
      match M.quadCol K eps fuel x with
      | none => none
      | some (.error er) => some (.error er)
      | some (.ok (M', y)) =>
        match MF.quadWork K eps fuel M' xs with
        | none => none
        | some (.error er) => some (.error er)
        | some (.ok (M'', ys, ws)) => some (.ok (M'', y :: ys, s.v :: ws))

/-- `quad` called with an array of the caller: `x.astype(self.dtype)` (`src/primate/operators.py:140`) copies the array at
`loc` to the new array `fresh`, whose columns are then used as work vectors. -/
def MF.quadHeap {n : ℕ} (K : TriKernels) (eps : ℝ) (fuel : ℕ) (M : MF n) (heap : ℕ → List (Vec n)) (loc fresh : ℕ) :
    Option (Py (MF n × List (Option ℝ) × (ℕ → List (Vec n)))) :=
  let heap := Function.update heap fresh (heap loc)
  match M.quadWork K eps fuel (heap fresh) with
  | none => none
  | some (.error er) => some (.error er)
  | some (.ok (M', ys, ws)) => some (.ok (M', ys, Function.update heap fresh ws))

/-- What `rayleigh_ritz` returns: the Ritz values, and the eigenvectors and basis when requested. -/
structure RitzOut (n : ℕ) where
  k : ℕ
  values : Fin k → ℝ
  vectors : Option (Matrix (Fin k) (Fin k) ℝ)
  basis : Option (Buf (Vec n))

/-- The degree used by `rayleigh_ritz` (`src/primate/lanczos.py:147-151`). -/
def ritzDeg (n : ℕ) (deg : Option ℤ) : ℤ := npClip (lanczosDeg n deg) 2 n

/-- `rayleigh_ritz` (`src/primate/lanczos.py:146-164`); `a` holds the keyword arguments (its fields `deg` and
`sparse_mat` are not used: the keyword `sparse_mat` is not modelled).  The argument `method` is ignored by the code.  The
option in the result: NaN. -/
def rayleighRitz {n : ℕ} (K : TriKernels) (eps : ℝ) (fuel : ℕ) (a : LanczosArgs n) (deg : Option ℤ)
    (returnEigenvectors : Bool) : Option (Py (Option (RitzOut n))) :=
  if lanczosDeg n deg ≤ 0 then some (.error .assertion)
  else
    match lanczos eps { a with deg := some (ritzDeg n deg), sparse_mat := false } with
    | .error er => some (.error er)
    | .ok (.sparse _ _, _) => some (.error .value)
    | .ok (.arrays ad be, basis) =>
      let d : Buf ℝ := ⟨ad.length, fun i => ad.getD i 0⟩
      let e : Buf ℝ := ⟨be.length, fun i => be.getD i 0⟩
      if returnEigenvectors then
        match eighTridiag K d e "auto" 30 fuel with
        | none => none
        | some (.error er) => some (.error er)
        | some (.ok none) => some (.ok none)
        | some (.ok (some (rw, Y))) => some (.ok (some ⟨d.len, rw, some Y, basis⟩))
      else
        match eigvalshTridiag K d e "auto" 30 fuel with
        | none => none
        | some (.error er) => some (.error er)
        | some (.ok none) => some (.ok none)
        | some (.ok (some rw)) => some (.ok (some ⟨d.len, rw, none, basis⟩))

end Primate
