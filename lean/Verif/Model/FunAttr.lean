import Verif.Model.MatrixFunction

/-!
# Model of the attribute `fun` of `MatrixFunction`

`src/primate/operators.py:83-97`, and lines 124 and 150 for functions that need not act entry by entry.
-/

noncomputable section

namespace Primate

/-- What a call of a Python function on an array of numbers returns, when it returns: a NumPy array of the given shape (entries in row-major
order), a number that is no array, or something else. -/
inductive FnOut
  | arr (shape : List ℕ) (get : ℕ → ℝ)
  | num (x : ℝ)
  | other

/-- A Python object assigned to `fun`: a callable, described by what it does with an array (given as the list of its entries), or an
object that is not callable.  Simplification: a callable has no state and its results are finite numbers. -/
inductive FnVal
  | callable (call : List ℝ → Py FnOut)
  | notCallable

/-- A function that acts entry by entry, as NumPy's do. -/
def FnVal.ofReal (f : ℝ → ℝ) : FnVal := .callable fun xs => .ok (.arr [xs.length] fun i => f (xs.getD i 0))

/-- The assignment `M.fun = value` on an object of shape `(n, n)` (`src/primate/operators.py:91-97`): what is raised, and the attribute `_fun`
afterwards.  `out.shape[-1]` of an array without axes is an IndexError. -/
def setFun (n : ℕ) (old value : FnVal) : Py Unit × FnVal :=
  match value with
  | .notCallable => (.error .assertion, old)
  | .callable call =>
    match call (List.replicate n 1) with
    | .error er => (.error er, old)
    | .ok (.arr shape _) =>
      match shape.getLast? with
      | none => (.error .index, old)
      | some d => if d = n then (.ok (), value) else (.error .assertion, old)
    | .ok _ => (.error .assertion, old)

/-- The attribute after a sequence of assignments, each of which may raise (and is caught by the caller). -/
def setFuns (n : ℕ) (old : FnVal) : List FnVal → FnVal
  | [] => old
  | v :: vs => setFuns n (setFun n old v).2 vs

/-- The entries of one row of a product `out * weights` of arrays with `d` and `m` entries on the last axis, by the broadcasting rules. -/
def bcastSum (d m : ℕ) (g w : ℕ → ℝ) : Option ℝ :=
  if d = m then some (∑ i ∈ Finset.range m, g i * w i)
  else if d = 1 then some (∑ i ∈ Finset.range m, g 0 * w i)
  else if m = 1 then some (∑ i ∈ Finset.range d, g i * w 0)
  else none

/-- `y[j] = np.sum(self._fun(self._nodes) * self._weights, axis=-1) * x_norm_sq` (`src/primate/operators.py:150`) with `m` nodes: arrays that cannot
be broadcast are a ValueError, and so is a sum that leaves more than (or less than) one number to be stored in the entry `y[j]`. -/
def quadEntry (fn : FnVal) (m : ℕ) (nodes weights : ℕ → ℝ) (nsq : ℝ) : Py ℝ :=
  match fn with
  | .notCallable => .error .type
  | .callable call =>
    match call ((List.range m).map nodes) with
    | .error er => .error er
    | .ok (.num x) => .ok ((∑ i ∈ Finset.range m, x * weights i) * nsq)
    | .ok .other => .error .type
    | .ok (.arr shape g) =>
      match shape.getLast? with
      | none => .ok ((∑ i ∈ Finset.range m, g 0 * weights i) * nsq)
      | some d =>
        match bcastSum d m g weights with
        | none => .error .value
        | some s => if shape.dropLast.prod = 1 then .ok (s * nsq) else .error .value

/-- One column of `quad` (`src/primate/operators.py:146-150`) with an arbitrary object in the attribute `_fun`.  Simplification: on NaN nodes the result is
NaN (`none`) for every function. -/
def MF.quadColFn {n : ℕ} (K : TriKernels) (eps : ℝ) (fuel : ℕ) (M : MF n) (fn : FnVal) (x : Vec n) :
    Option (Py (MF n × Option ℝ)) :=
  match lanczosNative M.A eps x M.deg M.rtol M.orth M.alpha M.beta M.Q with
  | .error er => some (.error er)
  | .ok s =>
    let M' : MF n := { M with alpha := s.alpha, beta := s.beta, Q := s.Q }
    match quadrature K s.alpha s.beta (some M.deg) "gw" (some M.deg) (some M.deg) "auto" 30 fuel with
    | none => none
    | some (.error er) => some (.error er)
    | some (.ok ⟨_, none⟩) => some (.ok (M', none))
    | some (.ok ⟨_, some (theta, tau)⟩) =>
      match quadEntry fn M.deg theta tau (nrm x ^ 2) with
      | .error er => some (.error er)
      | .ok y => some (.ok ({ M' with nodes := theta, weights := tau }, some y))

/-- The property `degree` (`src/primate/operators.py:83-85`). -/
def MF.degree {n : ℕ} (M : MF n) : ℕ := M.deg

/-- The object after an assignment of a function acting entry by entry. -/
def MF.withFun {n : ℕ} (M : MF n) (f : ℝ → ℝ) : MF n := { M with f := f }

/-- Sequences of calls of `quad` and of the matrix-vector product that return, mixed with assignments of functions acting entry by entry. -/
inductive MF.ReachF {n : ℕ} (K : TriKernels) (eps : ℝ) (fuel : ℕ) : MF n → MF n → Prop
  | refl (M : MF n) : MF.ReachF K eps fuel M M
  | quad {M M' M'' : MF n} (xs : List (Vec n)) (ys : List (Option ℝ)) : MF.ReachF K eps fuel M M' →
      M'.quad K eps fuel xs = some (.ok (M'', ys)) → MF.ReachF K eps fuel M M''
  | matvec {M M' M'' : MF n} (x : Vec n) (y : Option (Vec n)) : MF.ReachF K eps fuel M M' →
      M'.matvec K eps fuel x = some (.ok (M'', y)) → MF.ReachF K eps fuel M M''
  | set {M M' : MF n} (f : ℝ → ℝ) : MF.ReachF K eps fuel M M' → MF.ReachF K eps fuel M (M'.withFun f)

end Primate
