import Verif.Model.Tridiag

/-!
# Model of `src/primate/fttr.py` and `src/primate/integrate.py`
-/

noncomputable section

namespace Primate

/-- The values `z[0], z[1], ...` written by `ortho_poly` (`src/primate/fttr.py:5-11`). -/
def orthoPoly (x muSqrtRec : ℝ) (a b : ℕ → ℝ) : ℕ → ℝ
  | 0 => muSqrtRec
  | 1 => (x - a 0) * muSqrtRec / b 1
  | i + 2 => (x - a (i + 1)) / b (i + 2) * orthoPoly x muSqrtRec a b (i + 1) +
      -b (i + 1) / b (i + 2) * orthoPoly x muSqrtRec a b i

open Classical in
/-- `fttr(theta, alpha, beta, k, weights)` (`src/primate/fttr.py:17-29`): the contents of `weights`
afterwards.  `ortho_poly` writes `z[1]` unconditionally, an access outside the buffer for one row.  `none`:
a division by zero (`mu_0 = 0`, or a zero among `beta[1:n]`), after which NumPy continues with infinities or
NaN. -/
def fttr (theta alpha beta : Buf ℝ) (k : ℕ) (weights : Buf ℝ) : Py (Option (Buf ℝ)) :=
  let n := alpha.len
  let mu0 := ∑ i ∈ Finset.range (min k theta.len), |theta.get i|
  if k = 0 then .ok (some weights)
  else if n ≤ 1 ∨ theta.len < k ∨ weights.len < k ∨ beta.len < n then .error .index
  else if mu0 = 0 ∨ ∃ i, 1 ≤ i ∧ i < n ∧ beta.get i = 0 then .ok none
  else
    let muSqrtRec := 1 / Real.sqrt mu0
    let w := fun i => 1 / (∑ j ∈ Finset.range n, orthoPoly (theta.get i) muSqrtRec alpha.get beta.get j ^ 2)
    .ok (some ⟨weights.len, fun i => if i < k then w i / mu0 else weights.get i⟩)

/-- The arrays of nodes and weights, of the same length; `none`: a division by zero occurred and they contain NaN
or infinities, or numbers derived from them (`1 / inf = 0`). -/
structure QuadRes where
  len : ℕ
  val : Option ((ℕ → ℝ) × (ℕ → ℝ))

/-- `x[:k]`. -/
def Buf.take {α : Type} (b : Buf α) (k : ℕ) : Buf α := ⟨min k b.len, b.get⟩

/-- A vector as a function on all indices. -/
def ofFin {k : ℕ} (x : Fin k → ℝ) : ℕ → ℝ := fun i => if h : i < k then x ⟨i, h⟩ else 0

/-- First row of the eigenvectors, squared (`src/primate/integrate.py:64`). -/
def gwWeights {k : ℕ} (ev : Matrix (Fin k) (Fin k) ℝ) : Fin k → ℝ := fun j => ev ⟨0, j.pos⟩ j ^ 2

/-- The rule computed on lines 61-71 of `src/primate/integrate.py`. -/
def quadRule (K : TriKernels) (d e : Buf ℝ) (deg : ℕ) (quad : String) (method : String)
    (maxiter fuel : ℕ) : Option (Py QuadRes) :=
  if quad = "gw" ∨ quad = "golub_welsch" then
    match eighTridiag K (d.take deg) (e.take deg) method maxiter fuel with
    | none => none
    | some (.error er) => some (.error er)
    | some (.ok none) => some (.ok ⟨(d.take deg).len, none⟩)
    | some (.ok (some (theta, ev))) => some (.ok ⟨(d.take deg).len, some (ofFin theta, ofFin (gwWeights ev))⟩)
  else if quad = "fttr" then
    match eigvalshTridiag K d e method maxiter fuel with
    | none => none
    | some (.error er) => some (.error er)
    | some (.ok none) => some (.ok ⟨d.len, none⟩)
    | some (.ok (some theta)) =>
      match fttr ⟨d.len, ofFin theta⟩ d e deg (Buf.zeros d.len) with
      | .error er => some (.error er)
      | .ok none => some (.ok ⟨d.len, none⟩)
      | .ok (some tau) => some (.ok ⟨d.len, some (ofFin theta, tau.get)⟩)
  else some (.error .value)

open Classical in
/-- `quadrature` (`src/primate/integrate.py:9-76`); `nodes`, `weights` are the lengths of the output
arrays when given, `method` and `maxiter` the keywords passed on.  When both outputs are given they receive
the returned arrays (`np.copyto` raises ValueError for different lengths, except that an array of one element is
broadcast: the model raises; this needs `deg = 0`).  Negative degrees: see `quadratureInt`. -/
def quadrature (K : TriKernels) (d e : Buf ℝ) (deg : Option ℕ) (quad : String)
    (nodes weights : Option ℕ) (method : String) (maxiter fuel : ℕ) : Option (Py QuadRes) :=
  let deg := match deg with
    | none => d.len
    | some k => min k d.len
  let e := padE d e
  if d.len ≠ e.len then some (.error .assertion)
  else if d.len = 0 then some (.error .index)
  else if ¬ |e.get 0| ≤ 1e-8 then some (.error .assertion)
  else
    match quadRule K d e deg quad method maxiter fuel with
    | none => none
    | some (.error er) => some (.error er)
    | some (.ok res) =>
      match nodes, weights with
      | some ln, some lw =>
        if ln ≠ deg ∨ lw ≠ deg then some (.error .assertion)
        else if res.len ≠ deg then some (.error .value)
        else some (.ok res)
      | _, _ => some (.ok res)

open Classical in
/-- `quadrature` with an integer degree (`src/primate/integrate.py:56-76`).  A negative degree is kept by `min`; the slices on line 62
then drop `-deg` entries at the end, the loop of `fttr` does nothing, and output arrays never have a negative length. -/
def quadratureInt (K : TriKernels) (d e : Buf ℝ) (deg : ℤ) (quad : String)
    (nodes weights : Option ℕ) (method : String) (maxiter fuel : ℕ) : Option (Py QuadRes) :=
  if 0 ≤ deg then quadrature K d e (some deg.toNat) quad nodes weights method maxiter fuel
  else
    let e := padE d e
    if d.len ≠ e.len then some (.error .assertion)
    else if d.len = 0 then some (.error .index)
    else if ¬ |e.get 0| ≤ 1e-8 then some (.error .assertion)
    else
      match quadRule K d e (if quad = "fttr" then 0 else ((d.len : ℤ) + deg).toNat) quad method maxiter fuel with
      | none => none
      | some (.error er) => some (.error er)
      | some (.ok res) =>
        match nodes, weights with
        | some _, some _ => some (.error .assertion)
        | _, _ => some (.ok res)

end Primate
