import Verif.Model.Random
import Mathlib.LinearAlgebra.Matrix.Symmetric
import Mathlib.Data.Matrix.Mul
import Mathlib.Order.Lattice

/-!
# Model of `src/primate/include/lanczos.h` and `src/primate/lanczos.py`

The native code indexes raw buffers; here each access is checked and an access outside
the buffer is the error `PyErr.index` (undefined behaviour in the original).
-/

noncomputable section

namespace Primate

open Matrix

/-- A buffer: its length and its contents. -/
structure Buf (α : Type) where
  len : ℕ
  get : ℕ → α

/-- `buf[i]`, checked. -/
def Buf.read {α : Type} (b : Buf α) (i : ℤ) : Py α :=
  if 0 ≤ i ∧ i < b.len then .ok (b.get i.toNat) else .error .index

/-- `buf[i] = x`, checked. -/
def Buf.write {α : Type} (b : Buf α) (i : ℤ) (x : α) : Py (Buf α) :=
  if 0 ≤ i ∧ i < b.len then .ok ⟨b.len, Function.update b.get i.toNat x⟩ else .error .index

/-- `np.zeros(len)`. -/
def Buf.zeros {α : Type} [Zero α] (len : ℕ) : Buf α := ⟨len, fun _ => 0⟩

/-- `mod(a, b)` (`src/primate/include/lanczos.h:34-36`); C's `%` truncates.  Machine integers
are unbounded here. -/
def cmod (a b : ℤ) : ℤ := (b + Int.tmod a b).tmod b

/-- Euclidean norm (`v.norm()`, `np.linalg.norm`). -/
def nrm {n : ℕ} (v : Vec n) : ℝ := Real.sqrt (v ⬝ᵥ v)

open Classical in
/-- Eigen's `v.normalized()`: the zero vector is returned unchanged. -/
def normalized {n : ℕ} (v : Vec n) : Vec n := if 0 < v ⬝ᵥ v then fun i => v i / nrm v else v

open Classical in
/-- The loop of `orth_vector` (`src/primate/include/lanczos.h:58-65`): `c` iterations left,
current column `i`. -/
def orthLoop {n : ℕ} (tol : ℝ) (U : Buf (Vec n)) (diff : ℤ) : ℕ → ℤ → Vec n → Py (Vec n)
  | 0, _, v => .ok v
  | c + 1, i, v => do
    let u ← U.read i
    let u_norm := u ⬝ᵥ u
    let s_proj := v ⬝ᵥ u
    let v := if tol < u_norm ∧ tol < |s_proj| then v - (s_proj / u_norm) • u else v
    orthLoop tol U diff c (cmod (i + diff) U.len) v

/-- `orth_vector` (`src/primate/include/lanczos.h:43-66`); `eps` is the machine epsilon. -/
def orthVector {n : ℕ} (eps : ℝ) (v : Vec n) (U : Buf (Vec n)) (start : ℤ) (p : ℤ) (reverse : Bool) :
    Py (Vec n) :=
  orthLoop (2 * eps * Real.sqrt n) U (if reverse then -1 else 1) p.toNat (cmod start U.len) v

/-- The re-orthogonalisation step (`src/primate/include/lanczos.h:132-136`). -/
def reorth {n : ℕ} (eps : ℝ) (orth : ℤ) (v : Vec n) (Q : Buf (Vec n)) (c : ℤ) : Py (Vec n) :=
  if 0 < orth then orthVector eps v Q c orth true else .ok v

/-- Variables of `lanczos_recurrence`: the work vector (which is the caller's starting vector),
the output buffers and the three column positions. -/
structure LState (n : ℕ) where
  v : Vec n
  alpha : Buf ℝ
  beta : Buf ℝ
  Q : Buf (Vec n)
  pos : ℤ × ℤ × ℤ

open Classical in
/-- The loop of `lanczos_recurrence` (`src/primate/include/lanczos.h:122-148`) at iteration `j`,
with `rem` iterations left.  Simplification: for `tol <= 0` the test `b < tol` never holds, and a residual that is exactly zero is
divided by its norm; the code continues with NaN, the model with the zero vector.  Theorems about computed values assume
`0 < rtol` or exclude a zero residual. -/
def lanczosLoop {n : ℕ} (A : Vec n → Vec n) (deg : ℤ) (tol eps : ℝ) (orth : ℤ) :
    ℕ → ℕ → LState n → Py (LState n)
  | 0, _, s => .ok s
  | rem + 1, j, s => do
    let qc ← s.Q.read s.pos.2.1
    let v := A qc
    let bj ← s.beta.read j
    let qp ← s.Q.read s.pos.1
    let v := v - bj • qp
    let a := qc ⬝ᵥ v
    let alpha ← s.alpha.write j a
    let v := v - a • qc
    let v ← reorth eps orth v s.Q s.pos.2.1
    let b := nrm v
    let beta ← s.beta.write (j + 1) b
    if b < tol ∨ (j : ℤ) + 1 = deg then .ok ⟨v, alpha, beta, s.Q, s.pos⟩
    else do
      let Q ← s.Q.write s.pos.2.2 (b⁻¹ • v)
      lanczosLoop A deg tol eps orth rem (j + 1)
        ⟨v, alpha, beta, Q, s.pos.2.1, s.pos.2.2, cmod (j + 2) s.Q.len⟩

/-- `lanczos_recurrence` (`src/primate/include/lanczos.h:92-149`) as called by the binding
(`src/primate/_lanczos.cpp:88-99`): `ncv` is the number of columns of `Q`.  Simplification: square
operators; the number type conversions of the binding are not modelled. -/
def lanczosNative {n : ℕ} (A : Vec n → Vec n) (eps : ℝ) (v : Vec n) (deg : ℤ) (rtol : ℝ) (orth : ℤ)
    (alpha beta : Buf ℝ) (Q : Buf (Vec n)) : Py (LState n) := do
  let ncv : ℤ := Q.len
  let Q ← Q.write (ncv - 1) 0
  let Q ← Q.write 0 (normalized v)
  let beta ← beta.write 0 0
  lanczosLoop A deg (Real.sqrt n * rtol) eps orth deg.toNat 0 ⟨v, alpha, beta, Q, ncv - 1, 0, 1⟩

/-! ## `lanczos` -/

/-- `np.clip(x, lo, hi)`: `minimum(hi, maximum(x, lo))`, also when `lo > hi`. -/
def npClip (x lo hi : ℤ) : ℤ := min hi (max x lo)

/-- Arguments of `lanczos` (`src/primate/lanczos.py:25-36`) for an `n x n` operator with a
supported dtype; `v0` is the starting vector given or drawn (lines 93-98).  Simplification: a given `v0`
has the right length. -/
structure LanczosArgs (n : ℕ) where
  A : Vec n → Vec n
  v0 : Vec n
  deg : Option ℤ
  rtol : ℝ
  orth : ℤ
  sparse_mat : Bool
  return_basis : Bool
  alpha : Option (Buf ℝ)
  beta : Option (Buf ℝ)
  Q : Option (Buf (Vec n))

/-- Effective degree (`src/primate/lanczos.py:79`). -/
def lanczosDeg (n : ℕ) (deg : Option ℤ) : ℤ :=
  match deg with
  | none => n
  | some d => min d n

/-- Effective number of projections (`src/primate/lanczos.py:88`). -/
def lanczosOrth (deg orth : ℤ) : ℤ := if orth < 0 ∨ orth > deg then deg else orth

/-- Number of Lanczos vectors allocated (`src/primate/lanczos.py:89`). -/
def lanczosNcv (deg orth : ℤ) (return_basis : Bool) : ℤ :=
  if return_basis then deg else npClip orth 2 deg

/-- The tridiagonal data returned. -/
inductive TriOut
  /-- `(alpha[:deg], beta[1:deg])` -/
  | arrays (a b : List ℝ)
  /-- the sparse matrix, given by its shape and entries -/
  | sparse (m : ℕ) (T : ℕ → ℕ → ℝ)

/-- `np.roll(x, -1)`. -/
def rollLeft (b : Buf ℝ) : Buf ℝ := ⟨b.len, fun i => b.get ((i + 1) % b.len)⟩

/-- `spdiags(data, diags, m, m)`: `data[k][j]` is the entry of column `j` on the diagonal
`diags[k]`, i.e. in row `j - diags[k]`. -/
def spdiags3 (dl d du : Buf ℝ) : ℕ → ℕ → ℝ := fun i j =>
  (if (i : ℤ) = j + 1 then dl.get j else 0) + (if i = j then d.get j else 0) +
    (if (j : ℤ) = i + 1 then du.get j else 0)

/-- `lanczos` (`src/primate/lanczos.py:77-117`).  The second component is the basis, returned
when `return_basis`. -/
def lanczos {n : ℕ} (eps : ℝ) (a : LanczosArgs n) : Py (TriOut × Option (Buf (Vec n))) :=
  let deg := lanczosDeg n a.deg
  if deg ≤ 0 then .error .assertion
  else
    let orth := lanczosOrth deg a.orth
    let ncv := lanczosNcv deg orth a.return_basis
    let alpha := a.alpha.getD (Buf.zeros (deg + 1).toNat)
    let beta := a.beta.getD (Buf.zeros (deg + 1).toNat)
    let Q := a.Q.getD (Buf.zeros ncv.toNat)
    if (alpha.len : ℤ) ≠ deg + 1 then .error .assertion
    else if (beta.len : ℤ) ≠ deg + 1 then .error .assertion
    else if (Q.len : ℤ) ≠ ncv then .error .assertion
    else
      match lanczosNative a.A eps a.v0 deg a.rtol orth alpha beta Q with
      | .error e => .error e
      | .ok s =>
        let basis := if a.return_basis then some s.Q else none
        if a.sparse_mat then
          .ok (.sparse deg.toNat (spdiags3 (rollLeft s.beta) s.alpha s.beta), basis)
        else
          .ok (.arrays ((List.range deg.toNat).map s.alpha.get)
            ((List.range (deg.toNat - 1)).map fun i => s.beta.get (i + 1)), basis)

/-- The same call with the arrays of the caller in view: `loc` holds the starting vector of the caller,
`np.array(v0).astype(dt)` (`src/primate/lanczos.py:97`) copies it to the new array `fresh`, on which the native code works
(`src/primate/include/lanczos.h:111` maps the pointer it is given). -/
def lanczosHeap {n : ℕ} (eps : ℝ) (a : LanczosArgs n) (heap : ℕ → Vec n) (loc fresh : ℕ) :
    Py ((TriOut × Option (Buf (Vec n))) × (ℕ → Vec n)) :=
  let heap := Function.update heap fresh (heap loc)
  let a := { a with v0 := heap fresh }
  match lanczos eps a with
  | .error e => .error e
  | .ok r =>
    let deg := lanczosDeg n a.deg
    let orth := lanczosOrth deg a.orth
    let ncv := lanczosNcv deg orth a.return_basis
    match lanczosNative a.A eps a.v0 deg a.rtol orth (a.alpha.getD (Buf.zeros (deg + 1).toNat))
        (a.beta.getD (Buf.zeros (deg + 1).toNat)) (a.Q.getD (Buf.zeros ncv.toNat)) with
    | .error e => .error e
    | .ok s => .ok (r, Function.update heap fresh s.v)

end Primate
