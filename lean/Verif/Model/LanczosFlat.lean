import Verif.Model.NativeOps

/-!
# The native Lanczos recurrence on flat memory, for operators of any shape

`src/primate/include/lanczos.h:43-149` with the arrays as blocks of numbers, for an operator with `n` rows and `m` columns: the
starting vector has `m` numbers, the basis `n * ncv` numbers in column-major order.  Column `c` starts at position `c * n`.
Model/Lanczos.lean has the same code for square operators with whole columns as values; `C98_square` connects the two.

Eigen checks sizes by assertions only, which are compiled out in release builds (`meson.build`, `-DNDEBUG`); an assignment
then loops over the entries of the left hand side.  Accesses outside the block are `PyErr.index`.
-/

noncomputable section

namespace Primate

open Matrix

/-- `cnt` numbers from position `off` on. -/
def Buf.readN (b : Buf ℝ) (off : ℤ) (cnt : ℕ) : Py (Fin cnt → ℝ) :=
  if 0 ≤ off ∧ off + cnt ≤ b.len then .ok fun i => b.get (off.toNat + i) else .error .index

/-- Store the numbers `x` from position `off` on. -/
def Buf.writeN {cnt : ℕ} (b : Buf ℝ) (off : ℤ) (x : Fin cnt → ℝ) : Py (Buf ℝ) :=
  if 0 ≤ off ∧ off + cnt ≤ b.len then
    .ok ⟨b.len, fun i => if h : off.toNat ≤ i ∧ i - off.toNat < cnt then x ⟨i - off.toNat, h.2⟩ else b.get i⟩
  else .error .index

open Classical in
/-- The loop of `orth_vector` (`src/primate/include/lanczos.h:58-65`); `v` has `m` entries, the columns have `n`. -/
def orthLoopFlat (n m ncv : ℕ) (tol : ℝ) (Q : Buf ℝ) (diff : ℤ) : ℕ → ℤ → Buf ℝ → Py (Buf ℝ)
  | 0, _, v => .ok v
  | c + 1, i, v => do
    let u ← Q.readN (i * n) n
    let u_norm := u ⬝ᵥ u
    let vn ← v.readN 0 n
    let s_proj := vn ⬝ᵥ u
    let v ← if tol < u_norm ∧ tol < |s_proj| then do
        let um ← Q.readN (i * n) m
        let vm ← v.readN 0 m
        v.writeN 0 (vm - (s_proj / u_norm) • um)
      else .ok v
    orthLoopFlat n m ncv tol Q diff c (cmod (i + diff) ncv) v

/-- The re-orthogonalisation step (`src/primate/include/lanczos.h:132-136`) and the head of `orth_vector`
(`src/primate/include/lanczos.h:43-57`). -/
def reorthFlat (n m ncv : ℕ) (eps : ℝ) (orth : ℤ) (v Q : Buf ℝ) (c : ℤ) : Py (Buf ℝ) :=
  if 0 < orth then orthLoopFlat n m ncv (2 * eps * Real.sqrt n) Q (-1) orth.toNat (cmod c ncv) v else .ok v

/-- Variables of `lanczos_recurrence`. -/
structure FState where
  v : Buf ℝ
  alpha : Buf ℝ
  beta : Buf ℝ
  Q : Buf ℝ
  pos : ℤ × ℤ × ℤ

open Classical in
/-- The loop of `lanczos_recurrence` (`src/primate/include/lanczos.h:122-148`). -/
def lanczosLoopFlat {n m : ℕ} (A : (Fin m → ℝ) → Fin n → ℝ) (ncv : ℕ) (deg : ℤ) (tol eps : ℝ) (orth : ℤ) :
    ℕ → ℕ → FState → Py FState
  | 0, _, s => .ok s
  | rem + 1, j, s => do
    -- A.matvec(Q.col(c).data(), v.data())
    let inp ← s.Q.readN (s.pos.2.1 * n) m
    let v ← s.v.writeN 0 (A inp)
    -- v -= beta[j] * Q.col(p)
    let bj ← s.beta.read j
    let qp ← s.Q.readN (s.pos.1 * n) m
    let vm ← v.readN 0 m
    let v ← v.writeN 0 (vm - bj • qp)
    -- alpha[j] = Q.col(c).dot(v)
    let qc ← s.Q.readN (s.pos.2.1 * n) n
    let vn ← v.readN 0 n
    let a := qc ⬝ᵥ vn
    let alpha ← s.alpha.write j a
    -- v -= alpha[j] * Q.col(c)
    let qcm ← s.Q.readN (s.pos.2.1 * n) m
    let vm ← v.readN 0 m
    let v ← v.writeN 0 (vm - a • qcm)
    let v ← reorthFlat n m ncv eps orth v s.Q s.pos.2.1
    -- beta[j+1] = v.norm()
    let vm ← v.readN 0 m
    let b := nrm vm
    let beta ← s.beta.write (j + 1) b
    if b < tol ∨ (j : ℤ) + 1 = deg then .ok ⟨v, alpha, beta, s.Q, s.pos⟩
    else do
      -- Q.col(n) = v / beta[j+1]
      let vn ← v.readN 0 n
      let Q ← s.Q.writeN (s.pos.2.2 * n) (b⁻¹ • vn)
      lanczosLoopFlat A ncv deg tol eps orth rem (j + 1)
        ⟨v, alpha, beta, Q, s.pos.2.1, s.pos.2.2, cmod (j + 2) ncv⟩

/-- `lanczos_recurrence` (`src/primate/include/lanczos.h:92-149`) on flat memory. -/
def lanczosNativeFlat {n m : ℕ} (A : (Fin m → ℝ) → Fin n → ℝ) (eps : ℝ) (v : Buf ℝ) (deg : ℤ) (rtol : ℝ) (orth : ℤ)
    (alpha beta : Buf ℝ) (Q : Buf ℝ) (ncv : ℕ) : Py FState := do
  let Q ← Q.writeN (((ncv : ℤ) - 1) * n) (0 : Fin n → ℝ)
  -- v.normalized() is a new vector with m entries, of which n are copied
  let vm ← v.readN 0 m
  let src : Buf ℝ := ⟨m, fun i => if h : i < m then normalized vm ⟨i, h⟩ else 0⟩
  let x ← src.readN 0 n
  let Q ← Q.writeN 0 x
  let beta ← beta.write 0 0
  lanczosLoopFlat A ncv deg (Real.sqrt n * rtol) eps orth deg.toNat 0 ⟨v, alpha, beta, Q, (ncv : ℤ) - 1, 0, 1⟩

/-- `lanczos` (`src/primate/lanczos.py:77-109`) for an operator with `n` rows and `m` columns, up to the native call; new output
arrays, starting vector given or drawn with `m` entries.  No line compares `n` and `m`. -/
def lanczosShape {n m : ℕ} (A : (Fin m → ℝ) → Fin n → ℝ) (eps : ℝ) (v0 : Fin m → ℝ) (deg : Option ℤ) (rtol : ℝ) (orth : ℤ)
    (return_basis : Bool) : Py FState :=
  let deg := lanczosDeg m deg
  if deg ≤ 0 then .error .assertion
  else
    let orth := lanczosOrth deg orth
    let ncv := (lanczosNcv deg orth return_basis).toNat
    lanczosNativeFlat A eps ⟨m, fun i => if h : i < m then v0 ⟨i, h⟩ else 0⟩ deg rtol orth (Buf.zeros (deg + 1).toNat)
      (Buf.zeros (deg + 1).toNat) (Buf.zeros (n * ncv)) ncv

end Primate
