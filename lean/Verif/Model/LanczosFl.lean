import Verif.Model.Lanczos

/-!
# The Lanczos recurrence in rounded arithmetic

The same code as in `Model/Lanczos.lean` (`src/primate/include/lanczos.h:43-149`), but every vector operation is a parameter, so that nothing is assumed
about the order of the operations inside of Eigen's kernels, about their rounding, or about two calls with the same arguments giving the same result.
Finite results only: NaN and infinities are not represented.
-/

noncomputable section

namespace Primate

open Matrix

/-- The vector operations used by `lanczos_recurrence`; the first argument is the iteration and the place of the call. -/
structure LKernels (n : ℕ) where
  /-- `A.matvec(x, v)` (`src/primate/include/lanczos.h:127`). -/
  matvec : ℕ → Vec n → Vec n
  /-- `v -= b * q` (lines 63, 128, 130). -/
  axpy : ℕ × ℕ → Vec n → ℝ → Vec n → Vec n
  /-- `x.dot(y)` (lines 60, 129). -/
  dot : ℕ × ℕ → Vec n → Vec n → ℝ
  /-- `u.squaredNorm()` (line 59). -/
  sqnorm : ℕ × ℕ → Vec n → ℝ
  /-- `s_proj / u_norm` (line 63). -/
  div : ℝ → ℝ → ℝ
  /-- `v.norm()` (line 139 and, in `normalized`, line 120). -/
  norm : ℕ → Vec n → ℝ
  /-- `v / b` (line 143 and, in `normalized`, line 120). -/
  scale : ℕ → Vec n → ℝ → Vec n

open Classical in
/-- Eigen's `v.normalized()` (line 120).  Simplification: Eigen compares the squared norm with zero. -/
def normalizedFl {n : ℕ} (K : LKernels n) (v : Vec n) : Vec n :=
  if 0 < K.norm 0 v then K.scale 0 v (K.norm 0 v) else v

open Classical in
/-- The loop of `orth_vector` (`src/primate/include/lanczos.h:58-65`) in iteration `j` of the recurrence. -/
def orthLoopFl {n : ℕ} (K : LKernels n) (j : ℕ) (tol : ℝ) (U : Buf (Vec n)) (diff : ℤ) : ℕ → ℤ → Vec n → Py (Vec n)
  | 0, _, v => .ok v
  | c + 1, i, v => do
    let u ← U.read i
    let u_norm := K.sqnorm (j, c + 2) u
    let s_proj := K.dot (j, c + 2) v u
    let v := if tol < u_norm ∧ tol < |s_proj| then K.axpy (j, c + 2) v (K.div s_proj u_norm) u else v
    orthLoopFl K j tol U diff c (cmod (i + diff) U.len) v

/-- The re-orthogonalisation step (`src/primate/include/lanczos.h:132-136`); `otol` is the tolerance computed in line 53. -/
def reorthFl {n : ℕ} (K : LKernels n) (j : ℕ) (otol : ℝ) (orth : ℤ) (v : Vec n) (Q : Buf (Vec n)) (c : ℤ) : Py (Vec n) :=
  if 0 < orth then orthLoopFl K j otol Q (-1) orth.toNat (cmod c Q.len) v else .ok v

open Classical in
/-- The loop of `lanczos_recurrence` (`src/primate/include/lanczos.h:122-148`) at iteration `j`, with `rem` iterations left. -/
def lanczosFlLoop {n : ℕ} (K : LKernels n) (deg : ℤ) (tol otol : ℝ) (orth : ℤ) : ℕ → ℕ → LState n → Py (LState n)
  | 0, _, s => .ok s
  | rem + 1, j, s => do
    let qc ← s.Q.read s.pos.2.1
    let v := K.matvec j qc
    let bj ← s.beta.read j
    let qp ← s.Q.read s.pos.1
    let v := K.axpy (j, 0) v bj qp
    let a := K.dot (j, 0) qc v
    let alpha ← s.alpha.write j a
    let v := K.axpy (j, 1) v a qc
    let v ← reorthFl K j otol orth v s.Q s.pos.2.1
    let b := K.norm (j + 1) v
    let beta ← s.beta.write (j + 1) b
    if b < tol ∨ (j : ℤ) + 1 = deg then .ok ⟨v, alpha, beta, s.Q, s.pos⟩
    else do
      let Q ← s.Q.write s.pos.2.2 (K.scale (j + 1) v b)
      lanczosFlLoop K deg tol otol orth rem (j + 1) ⟨v, alpha, beta, Q, s.pos.2.1, s.pos.2.2, cmod (j + 2) s.Q.len⟩

/-- `lanczos_recurrence` (`src/primate/include/lanczos.h:92-149`) in rounded arithmetic; `tol` and `otol` are the computed tolerances of the lines 110 and
53. -/
def lanczosFl {n : ℕ} (K : LKernels n) (v : Vec n) (deg : ℤ) (tol otol : ℝ) (orth : ℤ) (alpha beta : Buf ℝ) (Q : Buf (Vec n)) : Py (LState n) := do
  let ncv : ℤ := Q.len
  let Q ← Q.write (ncv - 1) 0
  let Q ← Q.write 0 (normalizedFl K v)
  let beta ← beta.write 0 0
  lanczosFlLoop K deg tol otol orth deg.toNat 0 ⟨v, alpha, beta, Q, ncv - 1, 0, 1⟩

/-- Exact arithmetic. -/
def LKernels.exact {n : ℕ} (A : Vec n → Vec n) : LKernels n where
  matvec _ x := A x
  axpy _ v b q := v - b • q
  dot _ x y := x ⬝ᵥ y
  sqnorm _ u := u ⬝ᵥ u
  div a b := a / b
  norm _ v := nrm v
  scale _ v b := b⁻¹ • v

end Primate
