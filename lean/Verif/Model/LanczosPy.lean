import Verif.Model.Lanczos

/-!
# Model of the parameter checks and of the Python reference recurrence

`_validate_lanczos`, `_orth_vector`, `_lanczos_recurrence` in `src/primate/lanczos.py` and `param_deg`, `param_ncv`, `param_orth` in
`src/primate/include/lanczos.h`.
-/

noncomputable section

namespace Primate

open Matrix

/-- `param_deg` (`src/primate/include/lanczos.h:71-73`); `n` is `dim.first`.  Machine integers are unbounded here. -/
def paramDeg (deg : ℤ) (n : ℕ) : ℤ := max 1 (min deg n)

/-- `param_ncv` (`src/primate/include/lanczos.h:77-79`). -/
def paramNcv (ncv deg : ℤ) (n : ℕ) : ℤ := min (max ncv 2) (min deg n)

/-- `param_orth` (`src/primate/include/lanczos.h:84-87`). -/
def paramOrth (orth deg ncv : ℤ) : ℤ :=
  if orth < 0 ∨ orth > deg then min deg (ncv - 1) else min orth (ncv - 1)

/-- What `_validate_lanczos` returns. -/
structure LanczosParams where
  N : ℤ
  ncv : ℤ
  deg : ℤ
  orth : ℤ
  atol : Fl
  rtol : Fl

/-- `float(atol) / N` for a Python integer `N ≠ 0`. -/
def Fl.divInt (x : Fl) (N : ℤ) : Fl := Fl.scale (1 / (N : ℝ)) x

/-- Whether a scalar is `nan`. -/
def Fl.isNan : Fl → Bool
  | .nan => true
  | _ => false

/-- `_validate_lanczos` (`src/primate/lanczos.py:12-22`); `none` is Python's `None`. -/
def validateLanczos (N ncv deg orth : ℤ) (atol rtol : Option Fl) : Py LanczosParams :=
  let deg := if deg < 0 then N else npClip deg 1 N
  let ncv := npClip ncv 2 (min deg N)
  let orth := max 0 (npClip orth 0 (ncv - 2))
  let atol' : Py Fl := match atol with
    | none => .ok (.fin 0)
    | some a => if N = 0 then .error .zeroDivision else .ok (a.divInt N)
  match atol' with
  | .error er => .error er
  | .ok atol =>
    let rtol := rtol.getD (.fin 0)
    if ¬ (ncv ≥ 2 ∧ ncv ≥ orth + 2 ∧ ncv ≤ deg) then .error .assertion
    else if atol.isNan then .error .assertion
    else .ok ⟨N, ncv, deg, orth, atol, rtol⟩

open Classical in
/-- The loop of `_orth_vector` (`src/primate/lanczos.py:202-207`): iterations `c, c + 1, ...`, `rem` left. -/
def pyOrthLoop {n : ℕ} (tol : ℝ) (U : Buf (Vec n)) (start diff : ℤ) : ℕ → ℕ → Vec n → Py (Vec n)
  | 0, _, v => .ok v
  | rem + 1, c, v => do
    let u ← U.read ((start + c * diff) % U.len)
    let u_norm := nrm u ^ 2
    let s_proj := v ⬝ᵥ u
    let v := if tol < u_norm ∧ tol < |s_proj| then v - (s_proj / u_norm) • u else v
    pyOrthLoop tol U start diff rem (c + 1) v

/-- `_orth_vector` (`src/primate/lanczos.py:196-207`). -/
def pyOrthVector {n : ℕ} (eps : ℝ) (v : Vec n) (U : Buf (Vec n)) (start : ℤ) (p : ℤ) (reverse : Bool) : Py (Vec n) :=
  pyOrthLoop (2 * eps * Real.sqrt n) U start (if reverse then -1 else 1) p.toNat 0 v

/-- The optional reorthogonalisation step (`src/primate/lanczos.py:229-230`). -/
def pyReorth {n : ℕ} (eps : ℝ) (v : Vec n) (Q : Buf (Vec n)) (start orth : ℤ) : Py (Vec n) :=
  if 0 < orth then pyOrthVector eps v Q start orth true else .ok v

/-- Variables of `_lanczos_recurrence`. -/
structure PyLState (n : ℕ) where
  alpha : Buf ℝ
  beta : Buf ℝ
  Q : Buf (Vec n)
  pos : ℤ × ℤ × ℤ

open Classical in
/-- The loop of `_lanczos_recurrence` (`src/primate/lanczos.py:222-236`) at iteration `j`, with `rem` iterations left. -/
def pyLanczosLoop {n : ℕ} (A : Vec n → Vec n) (deg : ℤ) (tol eps : ℝ) (orth : ℤ) : ℕ → ℕ → PyLState n → Py (PyLState n)
  | 0, _, s => .ok s
  | rem + 1, j, s => do
    let qc ← s.Q.read s.pos.2.1
    let v := A qc
    let bj ← s.beta.read j
    let qp ← s.Q.read s.pos.1
    let v := v - bj • qp
    let a := qc ⬝ᵥ v
    let alpha ← s.alpha.write j a
    let v := v - a • qc
    let v ← pyReorth eps v s.Q s.pos.2.1 orth
    let b := nrm v
    let beta ← s.beta.write (j + 1) b
    if b < tol ∨ (j : ℤ) + 1 = deg then .ok ⟨alpha, beta, s.Q, s.pos⟩
    else do
      let Q ← s.Q.write s.pos.2.2 (fun i => v i / b)
      pyLanczosLoop A deg tol eps orth rem (j + 1) ⟨alpha, beta, Q, s.pos.2.1, s.pos.2.2, (s.pos.2.2 + 1) % s.Q.len⟩

/-- `_lanczos_recurrence(A, q, deg, rtol, orth, V, ncv)` (`src/primate/lanczos.py:211-238`) for `deg >= 0`: the arrays `alpha`, `beta[:-1]`
and `Q`.  For `q = 0` NumPy divides by zero and all results are NaN: not modelled. -/
def pyLanczosRecurrence {n : ℕ} (A : Vec n → Vec n) (eps : ℝ) (q : Vec n) (deg : ℕ) (rtol : ℝ) (orth : ℤ) (ncv : ℕ) :
    Py (Buf ℝ × Buf ℝ × Buf (Vec n)) := do
  let Q : Buf (Vec n) := Buf.zeros ncv
  let Q ← Q.write 0 (fun i => q i / nrm q)
  let s ← pyLanczosLoop A deg (Real.sqrt n * rtol) eps orth deg 0 ⟨Buf.zeros deg, Buf.zeros (deg + 1), Q, (ncv : ℤ) - 1, 0, 1⟩
  .ok (s.alpha, ⟨deg, s.beta.get⟩, s.Q)

end Primate
