import Verif.Model.Trace

/-!
# Model of `update_trinv` (`src/primate/linalg.py`), `_xtrace` and `xtrace`
(`src/primate/trace.py`)
-/

noncomputable section

namespace Primate

open Matrix

/-- `update_trinv` (`src/primate/linalg.py:15-24`) for an `n x m` array and a
column of length `l`.  dtypes are not modelled (line 18).  `np.reciprocal(0.0)`
is `inf`; the model returns 0 in that corner, theorems exclude it. -/
def updateTrinv {n m l : ℕ} (B_inv : Matrix (Fin n) (Fin m) ℝ) (b : Fin l → ℝ) :
    Py (Matrix (Fin (n + 1)) (Fin (n + 1)) ℝ) :=
  if h : n = m ∧ l = n + 1 then
    let b' : Fin (n + 1) → ℝ := fun i => b (Fin.cast h.2.symm i)
    let B : Matrix (Fin n) (Fin n) ℝ := fun i j => B_inv i (Fin.cast h.1 j)
    let corner := 1 / b' (Fin.last n)
    .ok (Matrix.of fun i j =>
      Fin.lastCases
        (Fin.lastCases corner (fun i => corner * ∑ k, (-B i k) * b' k.castSucc) i)
        (fun j => Fin.lastCases 0 (fun i => B i j) i) j)
  else .error .assertion

/-- `diag_prod(A, B)` (`src/primate/trace.py:203`), as a vector. -/
def diagProd {k m : ℕ} (A B : Matrix (Fin k) (Fin m) ℝ) : Fin m → ℝ :=
  fun i => ∑ j, A j i * B j i

/-- `_xtrace` (`src/primate/trace.py:202-227`); `sphere` is `pdf == "sphere"`. -/
def xtraceEsts {n m : ℕ} (W Z Q : Matrix (Fin n) (Fin m) ℝ) (R R_inv : Matrix (Fin m) (Fin m) ℝ)
    (sphere : Bool) : Fin m → ℝ :=
  let W_proj := Qᵀ * W
  let S : Matrix (Fin m) (Fin m) ℝ :=
    Matrix.of fun j i => R_inv i j / Real.sqrt (∑ k, R_inv i k ^ 2)
  let col_norm := fun (X : Matrix (Fin m) (Fin m) ℝ) (i : Fin m) => Real.sqrt (∑ k, X k i ^ 2)
  let c : ℝ := (n : ℝ) - m + 1
  let scale : Fin m → ℝ :=
    if sphere then fun i =>
      c / ((n : ℝ) - col_norm W_proj i ^ 2 + (diagProd S W_proj i * col_norm S i) ^ 2)
    else fun _ => 1
  let H := Qᵀ * Z
  let HW := H * W_proj
  let T := Zᵀ * W
  let dSW := diagProd S W_proj
  let dSHS := diagProd S (H * S)
  let dTW := diagProd T W_proj
  let dWHW := diagProd W_proj HW
  let dSRmHW := diagProd S (R - HW)
  let dTmHRS := diagProd (T - Hᵀ * W_proj) S
  fun i => H.trace - dSHS i +
    (-dTW i + dWHW i + dSW i * dSRmHW i + |dSW i| ^ 2 * dSHS i + dTmHRS i * dSW i) * scale i

/-- The arrays `Q`, `R`, `R_inv` while columns are inserted. -/
structure QRState (n : ℕ) where
  k : ℕ
  Q : Matrix (Fin n) (Fin k) ℝ
  R : Matrix (Fin k) (Fin k) ℝ
  Rinv : Matrix (Fin k) (Fin k) ℝ

/-- `scipy.linalg.qr_insert(Q, R, u, k=Q.shape[1], which="col")` on an economic
factorization; `none` is LinAlgError. -/
abbrev QRInsert (n : ℕ) := ∀ k, Matrix (Fin n) (Fin k) ℝ → Matrix (Fin k) (Fin k) ℝ → Vec n →
  Option (Matrix (Fin n) (Fin (k + 1)) ℝ × Matrix (Fin (k + 1)) (Fin (k + 1)) ℝ)

/-- The inner loop (`src/primate/trace.py:298-300`) over the columns of `Y`. -/
def xtraceInsert {n : ℕ} (qrInsert : QRInsert n) : List (Vec n) → QRState n → Py (QRState n)
  | [], s => .ok s
  | u :: us, s =>
    match qrInsert s.k s.Q s.R u with
    | none => .error .linAlg
    | some (Q, R) =>
      match updateTrinv s.Rinv (fun i => R i (Fin.last s.k)) with
      | .error e => .error e
      | .ok Rinv => xtraceInsert qrInsert us ⟨s.k + 1, Q, R, Rinv⟩

/-- Loop state of `xtrace` (`src/primate/trace.py:279-288`); `calls`
records the objects handed to the callback. -/
structure XState (n : ℕ) where
  history : List ℕ
  W : List (Vec n)
  Z : List (Vec n)
  qr : QRState n
  est : MeanEst 1
  calls : List EstResult

/-- A list of `k` columns as a matrix. -/
def colsMat {n : ℕ} (l : List (Vec n)) (k : ℕ) : Matrix (Fin n) (Fin k) ℝ :=
  Matrix.of fun i j => l.getD j 0 i

/-- One pass of the loop (`src/primate/trace.py:291-310`).  `pdf` is a callable
here (line 288), so `pdf == "sphere"` inside `_xtrace` is False.  Arrays of
incompatible shape make NumPy raise ValueError. -/
def xtraceBody {n : ℕ} (qrInsert : QRInsert n) (A : Operand n) (pdf : Pdf n) (batch : ℕ)
    (record : Bool) (s : XState n) : Py (XState n) :=
  let ns := min (n - s.W.length) batch
  let Nv := List.ofFn (pdf s.history ns)
  let Y := Nv.map A.apply
  match xtraceInsert qrInsert Y s.qr with
  | .error e => .error e
  | .ok qr =>
    let W := s.W ++ Nv
    -- `Q[:, -ns:]`
    let newQ : List (Vec n) := (List.ofFn fun j : Fin qr.k => fun i => qr.Q i j).drop (qr.k - ns)
    let Z := s.Z ++ newQ.map A.apply
    if W.length = qr.k ∧ Z.length = qr.k then
      let t := xtraceEsts (colsMat W qr.k) (colsMat Z qr.k) qr.Q qr.R qr.Rinv false
      match (MeanEst.init 1 false record).update (.vec (List.ofFn t)) with
      | .error e => .error e
      | .ok est => .ok ⟨s.history ++ [ns], W, Z, qr, est, s.calls ++ [.mk2 none none]⟩
    else .error .value

/-- `while not converge(estimator)` (`src/primate/trace.py:289-310`). -/
def xtraceLoop {n : ℕ} (qrInsert : QRInsert n) (A : Operand n) (pdf : Pdf n) (batch : ℕ)
    (record : Bool) (converge : Crit) : ℕ → XState n → Option (Py (XState n))
  | 0, _ => none
  | fuel + 1, s =>
    match converge.eval s.est.view with
    | .error e => some (.error e)
    | .ok true => some (.ok s)
    | .ok false =>
      match xtraceBody qrInsert A pdf batch record s with
      | .error e => some (.error e)
      | .ok s' => xtraceLoop qrInsert A pdf batch record converge fuel s'

/-- The criterion used by `xtrace` (`src/primate/trace.py:271-275`): on line 274
the name `converge` already refers to the count criterion, so the argument of
`convergence_criterion` on line 275 is that object and not the caller's. -/
def xtraceCriterion (tppf : ℝ → ℕ → ℝ) (zscore : ℝ → ℝ) (n : ℕ) (converge : CritArg)
    (kw : Kwargs) : Py Crit :=
  let count : Crit := .count n
  match converge with
  | .str "default" => .ok count
  | _ => (convergenceCriterion tppf zscore (.obj count) kw).map fun c => .or count c

/-- Initial loop state (`src/primate/trace.py:268-269, 279-283`). -/
def XState.init (n : ℕ) (record : Bool) : XState n :=
  ⟨[], [], [], ⟨0, Matrix.of fun _ j => j.elim0, 1, 1⟩, MeanEst.init 1 false record, []⟩

/-- `xtrace` (`src/primate/trace.py:262-315`): the estimate, the result object
(`none` unless `full`), and the final state for the statements about draws. The
callback receives the `EstimatorResult()` created on line 286, which is filled
in only after the loop. -/
def xtrace {n : ℕ} (tppf : ℝ → ℕ → ℝ) (zscore : ℝ → ℝ) (qrInsert : QRInsert n) (rng : Rng)
    (A : Operand n) (batch : ℕ) (pdf : PdfArg n) (converge : CritArg) (full record : Bool)
    (kw : Kwargs) (fuel : ℕ) :
    Option (Py (NumArr (Fin 1 → ℝ) × Option EstResult × XState n)) :=
  if batch < 1 then some (.error .assertion)
  else
    match xtraceCriterion tppf zscore n converge kw with
    | .error e => some (.error e)
    | .ok crit =>
      match pdf.resolve rng with
      | .error e => some (.error e)
      | .ok pdf =>
        match xtraceLoop qrInsert A pdf batch record crit fuel (XState.init n record) with
        | none => none
        | some (.error e) => some (.error e)
        | some (.ok s) =>
          some (.ok (s.est.estimate,
            if full then some ⟨some s.est, some crit, s.est.estimate, 0⟩ else none, s))

end Primate
