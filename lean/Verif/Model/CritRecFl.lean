import Verif.Model.CritFl
import Verif.Model.KneeLoopFl

/-!
# Model of all stopping criteria with rounding, on an estimator that may record its values

The criteria of `Model/CritFl.lean`, `KneeCriterion` (`Model/KneeFl.lean`) and all composites by `|`, `&` and `~` (`src/primate/estimators.py:63-70`), in the loop of `hutch`
(`src/primate/trace.py:107-115`).  Simplifications as in those files.
-/

noncomputable section

namespace Primate

/-- The estimator with its recorded values, `none` without `record=True` (`src/primate/estimators.py:108-115`). -/
structure EstRecFl where
  est : EstFl
  values : Option (List (Fin 1 → ℝ))

/-- `MeanEstimator(covariance=True, record=record)` (`src/primate/estimators.py:108-115`). -/
def EstRecFl.init (record : Bool) : EstRecFl := ⟨EstFl.init, if record then some [] else none⟩

/-- `MeanEstimator.update` (`src/primate/estimators.py:125-141`). -/
def EstRecFl.update (fl : ℝ → ℝ) (e : EstRecFl) (x : List ℝ) (s g : ℝ) : Py EstRecFl :=
  match e.est.update fl x s g with
  | .error err => .error err
  | .ok e' => .ok ⟨e', e.values.map fun v => v ++ x.map fun y _ => y⟩

/-- A history of updates. -/
def EstRecFl.updates (fl : ℝ → ℝ) (e : EstRecFl) (H : List (List ℝ × ℝ × ℝ)) : Py EstRecFl :=
  H.foldlM (fun e B => e.update fl B.1 B.2.1 B.2.2) e

/-- Criteria: those of `CritFl`, the knee criterion and the composites made by `|`, `&` and `~` (`src/primate/estimators.py:63-70`). -/
inductive CritRecFl
  | base (c : CritFl)
  | knee (S : ℝ)
  | or (a b : CritRecFl)
  | and (a b : CritRecFl)
  | not (a : CritRecFl)

/-- Calling a criterion; both sides of a composite are evaluated. -/
def CritRecFl.eval (top : ℝ) (fl root : ℝ → ℝ) (e : EstRecFl) : CritRecFl → Py Bool
  | .base c => c.eval top fl root e.est
  | .knee S => kneeCallFl fl S (RecFl.view ⟨e.est.cov, e.values⟩)
  | .or a b =>
    match a.eval top fl root e, b.eval top fl root e with
    | .ok x, .ok y => .ok (x || y)
    | .error err, _ => .error err
    | _, .error err => .error err
  | .and a b =>
    match a.eval top fl root e, b.eval top fl root e with
    | .ok x, .ok y => .ok (x && y)
    | .error err, _ => .error err
    | _, .error err => .error err
  | .not a =>
    match a.eval top fl root e with
    | .ok x => .ok (!x)
    | .error err => .error err

/-- `while not converge(estimator): ...` (`src/primate/trace.py:107-110, 114-115`), cf. `hutchLoopCritFl`; the number of passes is returned with the estimator. -/
def hutchLoopRecFl {N : ℕ} (top : ℝ) (fl root : ℝ → ℝ) (K : FlKernels N) (A : Matrix (Fin N) (Fin N) ℝ) (pdf : Pdf N) (b : ℕ) (crit : CritRecFl) :
    ℕ → ℕ → EstRecFl → Option (Py (ℕ × EstRecFl))
  | 0, _, _ => none
  | fuel + 1, t, e =>
    match crit.eval top fl root e with
    | .error err => some (.error err)
    | .ok true => some (.ok (t, e))
    | .ok false =>
      let x := quadFormFl K A t (pdf (List.replicate t b) b)
      match e.update fl x (K.colsum t x) (K.gram t x) with
      | .error err => some (.error err)
      | .ok e' => hutchLoopRecFl top fl root K A pdf b crit fuel (t + 1) e'

end Primate
