import Verif.Model.Trace

/-!
# What a Monte-Carlo trace estimate should be (independent of the loop)
-/

noncomputable section

namespace Primate.Spec

variable {N : ℕ}

/-- The observations made by the first `k` batches of size `b`, batch by batch: the
`i`-th request is made after `i` requests of the same size. -/
def observations (q : Vec N → ℝ) (pdf : Pdf N) (b k : ℕ) : List (List ℝ) :=
  (List.range k).map fun i => List.ofFn fun j => q (pdf (List.replicate i b) b j)

/-- The vectors drawn by the first `k` requests of `b` columns. -/
def drawn (pdf : Pdf N) (b k : ℕ) : List (Vec N) :=
  (List.range k).flatMap fun i => List.ofFn (pdf (List.replicate i b) b)

/-- Arithmetic mean. -/
def mean (l : List ℝ) : ℝ := l.sum / l.length

/-- The quadratic form of a matrix. -/
def quad (A : Matrix (Fin N) (Fin N) ℝ) (v : Vec N) : ℝ := ∑ i, ∑ j, A i j * v i * v j

/-- A `MeanEstimator` fed batch by batch stops after exactly `k` batches in the state `e`:
the criterion is false after fewer batches and true after `k`. -/
structure StopsAt (q : Vec N → ℝ) (pdf : Pdf N) (b : ℕ) (record : Bool) (crit : Crit) (k : ℕ)
    (e : MeanEst 1) : Prop where
  state : (MeanEst.init 1 true record).updates ((observations q pdf b k).map .vec) = .ok e
  stop : crit.eval e.view = .ok true
  before : ∀ j < k, ∃ e', (MeanEst.init 1 true record).updates
    ((observations q pdf b j).map .vec) = .ok e' ∧ crit.eval e'.view = .ok false

/-- `crit` does not raise on an estimator with covariance tracking fed non-empty batches of
scalars. -/
def NonRaising (record : Bool) (crit : Crit) : Prop :=
  ∀ (Xs : List (List (Fin 1 → ℝ))) (e : MeanEst 1), (∀ X ∈ Xs, X ≠ []) →
    (MeanEst.init 1 true record).updates (Xs.map fun X => .mat ⟨1, X⟩) = .ok e →
    ∃ r, crit.eval e.view = .ok r

end Primate.Spec
