import Verif.Model.Trace
import Verif.Model.Diagonal

/-!
# Model of the generators and the `seed` argument

The other models take a generator to be the stream of numbers it is going to produce.  Here it is an object with a state: every draw changes it, and a caller
who passes a `np.random.Generator` gets it back in the state in which the function left it.
-/

noncomputable section

namespace Primate

/-- A kind of `np.random.Generator`: one step of `random`, one step of `standard_normal` (a step may consume any number of machine words, the ziggurat method of
NumPy rejects candidates) and the states made from non-negative integer seeds.  Filling an array makes one step per entry. -/
structure BitGen (σ : Type) where
  unif : σ → ℝ × σ
  norm : σ → ℝ × σ
  seeded : ℕ → σ

/-- Fill `n` memory cells, one after the other. -/
def drawList {σ : Type} (step : σ → ℝ × σ) : ℕ → σ → List ℝ × σ
  | 0, s => ([], s)
  | n + 1, s =>
    let (x, s') := step s
    let (l, s'') := drawList step n s'
    (x :: l, s'')

/-- The memory of a Fortran-ordered `N x b` array read by columns. -/
def memCols (N b : ℕ) (l : List ℝ) : Fin b → Vec N := fun j i => l.getD (j * N + i) 0

/-- `_ISO_FUNCS[pdf](rng, out=W)` (`src/primate/random.py:22-44`) for a Fortran-ordered `N x b` array, with the new state of the generator. -/
def IsoDist.fillG {σ : Type} (g : BitGen σ) (dist : IsoDist) (N b : ℕ) (s : σ) : (Fin b → Vec N) × σ :=
  match dist with
  | .rademacher =>
    let (l, s') := drawList g.unif (N * b) s
    (memCols N b (l.map rademacherEntry), s')
  | .normal =>
    let (l, s') := drawList g.norm (N * b) s
    (memCols N b l, s')
  | .sphere =>
    let (l, s') := drawList g.norm (N * b) s
    (fun j => sphereCol (memCols N b l j), s')

/-- The `seed` argument: an integer, a Generator in a certain state, or None (the state comes from the entropy of the system). -/
inductive SeedArg (σ : Type)
  | int (n : ℤ)
  | generator (s : σ)
  | none

/-- `np.random.default_rng(seed)` (`src/primate/trace.py:86`, `src/primate/diagonal.py:60`): negative integers raise ValueError, a Generator is passed through
unchanged.  `entropy` is the state made without a seed. -/
def defaultRng {σ : Type} (g : BitGen σ) (entropy : σ) : SeedArg σ → Py σ
  | .int n => if n < 0 then .error .value else .ok (g.seeded n.toNat)
  | .generator s => .ok s
  | .none => .ok entropy

/-- The two kinds of samplers in use: a built-in distribution bound to the generator, or a callable of the caller, which is not given the generator. -/
inductive Sampler (N : ℕ)
  | iso (dist : IsoDist)
  | callable (f : Pdf N)

/-- `pdf = isotropic(pdf=pdf, seed=rng) if isinstance(pdf, str) else pdf` (`src/primate/trace.py:87`, `src/primate/random.py:64-80`). -/
def PdfArg.sampler {N : ℕ} : PdfArg N → Py (Sampler N)
  | .name s => match ISO_DISTRIBUTIONS.lookup s with
    | none => .error .assertion
    | some dist => .ok (.iso dist)
  | .callable f => .ok (.callable f)

/-- `pdf(size=(N, b))` in state `s` after the requests `history`. -/
def Sampler.draw {N : ℕ} {σ : Type} (g : BitGen σ) (history : List ℕ) (b : ℕ) (s : σ) : Sampler N → (Fin b → Vec N) × σ
  | .iso dist => dist.fillG g N b s
  | .callable f => (f history b, s)

/-- The loop of `hutch` (`src/primate/trace.py:107-110, 114-115`) with the state of the generator; also when an exception ends it the generator stays where it is. -/
def hutchLoopG {N : ℕ} {σ : Type} (g : BitGen σ) (A : Operand N) (pdf : Sampler N) (b : ℕ) (converge : Crit) :
    ℕ → HutchState → σ → Option (Py HutchState × σ)
  | 0, _, _ => none
  | fuel + 1, st, s =>
    match converge.eval st.est.view with
    | .error e => some (.error e, s)
    | .ok true => some (.ok st, s)
    | .ok false =>
      let (v, s') := pdf.draw g st.history b s
      match st.est.update (.vec (List.ofFn fun j => A.quadForm (v j))) with
      | .error e => some (.error e, s')
      | .ok est => hutchLoopG g A pdf b converge fuel ⟨st.history ++ [b], est, st.calls ++ [est]⟩ s'

/-- `hutch` (`src/primate/trace.py:82-116`) started with the generator in state `s`: what it returns or raises, and the state of the generator afterwards. -/
def hutchG {N : ℕ} {σ : Type} (g : BitGen σ) (tppf : ℝ → ℕ → ℝ) (zscore : ℝ → ℝ) (a : HutchArgs N) (fuel : ℕ) (s : σ) :
    Option (Py (HutchOut × List (MeanEst 1)) × σ) :=
  match a.pdf.sampler with
  | .error e => some (.error e, s)
  | .ok pdf =>
    let estimator := MeanEst.init 1 true a.record
    match hutchCriterion tppf zscore a.converge a.kw with
    | .error e => some (.error e, s)
    | .ok converge =>
      if N = 0 then
        if a.full then some (.ok (.pair (.val fun _ => 0) (.mk2 (some estimator) (some converge)), []), s)
        else some (.ok (.scalar (.val fun _ => 0), []), s)
      else if a.full || a.callback then
        match hutchLoopG g a.A pdf a.batch converge fuel ⟨[], estimator, []⟩ s with
        | none => none
        | some (.error e, s') => some (.error e, s')
        | some (.ok st, s') =>
          some (.ok (.pair st.est.estimate (.mk2 (some st.est) (some converge)), if a.callback then st.calls else []), s')
      else
        match hutchLoopG g a.A pdf 1 converge fuel ⟨[], estimator, []⟩ s with
        | none => none
        | some (.error e, s') => some (.error e, s')
        | some (.ok st, s') => some (.ok (.scalar st.est.estimate, []), s')

/-- `hutch(A, ..., seed=seed)` (`src/primate/trace.py:86-116`): the second component is the state in which a Generator passed by the caller is left. -/
def hutchSeed {N : ℕ} {σ : Type} (g : BitGen σ) (entropy : σ) (tppf : ℝ → ℕ → ℝ) (zscore : ℝ → ℝ) (a : HutchArgs N) (fuel : ℕ) (seed : SeedArg σ) :
    Option (Py (HutchOut × List (MeanEst 1)) × SeedArg σ) :=
  match defaultRng g entropy seed with
  | .error e => some (.error e, seed)
  | .ok s =>
    match hutchG g tppf zscore a fuel s with
    | none => none
    | some (r, s') => some (r, match seed with
      | .generator _ => .generator s'
      | other => other)

/-- `hutchpp` (`src/primate/trace.py:135-182`) started with the generator in state `s`. -/
def hutchppG {N : ℕ} {σ : Type} (g : BitGen σ) (qr : ∀ nb, (Fin nb → Vec N) → Fin (min N nb) → Vec N) (A : Operand N) (m : Option ℤ) (modeFull : Bool)
    (pdf : PdfArg N) (full : Bool) (s : σ) : Py HutchppOut × σ :=
  match pdf with
  | .callable _ => (.error .assertion, s)
  | .name nm =>
    match ISO_DISTRIBUTIONS.lookup nm with
    | none => (.error .assertion, s)
    | some dist =>
      if N = 0 then (.ok (if full then .pair 0 0 0 [] else .scalar 0), s)
      else
        let nb := hutchppNb N m
        if nb < 0 then (.error .value, s)
        else if nb = 0 then (.error .zeroDivision, s)
        else
          let (WB, s₁) := dist.fillG g N nb.toNat s
          let (G, s₂) := dist.fillG g N nb.toNat s₁
          (.ok (hutchppCore (qr nb.toNat) A modeFull full WB G), s₂)

/-- The loop of `diag` (`src/primate/diagonal.py:74-81, 86-91`) with the state of the generator. -/
def diagLoopG {N : ℕ} {σ : Type} (g : BitGen σ) (A : Operand N) (dist : IsoDist) (converge : Crit) :
    ℕ → DiagState N → σ → Option (Py (DiagState N) × σ)
  | 0, _, _ => none
  | fuel + 1, st, s =>
    match converge.eval st.est.view with
    | .error e => some (.error e, s)
    | .ok true => some (.ok st, s)
    | .ok false =>
      let (W, s') := dist.fillG g N 1 s
      let v := W 0
      let u := A.apply v
      let numer := fun i => st.numer i + u i * v i
      let denom := fun i => st.denom i + v i ^ 2
      match st.est.update (.mat ⟨N, [fun i => numer i / denom i]⟩) with
      | .error e => some (.error e, s')
      | .ok est => diagLoopG g A dist converge fuel ⟨st.history ++ [1], numer, denom, est, st.calls ++ [est]⟩ s'

/-- `diag` (`src/primate/diagonal.py:56-92`) started with the generator in state `s`. -/
def diagG {N : ℕ} {σ : Type} (g : BitGen σ) (tppf : ℝ → ℕ → ℝ) (zscore : ℝ → ℝ) (a : DiagArgs N) (fuel : ℕ) (s : σ) :
    Option (Py (DiagOut N × List (MeanEst N)) × σ) :=
  match a.pdf with
  | .callable _ => some (.error .assertion, s)
  | .name nm =>
    match ISO_DISTRIBUTIONS.lookup nm with
    | none => some (.error .assertion, s)
    | some dist =>
      let estimator := MeanEst.init N false a.record
      match convergenceCriterion tppf zscore a.converge a.kw with
      | .error e => some (.error e, s)
      | .ok converge =>
        if N = 0 then some (.ok (if a.full then .zeroPair else .zero, []), s)
        else
          match diagLoopG g a.A dist converge fuel ⟨[], fun _ => 0, fun _ => 0, estimator, []⟩ s with
          | none => none
          | some (.error e, s') => some (.error e, s')
          | some (.ok st, s') =>
            if a.full || a.callback then
              some (.ok (.pair st.est.estimate st.est converge st.est.estimate, if a.callback then st.calls else []), s')
            else some (.ok (.arr st.est.estimate, []), s')

end Primate
