import Verif.Model.Estimators

/-!
# Model of `src/primate/plotting.py`

A figure is represented by the data handed to Bokeh's glyph methods.  Titles, colours, legends and the rendering itself are not
modelled.  A sample is a finite number or NaN (`none`); infinite samples are not modelled.
-/

noncomputable section

namespace Primate

/-- The argument `estimator` of `figure_sequence` and `figure_error` (`src/primate/plotting.py:63, 118`): an `Estimator` with its
attribute `values` (`None`, or the list of recorded rows), or a sequence of numbers. -/
inductive PlotArg
  | estimator (values : Option (List (List (Option ℝ))))
  | sequence (xs : List (Option ℝ))

/-- A `MeanEstimator` as argument. -/
def MeanEst.plotArg {d : ℕ} (e : MeanEst d) : PlotArg :=
  .estimator (e.values.map fun rows => rows.map fun r => List.ofFn fun i => some (r i))

/-- `sample_vals` and the call `np.isnan(sample_vals)` (`src/primate/plotting.py:69-70, 128-137`).  `values` is a class attribute of
every `Estimator`, so the assertion of lines 129-131 never fires; `np.ravel(None)` is an object array, for which `np.isnan` raises
TypeError. -/
def PlotArg.sampleVals : PlotArg → Py (List (Option ℝ))
  | .estimator none => .error .type
  | .estimator (some rows) => .ok rows.flatten
  | .sequence xs => .ok xs

/-- `sample_vals[valid_samples]` (`src/primate/plotting.py:70, 73, 137, 140`). -/
def validSamples (xs : List (Option ℝ)) : List ℝ := xs.filterMap id

/-- `np.arange(1, n + 1)` (`src/primate/plotting.py:72, 139`). -/
def sampleIndex (n : ℕ) : List ℕ := (List.range n).map fun i => i + 1

/-- `np.cumsum`, starting from `acc`. -/
def cumsum (acc : ℝ) : List ℝ → List ℝ
  | [] => []
  | x :: xs => (acc + x) :: cumsum (acc + x) xs

/-- `np.cumsum(sample_vals[valid_samples]) / sample_index` (`src/primate/plotting.py:73, 140`). -/
def sampleAvgs (xs : List ℝ) : List ℝ := (cumsum 0 xs).zipWith (fun (s : ℝ) (k : ℕ) => s / (k : ℝ)) (sampleIndex xs.length)

/-- The data of the figure returned by `figure_sequence`. -/
structure SeqFigure where
  scatterX : List ℕ
  scatterY : List (Option ℝ)
  lineX : List ℕ
  lineY : List ℝ
  span : Option ℝ

/-- `figure_sequence` (`src/primate/plotting.py:63-95`). -/
def figureSequence (estimator : PlotArg) (mu : Option ℝ) : Py SeqFigure := do
  let sample_vals ← estimator.sampleVals
  let valid := validSamples sample_vals
  let sample_index := sampleIndex valid.length
  let sample_avgs := sampleAvgs valid
  return { scatterX := sample_index, scatterY := sample_vals, lineX := sample_index, lineY := sample_avgs, span := mu }

/-- The markers that a scatter glyph with the columns `x`, `y` can show (`src/primate/plotting.py:80`): rows that exist in both columns
and are not NaN. -/
def SeqFigure.markers (f : SeqFigure) : List (ℕ × ℝ) := (f.scatterX.zip f.scatterY).filterMap fun p => p.2.map fun y => (p.1, y)

/-- The loop of `figure_error` (`src/primate/plotting.py:155-158`). -/
def errorLoop (cc : ConfCrit) (absolute : Bool) (est : MeanEst 1) (cum_error : List Fl) : List ℝ → Py (List Fl)
  | [] => .ok cum_error
  | sample :: rest => do
    let est ← est.update (.scalar sample)
    let (moe, rerr) ← cc.error est.view
    errorLoop cc absolute est (cum_error ++ [if absolute then moe else rerr]) rest

/-- The data of the figure returned by `figure_error`. -/
structure ErrFigure where
  x : List ℕ
  y : List Fl
  thresholdLine : Option (List ℕ × List ℝ)

/-- Lines 148-158 of `figure_error` (`src/primate/plotting.py:148-158`): the binding of the local variable `cum_error` (`none` while
it is unbound).  The first branch assigns `cum_abs_error` and `cum_rel_error`, which are not used afterwards. -/
def cumError (tppf : ℝ → ℕ → ℝ) (zscore : ℝ → ℝ) (valid : List ℝ) (mu : Option ℝ) (absolute : Bool) : Py (Option (List Fl)) :=
  match mu with
  | some _ => .ok none
  | none => do
    let cc ← ConfCrit.init tppf zscore 0.95 (some 0) (some 0.01)
    let l ← errorLoop cc absolute (MeanEst.init 1 true false) [] valid
    return some l

/-- `figure_error` (`src/primate/plotting.py:117-169`).  Line 159 reads `cum_error` (UnboundLocalError while it is unbound);
`sample_index[-1]` raises IndexError for an empty array (line 168). -/
def figureError (tppf : ℝ → ℕ → ℝ) (zscore : ℝ → ℝ) (estimator : PlotArg) (mu threshold : Option ℝ) (absolute : Bool) :
    Py ErrFigure := do
  let sample_vals ← estimator.sampleVals
  let valid := validSamples sample_vals
  let sample_index := sampleIndex valid.length
  let cum_error ← cumError tppf zscore valid mu absolute
  match cum_error with
  | none => .error .name
  | some l =>
    match threshold with
    | none => return { x := sample_index, y := l, thresholdLine := none }
    | some t =>
      match sample_index.getLast? with
      | none => .error .index
      | some last => return { x := sample_index, y := l, thresholdLine := some ([0, last], [t, t]) }

/-- The binary search of `np.searchsorted(a, x, side="left")`: the loop keeps `lo ≤ result ≤ hi`.  NumPy starts from narrower bounds
when the keys increase, with the same result for sorted `a`. -/
def searchLoop (a : ℕ → ℝ) (x : ℝ) : ℕ → ℕ → ℕ → ℕ
  | 0, lo, _ => lo
  | fuel + 1, lo, hi =>
    if lo < hi then
      let mid := lo + (hi - lo) / 2
      open Classical in if a mid < x then searchLoop a x fuel (mid + 1) hi else searchLoop a x fuel lo mid
    else lo

/-- `np.searchsorted(values, x)`. -/
def searchsorted (values : List ℝ) (x : ℝ) : ℕ := searchLoop (fun i => values.getD i 0) x values.length 0 values.length

/-- The data of the figure returned by `figure_csm`. -/
structure CsmFigure where
  x : List ℝ
  y1 : List ℝ
  y2 : List ℝ

/-- `figure_csm` (`src/primate/plotting.py:7-30`); `1 / len(values)` raises ZeroDivisionError for an empty array. -/
def figureCsm (values : List ℝ) : Py CsmFigure :=
  if values.length = 0 then .error .zeroDivision
  else
    let m : ℝ := 1 / values.length
    let csm := fun x => (searchsorted values x : ℝ) * m
    .ok { x := values ++ [1], y1 := List.replicate (values.length + 1) 0, y2 := values.map csm ++ [1] }

/-- `np.linspace(lo, hi, m + 1)` for positive `m`. -/
def linspace (lo hi : ℝ) (m : ℕ) : List ℝ := (List.range (m + 1)).map fun i : ℕ => lo + (i : ℝ) * ((hi - lo) / m)

/-- `np.linspace(-1, 1, 1500)` (`src/primate/plotting.py:47`). -/
def jacobiDomain : List ℝ := linspace (-1) 1 1499

/-- `figure_jacobi` (`src/primate/plotting.py:36-60`): the curves handed to `p.line`, one pair of coordinate lists each.  `evalJacobi d a b x` stands for
`scipy.special.eval_jacobi`.  `Category10` is Bokeh's dictionary of palettes, with the keys 3 to 10; the palette with key `deg` has `deg` colours, so
`zip` on line 48 stops with `range(deg)`. -/
def figureJacobi (evalJacobi : ℕ → ℝ → ℝ → ℝ → ℝ) (deg : ℤ) (alpha beta : ℝ) : Py (List (List ℝ × List ℝ)) :=
  if ¬ deg ≤ 10 then .error .assertion
  else if deg < 3 then .error .key
  else .ok ((List.range deg.toNat).map fun d => (jacobiDomain, jacobiDomain.map fun x => evalJacobi d alpha beta x))

end Primate
