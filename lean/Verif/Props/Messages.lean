import Verif.Model.Messages
import Verif.Props.Estimators

/-! # C99: the messages of the stopping criteria -/

noncomputable section

namespace Primate

/-- The numbers that a message shows, in order. -/
def shownNums : List MsgTok → List Fl
  | [] => []
  | .num x :: l => x :: shownNums l
  | _ :: l => shownNums l

/-- The integers that a message shows, in order. -/
def shownInts : List MsgTok → List ℕ
  | [] => []
  | .int n :: l => n :: shownInts l
  | _ :: l => shownInts l

theorem shownNums_append (a b : List MsgTok) : shownNums (a ++ b) = shownNums a ++ shownNums b := by
  induction a with
  | nil => rfl
  | cons t a ih => cases t <;> simp [shownNums, ih]

theorem shownInts_append (a b : List MsgTok) : shownInts (a ++ b) = shownInts a ++ shownInts b := by
  induction a with
  | nil => rfl
  | cons t a ih => cases t <;> simp [shownInts, ih]

theorem shownNums_commaSep : ∀ l : List Fl, shownNums (commaSep l) = l
  | [] => rfl
  | [x] => rfl
  | x :: y :: l => by simp [commaSep, shownNums, shownNums_commaSep (y :: l)]

theorem shownInts_commaSep : ∀ l : List Fl, shownInts (commaSep l) = []
  | [] => rfl
  | [x] => rfl
  | x :: y :: l => by simp [commaSep, shownInts, shownInts_commaSep (y :: l)]

/-- The entries of an estimate that a reader is to see: all of them up to length three, otherwise the first two and the last. -/
def Spec.shownEntries (l : List Fl) : List Fl :=
  if h : l.length ≤ 3 then l else [l[0], l[1], l[l.length - 1]]

theorem shownInts_arrSummary {d : ℕ} (x : NumArr (Fin d → ℝ)) : shownInts (arrSummary x) = [] := by
  unfold arrSummary
  split_ifs <;> simp [shownInts, shownInts_append, shownInts_commaSep]

/-- `arr_summary` shows all entries of an array of length at most three, and the first two and the last entry of a longer one. -/
theorem C99_summary {d : ℕ} (x : NumArr (Fin d → ℝ)) :
    shownNums (arrSummary x) = Spec.shownEntries (List.ofFn x.entry) := by
  unfold arrSummary Spec.shownEntries
  split_ifs with h1 h2 h3 h3 h3
  · subst h1; simp [shownNums]
  · simp at h2; omega
  · simp [shownNums, shownNums_append, shownNums_commaSep]
  · simp at h3; omega
  · simp at h3; omega
  · obtain ⟨k, rfl⟩ : ∃ k, d = k + 4 := ⟨d - 4, by omega⟩
    simp only [shownNums, shownNums_append, shownNums_commaSep, List.append_nil]
    have e1 : (List.ofFn x.entry).take 2 = [x.entry ⟨0, by omega⟩, x.entry ⟨1, by omega⟩] := by
      rw [List.ofFn_succ, List.ofFn_succ]; rfl
    have e2 : (List.ofFn x.entry).drop (k + 4 - 1) = [x.entry ⟨k + 3, by omega⟩] := by
      rw [List.drop_eq_getElem_cons (by simp), List.drop_eq_nil_of_le (by simp), List.getElem_ofFn]
      rfl
    rw [e1, e2]
    simp only [List.getElem_ofFn, List.length_ofFn]
    rfl

/-- In `arr_summary` the numbers are separated by commas. -/
theorem C99_commas : ∀ l : List Fl, commaSep l = (l.map MsgTok.num).intersperse (.lit ",")
  | [] => rfl
  | [_] => rfl
  | x :: y :: l => by
    rw [commaSep, C99_commas (y :: l)]
    rfl

open Classical in
/-- What there is to show of an estimate after `len` samples: its entries, or a single NaN when there are no samples yet. -/
def Spec.estEntries {d : ℕ} (len : ℕ) (x : NumArr (Fin d → ℝ)) : List Fl :=
  if len = 0 ∧ x = .nan then [.nan] else List.ofFn x.entry

theorem shownInts_estSummary {d : ℕ} (len : ℕ) (x : NumArr (Fin d → ℝ)) : shownInts (estSummary len x) = [] := by
  unfold estSummary
  split <;> exact shownInts_arrSummary _

/-- Before the first sample a single NaN is shown, afterwards the entries of the estimate. -/
theorem C99_estimate {d : ℕ} (len : ℕ) (x : NumArr (Fin d → ℝ)) :
    shownNums (estSummary len x) = Spec.shownEntries (Spec.estEntries len x) := by
  unfold estSummary Spec.estEntries
  split
  · rw [C99_summary]; simp [NumArr.entry]
  · rename_i h
    rw [C99_summary, if_neg]
    rintro ⟨rfl, rfl⟩
    exact h rfl rfl

/-- What the claim demands of a message: it shows the entries of the estimate first, and the number of samples as the only count. -/
def Spec.Reports {d : ℕ} (est : EstView d) (m : List MsgTok) : Prop :=
  ∃ e, est.estimate = .ok e ∧ Spec.shownEntries (Spec.estEntries est.len e) <+: shownNums m ∧ shownInts m = [est.len]

/-- The criteria that are not composed from others or from a user's function. -/
def Crit.simple : Crit → Prop
  | .count _ | .tol _ _ _ | .conf _ | .knee _ => True
  | _ => False

/-- On every state of a `MeanEstimator` at which a simple criterion can be evaluated, its message can be produced and reports the estimate and
the number of samples.  Missing: composite criteria, see `C99_counterexample`. -/
theorem C99_reports_partial {d : ℕ} (e : MeanEst d) (c : Crit) (hc : c.simple) (b : Bool) (h : c.eval e.view = .ok b) :
    ∃ m, c.message e.view = .ok m ∧ Spec.Reports e.view m := by
  have he : e.view.estimate = .ok e.estimate := rfl
  cases c with
  | count k =>
    refine ⟨_, rfl, e.estimate, rfl, ?_, ?_⟩
    · simp [shownNums, shownNums_append, C99_estimate]
    · simp [shownInts, shownInts_append, shownInts_estSummary]
  | knee S =>
    refine ⟨_, rfl, e.estimate, rfl, ?_, ?_⟩
    · simp [shownNums, shownNums_append, C99_estimate]
    · simp [shownInts, shownInts_append, shownInts_estSummary]
  | tol rtol atol ord =>
    have h' : toleranceCall rtol atol ord e.view = .ok b := h
    have hn : ∀ x : NumArr (Fin d → ℝ), ∀ y : NumArr (Fin d → ℝ), (∃ r, arrNorm ord x = .ok r) → ∃ r, arrNorm ord y = .ok r := by
      intro x y hx
      have : ∀ u v : Fin d → ℝ, (∃ r, vecNorm ord u = .ok r) → ∃ r, vecNorm ord v = .ok r := by
        intro u v hu
        cases ord <;> simp only [vecNorm, Except.ok.injEq, exists_eq'] at hu ⊢
        · split_ifs at hu ⊢ with hne
          · exact ⟨_, rfl⟩
          · simp at hu
        · simp at hu
      have key : ∃ r, vecNorm ord (0 : Fin d → ℝ) = .ok r := by
        cases x with
        | val a =>
          apply this a
          obtain ⟨r, hr⟩ := hx
          cases hv : vecNorm ord a with
          | ok r => exact ⟨r, rfl⟩
          | error err => simp [arrNorm, hv, Except.map] at hr
        | inf =>
          obtain ⟨r, hr⟩ := hx
          cases hv : vecNorm ord (0 : Fin d → ℝ) with
          | ok r => exact ⟨r, rfl⟩
          | error err => simp [arrNorm, hv, Except.map] at hr
        | nan =>
          obtain ⟨r, hr⟩ := hx
          cases hv : vecNorm ord (0 : Fin d → ℝ) with
          | ok r => exact ⟨r, rfl⟩
          | error err => simp [arrNorm, hv, Except.map] at hr
      cases y with
      | val a => obtain ⟨r, hr⟩ := this 0 a key; exact ⟨.fin r, by simp [arrNorm, hr, Except.map]⟩
      | inf => obtain ⟨r, hr⟩ := key; exact ⟨.pinf, by simp [arrNorm, hr, Except.map]⟩
      | nan => obtain ⟨r, hr⟩ := key; exact ⟨.nan, by simp [arrNorm, hr, Except.map]⟩
    have hd : ∃ r, arrNorm ord e.delta = .ok r := by
      cases hr : arrNorm ord e.delta with
      | ok r => exact ⟨r, rfl⟩
      | error err =>
        simp [toleranceCall, MeanEst.view, deltaNorm, hr, bind, Except.bind] at h'
    obtain ⟨r1, h1⟩ := hd
    obtain ⟨r2, h2⟩ := hn _ e.estimate ⟨r1, h1⟩
    refine ⟨_, by simp only [Crit.message, toleranceMessage, MeanEst.view, deltaNorm1, h1, h2, bind, Except.bind, pure, Except.pure]; rfl,
      e.estimate, rfl, ?_, ?_⟩
    · simp only [shownNums, shownNums_append, C99_estimate, List.append_assoc]
      exact List.prefix_append _ _
    · simp [shownInts, shownInts_append, shownInts_estSummary, MeanEst.view]
  | conf c =>
    have h' : c.call e.view = .ok b := h
    have hf : ∃ r, c.formatError e.view = .ok r := by
      unfold ConfCrit.formatError
      split_ifs with h3 h1
      · exact ⟨_, rfl⟩
      · cases hr : c.error e.view with
        | ok r => exact ⟨r.1, rfl⟩
        | error err => simp [ConfCrit.call, MeanEst.view] at h' hr; simp [hr] at h'
      · exfalso
        obtain ⟨err, herr⟩ : ∃ err, c.error e.view = .error err := by
          unfold ConfCrit.error
          rw [if_neg h3]
          cases e.view.cov with
          | none => exact ⟨_, rfl⟩
          | some cv =>
            cases hcv : cv.covariance 1 with
            | error err => exact ⟨err, by simp [hcv, bind, Except.bind]⟩
            | ok C => exact ⟨.value, by simp [hcv, he, h1, bind, Except.bind]⟩
        have hm : e.view.isMean = true := rfl
        simp [ConfCrit.call, herr, hm, bind, Except.bind] at h'
    obtain ⟨r, hr⟩ := hf
    refine ⟨_, by simp only [Crit.message, ConfCrit.message, he, hr, bind, Except.bind, pure, Except.pure]; rfl,
      e.estimate, rfl, ?_, ?_⟩
    · simp [shownNums, shownNums_append, C99_estimate]
    · simp [shownInts, shownInts_append, shownInts_estSummary]
  | custom f => exact hc.elim
  | or a b => exact hc.elim
  | and a b => exact hc.elim
  | not a => exact hc.elim

/-- What the messages show besides the estimate: the margin of error and the confidence in percent. -/
theorem C99_confidence (c : ConfCrit) (e : MeanEst 1) (m : Fl × Fl) (h : c.error e.view = .ok m) :
    ∃ msg, (Crit.conf c).message e.view = .ok msg ∧
      shownNums msg = Spec.shownEntries (Spec.estEntries e.view.len e.estimate) ++ [m.1, .fin (c.confidence * 100)] := by
  have he : e.view.estimate = .ok e.estimate := rfl
  have hf : c.formatError e.view = .ok m.1 := by
    unfold ConfCrit.formatError
    split_ifs with h3
    · unfold ConfCrit.error at h
      rw [if_pos h3] at h
      cases h
      rfl
    · rw [h]; rfl
    · omega
  refine ⟨_, by simp only [Crit.message, ConfCrit.message, he, hf, bind, Except.bind, pure, Except.pure]; rfl, ?_⟩
  simp [shownNums, shownNums_append, C99_estimate]

/-- The entries of special estimates: all infinite, all NaN, or the numbers themselves. -/
theorem C99_entry {d : ℕ} (a : Fin d → ℝ) (i : Fin d) :
    (NumArr.val a).entry i = .fin (a i) ∧ (NumArr.inf : NumArr (Fin d → ℝ)).entry i = .pinf ∧
    (NumArr.nan : NumArr (Fin d → ℝ)).entry i = .nan := ⟨rfl, rfl, rfl⟩

/-- The message of a tolerance criterion shows the estimate, the absolute and the relative tolerance in this order, then the norm of the last update
and the norm of the estimate, each computed as the criterion itself computes it. -/
theorem C99_tolerance {d : ℕ} (rtol atol : ℝ) (ord : NormOrd) (e : MeanEst d) (err nrm : Fl)
    (h1 : arrNorm ord e.delta = .ok err) (h2 : arrNorm ord e.estimate = .ok nrm) :
    ∃ msg, (Crit.tol rtol atol ord).message e.view = .ok msg ∧
      shownNums msg = Spec.shownEntries (Spec.estEntries e.view.len e.estimate) ++ [.fin atol, .fin rtol, err, nrm] := by
  refine ⟨_, by simp only [Crit.message, toleranceMessage, MeanEst.view, deltaNorm1, h1, h2, bind, Except.bind, pure, Except.pure]; rfl, ?_⟩
  simp [shownNums, shownNums_append, C99_estimate, MeanEst.view]

/-- The message of a count criterion shows no number besides the estimate; that of a knee criterion shows the sensitivity last. -/
theorem C99_count_knee {d : ℕ} (k : ℤ) (S : ℝ) (e : MeanEst d) :
    (∃ msg, (Crit.count k).message e.view = .ok msg ∧ shownNums msg = Spec.shownEntries (Spec.estEntries e.view.len e.estimate)) ∧
    (∃ msg, (Crit.knee S).message e.view = .ok msg ∧
      shownNums msg = Spec.shownEntries (Spec.estEntries e.view.len e.estimate) ++ [.fin S]) := by
  refine ⟨⟨_, rfl, ?_⟩, _, rfl, ?_⟩ <;> simp [shownNums, shownNums_append, C99_estimate]

/-- The text of a message, given the text printed for each number, count and norm order. -/
def Spec.text (num : Fl → String) (int : ℕ → String) (ord : NormOrd → String) : List MsgTok → String
  | [] => ""
  | .lit s :: l => s ++ Spec.text num int ord l
  | .num x :: l => num x ++ Spec.text num int ord l
  | .int n :: l => int n ++ Spec.text num int ord l
  | .ord o :: l => ord o ++ Spec.text num int ord l

/-- The wording of the messages for scalar estimates, with the labels next to the values they belong to. -/
theorem C99_text (num : Fl → String) (int : ℕ → String) (ord : NormOrd → String) (e : MeanEst 1) (k : ℤ) (S rtol atol : ℝ) (o : NormOrd) (c : ConfCrit) :
    (∃ m, (Crit.count k).message e.view = .ok m ∧
      Spec.text num int ord m = "Est: " ++ num (e.estimate.entry 0) ++ " (#S:" ++ int e.view.len ++ ")") ∧
    (∃ m, (Crit.knee S).message e.view = .ok m ∧
      Spec.text num int ord m = "Est: " ++ num (e.estimate.entry 0) ++ " (#S:" ++ int e.view.len ++ ", S=" ++ num (.fin S) ++ ")") ∧
    (∀ err nrm, arrNorm o e.delta = .ok err → arrNorm o e.estimate = .ok nrm → ∃ m, (Crit.tol rtol atol o).message e.view = .ok m ∧
      Spec.text num int ord m = "Est: " ++ num (e.estimate.entry 0) ++ "(atol=" ++ num (.fin atol) ++ ", rtol=" ++ num (.fin rtol) ++ ", #S:" ++
        int e.view.len ++ ")\nnorm(it - est, " ++ ord o ++ ") = " ++ num err ++ ", norm(est, " ++ ord o ++ ") = " ++ num nrm) ∧
    (∀ moe, c.error e.view = .ok moe → ∃ m, (Crit.conf c).message e.view = .ok m ∧
      Spec.text num int ord m = "Est: " ++ num (e.estimate.entry 0) ++ " +/- " ++ num moe.1 ++ " (" ++ num (.fin (c.confidence * 100)) ++ "% CI, #S:" ++
        int e.view.len ++ ")") := by
  have he : e.view.estimate = .ok e.estimate := rfl
  have hs : estSummary e.view.len e.estimate = [.num (e.estimate.entry 0)] := by
    unfold estSummary
    split
    · rename_i h _
      rw [h]
      rfl
    · rfl
  refine ⟨⟨_, rfl, ?_⟩, ⟨_, rfl, ?_⟩, ?_, ?_⟩
  · rw [hs]; simp [Spec.text, String.append_assoc]
  · rw [hs]; simp [Spec.text, String.append_assoc]
  · intro err nrm h1 h2
    refine ⟨_, by simp only [Crit.message, toleranceMessage, MeanEst.view, deltaNorm1, h1, h2, bind, Except.bind, pure, Except.pure]; rfl, ?_⟩
    change Spec.text num int ord ((.lit "Est: " :: estSummary e.view.len e.estimate ++ _) ++ _) = _
    rw [hs]
    simp [Spec.text, String.append_assoc, MeanEst.view]
    rw [show (")\nnorm(it - est, " : String) = ")" ++ "\nnorm(it - est, " from rfl, String.append_assoc]
  · intro moe h
    have hf : c.formatError e.view = .ok moe.1 := by
      unfold ConfCrit.formatError
      split_ifs with h3
      · unfold ConfCrit.error at h
        rw [if_pos h3] at h
        cases h
        rfl
      · rw [h]; rfl
      · omega
    refine ⟨_, by simp only [Crit.message, ConfCrit.message, he, hf, bind, Except.bind, pure, Except.pure]; rfl, ?_⟩
    rw [hs]; simp [Spec.text, String.append_assoc]

/-- A count criterion after no samples prints `Est: nan (#S:0)`. -/
example : ∃ m, (Crit.count 5).message (MeanEst.init 1 false false).view = .ok m ∧
    Spec.text (fun x => match x with | .nan => "nan" | _ => "?") toString (fun _ => "2") m = "Est: nan (#S:0)" := by
  obtain ⟨m, h1, h2⟩ := (C99_text (fun x => match x with | .nan => "nan" | _ => "?") toString (fun _ => "2") (MeanEst.init 1 false false) 5 0 0 0 .two
    ⟨0, 0, 0, fun _ => 0, 0⟩).1
  refine ⟨m, h1, h2.trans ?_⟩
  have h : (MeanEst.init 1 false false).estimate = .nan := by simp [MeanEst.estimate, MeanEst.init, Mean.init, Mean.mean]
  rw [h]
  rfl

/-- Before the first sample: the message of a count criterion shows one NaN and no samples, although the estimator has two columns. -/
example (k : ℤ) : ∃ m, (Crit.count k).message (MeanEst.init 2 false false).view = .ok m ∧ shownNums m = [.nan] ∧ shownInts m = [0] := by
  refine ⟨_, rfl, ?_, ?_⟩
  · simp only [shownNums, shownNums_append, C99_estimate, List.append_nil]
    have h : (MeanEst.init 2 false false).estimate = .nan := by simp [MeanEst.estimate, MeanEst.init, Mean.init, Mean.mean]
    have h' : (MeanEst.init 2 false false).view.len = 0 := rfl
    simp [h, h', Spec.shownEntries, Spec.estEntries]
  · simp [shownInts, shownInts_append, shownInts_estSummary]
    rfl

/-- Without covariance tracking the message of a confidence criterion raises AttributeError from three samples on, and with vector-valued
estimates TypeError; so does the criterion itself (with ValueError for vectors, C11). -/
theorem C99_confidence_raises {d : ℕ} (c : ConfCrit) (e : MeanEst d) (hn : 3 ≤ e.nSamples) :
    (e.acc.isCov = false → (Crit.conf c).message e.view = .error .attribute) ∧
    (e.acc.isCov = true → 2 ≤ d → (Crit.conf c).message e.view = .error .type) := by
  have he : e.view.estimate = .ok e.estimate := rfl
  have hns : ¬ e.view.nSamples < 3 := by simpa [MeanEst.view] using hn
  constructor
  · intro h
    have hc : e.view.cov = none := by
      unfold MeanEst.view; revert h; cases e.acc <;> simp [Acc.isCov]
    have hf : c.formatError e.view = .error .attribute := by
      unfold ConfCrit.formatError ConfCrit.error
      rw [if_neg hns, if_neg hns, hc]
      split_ifs <;> rfl
    simp only [Crit.message, ConfCrit.message, he, hf, bind, Except.bind]
  · intro h hd
    obtain ⟨cv, hcv⟩ : ∃ cv, e.view.cov = some cv := by
      unfold MeanEst.view; revert h; cases e.acc <;> simp [Acc.isCov]
    obtain ⟨C, hC⟩ : ∃ C, cv.covariance 1 = .ok C := by
      unfold Covariance.covariance
      split_ifs <;> first | omega | exact ⟨_, rfl⟩
    have hf : c.formatError e.view = .error .type := by
      unfold ConfCrit.formatError
      rw [if_neg hns, if_neg (by omega), hcv]
      simp [hC, he, bind, Except.bind]
    simp only [Crit.message, ConfCrit.message, he, hf, bind, Except.bind]

/-- The claim is false of the code for composed criteria, such as the default of `hutch`: the message shows neither the estimate nor the
number of samples, on any state of any estimator. -/
theorem C99_counterexample {d : ℕ} (a b : Crit) (est : EstView d) :
    ∃ m, (Crit.or a b).message est = .ok m ∧ ¬ Spec.Reports est m := by
  refine ⟨_, rfl, ?_⟩
  rintro ⟨e, -, -, h⟩
  simp [shownInts] at h

/-- `hutch` asks for the message at a state on which the criterion has just returned True (`src/primate/trace.py:107, 111`): this never raises, so
`hutch` in `Model/Trace.lean`, which leaves the message out, raises exactly when the code does. -/
theorem C99_hutch_message (c : Crit) (e : MeanEst 1) (h : c.eval e.view = .ok true) : ∃ m, c.message e.view = .ok m := by
  cases c with
  | count k => exact ⟨_, rfl⟩
  | knee S => exact ⟨_, rfl⟩
  | tol rtol atol ord => exact (C99_reports_partial e _ (by simp [Crit.simple]) _ h).imp fun _ h => h.1
  | conf c => exact (C99_reports_partial e _ (by simp [Crit.simple]) _ h).imp fun _ h => h.1
  | custom f => exact ⟨_, rfl⟩
  | or a b => exact ⟨_, rfl⟩
  | and a b => exact ⟨_, rfl⟩
  | not a => exact ⟨_, rfl⟩

/-- On a `ControlVariableEstimator` the message of a tolerance criterion can be produced although the criterion itself raises ValueError (C76): the
message promotes the scalar `delta` to an array. -/
theorem C99_control_variates {k : ℕ} (s : CVEst k) (x : NumArr ℝ) (hx : s.estimate = .ok x) (rtol atol : ℝ) :
    (Crit.tol rtol atol .two).eval s.view = .error .value ∧ ∃ m, (Crit.tol rtol atol .two).message s.view = .ok m := by
  constructor
  · simp [Crit.eval, toleranceCall, CVEst.view, hx, deltaNorm, bind, Except.bind, Except.map]
  · cases x <;>
      simp [Crit.message, toleranceMessage, CVEst.view, hx, deltaNorm1, arrNorm, vecNorm, bind, Except.bind, Except.map, pure, Except.pure]

/-- Two samples with two columns: the message of a count criterion shows both means and the count. -/
example : ∃ e m, (MeanEst.init 2 false false).updates [.mat ⟨2, [![2, 1], ![4, 5]]⟩] = .ok e ∧ (Crit.count 2).message e.view = .ok m ∧
    shownNums m = [.fin 3, .fin 3] ∧ shownInts m = [2] := by
  obtain ⟨e, h, h1, h2, -⟩ := C07_bookkeeping (d := 2) false false [] [![2, 1], ![4, 5]] (by simp) (by simp)
  refine ⟨e, _, h, rfl, ?_, ?_⟩
  · have h2' : e.view.estimate = .ok e.estimate := rfl
    simp only [shownNums, shownNums_append, C99_estimate, h2, List.append_nil]
    simp [Spec.shownEntries, Spec.estEntries, NumArr.entry, Spec.sampleMean]
    norm_num
  · simp [shownInts, shownInts_append, shownInts_estSummary]; exact h1

end Primate
