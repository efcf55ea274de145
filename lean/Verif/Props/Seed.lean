import Verif.Model.Seed
import Verif.Props.HutchBatch
import Verif.Props.Diagonal

/-! # Property C115: seeds and generators -/

noncomputable section

namespace Primate

variable {N : ℕ} {σ : Type}

/-- The state of a generator after `n` draws. -/
def Spec.after (step : σ → ℝ × σ) : ℕ → σ → σ
  | 0, s => s
  | n + 1, s => Spec.after step n (step s).2

/-- The numbers a generator in state `s` is going to produce. -/
def BitGen.stream (g : BitGen σ) (s : σ) : Rng :=
  ⟨fun i => (g.unif (Spec.after g.unif i s)).1, fun i => (g.norm (Spec.after g.norm i s)).1⟩

/-- Which numbers a distribution is made of: uniform ones for signs, normal ones for the others. -/
def Spec.source (g : BitGen σ) : IsoDist → σ → ℝ × σ
  | .rademacher => g.unif
  | .normal => g.norm
  | .sphere => g.norm

theorem after_add (step : σ → ℝ × σ) (m n : ℕ) (s : σ) : Spec.after step n (Spec.after step m s) = Spec.after step (m + n) s := by
  induction m generalizing s with
  | zero => rw [Nat.zero_add]; rfl
  | succ m ih => rw [Nat.succ_add]; exact ih _

theorem drawList_eq (step : σ → ℝ × σ) (n : ℕ) (s : σ) :
    drawList step n s = ((List.range n).map fun i => (step (Spec.after step i s)).1, Spec.after step n s) := by
  induction n generalizing s with
  | zero => rfl
  | succ n ih =>
    simp only [drawList, ih, List.range_succ_eq_map, List.map_cons, List.map_map]
    rfl

theorem memCols_range (b : ℕ) (f : ℕ → ℝ) (j : Fin b) (i : Fin N) : memCols N b ((List.range (N * b)).map f) j i = f (j * N + i) := by
  unfold memCols
  have : (j : ℕ) * N + i < N * b := by
    have h1 : ((j : ℕ) + 1) * N ≤ b * N := Nat.mul_le_mul_right _ j.2
    have := i.2
    nlinarith
  rw [List.getD_eq_getElem?_getD, List.getElem?_map, List.getElem?_range this]
  rfl

theorem fillG_eq (g : BitGen σ) (dist : IsoDist) (b p : ℕ) (s : σ) :
    dist.fillG g N b (Spec.after (Spec.source g dist) p s) =
      (dist.fill N b (g.stream s) p, Spec.after (Spec.source g dist) (p + N * b) s) := by
  cases dist with
  | rademacher =>
    simp only [IsoDist.fillG, Spec.source, drawList_eq, after_add, List.map_map]
    congr 1
    funext j i
    rw [memCols_range]
    simp only [Function.comp, IsoDist.fill, rawCols, BitGen.stream, add_assoc]
  | normal =>
    simp only [IsoDist.fillG, Spec.source, drawList_eq, after_add]
    congr 1
    funext j i
    rw [memCols_range]
    simp only [IsoDist.fill, rawCols, BitGen.stream, add_assoc]
  | sphere =>
    simp only [IsoDist.fillG, Spec.source, drawList_eq, after_add]
    congr 1
    funext j
    simp only [IsoDist.fill]
    congr 1
    funext i
    rw [memCols_range]
    simp only [rawCols, BitGen.stream, add_assoc]

theorem hutchLoopG_iso (g : BitGen σ) (A : Operand N) (dist : IsoDist) (b : ℕ) (crit : Crit) (s₀ : σ) (fuel : ℕ) : ∀ (st : HutchState) (s : σ),
    s = Spec.after (Spec.source g dist) (st.history.sum * N) s₀ →
    (hutchLoopG g A (.iso dist) b crit fuel st s).map Prod.fst =
      hutchLoop A (fun h b => dist.fill N b (g.stream s₀) (h.sum * N)) b crit fuel st ∧
    ∀ st' s', hutchLoopG g A (.iso dist) b crit fuel st s = some (.ok st', s') →
      s' = Spec.after (Spec.source g dist) (st'.history.sum * N) s₀ := by
  induction fuel with
  | zero => intro st s _; exact ⟨rfl, fun st' s' h => by cases h⟩
  | succ fuel ih =>
    rintro st s rfl
    unfold hutchLoopG hutchLoop hutchBody
    rcases crit.eval st.est.view with e | ⟨_ | _⟩
    · exact ⟨rfl, fun st' s' h => by cases h⟩
    · simp only [Sampler.draw, fillG_eq]
      rcases st.est.update _ with e | est
      · exact ⟨rfl, fun st' s' h => by cases h⟩
      · refine ih _ _ ?_
        simp only [List.sum_append, List.sum_cons, List.sum_nil, add_zero]
        congr 1
        ring
    · refine ⟨rfl, fun st' s' h => ?_⟩
      cases h
      rfl

theorem hutchLoopG_callable (g : BitGen σ) (A : Operand N) (f : Pdf N) (b : ℕ) (crit : Crit) (fuel : ℕ) (s : σ) : ∀ st : HutchState,
    hutchLoopG g A (.callable f) b crit fuel st s = (hutchLoop A f b crit fuel st).map fun r => (r, s) := by
  induction fuel with
  | zero => intro st; rfl
  | succ fuel ih =>
    intro st
    unfold hutchLoopG hutchLoop hutchBody
    rcases crit.eval st.est.view with e | ⟨_ | _⟩
    · rfl
    · simp only [Sampler.draw]
      rcases st.est.update _ with e | est
      · rfl
      · exact ih _
    · rfl

variable (tppf : ℝ → ℕ → ℝ) (zscore : ℝ → ℝ)

/-- **C115**: what `hutch` returns or raises is determined by the numbers the generator is going to produce. -/
theorem C115_hutch_stream (g : BitGen σ) (a : HutchArgs N) (fuel : ℕ) (s : σ) :
    (hutchG g tppf zscore a fuel s).map Prod.fst = hutch tppf zscore (g.stream s) a fuel := by
  unfold hutchG hutch
  rcases hp : a.pdf with name | f
  · simp only [PdfArg.sampler, PdfArg.resolve, isotropicPdf]
    rcases ISO_DISTRIBUTIONS.lookup name with _ | dist
    · rfl
    · simp only
      rcases hutchCriterion tppf zscore a.converge a.kw with e | crit
      · rfl
      · have h : ∀ b, (hutchLoopG g a.A (.iso dist) b crit fuel ⟨[], MeanEst.init 1 true a.record, []⟩ s).map Prod.fst = _ :=
          fun b => (hutchLoopG_iso g a.A dist b crit s fuel ⟨[], MeanEst.init 1 true a.record, []⟩ s (by simp [Spec.after])).1
        simp only
        by_cases hN : N = 0
        · simp only [hN, if_true]; cases a.full <;> rfl
        · simp only [hN, if_false]
          cases a.full || a.callback
          · simp only [← h, Bool.false_eq_true, if_false]
            rcases hutchLoopG g a.A (.iso dist) 1 crit fuel ⟨[], MeanEst.init 1 true a.record, []⟩ s with _ | ⟨_ | _, _⟩ <;> rfl
          · simp only [← h, if_true]
            rcases hutchLoopG g a.A (.iso dist) a.batch crit fuel ⟨[], MeanEst.init 1 true a.record, []⟩ s with _ | ⟨_ | _, _⟩ <;> rfl
  · simp only [PdfArg.sampler, PdfArg.resolve]
    rcases hutchCriterion tppf zscore a.converge a.kw with e | crit
    · rfl
    · by_cases hN : N = 0
      · simp only [hN, if_true]; cases a.full <;> rfl
      · simp only [hN, if_false, hutchLoopG_callable]
        cases a.full || a.callback
        · simp only [Bool.false_eq_true, if_false]
          rcases hutchLoop a.A f 1 crit fuel ⟨[], MeanEst.init 1 true a.record, []⟩ with _ | _ | _ <;> rfl
        · simp only [if_true]
          rcases hutchLoop a.A f a.batch crit fuel ⟨[], MeanEst.init 1 true a.record, []⟩ with _ | _ | _ <;> rfl

/-- **C115**: with a callable `pdf` the generator is not touched. -/
theorem C115_callable (g : BitGen σ) (a : HutchArgs N) (f : Pdf N) (hp : a.pdf = .callable f) (fuel : ℕ) (s : σ)
    (r : Py (HutchOut × List (MeanEst 1))) (s' : σ) (h : hutchG g tppf zscore a fuel s = some (r, s')) : s' = s := by
  unfold hutchG at h
  simp only [hp, PdfArg.sampler, hutchLoopG_callable] at h
  rcases hc : hutchCriterion tppf zscore a.converge a.kw with e | crit
  · rw [hc] at h; cases h; rfl
  · rw [hc] at h
    simp only at h
    split_ifs at h
    · cases h; rfl
    · cases h; rfl
    · rcases hl : hutchLoop a.A f a.batch crit fuel ⟨[], MeanEst.init 1 true a.record, []⟩ with _ | _ | _ <;> rw [hl] at h <;> cases h <;> rfl
    · rcases hl : hutchLoop a.A f a.batch crit fuel ⟨[], MeanEst.init 1 true a.record, []⟩ with _ | _ | _ <;> rw [hl] at h <;> cases h <;> rfl
    · rcases hl : hutchLoop a.A f 1 crit fuel ⟨[], MeanEst.init 1 true a.record, []⟩ with _ | _ | _ <;> rw [hl] at h <;> cases h <;> rfl

/-- **C115**: with a built-in distribution a run of `hutch` that averages `n` quadratic forms leaves the generator exactly `n * N` draws further: nothing is drawn
ahead or thrown away. -/
theorem C115_consumed (g : BitGen σ) (a : HutchArgs N) (hN : N ≠ 0) (hb : 0 < a.cols) (name : String) (dist : IsoDist) (hp : a.pdf = .name name)
    (hd : ISO_DISTRIBUTIONS.lookup name = some dist) (fuel : ℕ) (s s' : σ) (out : HutchOut) (calls : List (MeanEst 1))
    (h : hutchG g tppf zscore a fuel s = some (.ok (out, calls), s')) :
    ∃ (pdf : Pdf N) (crit : Crit) (k : ℕ) (e : MeanEst 1), a.pdf.resolve (g.stream s) = .ok pdf ∧ hutchCriterion tppf zscore a.converge a.kw = .ok crit ∧
      Spec.StopsAt a.A.quadForm pdf a.cols a.record crit k e ∧ out.estimate = e.estimate ∧ e.nSamples = k * a.cols ∧
      s' = Spec.after (Spec.source g dist) (k * a.cols * N) s := by
  have h0 : ∀ pdf : Pdf N, (⟨[], MeanEst.init 1 true a.record, []⟩ : HutchState) = stateAt a.A pdf a.cols a.record 0 := fun _ => rfl
  unfold hutchG at h
  simp only [hp, PdfArg.sampler, hd] at h
  rcases hc : hutchCriterion tppf zscore a.converge a.kw with e | crit
  · rw [hc] at h; cases h
  · rw [hc] at h
    simp only [hN, if_false] at h
    have key : ∃ st, hutchLoopG g a.A (.iso dist) a.cols crit fuel ⟨[], MeanEst.init 1 true a.record, []⟩ s = some (.ok st, s') ∧
        out.estimate = st.est.estimate := by
      cases hf : a.full || a.callback
      · have hcols : a.cols = 1 := by simp [HutchArgs.cols, hf]
        rw [hf] at h
        simp only [Bool.false_eq_true, if_false] at h
        rw [hcols]
        rcases hl : hutchLoopG g a.A (.iso dist) 1 crit fuel ⟨[], MeanEst.init 1 true a.record, []⟩ s with _ | ⟨_ | st, s₁⟩ <;> rw [hl] at h <;> cases h
        exact ⟨st, rfl, rfl⟩
      · have hcols : a.cols = a.batch := by simp [HutchArgs.cols, hf]
        rw [hf] at h
        simp only [if_true] at h
        rw [hcols]
        rcases hl : hutchLoopG g a.A (.iso dist) a.batch crit fuel ⟨[], MeanEst.init 1 true a.record, []⟩ s with _ | ⟨_ | st, s₁⟩ <;> rw [hl] at h <;> cases h
        exact ⟨st, rfl, rfl⟩
    obtain ⟨st, hst, hout⟩ := key
    obtain ⟨h1, h2⟩ := hutchLoopG_iso g a.A dist a.cols crit s fuel ⟨[], MeanEst.init 1 true a.record, []⟩ s (by simp [Spec.after])
    have h3 := h2 _ _ hst
    rw [hst, Option.map_some, eq_comm, h0 (fun h b => dist.fill N b (g.stream s) (h.sum * N)), hutchLoop_ok _ _ hb] at h1
    obtain ⟨k, -, -, h4, h5, h6⟩ := h1
    refine ⟨fun h b => dist.fill N b (g.stream s) (h.sum * N), crit, k, st.est, by simp only [hp, PdfArg.resolve, isotropicPdf, hd], rfl, ?_, hout, ?_, ?_⟩
    · rw [stopsAt_iff a.A _ hb]
      refine ⟨by rw [h4]; rfl, h5, fun j hj => h6 j (by omega) hj⟩
    · rw [h4]; exact estAt_n a.A _ hb a.record k
    · rw [h3, h4]
      simp only [stateAt, List.sum_replicate, smul_eq_mul]

/-- **C115**: an integer seed fixes the outcome, whatever the state of the system; the same call repeated gives the same outcome. -/
theorem C115_int_seed (g : BitGen σ) (entropy : σ) (a : HutchArgs N) (fuel : ℕ) (n : ℕ) :
    (hutchSeed g entropy tppf zscore a fuel (.int n)).map Prod.fst = hutch tppf zscore (g.stream (g.seeded n)) a fuel := by
  rw [← C115_hutch_stream]
  unfold hutchSeed defaultRng
  have : ¬ ((n : ℤ) < 0) := by omega
  simp only [this, if_false, Int.toNat_natCast]
  rcases hutchG g tppf zscore a fuel (g.seeded n) with _ | ⟨r, s⟩ <;> rfl

/-- **C115**: negative seeds raise ValueError. -/
theorem C115_negative_seed (g : BitGen σ) (entropy : σ) (a : HutchArgs N) (fuel : ℕ) (n : ℤ) (hn : n < 0) :
    hutchSeed g entropy tppf zscore a fuel (.int n) = some (.error .value, .int n) := by
  simp [hutchSeed, defaultRng, hn]

theorem hutchG_count (g : BitGen σ) (A : Matrix (Fin N) (Fin N) ℝ) (hN : N ≠ 0) (name : String) (dist : IsoDist)
    (hd : ISO_DISTRIBUTIONS.lookup name = some dist) (k : ℕ) (hk : 0 < k) (s : σ) :
    hutchG g tppf zscore (scalarArgs A (.name name) k) (k + 1) s = some (.ok (.scalar (.val fun _ =>
      (∑ t ∈ Finset.range k, Spec.quad A (isoColumn dist (g.stream s) N t)) / k), []),
      Spec.after (Spec.source g dist) (k * N) s) := by
  have h1 := C115_hutch_stream tppf zscore g (scalarArgs A (.name name) k) (k + 1) s
  rw [hutch_scalar tppf zscore (g.stream s) A hN (.name name) (fun h b => dist.fill N b (g.stream s) (h.sum * N))
    (by simp only [PdfArg.resolve, isotropicPdf, hd]) k hk] at h1
  rcases hg : hutchG g tppf zscore (scalarArgs A (.name name) k) (k + 1) s with _ | ⟨r, s'⟩
  · rw [hg] at h1; cases h1
  · rw [hg, Option.map_some, Option.some.injEq] at h1
    simp only at h1
    subst h1
    obtain ⟨pdf, crit, j, e, -, h2, h3, -, -, h6⟩ := C115_consumed tppf zscore g (scalarArgs A (.name name) k) hN (by simp [HutchArgs.cols, scalarArgs])
      name dist rfl hd _ _ _ _ _ hg
    have hc : crit = .count k := by
      simp only [scalarArgs, hutchCriterion, convergenceCriterion, Except.ok.injEq] at h2
      exact h2.symm
    subst hc
    have hcols : (scalarArgs A (.name name) k).cols = 1 := rfl
    rw [stopsAt_iff _ _ (by rw [hcols]; omega), hcols] at h3
    obtain ⟨-, h4, h5⟩ := h3
    rw [count_eval_estAt _ _ (by omega), Except.ok.injEq, truth_eq_true] at h4
    have : j = k := by
      by_contra hne
      have h7 := h5 k (by omega)
      rw [count_eval_estAt _ _ (by omega), Except.ok.injEq, truth_eq_false] at h7
      omega
    subst this
    rw [h6, hcols, mul_one]
    congr 6
    funext _
    congr 1
    refine Finset.sum_congr rfl fun t _ => ?_
    simp only [List.sum_replicate, smul_eq_mul, mul_one]
    rfl

theorem isoColumn_after (g : BitGen σ) (dist : IsoDist) (k t : ℕ) (s : σ) :
    isoColumn dist (g.stream (Spec.after (Spec.source g dist) (k * N) s)) N t = isoColumn dist (g.stream s) N (k + t) := by
  unfold isoColumn
  have h : ∀ p, (Spec.source g dist = g.unif → (g.stream (Spec.after (Spec.source g dist) (k * N) s)).unif p = (g.stream s).unif (k * N + p)) ∧
      (Spec.source g dist = g.norm → (g.stream (Spec.after (Spec.source g dist) (k * N) s)).norm p = (g.stream s).norm (k * N + p)) := by
    intro p
    constructor <;> intro e <;> simp only [BitGen.stream, e, after_add]
  funext i
  cases dist with
  | rademacher =>
    simp only [IsoDist.fill, rawCols, (h _).1 rfl]
    congr 2; ring
  | normal =>
    simp only [IsoDist.fill, rawCols, (h _).2 rfl]
    congr 1; ring
  | sphere =>
    have : rawCols N 1 (g.stream (Spec.after (Spec.source g .sphere) (k * N) s)).norm (t * N) 0 = rawCols N 1 (g.stream s).norm ((k + t) * N) 0 := by
      funext i
      simp only [rawCols, (h _).2 rfl]
      congr 1; ring
    simp only [IsoDist.fill, this]

/-- **C115**: a Generator passed to two calls one after the other is used like one stream: the calls with `k₁` and `k₂` samples average the vectors that one call with
`k₁ + k₂` samples averages, and leave the generator in the same state. -/
theorem C115_generator_continues (g : BitGen σ) (entropy : σ) (A : Matrix (Fin N) (Fin N) ℝ) (hN : N ≠ 0) (name : String) (dist : IsoDist)
    (hd : ISO_DISTRIBUTIONS.lookup name = some dist) (k₁ k₂ : ℕ) (h₁ : 0 < k₁) (h₂ : 0 < k₂) (s : σ) :
    ∃ (x₁ x₂ : ℝ) (s₁ s₂ : σ),
      hutchSeed g entropy tppf zscore (scalarArgs A (.name name) k₁) (k₁ + 1) (.generator s) = some (.ok (.scalar (.val fun _ => x₁), []), .generator s₁) ∧
      hutchSeed g entropy tppf zscore (scalarArgs A (.name name) k₂) (k₂ + 1) (.generator s₁) = some (.ok (.scalar (.val fun _ => x₂), []), .generator s₂) ∧
      hutchSeed g entropy tppf zscore (scalarArgs A (.name name) (k₁ + k₂)) (k₁ + k₂ + 1) (.generator s) =
        some (.ok (.scalar (.val fun _ => (k₁ * x₁ + k₂ * x₂) / (k₁ + k₂)), []), .generator s₂) := by
  have hk1 : (k₁ : ℝ) ≠ 0 := by positivity
  have hk2 : (k₂ : ℝ) ≠ 0 := by positivity
  refine ⟨_, _, _, _, by simp only [hutchSeed, defaultRng, hutchG_count tppf zscore g A hN name dist hd k₁ h₁]; rfl,
    by simp only [hutchSeed, defaultRng, hutchG_count tppf zscore g A hN name dist hd k₂ h₂]; rfl, ?_⟩
  simp only [hutchSeed, defaultRng, hutchG_count tppf zscore g A hN name dist hd (k₁ + k₂) (by omega), isoColumn_after, after_add]
  rw [← Nat.add_mul, Finset.sum_range_add]
  congr 6
  funext _
  push_cast
  field_simp

/-- **C115**: `hutchpp` takes its sketch and its residual vectors from the stream one after the other and makes `2 * nb * N` draws; when it raises, none. -/
theorem C115_hutchpp (g : BitGen σ) (qr : ∀ nb, (Fin nb → Vec N) → Fin (min N nb) → Vec N) (A : Operand N) (m : Option ℤ) (modeFull : Bool)
    (pdf : PdfArg N) (full : Bool) (s : σ) :
    (hutchppG g qr A m modeFull pdf full s).1 = hutchpp qr (g.stream s) A m modeFull pdf full ∧
    (∀ name dist out, pdf = .name name → ISO_DISTRIBUTIONS.lookup name = some dist → N ≠ 0 → hutchpp qr (g.stream s) A m modeFull pdf full = .ok out →
      (hutchppG g qr A m modeFull pdf full s).2 = Spec.after (Spec.source g dist) (2 * (hutchppNb N m).toNat * N) s) ∧
    (∀ e, hutchpp qr (g.stream s) A m modeFull pdf full = .error e → (hutchppG g qr A m modeFull pdf full s).2 = s) := by
  unfold hutchppG hutchpp
  rcases pdf with name | f
  · simp only [isotropicPdf]
    rcases hd : ISO_DISTRIBUTIONS.lookup name with _ | dist
    · refine ⟨rfl, fun _ _ _ _ _ _ h => (by cases h), fun _ _ => rfl⟩
    · simp only
      by_cases hN : N = 0
      · simp only [hN, if_true]
        refine ⟨trivial, fun _ _ _ _ _ h => absurd rfl h, fun _ _ => trivial⟩
      · simp only [hN, if_false]
        split_ifs with h1 h2
        · refine ⟨rfl, fun _ _ _ _ _ _ h => (by cases h), fun _ _ => rfl⟩
        · refine ⟨rfl, fun _ _ _ _ _ _ h => (by cases h), fun _ _ => rfl⟩
        · have e1 := fillG_eq (N := N) g dist (hutchppNb N m).toNat 0 s
          have e2 := fillG_eq (N := N) g dist (hutchppNb N m).toNat (0 + N * (hutchppNb N m).toNat) s
          rw [show Spec.after (Spec.source g dist) 0 s = s from rfl] at e1
          simp only [e1, e2, List.sum_nil, List.sum_cons, Nat.zero_mul, add_zero]
          refine ⟨?_, fun name' dist' out hn hd' _ _ => ?_, fun e h => by cases h⟩
          · congr 4; ring
          · cases hn
            rw [hd] at hd'
            cases hd'
            congr 1; ring
  · exact ⟨rfl, fun _ _ _ h => (by cases h), fun _ _ => rfl⟩

theorem diagLoopG_iso (g : BitGen σ) (A : Operand N) (dist : IsoDist) (crit : Crit) (s₀ : σ) (fuel : ℕ) : ∀ (st : DiagState N) (s : σ),
    s = Spec.after (Spec.source g dist) (st.history.sum * N) s₀ →
    (diagLoopG g A dist crit fuel st s).map Prod.fst =
      diagLoop A (fun h b => dist.fill N b (g.stream s₀) (h.sum * N)) crit fuel st ∧
    ∀ st' s', diagLoopG g A dist crit fuel st s = some (.ok st', s') →
      s' = Spec.after (Spec.source g dist) (st'.history.sum * N) s₀ := by
  induction fuel with
  | zero => intro st s _; exact ⟨rfl, fun st' s' h => by cases h⟩
  | succ fuel ih =>
    rintro st s rfl
    unfold diagLoopG diagLoop diagBody
    rcases crit.eval st.est.view with e | ⟨_ | _⟩
    · exact ⟨rfl, fun st' s' h => by cases h⟩
    · simp only [fillG_eq]
      rcases st.est.update _ with e | est
      · exact ⟨rfl, fun st' s' h => by cases h⟩
      · refine ih _ _ ?_
        simp only [List.sum_append, List.sum_cons, List.sum_nil, add_zero]
        congr 1
        ring
    · refine ⟨rfl, fun st' s' h => ?_⟩
      cases h
      rfl

/-- **C115**: what `diag` returns or raises is determined by the numbers the generator is going to produce. -/
theorem C115_diag_stream (g : BitGen σ) (a : DiagArgs N) (fuel : ℕ) (s : σ) :
    (diagG g tppf zscore a fuel s).map Prod.fst = diag tppf zscore (g.stream s) a fuel := by
  unfold diagG diag
  rcases hp : a.pdf with name | f
  · simp only [isotropicPdf]
    rcases ISO_DISTRIBUTIONS.lookup name with _ | dist
    · rfl
    · simp only
      rcases convergenceCriterion tppf zscore a.converge a.kw with e | crit
      · rfl
      · have h := (diagLoopG_iso g a.A dist crit s fuel ⟨[], fun _ => 0, fun _ => 0, MeanEst.init N false a.record, []⟩ s (by simp [Spec.after])).1
        by_cases hN : N = 0
        · simp only [hN, if_true]; rfl
        · simp only [hN, if_false, ← h]
          rcases diagLoopG g a.A dist crit fuel ⟨[], fun _ => 0, fun _ => 0, MeanEst.init N false a.record, []⟩ s with _ | ⟨_ | _, _⟩
          · rfl
          · rfl
          · cases a.full || a.callback <;> rfl
  · rfl

/-- A generator for the examples: the state counts the draws, the numbers repeat with period three. -/
def Spec.periodic : BitGen ℕ := ⟨fun s => (((s % 3 : ℕ) : ℝ) / 3, s + 1), fun s => (((s % 3 : ℕ) : ℝ), s + 1), id⟩

/-- Two calls with one generator: three samples on a 1 x 1 matrix, then two, five draws in all; with the same integer seed the second call would start again. -/
example : ∃ (x₁ x₂ : ℝ),
    hutchSeed Spec.periodic 0 tppf zscore (scalarArgs (1 : Matrix (Fin 1) (Fin 1) ℝ) (.name "normal") 3) 4 (.generator 0) =
      some (.ok (.scalar (.val fun _ => x₁), []), .generator 3) ∧
    hutchSeed Spec.periodic 0 tppf zscore (scalarArgs (1 : Matrix (Fin 1) (Fin 1) ℝ) (.name "normal") 2) 3 (.generator 3) =
      some (.ok (.scalar (.val fun _ => x₂), []), .generator 5) ∧ x₁ = 5 / 3 ∧ x₂ = 1 / 2 := by
  have hq : ∀ s t : ℕ, Spec.quad (1 : Matrix (Fin 1) (Fin 1) ℝ) (isoColumn .normal (Spec.periodic.stream s) 1 t) = (((s + t) % 3 : ℕ) : ℝ) ^ 2 := by
    intro s t
    have : ∀ n m, Spec.after Spec.periodic.norm n m = m + n := by
      intro n
      induction n with
      | zero => intro m; rfl
      | succ n ih => intro m; rw [Spec.after, ih]; simp only [Spec.periodic]; omega
    have h0 : ∀ m, (Spec.periodic.norm m).1 = ((m % 3 : ℕ) : ℝ) := fun _ => rfl
    simp [Spec.quad, isoColumn, IsoDist.fill, rawCols, BitGen.stream, this, h0, pow_two]
  have hs : ∀ n m, Spec.after (Spec.source Spec.periodic .normal) n m = m + n := by
    intro n
    induction n with
    | zero => intro m; rfl
    | succ n ih => intro m; rw [Spec.after, ih]; simp only [Spec.periodic, Spec.source]; omega
  refine ⟨_, _, by simp only [hutchSeed, defaultRng, hutchG_count tppf zscore Spec.periodic 1 one_ne_zero "normal" .normal rfl 3 (by omega), hs]; rfl,
    by simp only [hutchSeed, defaultRng, hutchG_count tppf zscore Spec.periodic 1 one_ne_zero "normal" .normal rfl 2 (by omega), hs]; rfl, ?_, ?_⟩
  · simp only [hq, Finset.sum_range_succ, Finset.sum_range_zero]; norm_num
  · simp only [hq, Finset.sum_range_succ, Finset.sum_range_zero]; norm_num

end Primate
