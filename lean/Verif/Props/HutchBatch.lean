import Verif.Props.HutchMoments

/-! # Properties C24-C26: batches, result objects and empty operators -/

namespace Primate

variable {N : ℕ} (tppf : ℝ → ℕ → ℝ) (zscore : ℝ → ℝ) (rng : Rng)

/-! ## C24 -/

/-- The `t`-th column ever produced by a built-in sampler. -/
noncomputable def isoColumn (dist : IsoDist) (rng : Rng) (N t : ℕ) : Vec N :=
  dist.fill N 1 rng (t * N) 0

theorem iso_fill_col (dist : IsoDist) (rng : Rng) (N b t : ℕ) (j : Fin b) :
    dist.fill N b rng (t * N) j = isoColumn dist rng N (t + j) := by
  have h : ∀ raw : ℕ → ℝ, rawCols N b raw (t * N) j = rawCols N 1 raw ((t + j) * N) 0 := by
    intro raw; funext i; simp only [rawCols, Fin.val_zero]; congr 1; ring
  cases dist with
  | rademacher => funext i; simp only [isoColumn, IsoDist.fill, h]
  | normal => simp only [isoColumn, IsoDist.fill, h]
  | sphere => simp only [isoColumn, IsoDist.fill, h]

theorem isotropicPdf_ok {name : String} {pdf : Pdf N} (hp : isotropicPdf name rng N = .ok pdf) :
    ∃ dist, ISO_DISTRIBUTIONS.lookup name = some dist ∧
      pdf = fun history b => dist.fill N b rng (history.sum * N) := by
  unfold isotropicPdf at hp
  split at hp
  · cases hp
  · rename_i dist h; exact ⟨dist, h, (Except.ok.inj hp).symm⟩

theorem range_mul_map {α : Type} (b k : ℕ) (f : ℕ → α) :
    ((List.range k).flatMap fun i => List.ofFn fun j : Fin b => f (i * b + j)) =
      (List.range (k * b)).map f := by
  induction k with
  | zero => simp
  | succ k ih =>
    rw [List.range_succ, List.flatMap_append, ih, Nat.succ_mul, List.range_add, List.map_append]
    congr 1
    simp only [List.flatMap_cons, List.flatMap_nil, List.append_nil, List.map_map]
    rw [List.ofFn_eq_map, ← List.map_coe_finRange_eq_range, List.map_map]
    rfl

/-- **C24**: with the built-in samplers the vectors come in the same order whatever the batch
size. -/
theorem C24_columns (name : String) (pdf : Pdf N) (hp : isotropicPdf name rng N = .ok pdf)
    (b k : ℕ) : Spec.drawn pdf b k = Spec.drawn pdf 1 (k * b) := by
  obtain ⟨dist, -, rfl⟩ := isotropicPdf_ok rng hp
  rw [drawn_one]
  simp only [Spec.drawn, List.sum_replicate, smul_eq_mul, mul_one]
  rw [← range_mul_map b k]
  congr 1
  funext i
  congr 1
  funext j
  rw [iso_fill_col]; rfl

/-- **C24**: an estimator that saw the same observations in other batches is in the same state
(apart from `delta`, the change made by the last batch). -/
theorem C24_state (A : Operand N) (name : String) (pdf : Pdf N)
    (hp : isotropicPdf name rng N = .ok pdf) (record : Bool) (b k : ℕ) (hb : 0 < b) :
    ∃ e e', (MeanEst.init 1 true record).updates
        ((Spec.observations A.quadForm pdf b k).map .vec) = .ok e ∧
      (MeanEst.init 1 true record).updates
        ((Spec.observations A.quadForm pdf 1 (k * b)).map .vec) = .ok e' ∧
      e.nSamples = e'.nSamples ∧ e.values = e'.values ∧ e.acc = e'.acc ∧
      e.estimate = e'.estimate := by
  refine ⟨_, _, by rw [updates_vec]; exact (estAt_inv A pdf hb record k).2,
    by rw [updates_vec]; exact (estAt_inv A pdf one_pos record (k * b)).2, ?_⟩
  have h1 := (estAt_inv A pdf hb record k).1
  have h2 := (estAt_inv A pdf one_pos record (k * b)).1
  rw [rowsAt_flatten] at h1 h2
  rw [← C24_columns rng name pdf hp b k] at h2
  generalize estAt A pdf b record k = e at h1
  generalize estAt A pdf 1 record (k * b) = e' at h2
  have hacc : e.acc = e'.acc := by
    have a1 := h1.acc
    have a2 := h2.acc
    have c1 := h1.isCov
    have c2 := h2.isCov
    revert a1 a2 c1 c2
    generalize e.acc = x
    generalize e'.acc = y
    intro a1 a2 c1 c2
    cases x with
    | mean m => simp [Acc.isCov] at c1
    | cov c =>
      cases y with
      | mean m => simp [Acc.isCov] at c2
      | cov c' =>
        have a1 : CovInv c _ := a1
        have a2 : CovInv c' _ := a2
        have hmu : c.mu = c'.mu := by
          by_cases hx : List.map (fun (x : ℝ) (_ : Fin 1) => x)
              ((Spec.drawn pdf b k).map A.quadForm) = []
          · funext i; rw [a1.mu0 hx, a2.mu0 hx]
          · rw [a1.mean_eq hx, a2.mean_eq hx]
        have hS : c.S = c'.S := by funext i j; rw [a1.S, a2.S, hmu]
        have hn : c.n = c'.n := by rw [a1.n, a2.n]
        have hnan : c.nan = c'.nan := by rw [a1.nan, a2.nan]
        cases c; cases c'
        simp_all
  exact ⟨by rw [h1.n, h2.n], by rw [h1.values, h2.values], hacc, by
    unfold MeanEst.estimate; rw [hacc]⟩

/-- **C24**: with a count divisible by the batch size, a full run and a one-by-one run of
`hutch` return the same estimate. -/
theorem C24_hutch (A : Operand N) (hN : N ≠ 0) (name : String) (pdf : Pdf N)
    (hp : isotropicPdf name rng N = .ok pdf) (record : Bool) (kw : Kwargs) (b b' k : ℕ)
    (hb : 0 < b) (hk : 0 < k) (callback : Bool) :
    ∃ fuel fuel' est res calls,
      hutch tppf zscore rng ⟨A, b, .name name, .obj (.count ((k * b : ℕ) : ℤ)), true, callback,
        record, kw⟩ fuel = some (.ok (.pair est res, calls)) ∧
      hutch tppf zscore rng ⟨A, b', .name name, .obj (.count ((k * b : ℕ) : ℤ)), false, false,
        record, kw⟩ fuel' = some (.ok (.scalar est, [])) := by
  have h1 := hutch_count tppf zscore rng ⟨A, b, .name name, .obj (.count ((k * b : ℕ) : ℤ)), true,
    callback, record, kw⟩ hN hb pdf hp k hk rfl
  have h2 := hutch_count tppf zscore rng ⟨A, b', .name name, .obj (.count ((k * b : ℕ) : ℤ)),
    false, false, record, kw⟩ hN one_pos pdf hp (k * b) (Nat.mul_pos hk hb) (by
      simp [HutchArgs.cols])
  refine ⟨k + 1, k * b + 1, _, _, _, h1, ?_⟩
  rw [h2]
  simp only [Bool.or_false, Bool.false_eq_true, if_false]
  have : HutchArgs.cols ⟨A, b', .name name, .obj (.count ((k * b : ℕ) : ℤ)),
    false, false, record, kw⟩ = 1 := rfl
  rw [this, ← C24_columns rng name pdf hp b k]
  rfl

/-- Non-vacuity: all five names are accepted. -/
example : ∀ name ∈ ["rademacher", "normal", "sphere", "signs", "gaussian"],
    ∃ pdf, isotropicPdf name rng N = .ok pdf := by
  intro name h
  fin_cases h <;> exact ⟨_, rfl⟩

/-! ## C25 -/

/-- **C25** fails: after any full run the `estimate` field of the result object is still the
default 0.0 (and `nit` 0), whatever estimate was returned beside it. -/
theorem C25_estimate_field (a : HutchArgs N) (fuel : ℕ) (est : NumArr (Fin 1 → ℝ))
    (res : EstResult) (calls : List (MeanEst 1))
    (h : hutch tppf zscore rng a fuel = some (.ok (.pair est res, calls))) :
    res.estimate = .val (fun _ => 0) ∧ res.nit = 0 := by
  unfold hutch at h
  split at h
  · cases h
  · dsimp only at h
    split at h
    · cases h
    · split at h
      · split at h
        · simp only [Option.some.injEq, Except.ok.injEq, Prod.mk.injEq, HutchOut.pair.injEq] at h
          obtain ⟨⟨-, rfl⟩, -⟩ := h
          exact ⟨rfl, rfl⟩
        · simp at h
      · split at h
        · split at h
          · cases h
          · cases h
          · simp only [Option.some.injEq, Except.ok.injEq, Prod.mk.injEq, HutchOut.pair.injEq] at h
            obtain ⟨⟨-, rfl⟩, -⟩ := h
            exact ⟨rfl, rfl⟩
        · split at h <;> simp at h

/-- **C25** counterexample: on the 1x1 identity with Rademacher vectors the returned estimate is
1 and the result's estimate field 0. -/
theorem C25_counterexample (hu : ∀ p, 0 ≤ rng.unif p ∧ rng.unif p < 1) :
    ∃ fuel est res calls, hutch (N := 1) tppf zscore rng
      ⟨.ofMatrix 1, 1, .name "rademacher", .obj (.count 1), true, false, false, []⟩ fuel =
        some (.ok (.pair est res, calls)) ∧
      est = .val (fun _ => 1) ∧ res.estimate = .val (fun _ => 0) ∧ res.estimate ≠ est := by
  have h1 := hutch_count (N := 1) tppf zscore rng ⟨.ofMatrix 1, 1, .name "rademacher",
    .obj (.count 1), true, false, false, []⟩ (by simp) (by simp [HutchArgs.cols]) _ rfl 1 one_pos
    (by simp [HutchArgs.cols])
  have h3 : ∀ b, 0 < b → Spec.mean ((Spec.drawn (fun history b => IsoDist.rademacher.fill 1 b rng
      (history.sum * 1)) b 1).map (Operand.ofMatrix (1 : Matrix (Fin 1) (Fin 1) ℝ)).quadForm) = 1 := by
    intro b hb
    rw [← Matrix.diagonal_one, drawn_quad_const _ _ _ _ (∑ _i : Fin 1, 1) fun hist n j =>
      quad_diagonal _ _ (rademacher_pdf_signs rng hu _ rfl hist n j), mean_replicate _ _ (by omega)]
    simp
  refine ⟨_, _, _, _, h1, congrArg NumArr.val (funext fun _ => h3 1 one_pos), rfl, ?_⟩
  intro h
  simp only [EstResult.mk2, NumArr.val.injEq] at h
  have h4 := congrFun h 0
  rw [show HutchArgs.cols _ = 1 from rfl, h3 1 one_pos] at h4
  norm_num at h4

/-- **C25**, the part that holds: with `full` a pair is returned whose result object holds the
final estimator and the criterion in force; the returned estimate is that estimator's estimate
and the callback has been called exactly once per batch, each time after the estimator had been
updated with that batch. -/
theorem C25_result_partial (a : HutchArgs N) (hN : N ≠ 0) (hb : 0 < a.batch)
    (hf : (a.full || a.callback) = true) (fuel : ℕ) (out : HutchOut) (calls : List (MeanEst 1))
    (h : hutch tppf zscore rng a fuel = some (.ok (out, calls))) :
    ∃ pdf est res e crit k, a.pdf.resolve rng = .ok pdf ∧
      hutchCriterion tppf zscore a.converge a.kw = .ok crit ∧
      out = .pair est res ∧ res.estimator = some e ∧ res.criterion = some crit ∧
      est = e.estimate ∧ Spec.StopsAt a.A.quadForm pdf a.batch a.record crit k e ∧
      calls.length = (if a.callback then k else 0) ∧
      ∀ t e', calls[t]? = some e' → (MeanEst.init 1 true a.record).updates
        ((Spec.observations a.A.quadForm pdf a.batch (t + 1)).map .vec) = .ok e' := by
  have hcols : a.cols = a.batch := by simp only [HutchArgs.cols, hf, if_true]
  rw [hutch_ok_iff tppf zscore rng a hN (by omega)] at h
  obtain ⟨pdf, crit, k, h1, h2, h3, h4, h5, h6⟩ := h
  simp only [hf, if_true] at h5
  rw [hcols] at h4 h5 h6
  refine ⟨pdf, _, _, _, crit, k, h1, h2, h5, rfl, rfl, rfl, h4, ?_, ?_⟩
  · rw [h6]; split_ifs <;> simp
  · intro t e' ht
    rw [updates_vec, (estAt_inv a.A pdf hb a.record _).2]
    rw [h6] at ht
    split_ifs at ht with hc
    · simp only [List.getElem?_map, Option.map_eq_some_iff] at ht
      obtain ⟨t', ht', rfl⟩ := ht
      rw [List.getElem?_range] at ht'
      · cases ht'; rfl
      · by_contra hlt
        rw [List.getElem?_eq_none (by simpa using hlt)] at ht'
        cases ht'
    · simp at ht

/-- Non-vacuity of `C25_result_partial`: a run with a callback exists (and returns a pair even
with `full=False`). -/
example (A : Matrix (Fin 3) (Fin 3) ℝ) : ∃ fuel est res calls,
    hutch (N := 3) tppf zscore rng ⟨.ofMatrix A, 2, .name "normal", .obj (.count 4), false, true,
      false, []⟩ fuel = some (.ok (.pair est res, calls)) ∧ calls.length = 2 := by
  have h1 := hutch_count (N := 3) tppf zscore rng ⟨.ofMatrix A, 2, .name "normal", .obj (.count 4),
      false, true, false, []⟩ (by simp) (by simp [HutchArgs.cols]) _ rfl 2 two_pos
    (by simp [HutchArgs.cols])
  exact ⟨_, _, _, _, h1, by simp⟩

/-! ## C26 (hutch) -/

/-- **C26**: for an empty operator `hutch` returns 0.0 at once, without evaluating the criterion
or drawing a vector, for every valid setting. -/
theorem C26_hutch (a : HutchArgs 0) (pdf : Pdf 0) (crit : Crit)
    (hp : a.pdf.resolve rng = .ok pdf)
    (hc : hutchCriterion tppf zscore a.converge a.kw = .ok crit) (fuel : ℕ) :
    ∃ out, hutch tppf zscore rng a fuel = some (.ok (out, [])) ∧
      out.estimate = .val (fun _ => 0) ∧ (out.result.isSome = a.full) ∧
      ∀ r, out.result = some r → ∃ e, r.estimator = some e ∧ e.nSamples = 0 := by
  unfold hutch
  rw [hp, hc]
  cases hfull : a.full with
  | true =>
    refine ⟨_, rfl, rfl, rfl, ?_⟩
    intro r hr
    simp only [HutchOut.result, Option.some.injEq] at hr
    subst hr
    exact ⟨_, rfl, rfl⟩
  | false =>
    refine ⟨_, rfl, rfl, rfl, ?_⟩
    intro r hr
    simp [HutchOut.result] at hr

end Primate
