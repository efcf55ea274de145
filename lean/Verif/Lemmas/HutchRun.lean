import Verif.Lemmas.IsoIid
import Verif.Props.Adaptive

/-!
# Runs of `hutch` as functions of the sequence of samples
-/

noncomputable section

namespace Primate

open MeasureTheory ProbabilityTheory

variable {N : ℕ} (tppf : ℝ → ℕ → ℝ) (zscore : ℝ → ℝ) {Ω : Type*}

/-- A run that stops after `T` samples. -/
theorem hutch_stops (a : HutchArgs N) (A : Matrix (Fin N) (Fin N) ℝ) (hA : a.A = .ofMatrix A) (hN : N ≠ 0) {s : String} (hs : IsIso s)
    (hpdf : a.pdf = .name s) (hcols : a.cols = 1) (c : Crit) (hc : hutchCriterion tppf zscore a.converge a.kw = .ok c) (u X : ℕ → Ω → ℝ) (ω : Ω) (T : ℕ)
    (hT0 : 0 < T) (hT : StopsAt c a.record (isoSample A s u X · ω) T) (fuel : ℕ) (hfuel : T < fuel) :
    ∃ out calls, hutch tppf zscore ⟨fun q => u q ω, fun q => X q ω⟩ a fuel = some (.ok (out, calls)) ∧
      out.estimate = .val (fun _ => smean (isoSample A s u X · ω) T) ∧
      (out.result = if a.full || a.callback then some (.mk2 (some (seqEst a.record (isoSample A s u X · ω) T)) (some c)) else none) ∧
      (a.callback = true → calls.length = T) := by
  obtain ⟨pdf, hp, hpv⟩ := isoPdf (N := N) hs ⟨fun q => u q ω, fun q => X q ω⟩
  rw [← hpdf] at hp
  obtain ⟨y, hy⟩ : ∃ y : ℕ → ℝ, y = fun t => isoSample A s u X t ω := ⟨_, rfl⟩
  rw [← hy] at hT ⊢
  have hq : ∀ t, a.A.quadForm (pdf (List.replicate t 1) 1 0) = y t := fun t => by
    rw [hA, (C20_quadForm A (fun _ => 0) id _).1, hpv, hy]
    rfl
  have hloop := stopsAt_loop c a.A pdf a.record y hq T hT fuel 0 (Nat.zero_le _) (by omega) []
  simp only [List.replicate_zero, Nat.sub_zero, List.nil_append, zero_add] at hloop
  have hest : (seqEst a.record y T).estimate = .val fun _ => smean y T := seqEst_estimate _ _ _ hT0
  have hloop' : hutchLoop a.A pdf 1 c fuel ⟨[], MeanEst.init 1 true a.record, []⟩ =
      some (.ok ⟨List.replicate T 1, seqEst a.record y T, (List.range' 1 T).map (seqEst a.record y)⟩) := hloop
  by_cases hf : (a.full || a.callback) = true
  · have hbt : a.batch = 1 := by simpa [HutchArgs.cols, hf] using hcols
    refine ⟨.pair (.val fun _ => smean y T) (.mk2 (some (seqEst a.record y T)) (some c)),
      if a.callback then (List.range' 1 T).map (seqEst a.record y) else [], ?_, rfl, ?_, ?_⟩
    · unfold hutch
      simp only [hp, hc, hN, if_false, hf, if_true, hbt, hloop', hest]
    · simp only [hf, if_true]
      rfl
    · intro hcb
      simp [hcb]
  · refine ⟨.scalar (.val fun _ => smean y T), [], ?_, rfl, ?_, ?_⟩
    · unfold hutch
      simp only [hp, hc, hN, if_false, hf, hloop', hest]
      rfl
    · simp only [hf]
      rfl
    · intro hcb
      simp [hcb] at hf

theorem never_loop (c : Crit) (A : Operand N) (pdf : Pdf N) (record : Bool) (y : ℕ → ℝ)
    (hs : ∀ t, A.quadForm (pdf (List.replicate t 1) 1 0) = y t) (hn : ∀ t, c.eval (seqEst record y t).view = .ok false) (fuel t : ℕ)
    (calls : List (MeanEst 1)) : hutchLoop A pdf 1 c fuel ⟨List.replicate t 1, seqEst record y t, calls⟩ = none := by
  induction fuel generalizing t calls with
  | zero => rfl
  | succ fuel ih =>
    unfold hutchLoop
    rw [hn t]
    have hb : hutchBody A pdf 1 ⟨List.replicate t 1, seqEst record y t, calls⟩ =
        .ok ⟨List.replicate (t + 1) 1, seqEst record y (t + 1), calls ++ [seqEst record y (t + 1)]⟩ := by
      unfold hutchBody
      have h1 : (List.ofFn fun j : Fin 1 => A.quadForm (pdf (List.replicate t 1) 1 j)) = [y t] := by
        simp [hs]
      simp only [h1, (seqEst_inv record y t).2, List.replicate_succ']
    simp only [hb]
    exact ih (t + 1) _

/-- A run that never stops. -/
theorem hutch_never (a : HutchArgs N) (A : Matrix (Fin N) (Fin N) ℝ) (hA : a.A = .ofMatrix A) (hN : N ≠ 0) {s : String} (hs : IsIso s)
    (hpdf : a.pdf = .name s) (hcols : a.cols = 1) (c : Crit) (hc : hutchCriterion tppf zscore a.converge a.kw = .ok c) (u X : ℕ → Ω → ℝ) (ω : Ω)
    (hn : ∀ t, c.eval (seqEst a.record (isoSample A s u X · ω) t).view = .ok false) (fuel : ℕ) :
    hutch tppf zscore ⟨fun q => u q ω, fun q => X q ω⟩ a fuel = none := by
  obtain ⟨pdf, hp, hpv⟩ := isoPdf (N := N) hs ⟨fun q => u q ω, fun q => X q ω⟩
  rw [← hpdf] at hp
  have hq : ∀ t, a.A.quadForm (pdf (List.replicate t 1) 1 0) = isoSample A s u X t ω := fun t => by
    rw [hA, (C20_quadForm A (fun _ => 0) id _).1, hpv]
    rfl
  have hloop : hutchLoop a.A pdf 1 c fuel ⟨[], MeanEst.init 1 true a.record, []⟩ = none :=
    never_loop c a.A pdf a.record (isoSample A s u X · ω) hq hn fuel 0 []
  by_cases hf : (a.full || a.callback) = true
  · have hbt : a.batch = 1 := by simpa [HutchArgs.cols, hf] using hcols
    unfold hutch
    simp only [hp, hc, hN, if_false, hf, if_true, hbt, hloop]
  · unfold hutch
    simp only [hp, hc, hN, if_false, hf, hloop]
    rfl

/-! ## The confidence criterion -/

theorem seq_mean (y : ℕ → ℝ) (t : ℕ) : Spec.sampleMean ((List.range t).map fun r (_ : Fin 1) => y r) 0 = smean y t := by
  rw [Spec.sampleMean, List.map_map, List.length_map, List.length_range]
  rfl

theorem seq_std (y : ℕ → ℝ) (t : ℕ) : Spec.sampleStd ((List.range t).map fun r (_ : Fin 1) => y r) = √(svar y t) := by
  unfold Spec.sampleStd
  rw [seq_var]
  rfl

theorem conf_eval (cc : ConfCrit) (record : Bool) (y : ℕ → ℝ) (t : ℕ) (ht : 3 ≤ t) :
    ∃ b, (Crit.conf cc).eval (seqEst record y t).view = .ok b ∧
      (b = true ↔ (if t < 30 then cc.tScores t else cc.z) * (√(svar y t) / √t) ≤ cc.atol ∨
        (smean y t ≠ 0 ∧ √(svar y t) / √t / |smean y t| ≤ cc.rtol)) := by
  obtain ⟨b, h1, h2⟩ := conf_seq cc record y t ht
  rw [seq_mean, seq_std] at h2
  exact ⟨b, h1, h2⟩

theorem conf_stops (cc : ConfCrit) (record : Bool) (y : ℕ → ℝ) :
    (∃ T, 3 ≤ T ∧ StopsAt (.conf cc) record y T) ↔ ∃ t, 3 ≤ t ∧ ((if t < 30 then cc.tScores t else cc.z) * (√(svar y t) / √t) ≤ cc.atol ∨
        (smean y t ≠ 0 ∧ √(svar y t) / √t / |smean y t| ≤ cc.rtol)) := by
  classical
  constructor
  · rintro ⟨T, hT3, hT, -⟩
    obtain ⟨b, h1, h2⟩ := conf_eval cc record y T hT3
    rw [hT, Except.ok.injEq] at h1
    exact ⟨T, hT3, h2.1 h1.symm⟩
  · intro h
    refine ⟨Nat.find h, (Nat.find_spec h).1, ?_, fun r hr => ?_⟩
    · obtain ⟨b, h1, h2⟩ := conf_eval cc record y (Nat.find h) (Nat.find_spec h).1
      rw [h1, h2.2 (Nat.find_spec h).2]
    · rcases lt_or_ge r 3 with h3 | h3
      · exact conf_seq_few cc record y r h3
      · obtain ⟨b, h1, h2⟩ := conf_eval cc record y r h3
        have hb : ¬ b = true := fun hb => Nat.find_min h hr ⟨h3, h2.1 hb⟩
        rw [h1, Bool.eq_false_of_not_eq_true hb]

/-- The criterion never stops. -/
theorem conf_never (cc : ConfCrit) (record : Bool) (y : ℕ → ℝ)
    (h : ∀ t, 3 ≤ t → ¬ ((if t < 30 then cc.tScores t else cc.z) * (√(svar y t) / √t) ≤ cc.atol ∨
        (smean y t ≠ 0 ∧ √(svar y t) / √t / |smean y t| ≤ cc.rtol))) (t : ℕ) : (Crit.conf cc).eval (seqEst record y t).view = .ok false := by
  rcases lt_or_ge t 3 with h3 | h3
  · exact conf_seq_few cc record y t h3
  · obtain ⟨b, h1, h2⟩ := conf_eval cc record y t h3
    have hb : ¬ b = true := fun hb => h t h3 (h2.1 hb)
    rw [h1, Bool.eq_false_of_not_eq_true hb]

/-- The margin reported. -/
theorem conf_error (cc : ConfCrit) (record : Bool) (y : ℕ → ℝ) (t : ℕ) (ht : 3 ≤ t) :
    ∃ rel, cc.error (seqEst record y t).view = .ok (.fin ((if t < 30 then cc.tScores t else cc.z) * (√(svar y t) / √t)), rel) := by
  have i := (seqEst_inv record y t).1
  obtain ⟨xs, hxs⟩ : ∃ xs : List (Fin 1 → ℝ), xs = (List.range t).map fun r _ => y r := ⟨_, rfl⟩
  rw [← hxs] at i
  have hlen : xs.length = t := by rw [hxs]; simp
  have hx : xs ≠ [] := by intro h0; rw [h0] at hlen; simp at hlen; omega
  obtain ⟨cv, hcv, ic⟩ := i.cov_view
  have hcov := ic.cov_eq 1 (by omega)
  have hest := i.estimate_eq hx
  have hns : (seqEst record y t).view.nSamples = xs.length := i.n
  have hestv : (seqEst record y t).view.estimate = .ok (.val (Spec.sampleMean xs)) := by
    simp [MeanEst.view, hest]
  refine ⟨(Fl.divFin (√(svar y t) / √t) (smean y t)).abs, ?_⟩
  rw [← seq_std y t, ← seq_mean y t, ← hxs]
  unfold ConfCrit.error
  rw [hns, if_neg (by omega), hcv]
  simp only [hcov, hestv, bind, Except.bind, dite_true, pure, Except.pure, hlen]
  rfl

end Primate
