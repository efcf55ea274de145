import Verif.Props.Prob

/-!
# C125: `hutch` with criteria that look at the samples

With any criterion that stops after at most `K` samples, the sum of the samples satisfies Wald's identities.  The estimate itself is in general biased.
-/

noncomputable section

namespace Primate.Spec

/-- A criterion that does not raise on estimators of scalars, is false before the first sample and true from `K` samples on, as `CountCriterion(K) | ...` is. -/
structure Capped (record : Bool) (c : Crit) (K : ℕ) : Prop where
  nonRaising : NonRaising record c
  start : c.eval (MeanEst.init 1 true record).view = .ok false
  cap : ∀ (Xs : List (List (Fin 1 → ℝ))) (e : MeanEst 1), (∀ X ∈ Xs, X ≠ []) →
    (MeanEst.init 1 true record).updates (Xs.map fun X => .mat ⟨1, X⟩) = .ok e → K ≤ Xs.flatten.length → c.eval e.view = .ok true

end Primate.Spec

namespace Primate

open Matrix MeasureTheory Finset

variable {N : ℕ}

/-! ## The run for a given sequence of samples -/

/-- The estimator after the first `t` samples of the sequence `s`, one at a time. -/
def seqEst (record : Bool) (s : ℕ → ℝ) : ℕ → MeanEst 1
  | 0 => MeanEst.init 1 true record
  | t + 1 => match (seqEst record s t).update (.vec [s t]) with
    | .ok e => e
    | .error _ => seqEst record s t

theorem seqEst_congr (record : Bool) (s s' : ℕ → ℝ) (t : ℕ) (h : ∀ r < t, s r = s' r) : seqEst record s t = seqEst record s' t := by
  induction t with
  | zero => rfl
  | succ t ih => rw [seqEst, seqEst, ih fun r hr => h r (by omega), h t (by omega)]

theorem seqEst_inv (record : Bool) (s : ℕ → ℝ) (t : ℕ) :
    MeanEstInv true record (seqEst record s t) ((List.range t).map fun r _ => s r) ∧
    (seqEst record s t).update (.vec [s t]) = .ok (seqEst record s (t + 1)) := by
  have hstep : ∀ t, MeanEstInv true record (seqEst record s t) ((List.range t).map fun r _ => s r) →
      ∃ e, (seqEst record s t).update (.vec [s t]) = .ok e ∧ MeanEstInv true record e ((List.range (t + 1)).map fun r _ => s r) := by
    intro t h
    obtain ⟨e, h1, h2, -⟩ := h.step [fun _ => s t] (by simp)
    refine ⟨e, h1, ?_⟩
    rw [List.range_succ, List.map_append]
    exact h2
  have hinv : ∀ t, MeanEstInv true record (seqEst record s t) ((List.range t).map fun r _ => s r) := by
    intro t
    induction t with
    | zero => exact MeanEstInv.init true record
    | succ t ih =>
      obtain ⟨e, h1, h2⟩ := hstep t ih
      rw [seqEst, h1]
      exact h2
  refine ⟨hinv t, ?_⟩
  obtain ⟨e, h1, -⟩ := hstep t (hinv t)
  rw [seqEst, h1]

/-- `c` stops after exactly `t` samples of the sequence. -/
def StopsAt (c : Crit) (record : Bool) (s : ℕ → ℝ) (t : ℕ) : Prop :=
  c.eval (seqEst record s t).view = .ok true ∧ ∀ r < t, c.eval (seqEst record s r).view = .ok false

theorem stopsAt_loop (c : Crit) (A : Operand N) (pdf : Pdf N) (record : Bool) (s : ℕ → ℝ)
    (hs : ∀ t, A.quadForm (pdf (List.replicate t 1) 1 0) = s t) (T : ℕ) (hT : StopsAt c record s T) (fuel t : ℕ) (ht : t ≤ T) (hf : T < t + fuel)
    (calls : List (MeanEst 1)) :
    hutchLoop A pdf 1 c fuel ⟨List.replicate t 1, seqEst record s t, calls⟩ =
      some (.ok ⟨List.replicate T 1, seqEst record s T, calls ++ (List.range' (t + 1) (T - t)).map (seqEst record s)⟩) := by
  induction fuel generalizing t calls with
  | zero => omega
  | succ fuel ih =>
    unfold hutchLoop
    rcases ht.eq_or_lt with rfl | hlt
    · simp [hT.1]
    · rw [hT.2 t hlt]
      have hb : hutchBody A pdf 1 ⟨List.replicate t 1, seqEst record s t, calls⟩ =
          .ok ⟨List.replicate (t + 1) 1, seqEst record s (t + 1), calls ++ [seqEst record s (t + 1)]⟩ := by
        unfold hutchBody
        have h1 : (List.ofFn fun j : Fin 1 => A.quadForm (pdf (List.replicate t 1) 1 j)) = [s t] := by
          simp [hs]
        simp only [h1, (seqEst_inv record s t).2, List.replicate_succ']
      simp only [hb]
      rw [ih (t + 1) hlt (by omega)]
      obtain ⟨d, hd⟩ : ∃ d, T - t = d + 1 := ⟨T - t - 1, by omega⟩
      rw [show T - (t + 1) = d by omega, hd, List.range'_succ]
      simp

theorem seqEst_updates (record : Bool) (s : ℕ → ℝ) (t : ℕ) :
    (MeanEst.init 1 true record).updates (((List.range t).map fun r => [fun _ => s r]).map fun X => .mat ⟨1, X⟩) = .ok (seqEst record s t) := by
  unfold MeanEst.updates
  induction t with
  | zero => rfl
  | succ t ih =>
    rw [List.range_succ, List.map_append, List.map_append, List.foldlM_append, ih]
    have h := (seqEst_inv record s t).2
    simp only [List.map_cons, List.map_nil, List.foldlM_cons, List.foldlM_nil, bind, Except.bind, pure, Except.pure]
    have h2 : (seqEst record s t).update (.mat ⟨1, [fun _ => s t]⟩) = (seqEst record s t).update (.vec [s t]) := rfl
    rw [h2, h]

theorem _root_.Primate.Spec.Capped.seq {c : Crit} {record : Bool} {K : ℕ} (h : Spec.Capped record c K) (s : ℕ → ℝ) (t : ℕ) :
    (∃ b, c.eval (seqEst record s t).view = .ok b) ∧ (K ≤ t → c.eval (seqEst record s t).view = .ok true) := by
  have hne : ∀ X ∈ (List.range t).map fun r => [fun _ : Fin 1 => s r], X ≠ [] := by simp
  refine ⟨h.nonRaising _ _ hne (seqEst_updates record s t), fun hK => h.cap _ _ hne (seqEst_updates record s t) ?_⟩
  have : (List.map (List.length ∘ fun r => [fun _ : Fin 1 => s r]) (List.range t)).sum = t := by
    simp [Function.comp_def]
  rw [List.length_flatten, List.map_map, this]
  exact hK

theorem _root_.Primate.Spec.Capped.stops {c : Crit} {record : Bool} {K : ℕ} (h : Spec.Capped record c K) (s : ℕ → ℝ) :
    ∃ T, StopsAt c record s T ∧ 0 < T ∧ T ≤ K := by
  classical
  have hK : c.eval (seqEst record s K).view = .ok true := (h.seq s K).2 le_rfl
  have hex : ∃ t, c.eval (seqEst record s t).view = .ok true := ⟨K, hK⟩
  refine ⟨Nat.find hex, ⟨Nat.find_spec hex, fun r hr => ?_⟩, ?_, Nat.find_min' hex hK⟩
  · obtain ⟨b, hb⟩ := (h.seq s r).1
    have := Nat.find_min hex hr
    cases b
    · exact hb
    · exact absurd hb this
  · rw [Nat.find_pos]
    show ¬ c.eval (MeanEst.init 1 true record).view = _
    rw [h.start]
    simp

theorem StopsAt.unique {c : Crit} {record : Bool} {s : ℕ → ℝ} {T T' : ℕ} (h : StopsAt c record s T) (h' : StopsAt c record s T') : T = T' := by
  rcases lt_trichotomy T T' with hl | hl | hl
  · have := h'.2 T hl; rw [h.1] at this; simp at this
  · exact hl
  · have := h.2 T' hl; rw [h'.1] at this; simp at this

/-- Whether the run goes beyond `t` samples depends on the first `t` samples only. -/
theorem StopsAt.adapted {c : Crit} {record : Bool} {s s' : ℕ → ℝ} {T T' : ℕ} (h : StopsAt c record s T) (h' : StopsAt c record s' T') (t : ℕ)
    (hs : ∀ r < t, s r = s' r) : t < T ↔ t < T' := by
  have key : ∀ {s s' : ℕ → ℝ} {T T' : ℕ}, StopsAt c record s T → StopsAt c record s' T' → (∀ r < t, s r = s' r) → t < T → t < T' := by
    intro s s' T T' h h' hs ht
    by_contra hc
    have h1 := h.2 T' (by omega)
    rw [seqEst_congr record s s' T' fun r hr => hs r (by omega), h'.1] at h1
    simp at h1
  exact ⟨key h h' hs, key h' h fun r hr => (hs r hr).symm⟩

/-! ## Finite averages -/

/-- Replace the bits of one sample. -/
def setBlock {K : ℕ} (b : Fin K × Fin N → Bool) (t : Fin K) (v : Fin N → Bool) : Fin K × Fin N → Bool := fun p => if p.1 = t then v p.2 else b p

theorem sum_setBlock {K : ℕ} (t : Fin K) (H : (Fin K × Fin N → Bool) → ℝ) :
    ∑ b : Fin K × Fin N → Bool, ∑ v : Fin N → Bool, H (setBlock b t v) = 2 ^ N * ∑ b, H b := by
  have h1 : ∀ b : Fin K × Fin N → Bool, ∑ v : Fin N → Bool, H (setBlock b t v) = ∑ v : Fin N → Bool, H (setBlock b t fun i => xor (b (t, i)) (v i)) := fun b => by
    let e : (Fin N → Bool) ≃ (Fin N → Bool) := ⟨fun v i => xor (b (t, i)) (v i), fun v i => xor (b (t, i)) (v i), fun v => by funext i; simp, fun v => by funext i; simp⟩
    exact (Fintype.sum_equiv e (fun v => H (setBlock b t fun i => xor (b (t, i)) (v i))) (fun v => H (setBlock b t v)) fun v => rfl).symm
  simp only [h1]
  rw [Finset.sum_comm]
  have h2 : ∀ v : Fin N → Bool, ∑ b : Fin K × Fin N → Bool, H (setBlock b t fun i => xor (b (t, i)) (v i)) = ∑ b, H b := fun v => by
    have hinv : ∀ b : Fin K × Fin N → Bool, setBlock (setBlock b t fun i => xor (b (t, i)) (v i)) t
        (fun i => xor ((setBlock b t fun i => xor (b (t, i)) (v i)) (t, i)) (v i)) = b := fun b => by
      funext p
      unfold setBlock
      by_cases hp : p.1 = t
      · obtain ⟨a, i⟩ := p
        simp only at hp
        subst hp
        simp
      · simp [hp]
    exact Fintype.sum_equiv ⟨fun b => setBlock b t fun i => xor (b (t, i)) (v i), fun b => setBlock b t fun i => xor (b (t, i)) (v i), hinv, hinv⟩ _ _ fun b => rfl
  simp only [h2, Finset.sum_const, Finset.card_univ, Fintype.card_fun, Fintype.card_bool, Fintype.card_fin, nsmul_eq_mul]
  push_cast
  ring

/-- A factor that does not depend on sample `t` can be averaged separately. -/
theorem sum_indep {K : ℕ} (t : Fin K) (F : (Fin K × Fin N → Bool) → ℝ) (hF : ∀ b v, F (setBlock b t v) = F b) (g : (Fin N → Bool) → ℝ) :
    2 ^ N * ∑ b, F b * g (fun i => b (t, i)) = (∑ b, F b) * ∑ v, g v := by
  rw [← sum_setBlock t, Finset.sum_mul]
  refine Finset.sum_congr rfl fun b _ => ?_
  rw [Finset.mul_sum]
  refine Finset.sum_congr rfl fun v _ => ?_
  rw [hF]
  congr 2
  funext i
  simp [setBlock]

/-- The variance of one sample. -/
def sampleVar (A : Matrix (Fin N) (Fin N) ℝ) : ℝ := ∑ i, ∑ j, if i = j then 0 else A i j * (A i j + A j i)

theorem sum_one_sample (A : Matrix (Fin N) (Fin N) ℝ) :
    (∑ v : Fin N → Bool, (Spec.quad A (fun i => sgn (v i)) - A.trace) = 0) ∧
    ∑ v : Fin N → Bool, (Spec.quad A (fun i => sgn (v i)) - A.trace) ^ 2 = 2 ^ N * sampleVar A := by
  have e : ∀ g : (Fin N → Bool) → ℝ, ∑ b : Fin 1 × Fin N → Bool, g (fun i => b (0, i)) = ∑ v, g v := fun g =>
    Fintype.sum_equiv ⟨fun b i => b (0, i), fun v p => v p.2, fun b => by
      funext ⟨a, i⟩
      rw [Subsingleton.elim a 0], fun v => rfl⟩ _ _ fun b => rfl
  constructor
  · rw [Finset.sum_sub_distrib, ← e fun v => Spec.quad A fun i => sgn (v i), sum_quad_signs 1 A 0]
    simp [Finset.sum_const, Finset.card_univ]
  · have h := mse_signs A 1 one_pos
    rw [one_mul, Nat.cast_one, div_one, div_eq_iff (by positivity), mul_comm] at h
    unfold sampleVar
    rw [← h, ← e fun v => (Spec.quad A (fun i => sgn (v i)) - A.trace) ^ 2]
    simp

/-- Wald's identities over all sign patterns, for an adapted number of samples. -/
theorem wald_signs (A : Matrix (Fin N) (Fin N) ℝ) (K : ℕ) (T : (Fin K × Fin N → Bool) → ℕ)
    (hT : ∀ (t : Fin K) (b b' : Fin K × Fin N → Bool), (∀ r < t, ∀ i, b (r, i) = b' (r, i)) → ((t : ℕ) < T b ↔ (t : ℕ) < T b')) :
    (∑ b, ∑ t : Fin K, (if (t : ℕ) < T b then Spec.quad A (fun i => sgn (b (t, i))) - A.trace else 0) = 0) ∧
    ∑ b, (∑ t : Fin K, (if (t : ℕ) < T b then Spec.quad A (fun i => sgn (b (t, i))) - A.trace else 0)) ^ 2 =
      sampleVar A * ∑ b, ∑ t : Fin K, (if (t : ℕ) < T b then 1 else 0) := by
  classical
  obtain ⟨F, hFd⟩ : ∃ F : Fin K → (Fin K × Fin N → Bool) → ℝ, F = fun (t : Fin K) b => if (t : ℕ) < T b then (1 : ℝ) else 0 := ⟨_, rfl⟩
  obtain ⟨d, hd⟩ : ∃ d : (Fin N → Bool) → ℝ, d = fun v => Spec.quad A (fun i => sgn (v i)) - A.trace := ⟨_, rfl⟩
  have hd0 : ∑ v, d v = 0 := by rw [hd]; exact (sum_one_sample A).1
  have hd2 : ∑ v, d v ^ 2 = 2 ^ N * sampleVar A := by rw [hd]; exact (sum_one_sample A).2
  have hterm : ∀ b (t : Fin K), (if (t : ℕ) < T b then Spec.quad A (fun i => sgn (b (t, i))) - A.trace else 0) = F t b * d fun i => b (t, i) := fun b t => by
    rw [hFd, hd]
    simp only
    split_ifs <;> simp
  have hF1 : ∀ b (t : Fin K), (if (t : ℕ) < T b then (1 : ℝ) else 0) = F t b := fun b t => by rw [hFd]
  have hF : ∀ s t : Fin K, s ≤ t → ∀ b v, F s (setBlock b t v) = F s b := fun s t hst b v => by
    rw [hFd]
    simp only
    have := hT s (setBlock b t v) b fun r hr i => by simp [setBlock, (hr.trans_le hst).ne]
    simp only [this]
  have hFF : ∀ b (t : Fin K), F t b * F t b = F t b := fun b t => by
    rw [hFd]
    simp only
    split_ifs <;> simp
  have h2N : (2 : ℝ) ^ N ≠ 0 := by positivity
  simp only [hterm, hF1]
  have hzero : ∀ (t : Fin K) (G : (Fin K × Fin N → Bool) → ℝ), (∀ b v, G (setBlock b t v) = G b) → ∑ b, G b * d (fun i => b (t, i)) = 0 := fun t G hG => by
    have h := sum_indep t G hG d
    rw [hd0, mul_zero] at h
    exact (mul_eq_zero.1 h).resolve_left h2N
  constructor
  · rw [Finset.sum_comm]
    exact Finset.sum_eq_zero fun t _ => hzero t (F t) (hF t t le_rfl)
  · have hcross : ∀ s t : Fin K, s < t → ∑ b, F s b * d (fun i => b (s, i)) * (F t b * d fun i => b (t, i)) = 0 := fun s t hst => by
      rw [← hzero t (fun b => F s b * d (fun i => b (s, i)) * F t b) fun b v => ?_]
      · exact Finset.sum_congr rfl fun b _ => by ring
      · rw [hF s t hst.le, hF t t le_rfl]
        simp [setBlock, hst.ne]
    have hdiag : ∀ t : Fin K, ∑ b, F t b * d (fun i => b (t, i)) * (F t b * d fun i => b (t, i)) = sampleVar A * ∑ b, F t b := fun t => by
      have h := sum_indep t (F t) (hF t t le_rfl) fun v => d v ^ 2
      rw [hd2] at h
      have h3 : ∑ b, F t b * d (fun i => b (t, i)) * (F t b * d fun i => b (t, i)) = ∑ b, F t b * d (fun i => b (t, i)) ^ 2 :=
        Finset.sum_congr rfl fun b _ => by
          calc _ = F t b * F t b * d (fun i => b (t, i)) ^ 2 := by ring
            _ = _ := by rw [hFF]
      rw [h3]
      have h4 : 2 ^ N * ∑ b, F t b * d (fun i => b (t, i)) ^ 2 = 2 ^ N * (sampleVar A * ∑ b, F t b) := by rw [h]; ring
      exact mul_left_cancel₀ h2N h4
    simp only [sq, Finset.sum_mul_sum]
    rw [Finset.sum_comm, Finset.sum_comm (s := univ) (t := univ) (f := fun b t => F t b), Finset.mul_sum]
    refine Finset.sum_congr rfl fun t _ => ?_
    rw [Finset.sum_comm, Finset.sum_eq_single t]
    · exact hdiag t
    · intro s _ hst
      rcases lt_or_gt_of_ne hst with h | h
      · rw [← hcross s t h]
        exact Finset.sum_congr rfl fun b _ => mul_comm _ _
      · exact hcross t s h
    · intro h
      exact absurd (Finset.mem_univ t) h

/-! ## C125 -/

section prob

variable (tppf : ℝ → ℕ → ℝ) (zscore : ℝ → ℝ) {Ω : Type*} [MeasurableSpace Ω] {P : Measure Ω}

/-- The samples of a sign pattern. -/
def signSample (A : Matrix (Fin N) (Fin N) ℝ) {K : ℕ} (b : Fin K × Fin N → Bool) (t : ℕ) : ℝ :=
  if h : t < K then Spec.quad A (fun i => sgn (b (⟨t, h⟩, i))) else 0

/-- The run stops after the same number of samples when the first `K` samples agree. -/
theorem StopsAt.transfer {c : Crit} {record : Bool} {s s' : ℕ → ℝ} {T : ℕ} (h : StopsAt c record s T) (hs : ∀ r < T, s r = s' r) : StopsAt c record s' T := by
  refine ⟨?_, fun r hr => ?_⟩
  · rw [← seqEst_congr record s s' T hs]; exact h.1
  · rw [← seqEst_congr record s s' r fun q hq => hs q (by omega)]; exact h.2 r hr

theorem seqEst_estimate (record : Bool) (s : ℕ → ℝ) (T : ℕ) (hT : 0 < T) :
    (seqEst record s T).estimate = .val fun _ => (∑ t ∈ Finset.range T, s t) / T := by
  have hne : (List.range T).map (fun r (_ : Fin 1) => s r) ≠ [] := by
    simp only [ne_eq, List.map_eq_nil_iff, List.range_eq_nil]
    omega
  rw [(seqEst_inv record s T).1.estimate_eq hne]
  congr 1
  funext i
  rw [Spec.sampleMean, List.map_map, List.length_map, List.length_range]
  rfl

theorem wald_core [IsProbabilityMeasure P] (a : HutchArgs N) (A : Matrix (Fin N) (Fin N) ℝ) (hA : a.A = .ofMatrix A) (hN : N ≠ 0)
    (hpdf : a.pdf = .name "rademacher") (hcols : a.cols = 1) (c : Crit) (hc : hutchCriterion tppf zscore a.converge a.kw = .ok c) (K : ℕ)
    (hcap : Spec.Capped a.record c K) (u : ℕ → Ω → ℝ) (X : ℕ → Ω → ℝ) (hu : Spec.IidUniform P u) :
    ∃ (est : Ω → ℝ) (τ : Ω → ℕ),
      (∀ᵐ ω ∂P, ∃ out calls, hutch tppf zscore ⟨fun q => u q ω, fun q => X q ω⟩ a (K + 1) = some (.ok (out, calls)) ∧
        out.estimate = .val (fun _ => est ω) ∧
        (∀ res, out.result = some res → ∃ e, res.estimator = some e ∧ e.nSamples = τ ω) ∧
        (a.callback = true → calls.length = τ ω) ∧
        est ω = (∑ t ∈ Finset.range (τ ω), Spec.quad A fun i => rademacherEntry (u (t * N + i) ω)) / τ ω ∧
        StopsAt c a.record (fun t => Spec.quad A fun i => rademacherEntry (u (t * N + i) ω)) (τ ω)) ∧
      (∀ ω, 1 ≤ τ ω ∧ τ ω ≤ K) ∧
      Integrable est P ∧ Integrable (fun ω => (est ω - A.trace) ^ 2) P ∧ Integrable (fun ω => (τ ω : ℝ)) P ∧
      Integrable (fun ω => τ ω * (est ω - A.trace)) P ∧ Integrable (fun ω => (τ ω * (est ω - A.trace)) ^ 2) P ∧
      ∫ ω, τ ω * (est ω - A.trace) ∂P = 0 ∧
      ∫ ω, (τ ω * (est ω - A.trace)) ^ 2 ∂P = (∑ i, ∑ j, if i = j then 0 else A i j * (A i j + A j i)) * ∫ ω, (τ ω : ℝ) ∂P := by
  classical
  choose T hT using fun b : Fin K × Fin N → Bool => hcap.stops (signSample A b)
  have hS : ∀ b (t : Fin K), signSample A b t = Spec.quad A (fun i => sgn (b (t, i))) := fun b t => by simp [signSample]
  obtain ⟨hw1, hw2⟩ := wald_signs A K T fun t b b' hbb' => (hT b).1.adapted (hT b').1 t fun r hr => by
    have hrK : r < K := hr.trans t.2
    have := hbb' ⟨r, hrK⟩ hr
    simp [signSample, hrK, this]
  obtain ⟨G, hG⟩ : ∃ G : (Fin K × Fin N → Bool) → ℝ, G = fun b => (∑ t ∈ Finset.range (T b), signSample A b t) / T b := ⟨_, rfl⟩
  have hT0 : ∀ b, (T b : ℝ) ≠ 0 := fun b => by exact_mod_cast (hT b).2.1.ne'
  have hTsum : ∀ b, ∑ t : Fin K, (if (t : ℕ) < T b then (1 : ℝ) else 0) = T b := fun b => by
    rw [Fin.sum_univ_eq_sum_range (fun t => if t < T b then (1 : ℝ) else 0) K, ← Finset.sum_filter]
    have : (Finset.range K).filter (fun t => t < T b) = Finset.range (T b) := by
      ext t
      simp only [Finset.mem_filter, Finset.mem_range]
      have := (hT b).2.2
      omega
    rw [this]
    simp
  have hGsum : ∀ b, ∑ t : Fin K, (if (t : ℕ) < T b then Spec.quad A (fun i => sgn (b (t, i))) - A.trace else 0) = T b * (G b - A.trace) := fun b => by
    have h1 : ∀ t : Fin K, (if (t : ℕ) < T b then Spec.quad A (fun i => sgn (b (t, i))) - A.trace else 0) =
        (fun r => if r < T b then signSample A b r - A.trace else 0) (t : ℕ) := fun t => by simp only [hS]
    rw [Finset.sum_congr rfl fun t _ => h1 t, Fin.sum_univ_eq_sum_range (fun r => if r < T b then signSample A b r - A.trace else 0) K, ← Finset.sum_filter]
    have : (Finset.range K).filter (fun t => t < T b) = Finset.range (T b) := by
      ext t
      simp only [Finset.mem_filter, Finset.mem_range]
      have := (hT b).2.2
      omega
    rw [this, Finset.sum_sub_distrib, hG]
    simp only [Finset.sum_const, Finset.card_range, nsmul_eq_mul]
    field_simp [hT0 b]
  simp only [hGsum, hTsum] at hw1 hw2
  have hr : ∀ᵐ ω ∂P, ∀ q, u q ω ∈ Set.Ico (0 : ℝ) 1 := by
    rw [ae_all_iff]
    intro q
    have h1 : ∀ᵐ x ∂(volume.restrict (Set.Ico (0 : ℝ) 1)), x ∈ Set.Ico (0 : ℝ) 1 := ae_restrict_mem measurableSet_Ico
    rw [← (hu.law q).map_eq] at h1
    exact ae_of_ae_map (hu.law q).aemeasurable h1
  refine ⟨fun ω => G (bitsOf K N u ω), fun ω => T (bitsOf K N u ω), ?_, fun ω => (hT _).2, (bitsOf_integral hu K N G).1,
    (bitsOf_integral hu K N fun b => (G b - A.trace) ^ 2).1, (bitsOf_integral hu K N fun b => (T b : ℝ)).1,
    (bitsOf_integral hu K N fun b => T b * (G b - A.trace)).1, (bitsOf_integral hu K N fun b => (T b * (G b - A.trace)) ^ 2).1, ?_, ?_⟩
  · filter_upwards [hr] with ω hω
    obtain ⟨b, hb⟩ : ∃ b, b = bitsOf K N u ω := ⟨_, rfl⟩
    obtain ⟨s, hs⟩ : ∃ s : ℕ → ℝ, s = fun t => Spec.quad A fun i => rademacherEntry (u (t * N + i) ω) := ⟨_, rfl⟩
    have hss : ∀ t < T b, signSample A b t = s t := fun t ht => by
      have htK : t < K := ht.trans_le (hT b).2.2
      rw [hs, signSample, dif_pos htK]
      congr 1
      funext i
      obtain ⟨h1, h2⟩ := hω (t * N + i)
      rw [hb]
      unfold bitsOf
      by_cases h : 1/2 ≤ u (t * N + i) ω
      · simp only [decide_eq_true h]; rw [(rademacherEntry_half _).2 h h2]; rfl
      · simp only [decide_eq_false h]; rw [(rademacherEntry_half _).1 h1 (not_le.1 h)]; rfl
    have hst := (hT b).1.transfer hss
    have hloop : ∀ pdf : Pdf N, a.pdf.resolve ⟨fun q => u q ω, fun q => X q ω⟩ = .ok pdf →
        hutchLoop a.A pdf 1 c (K + 1) ⟨[], MeanEst.init 1 true a.record, []⟩ =
          some (.ok ⟨List.replicate (T b) 1, seqEst a.record s (T b), (List.range' 1 (T b)).map (seqEst a.record s)⟩) := by
      intro pdf hp
      have hs' : ∀ t, a.A.quadForm (pdf (List.replicate t 1) 1 0) = s t := by
        intro t
        rw [hpdf] at hp
        have hp' : pdf = _ := (Except.ok.inj hp).symm
        rw [hp', hA, (C20_quadForm A (fun _ => 0) id _).1, hs]
        congr 1
        funext i
        simp only [IsoDist.fill, rawCols, List.sum_replicate, smul_eq_mul, mul_one, Fin.val_zero, zero_mul, add_zero]
      have := stopsAt_loop c a.A pdf a.record s hs' (T b) hst (K + 1) 0 (Nat.zero_le _) (by have := (hT b).2.2; omega) []
      simp only [List.replicate_zero, Nat.sub_zero, List.nil_append, zero_add] at this
      exact this
    have hp : ∃ pdf : Pdf N, a.pdf.resolve ⟨fun q => u q ω, fun q => X q ω⟩ = .ok pdf := by rw [hpdf]; exact ⟨_, rfl⟩
    obtain ⟨pdf, hp⟩ := hp
    have hest : (seqEst a.record s (T b)).estimate = .val fun _ => G b := by
      rw [seqEst_estimate _ _ _ (hT b).2.1, hG]
      simp only
      rw [Finset.sum_congr rfl fun t ht => hss t (Finset.mem_range.1 ht)]
    have hn : (seqEst a.record s (T b)).nSamples = T b := by rw [(seqEst_inv a.record s (T b)).1.n]; simp
    have hfin : G b = (∑ t ∈ Finset.range (T b), s t) / T b := by
      rw [hG]
      simp only
      rw [Finset.sum_congr rfl fun t ht => hss t (Finset.mem_range.1 ht)]
    rw [← hb, ← hs]
    by_cases hf : (a.full || a.callback) = true
    · have hbt : a.batch = 1 := by simpa [HutchArgs.cols, hf] using hcols
      refine ⟨.pair (.val fun _ => G b) (.mk2 (some (seqEst a.record s (T b))) (some c)),
        if a.callback then (List.range' 1 (T b)).map (seqEst a.record s) else [], ?_, rfl, ?_, ?_, hfin, hst⟩
      · unfold hutch
        simp only [hp, hc, hN, if_false, hf, if_true, hbt, hloop pdf hp, hest]
      · intro res hres
        cases hres
        exact ⟨_, rfl, hn⟩
      · intro hcb
        simp [hcb]
    · refine ⟨.scalar (.val fun _ => G b), [], ?_, rfl, ?_, ?_, hfin, hst⟩
      · unfold hutch
        simp only [hp, hc, hN, if_false, hf, hloop pdf hp, hest]
        rfl
      · intro res hres
        cases hres
      · intro hcb
        simp [hcb] at hf
  · rw [(bitsOf_integral hu K N fun b => T b * (G b - A.trace)).2, hw1, zero_div]
  · rw [(bitsOf_integral hu K N fun b => (T b * (G b - A.trace)) ^ 2).2, (bitsOf_integral hu K N fun b => (T b : ℝ)).2, hw2]
    unfold sampleVar
    ring

/-- **C125**: with independent uniform numbers, Rademacher vectors drawn one at a time and any criterion that stops after at most `K` samples, let `τ` be the
number of samples drawn.  Then the error times the number of samples has expected value zero, and its square has expected value (variance of a sample) times
(expected number of samples). -/
theorem C125_wald [IsProbabilityMeasure P] (a : HutchArgs N) (A : Matrix (Fin N) (Fin N) ℝ) (hA : a.A = .ofMatrix A) (hN : N ≠ 0)
    (hpdf : a.pdf = .name "rademacher") (hcols : a.cols = 1) (c : Crit) (hc : hutchCriterion tppf zscore a.converge a.kw = .ok c) (K : ℕ)
    (hcap : Spec.Capped a.record c K) (u : ℕ → Ω → ℝ) (X : ℕ → Ω → ℝ) (hu : Spec.IidUniform P u) :
    ∃ (est : Ω → ℝ) (τ : Ω → ℕ),
      (∀ᵐ ω ∂P, ∃ out calls, hutch tppf zscore ⟨fun q => u q ω, fun q => X q ω⟩ a (K + 1) = some (.ok (out, calls)) ∧
        out.estimate = .val (fun _ => est ω) ∧
        (∀ res, out.result = some res → ∃ e, res.estimator = some e ∧ e.nSamples = τ ω) ∧
        (a.callback = true → calls.length = τ ω) ∧
        est ω = (∑ t ∈ Finset.range (τ ω), Spec.quad A fun i => rademacherEntry (u (t * N + i) ω)) / τ ω) ∧
      (∀ ω, 1 ≤ τ ω ∧ τ ω ≤ K) ∧
      Integrable est P ∧ Integrable (fun ω => (est ω - A.trace) ^ 2) P ∧ Integrable (fun ω => (τ ω : ℝ)) P ∧
      Integrable (fun ω => τ ω * (est ω - A.trace)) P ∧ Integrable (fun ω => (τ ω * (est ω - A.trace)) ^ 2) P ∧
      ∫ ω, τ ω * (est ω - A.trace) ∂P = 0 ∧
      ∫ ω, (τ ω * (est ω - A.trace)) ^ 2 ∂P = (∑ i, ∑ j, if i = j then 0 else A i j * (A i j + A j i)) * ∫ ω, (τ ω : ℝ) ∂P := by
  obtain ⟨est, τ, h, h'⟩ := wald_core tppf zscore a A hA hN hpdf hcols c hc K hcap u X hu
  refine ⟨est, τ, ?_, h'⟩
  filter_upwards [h] with ω hω
  obtain ⟨out, calls, h1, h2, h3, h4, h5, -⟩ := hω
  exact ⟨out, calls, h1, h2, h3, h4, h5⟩

/-- **C125**: a consequence.  When the criterion also asks for at least `m` samples, the bias is at most `sqrt (V K) / m` and the mean squared error at most
`V K / m ^ 2`, with `V` the variance of one sample. -/
theorem C125_bias [IsProbabilityMeasure P] (a : HutchArgs N) (A : Matrix (Fin N) (Fin N) ℝ) (hA : a.A = .ofMatrix A) (hN : N ≠ 0)
    (hpdf : a.pdf = .name "rademacher") (hcols : a.cols = 1) (c : Crit) (hc : hutchCriterion tppf zscore a.converge a.kw = .ok c) (K m : ℕ) (hm : 0 < m)
    (hcap : Spec.Capped a.record c K)
    (hmin : ∀ (Xs : List (List (Fin 1 → ℝ))) (e : MeanEst 1), (∀ X ∈ Xs, X ≠ []) →
      (MeanEst.init 1 true a.record).updates (Xs.map fun X => .mat ⟨1, X⟩) = .ok e → Xs.flatten.length < m → c.eval e.view = .ok false)
    (u : ℕ → Ω → ℝ) (X : ℕ → Ω → ℝ) (hu : Spec.IidUniform P u) :
    ∃ est : Ω → ℝ,
      (∀ᵐ ω ∂P, ∃ out calls, hutch tppf zscore ⟨fun q => u q ω, fun q => X q ω⟩ a (K + 1) = some (.ok (out, calls)) ∧
        out.estimate = .val (fun _ => est ω)) ∧
      Integrable est P ∧ Integrable (fun ω => (est ω - A.trace) ^ 2) P ∧
      ∫ ω, (est ω - A.trace) ^ 2 ∂P ≤ (∑ i, ∑ j, if i = j then 0 else A i j * (A i j + A j i)) * K / m ^ 2 ∧
      |∫ ω, est ω ∂P - A.trace| ≤ Real.sqrt ((∑ i, ∑ j, if i = j then 0 else A i j * (A i j + A j i)) * K) / m := by
  obtain ⟨est, τ, h, hτ, hi1, hi2, hi3, -, hi5, -, hw⟩ := wald_core tppf zscore a A hA hN hpdf hcols c hc K hcap u X hu
  obtain ⟨V, hV⟩ : ∃ V : ℝ, V = ∑ i, ∑ j, if i = j then 0 else A i j * (A i j + A j i) := ⟨_, rfl⟩
  rw [← hV] at hw ⊢
  have hm' : (0 : ℝ) < m := by exact_mod_cast hm
  have hV0 : 0 ≤ V := by
    have h1 := (sum_one_sample A).2
    have h2 : 0 ≤ 2 ^ N * sampleVar A := by rw [← h1]; exact Finset.sum_nonneg fun v _ => sq_nonneg _
    have h3 : 0 ≤ sampleVar A := nonneg_of_mul_nonneg_right h2 (by positivity)
    rw [hV]
    exact h3
  have hmse : ∫ ω, (est ω - A.trace) ^ 2 ∂P ≤ V * K / m ^ 2 := by
    have h1 : ∫ ω, (est ω - A.trace) ^ 2 ∂P ≤ ∫ ω, (τ ω * (est ω - A.trace)) ^ 2 / m ^ 2 ∂P := by
      refine integral_mono_ae hi2 (hi5.div_const _) ?_
      filter_upwards [h] with ω hω
      obtain ⟨out, calls, -, -, -, -, -, hst⟩ := hω
      have hge : m ≤ τ ω := by
        by_contra hlt
        have := hmin ((List.range (τ ω)).map fun r => [fun _ : Fin 1 => Spec.quad A fun i => rademacherEntry (u (r * N + i) ω)]) _ (by simp)
          (seqEst_updates a.record (fun r => Spec.quad A fun i => rademacherEntry (u (r * N + i) ω)) (τ ω)) (by
            simp only [List.length_flatten, List.map_map, Function.comp_def, List.length_singleton, List.map_const', List.length_range, List.sum_replicate,
              smul_eq_mul, mul_one]
            omega)
        rw [hst.1] at this
        simp at this
      have hge' : (m : ℝ) ≤ τ ω := by exact_mod_cast hge
      show (est ω - A.trace) ^ 2 ≤ (τ ω * (est ω - A.trace)) ^ 2 / m ^ 2
      rw [le_div_iff₀ (by positivity), mul_pow, mul_comm]
      gcongr
    rw [integral_div, hw] at h1
    have h2 : ∫ ω, (τ ω : ℝ) ∂P ≤ K := by
      have := integral_mono hi3 (integrable_const (K : ℝ)) fun ω => by
        show (τ ω : ℝ) ≤ K
        exact_mod_cast (hτ ω).2
      simpa using this
    refine h1.trans ?_
    gcongr
  refine ⟨est, ?_, hi1, hi2, hmse, ?_⟩
  · filter_upwards [h] with ω hω
    obtain ⟨out, calls, h1, h2, -⟩ := hω
    exact ⟨out, calls, h1, h2⟩
  · have h1 : ∫ ω, (est ω - A.trace) ∂P = ∫ ω, est ω ∂P - A.trace := by
      rw [integral_sub hi1 (integrable_const _)]
      simp
    have hi0 : Integrable (fun ω => est ω - A.trace) P := hi1.sub (integrable_const _)
    obtain ⟨B, hB⟩ : ∃ B, B = ∫ ω, est ω ∂P - A.trace := ⟨_, rfl⟩
    rw [← hB] at h1 ⊢
    have h2 : 0 ≤ ∫ ω, (est ω - A.trace - B) ^ 2 ∂P := integral_nonneg fun ω => sq_nonneg _
    have h3 : ∫ ω, (est ω - A.trace - B) ^ 2 ∂P = ∫ ω, (est ω - A.trace) ^ 2 ∂P - 2 * B * B + B ^ 2 := by
      have e : ∀ ω, (est ω - A.trace - B) ^ 2 = ((est ω - A.trace) ^ 2 - 2 * B * (est ω - A.trace)) + B ^ 2 := fun ω => by ring
      rw [integral_congr_ae (Filter.Eventually.of_forall e), integral_add (f := fun ω => (est ω - A.trace) ^ 2 - 2 * B * (est ω - A.trace)) (hi2.sub (hi0.const_mul _)) (integrable_const _),
        integral_sub hi2 (hi0.const_mul _), integral_const_mul, h1]
      simp
    have h4 : B ^ 2 ≤ V * K / m ^ 2 := by nlinarith
    have h5 : Real.sqrt (V * K) / m = Real.sqrt (V * K / m ^ 2) := by rw [Real.sqrt_div' _ (by positivity), Real.sqrt_sq hm'.le]
    rw [h5]
    exact Real.abs_le_sqrt h4

/-! ### The default criterion is biased -/

theorem seq_flatten (s : ℕ → ℝ) (t : ℕ) : ((List.range t).map fun r => [fun _ : Fin 1 => s r]).flatten = (List.range t).map fun r _ => s r := by
  induction t with
  | zero => rfl
  | succ t ih => rw [List.range_succ, List.map_append, List.flatten_append, ih, List.map_append]; rfl

theorem conf_seq_few (c : ConfCrit) (record : Bool) (s : ℕ → ℝ) (t : ℕ) (ht : t < 3) : (Crit.conf c).eval (seqEst record s t).view = .ok false := by
  obtain ⟨e, h1, h2⟩ := C11_few c true record ((List.range t).map fun r => [fun _ : Fin 1 => s r]) (by simp) (by rw [seq_flatten]; simpa using ht)
  rw [seqEst_updates, Except.ok.injEq] at h1
  rw [h1]
  exact h2

theorem conf_seq (c : ConfCrit) (record : Bool) (s : ℕ → ℝ) (t : ℕ) (ht : 3 ≤ t) :
    ∃ b, (Crit.conf c).eval (seqEst record s t).view = .ok b ∧
      (b = true ↔ (if t < 30 then c.tScores t else c.z) * (Spec.sampleStd ((List.range t).map fun r (_ : Fin 1) => s r) / Real.sqrt t) ≤ c.atol ∨
        (Spec.sampleMean ((List.range t).map fun r (_ : Fin 1) => s r) 0 ≠ 0 ∧
          Spec.sampleStd ((List.range t).map fun r (_ : Fin 1) => s r) / Real.sqrt t / |Spec.sampleMean ((List.range t).map fun r (_ : Fin 1) => s r) 0| ≤ c.rtol)) := by
  obtain ⟨e, b, h1, h2, h3⟩ := C11_decision c record ((List.range t).map fun r => [fun _ : Fin 1 => s r]) (by simp) (by rw [seq_flatten]; simpa using ht)
  rw [seqEst_updates, Except.ok.injEq] at h1
  rw [seq_flatten] at h3
  simp only [List.length_map, List.length_range] at h3
  exact ⟨b, by rw [h1]; exact h2, h3⟩

theorem seq_var (s : ℕ → ℝ) (t : ℕ) : Spec.sampleCov 1 ((List.range t).map fun r (_ : Fin 1) => s r) 0 0 =
    (∑ r ∈ Finset.range t, (s r - (∑ q ∈ Finset.range t, s q) / t) ^ 2) / (t - 1) := by
  have hm : Spec.sampleMean ((List.range t).map fun r (_ : Fin 1) => s r) 0 = (∑ q ∈ Finset.range t, s q) / t := by
    rw [Spec.sampleMean, List.map_map, List.length_map, List.length_range]; rfl
  rw [Spec.sampleCov, hm, List.map_map, List.length_map, List.length_range]
  push_cast
  congr 1
  rw [Finset.sum_congr rfl fun r _ => sq _]
  rfl

theorem seq_std_const (s : ℕ → ℝ) (t : ℕ) (ht : 0 < t) (h : ∀ r < t, s r = s 0) : Spec.sampleStd ((List.range t).map fun r (_ : Fin 1) => s r) = 0 := by
  have ht' : (t : ℝ) ≠ 0 := by exact_mod_cast ht.ne'
  unfold Spec.sampleStd
  rw [seq_var, Finset.sum_congr rfl (g := fun _ => s 0) fun q hq => h q (Finset.mem_range.1 hq)]
  rw [Finset.sum_eq_zero fun r hr => ?_]
  · simp
  · rw [h r (Finset.mem_range.1 hr)]
    simp [ht']

theorem seq_std_diff (s : ℕ → ℝ) (t : ℕ) (ht : 1 < t) (i j : ℕ) (hi : i < t) (hj : j < t) (hij : i ≠ j) (D : ℝ) (hD : 0 ≤ D) (h : D ≤ |s i - s j|) :
    D / Real.sqrt 2 / Real.sqrt (t - 1) ≤ Spec.sampleStd ((List.range t).map fun r (_ : Fin 1) => s r) := by
  have ht' : (0 : ℝ) < t - 1 := by
    have : (1 : ℝ) < t := by exact_mod_cast ht
    linarith
  unfold Spec.sampleStd
  rw [seq_var]
  apply Real.le_sqrt_of_sq_le
  rw [div_pow, div_pow, Real.sq_sqrt ht'.le, Real.sq_sqrt (by norm_num : (0 : ℝ) ≤ 2)]
  refine div_le_div_of_nonneg_right ?_ ht'.le
  obtain ⟨μ, hμ⟩ : ∃ μ, μ = (∑ q ∈ Finset.range t, s q) / t := ⟨_, rfl⟩
  rw [← hμ]
  have h1 : ∑ r ∈ ({i, j} : Finset ℕ), (s r - μ) ^ 2 ≤ ∑ r ∈ Finset.range t, (s r - μ) ^ 2 := by
    refine Finset.sum_le_sum_of_subset_of_nonneg ?_ fun r _ _ => sq_nonneg _
    intro r hr
    simp only [Finset.mem_insert, Finset.mem_singleton] at hr
    rcases hr with rfl | rfl <;> simpa
  rw [Finset.sum_pair hij] at h1
  have h2 : D ^ 2 ≤ (s i - s j) ^ 2 := by
    rw [← sq_abs (s i - s j)]
    exact pow_le_pow_left₀ hD h 2
  nlinarith [sq_nonneg ((s i - μ) + (s j - μ))]

/-- When samples stops early: samples that take two values far apart. -/
theorem default_stops (cc : ConfCrit) (ha : cc.atol = 1) (hr : cc.rtol = 0) (hz : 1 ≤ cc.z) (hts : ∀ i, 1 ≤ cc.tScores i) (record : Bool) (s : ℕ → ℝ)
    (h800 : ∀ i j, s i ≠ s j → 800 ≤ |s i - s j|) (T : ℕ) (hT : StopsAt (.or (.count 200) (.conf cc)) record s T) :
    (s 0 = s 1 ∧ s 1 = s 2 → T = 3) ∧ (¬ (s 0 = s 1 ∧ s 1 = s 2) → T = 200) := by
  have hor : ∀ t b, (Crit.conf cc).eval (seqEst record s t).view = .ok b →
      (Crit.or (.count 200) (.conf cc)).eval (seqEst record s t).view = .ok (truth ((200 : ℤ) ≤ (t : ℤ)) || b) := fun t b hb => by
    have hn : (seqEst record s t).view.len = t := by
      show (seqEst record s t).nSamples = t
      rw [(seqEst_inv record s t).1.n]; simp
    simp only [Crit.eval, hn] at hb ⊢
    rw [hb]
    rfl
  have hfew : ∀ t < 3, (Crit.or (.count 200) (.conf cc)).eval (seqEst record s t).view = .ok false := fun t ht => by
    rw [hor t false (conf_seq_few cc record s t ht)]
    have : ¬ (200 : ℤ) ≤ (t : ℤ) := by omega
    simp [truth, this]
  constructor
  · rintro ⟨h01, h12⟩
    refine hT.unique ⟨?_, hfew⟩
    obtain ⟨b, hb, hiff⟩ := conf_seq cc record s 3 le_rfl
    rw [hor 3 b hb]
    have : b = true := by
      rw [hiff, seq_std_const s 3 (by norm_num) fun r hr => by
        interval_cases r
        · rfl
        · exact h01.symm
        · rw [h01, h12]]
      left
      rw [ha]
      norm_num
    rw [this]
    simp
  · intro hne
    have hij : ∃ i j, i < 3 ∧ j < 3 ∧ i ≠ j ∧ s i ≠ s j := by
      by_contra hc
      push Not at hc
      exact hne ⟨hc 0 1 (by norm_num) (by norm_num) (by norm_num), hc 1 2 (by norm_num) (by norm_num) (by norm_num)⟩
    obtain ⟨i, j, hi, hj, hne', hs⟩ := hij
    refine hT.unique ⟨?_, fun t ht => ?_⟩
    · obtain ⟨b, hb, -⟩ := conf_seq cc record s 200 (by norm_num)
      rw [hor 200 b hb]
      simp [truth]
    · rcases lt_or_ge t 3 with h3 | h3
      · exact hfew t h3
      · obtain ⟨b, hb, hiff⟩ := conf_seq cc record s t h3
        rw [hor t b hb]
        have ht1 : (0 : ℝ) < t - 1 := by
          have : (3 : ℝ) ≤ t := by exact_mod_cast h3
          linarith
        have ht0 : (0 : ℝ) < t := by linarith
        have hSE : 1 < Spec.sampleStd ((List.range t).map fun r (_ : Fin 1) => s r) / Real.sqrt t := by
          have h1 := seq_std_diff s t (by omega) i j (by omega) (by omega) hne' 800 (by norm_num) (h800 i j hs)
          have h2 : Real.sqrt t < Spec.sampleStd ((List.range t).map fun r (_ : Fin 1) => s r) := by
            refine lt_of_lt_of_le ?_ h1
            rw [lt_div_iff₀ (Real.sqrt_pos.2 ht1), lt_div_iff₀ (by positivity)]
            have h3 : Real.sqrt t < 15 := by
              rw [Real.sqrt_lt' (by norm_num)]
              have : (t : ℝ) < 200 := by exact_mod_cast ht
              linarith
            have h4 : Real.sqrt ((t : ℝ) - 1) < 15 := by
              rw [Real.sqrt_lt' (by norm_num)]
              have : (t : ℝ) < 200 := by exact_mod_cast ht
              linarith
            have h5 : Real.sqrt 2 < 2 := by
              rw [Real.sqrt_lt' (by norm_num)]
              norm_num
            calc Real.sqrt t * Real.sqrt ((t : ℝ) - 1) * Real.sqrt 2 ≤ 15 * 15 * 2 := by gcongr
              _ < 800 := by norm_num
          rwa [lt_div_iff₀ (Real.sqrt_pos.2 ht0), one_mul]
        have : b = false := by
          rw [← Bool.not_eq_true, hiff, not_or]
          constructor
          · rw [ha, not_le]
            have hsc : 1 ≤ (if t < 30 then cc.tScores t else cc.z) := by split_ifs <;> [exact hts t; exact hz]
            nlinarith
          · rintro ⟨h6, h7⟩
            rw [hr] at h7
            have : 0 < Spec.sampleStd ((List.range t).map fun r (_ : Fin 1) => s r) / Real.sqrt t / |Spec.sampleMean ((List.range t).map fun r (_ : Fin 1) => s r) 0| :=
              div_pos (by linarith) (abs_pos.2 h6)
            linarith
        rw [this]
        have : ¬ (200 : ℤ) ≤ (t : ℤ) := by omega
        simp [truth, this]

theorem capped_or_count (record : Bool) (other : Crit) (K : ℕ) (hK : 0 < K) (ho : Spec.NonRaising record other)
    (h0 : other.eval (MeanEst.init 1 true record).view = .ok false) : Spec.Capped record (.or (.count K) other) K where
  nonRaising := fun Xs e hne he => by
    obtain ⟨r, hr⟩ := ho Xs e hne he
    exact ⟨_, by simp only [Crit.eval, hr, bind, Except.bind, pure, Except.pure]; rfl⟩
  start := by
    have h1 : ¬ (K : ℤ) ≤ (((MeanEst.init 1 true record).view.len : ℕ) : ℤ) := by
      show ¬ (K : ℤ) ≤ ((0 : ℕ) : ℤ)
      omega
    simp only [Crit.eval, h0, bind, Except.bind, pure, Except.pure, Bool.or_false, Except.ok.injEq]
    simp [truth, h1]
  cap := fun Xs e hne he hlen => by
    obtain ⟨r, hr⟩ := ho Xs e hne he
    obtain ⟨e', h1, i⟩ := (MeanEstInv.init (d := 1) true record).steps Xs hne
    rw [he, Except.ok.injEq] at h1
    subst h1
    have hn : e.view.len = Xs.flatten.length := by
      show e.nSamples = _
      rw [i.n]
      simp
    have h2 : (K : ℤ) ≤ (e.view.len : ℤ) := by rw [hn]; exact_mod_cast hlen
    simp only [Crit.eval, hr, bind, Except.bind, pure, Except.pure, Except.ok.injEq]
    simp [truth, h2]

/-- The matrix with zeros on the diagonal and 100 elsewhere. -/
def J100 : Matrix (Fin 3) (Fin 3) ℝ := fun i j => if i = j then 0 else 100

theorem J100_quad (v : Fin 3 → Bool) : Spec.quad J100 (fun i => sgn (v i)) = if v 0 = v 1 ∧ v 1 = v 2 then 600 else -200 := by
  simp only [Spec.quad, J100, Fin.sum_univ_three]
  rcases h0 : v 0 <;> rcases h1 : v 1 <;> rcases h2 : v 2 <;> norm_num [sgn, Fin.ext_iff]

theorem J100_sum : ∑ b : Fin 3 × Fin 3 → Bool, (if Spec.quad J100 (fun i => sgn (b (0, i))) = Spec.quad J100 (fun i => sgn (b (1, i))) ∧
      Spec.quad J100 (fun i => sgn (b (1, i))) = Spec.quad J100 (fun i => sgn (b (2, i))) then Spec.quad J100 (fun i => sgn (b (0, i))) else 0) = -38400 := by
  obtain ⟨f, hf⟩ : ∃ f : (Fin 3 → Bool) → ℝ, f = fun v => if v 0 = v 1 ∧ v 1 = v 2 then 1 else 0 := ⟨_, rfl⟩
  have hcube : ∀ (g : (Fin 3 → Bool) → ℝ) (S : ℝ), ∑ v, g v = S →
      ∑ b : Fin 3 × Fin 3 → Bool, g (fun i => b (0, i)) * g (fun i => b (1, i)) * g (fun i => b (2, i)) = S ^ 3 := by
    intro g S hS
    have h0 := sum_indep (K := 3) (N := 3) 0 (fun _ => 1) (fun _ _ => rfl) g
    have h1 := sum_indep (K := 3) (N := 3) 1 (fun b => g fun i => b (0, i)) (fun b v => by simp [setBlock]) g
    have h2 := sum_indep (K := 3) (N := 3) 2 (fun b => g (fun i => b (0, i)) * g fun i => b (1, i)) (fun b v => by simp [setBlock]) g
    rw [hS] at h0 h1 h2
    simp only [one_mul, Finset.sum_const, Finset.card_univ, Fintype.card_fun, Fintype.card_bool, Fintype.card_prod, Fintype.card_fin, nsmul_eq_mul] at h0
    push_cast at h0
    have e0 : ∑ x : Fin 3 × Fin 3 → Bool, g (fun i => x (0, i)) = 64 * S := by linarith
    rw [e0] at h1
    have e1 : ∑ b : Fin 3 × Fin 3 → Bool, g (fun i => b (0, i)) * g (fun i => b (1, i)) = 8 * S * S := by linarith
    rw [e1] at h2
    linear_combination h2 / 8
  have hfs : ∑ v, f v = 2 := by
    rw [hf, Finset.sum_boole]
    have : (Finset.univ.filter fun v : Fin 3 → Bool => v 0 = v 1 ∧ v 1 = v 2).card = 2 := by decide
    rw [this]
    norm_num
  have hgs : ∑ v, (1 - f v) = 6 := by
    rw [Finset.sum_sub_distrib, hfs]
    simp [Finset.card_univ]
    norm_num
  have hterm : ∀ b : Fin 3 × Fin 3 → Bool, (if Spec.quad J100 (fun i => sgn (b (0, i))) = Spec.quad J100 (fun i => sgn (b (1, i))) ∧
      Spec.quad J100 (fun i => sgn (b (1, i))) = Spec.quad J100 (fun i => sgn (b (2, i))) then Spec.quad J100 (fun i => sgn (b (0, i))) else 0) =
      600 * (f (fun i => b (0, i)) * f (fun i => b (1, i)) * f (fun i => b (2, i))) -
      200 * ((1 - f (fun i => b (0, i))) * (1 - f (fun i => b (1, i))) * (1 - f (fun i => b (2, i)))) := fun b => by
    rw [J100_quad fun i => b (0, i), J100_quad fun i => b (1, i), J100_quad fun i => b (2, i), hf]
    simp only
    by_cases h0 : b (0, 0) = b (0, 1) ∧ b (0, 1) = b (0, 2) <;> by_cases h1 : b (1, 0) = b (1, 1) ∧ b (1, 1) = b (1, 2) <;>
      by_cases h2 : b (2, 0) = b (2, 1) ∧ b (2, 1) = b (2, 2) <;> simp only [h0, h1, h2, if_false] <;> norm_num
  rw [Finset.sum_congr rfl fun b _ => hterm b, Finset.sum_sub_distrib, ← Finset.mul_sum, ← Finset.mul_sum, hcube f 2 hfs, hcube (fun v => 1 - f v) 6 hgs]
  norm_num

theorem hutch_plain (rng : Rng) (a : HutchArgs N) (hf : (a.full || a.callback) = false) {fuel : ℕ} {out : HutchOut} {calls : List (MeanEst 1)}
    (h : hutch tppf zscore rng a fuel = some (.ok (out, calls))) : ∃ e, out = .scalar e ∧ calls = [] := by
  have hf' : a.full = false ∧ a.callback = false := Bool.or_eq_false_iff.1 hf
  unfold hutch at h
  simp only [hf'.1, hf'.2, Bool.or_false, Bool.false_eq_true, if_false] at h
  split at h
  · cases h
  · split at h
    · cases h
    · split at h
      · cases h; exact ⟨_, rfl, rfl⟩
      · split at h
        · cases h
        · cases h
        · cases h; exact ⟨_, rfl, rfl⟩

/-- **C125**: `hutch` with its default criterion is not unbiased.  For the 3 by 3 matrix with zero diagonal and all other entries 100 the trace is zero and the
expected value of the estimate is `-73.875`, whatever the scores are as long as they are at least 1 (they are at least 1.95). -/
theorem C125_default_biased [IsProbabilityMeasure P] (hz : 1 ≤ zscore 0.95) (ht : ∀ df, 1 ≤ tppf ((0.95 + 1) / 2) df)
    (u : ℕ → Ω → ℝ) (X : ℕ → Ω → ℝ) (hu : Spec.IidUniform P u) :
    ∃ est : Ω → ℝ,
      (∀ᵐ ω ∂P, hutch tppf zscore ⟨fun q => u q ω, fun q => X q ω⟩ ⟨.ofMatrix J100, 32, .name "rademacher", .str "default", false, false, false, []⟩ 201 =
        some (.ok (.scalar (.val fun _ => est ω), []))) ∧
      Integrable est P ∧ J100.trace = 0 ∧ ∫ ω, est ω ∂P = -73.875 := by
  classical
  have htr : J100.trace = 0 := by simp [Matrix.trace, J100]
  obtain ⟨cc, hcc, hd⟩ := hutchDefault_eq tppf zscore
  obtain ⟨k1, k2, k3, k4⟩ : cc.atol = 1 ∧ cc.rtol = 0 ∧ cc.z = zscore 0.95 ∧ ∀ i, cc.tScores i = tppf ((0.95 + 1) / 2) (i + 1) := by
    rw [ConfCrit.init, if_pos (by norm_num), Except.ok.injEq] at hcc
    rw [← hcc]
    exact ⟨rfl, rfl, rfl, fun _ => rfl⟩
  obtain ⟨a, ha⟩ : ∃ a : HutchArgs 3, a = ⟨.ofMatrix J100, 32, .name "rademacher", .str "default", false, false, false, []⟩ := ⟨_, rfl⟩
  have hc : hutchCriterion tppf zscore a.converge a.kw = .ok (.or (.count 200) (.conf cc)) := by
    rw [ha]
    simp [hutchCriterion, hd]
  have hcap : Spec.Capped a.record (.or (.count (200 : ℕ)) (.conf cc)) 200 := capped_or_count _ _ 200 (by norm_num) (conf_nonRaising cc _) (by
    exact conf_seq_few cc a.record (fun _ => 0) 0 (by norm_num))
  obtain ⟨est, τ, h, hτ, hi1, -, -, hi4, -, hw, -⟩ := wald_core tppf zscore a J100 (by rw [ha]) (by norm_num) (by rw [ha]) (by rw [ha]; rfl) _ hc 200 hcap u X hu
  rw [← ha]
  have hr : ∀ᵐ ω ∂P, ∀ q, u q ω ∈ Set.Ico (0 : ℝ) 1 := by
    rw [ae_all_iff]
    intro q
    have h1 : ∀ᵐ x ∂(volume.restrict (Set.Ico (0 : ℝ) 1)), x ∈ Set.Ico (0 : ℝ) 1 := ae_restrict_mem measurableSet_Ico
    rw [← (hu.law q).map_eq] at h1
    exact ae_of_ae_map (hu.law q).aemeasurable h1
  obtain ⟨F, hF⟩ : ∃ F : (Fin 3 × Fin 3 → Bool) → ℝ, F = fun b => if Spec.quad J100 (fun i => sgn (b (0, i))) = Spec.quad J100 (fun i => sgn (b (1, i))) ∧
      Spec.quad J100 (fun i => sgn (b (1, i))) = Spec.quad J100 (fun i => sgn (b (2, i))) then Spec.quad J100 (fun i => sgn (b (0, i))) else 0 := ⟨_, rfl⟩
  obtain ⟨hFi, hFint⟩ := bitsOf_integral hu 3 3 F
  refine ⟨est, ?_, hi1, htr, ?_⟩
  · filter_upwards [h] with ω hω
    obtain ⟨out, calls, h1, h2, -⟩ := hω
    obtain ⟨e, h3, h4⟩ := hutch_plain tppf zscore _ a (by rw [ha]; rfl) h1
    rw [h3] at h2
    rw [h1, h3, h4, show e = _ from h2]
  · have key : ∀ᵐ ω ∂P, est ω = (τ ω * (est ω - J100.trace) + 197 * F (bitsOf 3 3 u ω)) / 200 := by
      filter_upwards [h, hr] with ω hω hω'
      obtain ⟨out, calls, -, -, -, -, hest, hst⟩ := hω
      obtain ⟨s, hs⟩ : ∃ s : ℕ → ℝ, s = fun t => Spec.quad J100 fun i => rademacherEntry (u (t * 3 + i) ω) := ⟨_, rfl⟩
      rw [← hs] at hest hst
      obtain ⟨bit, hbit⟩ : ∃ bit : ℕ → Fin 3 → Bool, bit = fun t (i : Fin 3) => decide (1/2 ≤ u (t * 3 + i) ω) := ⟨_, rfl⟩
      have hsb : ∀ t, s t = Spec.quad J100 fun i => sgn (bit t i) := fun t => by
        rw [hs, hbit]
        simp only
        congr 1
        funext i
        obtain ⟨h1, h2⟩ := hω' (t * 3 + i)
        by_cases h : 1/2 ≤ u (t * 3 + i) ω
        · simp only [decide_eq_true h]; rw [(rademacherEntry_half _).2 h h2]; rfl
        · simp only [decide_eq_false h]; rw [(rademacherEntry_half _).1 h1 (not_le.1 h)]; rfl
      have h800 : ∀ i j, s i ≠ s j → 800 ≤ |s i - s j| := fun i j hij => by
        rw [hsb i, hsb j, J100_quad, J100_quad] at hij ⊢
        split_ifs at hij ⊢ <;> first | exact absurd rfl hij | norm_num
      obtain ⟨h3, h200⟩ := default_stops cc k1 k2 (by rw [k3]; exact hz) (fun i => by rw [k4]; exact ht _) a.record s h800 (τ ω) hst
      have hFb : F (bitsOf 3 3 u ω) = if s 0 = s 1 ∧ s 1 = s 2 then s 0 else 0 := by
        rw [hF, hsb 0, hsb 1, hsb 2, hbit]
        rfl
      rw [hFb, htr, sub_zero]
      by_cases heq : s 0 = s 1 ∧ s 1 = s 2
      · rw [if_pos heq, hest, h3 heq]
        rw [Finset.sum_range_succ, Finset.sum_range_succ, Finset.sum_range_one, ← heq.2, ← heq.1]
        push_cast
        ring
      · rw [if_neg heq, h200 heq]
        push_cast
        ring
    rw [integral_congr_ae key, integral_div, integral_add hi4 (hFi.const_mul _), integral_const_mul, hw, hFint, hF, J100_sum]
    norm_num

/-- `C125_wald` and `C125_bias` for the default criterion, at most 200 and at least 3 samples, on the numbers of a sequence of independent uniform variables. -/
example (A : Matrix (Fin 2) (Fin 2) ℝ) : ∃ (P : Measure (ℕ → ℝ)) (est : (ℕ → ℝ) → ℝ) (τ : (ℕ → ℝ) → ℕ),
    (∀ ω, 1 ≤ τ ω ∧ τ ω ≤ 200) ∧ ∫ ω, τ ω * (est ω - A.trace) ∂P = 0 := by
  obtain ⟨P, hP, hu⟩ := iidUniform_exists
  obtain ⟨cc, -, hd⟩ := hutchDefault_eq (fun _ _ => 2) fun _ => 2
  obtain ⟨est, τ, -, h, -, -, -, -, -, h0, -⟩ := C125_wald (fun _ _ => 2) (fun _ => 2) (P := P)
    ⟨.ofMatrix A, 32, .name "rademacher", .str "default", false, false, false, []⟩ A rfl (by norm_num) rfl rfl (.or (.count (200 : ℕ)) (.conf cc))
    (by simp [hutchCriterion, hd]) 200 (capped_or_count _ _ 200 (by norm_num) (conf_nonRaising cc _)
      (conf_seq_few cc false (fun _ => 0) 0 (by norm_num))) (fun q ω => ω q) (fun q ω => ω q) hu
  exact ⟨P, est, τ, h, h0⟩

/-- The generator and the scores of `C125_default_biased`. -/
example : ∃ (P : Measure (ℕ → ℝ)) (est : (ℕ → ℝ) → ℝ), ∫ ω, est ω ∂P = -73.875 := by
  obtain ⟨P, hP, hu⟩ := iidUniform_exists
  obtain ⟨est, -, -, -, h⟩ := C125_default_biased (fun _ _ => 2) (fun _ => 2) (P := P) (by norm_num) (fun _ => by norm_num)
    (fun q ω => ω q) (fun q ω => ω q) hu
  exact ⟨P, est, h⟩

end prob

end Primate
