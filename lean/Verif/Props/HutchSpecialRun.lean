import Verif.Props.HutchSpecial
import Verif.Props.HutchMoments

/-!
# C153: stopping criteria and `hutch` after infinite and NaN observations
-/

noncomputable section

namespace Primate

open Spec

variable {N : ℕ}

/-! ## Criteria -/

/-- The criteria built from tolerance, confidence and knee criteria by `|` and `&`. -/
inductive Spec.Accuracy : SCrit → Prop
  | tol (rtol atol : ℝ) (ord : NormOrd) : ord ≠ .str → Spec.Accuracy (.tol rtol atol ord)
  | conf (c : ConfCrit) : Spec.Accuracy (.conf c)
  | knee (S : ℝ) : Spec.Accuracy (.knee S)
  | or {a b : SCrit} : Spec.Accuracy a → Spec.Accuracy b → Spec.Accuracy (.or a b)
  | and {a b : SCrit} : Spec.Accuracy a → Spec.Accuracy b → Spec.Accuracy (.and a b)

theorem stol_false {rtol atol : ℝ} {ord : NormOrd} (ho : ord ≠ .str) {e : SEst} (h : ¬ Finite e.delta) : sTolerance rtol atol ord e = .ok false := by
  have h1 : ∀ y, ¬ e.delta.abs.lt y := fun y => by
    cases hd : e.delta with
    | fin r => exact absurd ⟨r, hd⟩ h
    | pinf => cases y <;> simp [Fl.abs, Fl.lt]
    | ninf => cases y <;> simp [Fl.abs, Fl.lt]
    | nan => cases y <;> simp [Fl.abs, Fl.lt]
  unfold sTolerance sNorm
  rw [if_neg ho, if_neg ho]
  show (if truth (e.delta.abs.lt (.fin atol)) then (.ok true : Py Bool) else .ok (truth (e.delta.abs.lt (e.estimate.abs.scale rtol)))) = _
  rw [(truth_eq_false _).2 (h1 _), (truth_eq_false _).2 (h1 _)]
  rfl

theorem sconf_false {c : ConfCrit} {e : SEst} (h : e.n < 3 ∨ e.S = .nan) : c.sCall e = false := by
  unfold ConfCrit.sCall ConfCrit.sError
  by_cases hn : e.n < 3
  · rw [if_pos hn]
    simp [Fl.le]
  · rw [if_neg hn]
    have hS := h.resolve_left hn
    have e1 : e.covariance = .nan := by
      unfold SEst.covariance
      rw [if_neg (by omega), hS, Fl.nan_div]
    simp only [e1, Fl.sqrt, Fl.nan_div, Fl.scale_nan, Fl.abs]
    simp [Fl.le]

theorem arrMax_nan {f : ℕ → Fl} {k : ℕ} (h : f k = .nan) : ∀ m, k ≤ m → Fl.arrMax f m = .nan := by
  intro m hm
  induction m with
  | zero =>
    obtain rfl : k = 0 := by omega
    exact h
  | succ m ih =>
    rw [Fl.arrMax]
    by_cases hk : k = m + 1
    · rw [← hk, h]
      simp [Fl.max]
    · rw [ih (by omega)]
      simp [Fl.max]

/-- Numbers other than `-inf`. -/
theorem arrMin_ne {f : ℕ → Fl} (h : ∀ k, f k ≠ .ninf) (m : ℕ) : Fl.arrMin f m ≠ .ninf := by
  induction m with
  | zero => exact h 0
  | succ m ih =>
    rw [Fl.arrMin, Fl.min]
    split_ifs
    · simp
    · exact h _
    · exact ih

theorem arrMax_up {f : ℕ → Fl} (h : ∀ k, f k ≠ .ninf) {k : ℕ} (hk : f k = .pinf ∨ f k = .nan) : ∀ m, k ≤ m → Fl.arrMax f m = .pinf ∨ Fl.arrMax f m = .nan := by
  intro m hm
  induction m with
  | zero =>
    obtain rfl : k = 0 := by omega
    exact hk
  | succ m ih =>
    rw [Fl.arrMax, Fl.max]
    split_ifs with h1 h2
    · exact .inr rfl
    · push Not at h1
      by_cases hk' : k = m + 1
      · exact hk' ▸ hk
      · rcases ih (by omega) with h3 | h3
        · rw [h3] at h2
          cases hf : f (m + 1) <;> rw [hf] at h2 <;> simp [Fl.lt] at h2
        · exact absurd h3 h1.1
    · push Not at h1
      by_cases hk' : k = m + 1
      · rcases hk with hk | hk
        · rw [← hk', hk] at h2
          cases hf : Fl.arrMax f m with
          | fin r => rw [hf] at h2; simp [Fl.lt] at h2
          | pinf => exact .inl rfl
          | ninf => rw [hf] at h2; simp [Fl.lt] at h2
          | nan => exact .inr rfl
        · exact absurd (hk' ▸ hk) h1.2
      · exact ih (by omega)

theorem abs_ne_ninf (x : Fl) : x.abs ≠ .ninf := by cases x <;> simp [Fl.abs]

theorem finite_abs (x : Fl) : Finite x.abs ↔ Finite x := by cases x <;> simp [Fl.abs]

theorem sKneeY_ne (c : ℕ → Fl) (k : ℕ) : sKneeY c k ≠ .ninf := by
  intro h
  obtain ⟨h1, _⟩ := (Fl.sum_ninf _).1 h
  obtain ⟨i, _, hi⟩ := List.mem_map.1 h1
  exact abs_ne_ninf _ hi

theorem sknee_false {S : ℝ} {e : SEst} (h : ∀ v, e.values = some v → v.length < 3 ∨ ∃ x ∈ v, ¬ Finite x) : sKnee S e = false := by
  unfold sKnee
  cases hv : e.values with
  | none => rfl
  | some mv =>
    simp only
    by_cases hl : mv.length < 3
    · rw [if_pos hl]
    · rw [if_neg hl]
      obtain ⟨x, hx, hf⟩ := (h mv hv).resolve_left hl
      obtain ⟨i, hi, rfl⟩ := List.mem_iff_getElem.1 hx
      obtain ⟨c, hc⟩ : ∃ c : ℕ → Fl, c = fun i => (mv.getD i (.fin 0)).div (.fin ((i : ℝ) + 1)) := ⟨_, rfl⟩
      rw [← hc]
      have hci : ¬ Finite (c i) := by
        rw [hc]
        simp only
        rw [Fl.finite_div (by positivity), List.getD_eq_getElem?_getD, List.getElem?_eq_getElem hi]
        exact hf
      obtain ⟨k, hk, hky⟩ : ∃ k, k ≤ mv.length - 1 - 1 ∧ ¬ Finite (sKneeY c k) := by
        refine ⟨i - 1, by omega, fun hh => ?_⟩
        have hh := (Fl.finite_sum _).1 hh _ (List.mem_map.2 ⟨i - 1, List.mem_range.2 (by omega), rfl⟩)
        rw [finite_abs, Fl.finite_sub] at hh
        rcases Nat.eq_zero_or_pos i with h0 | h0
        · subst h0
          exact hci hh.2
        · rw [Nat.sub_add_cancel h0] at hh
          exact hci hh.1
      obtain ⟨y, hy⟩ : ∃ y, y = sKneeY c := ⟨_, rfl⟩
      rw [← hy] at hky ⊢
      have yne : ∀ k, y k ≠ .ninf := fun k => by rw [hy]; exact sKneeY_ne c k
      have hyk : y k = .pinf ∨ y k = .nan := by
        cases hh : y k with
        | fin r => exact absurd ⟨r, hh⟩ hky
        | pinf => exact .inl rfl
        | ninf => exact absurd hh (yne k)
        | nan => exact .inr rfl
      have hM := arrMax_up yne hyk _ hk
      have hm := arrMin_ne yne (mv.length - 1 - 1)
      have key : ((y k).sub (Fl.arrMin y (mv.length - 1 - 1))).div ((Fl.arrMax y (mv.length - 1 - 1)).sub (Fl.arrMin y (mv.length - 1 - 1))) = .nan := by
        generalize Fl.arrMin y (mv.length - 1 - 1) = a at hm
        generalize Fl.arrMax y (mv.length - 1 - 1) = b at hM
        rcases hyk with h1 | h1 <;> rcases hM with h2 | h2 <;> rw [h1, h2] <;> cases a <;> simp [Fl.sub, Fl.neg, Fl.add, Fl.div] at hm ⊢
      have hmax := arrMax_nan (f := fun k : ℕ => (((y k).sub (Fl.arrMin y (mv.length - 1 - 1))).div
          ((Fl.arrMax y (mv.length - 1 - 1)).sub (Fl.arrMin y (mv.length - 1 - 1)))).sub (.fin ((k : ℝ) / (((mv.length - 1 : ℕ) : ℝ) - 1)))) (k := k)
        (by simp only [key, Fl.nan_sub]) _ hk
      rw [hmax, Fl.nan_sub]
      rw [truth_eq_false]
      simp [Fl.lt]

/-- What makes every accuracy criterion refuse. -/
theorem accuracy_false {c : SCrit} (hc : Accuracy c) {e : SEst} (h1 : ¬ Finite e.delta) (h2 : e.n < 3 ∨ e.S = .nan)
    (h3 : ∀ v, e.values = some v → v.length < 3 ∨ ∃ x ∈ v, ¬ Finite x) : c.eval e = .ok false := by
  induction hc with
  | tol rtol atol ord ho => exact stol_false ho h1
  | conf c => exact congrArg _ (sconf_false h2)
  | knee S => exact congrArg _ (sknee_false h3)
  | or _ _ ha hb => simp [SCrit.eval, ha, hb, bind, Except.bind, pure, Except.pure]
  | and _ _ ha hb => simp [SCrit.eval, ha, hb, bind, Except.bind, pure, Except.pure]

/-- **C153**: after an observation that is not finite no tolerance, confidence or knee criterion accepts any more, whatever comes after. -/
theorem C153_criteria {c : SCrit} (hc : Accuracy c) {record : Bool} {Xs : List (List Fl)} (hX : ∀ X ∈ Xs, X ≠ []) (hf : ∃ x ∈ Xs.flatten, ¬ Finite x) {e : SEst}
    (he : (SEst.init record).updates Xs = .ok e) : c.eval e = .ok false := by
  obtain ⟨e', h1, h2⟩ := seen_updates record Xs hX
  rw [he] at h1
  cases h1
  exact accuracy_false hc (h2.delta hf).1 (.inr (h2.S hf)) fun v hv => .inr (h2.values v hv ▸ hf)

/-- Before the first observation no accuracy criterion accepts either. -/
theorem accuracy_init {c : SCrit} (hc : Accuracy c) (record : Bool) : c.eval (SEst.init record) = .ok false := by
  refine accuracy_false hc (by simp [SEst.init]) (.inl (by simp [SEst.init])) fun v hv => .inl ?_
  unfold SEst.init at hv
  cases record <;> simp at hv
  simp [hv]

/-! ## The loop -/

theorem ofFn_ne_nil {b : ℕ} (hb : b ≠ 0) (f : Fin b → Fl) : List.ofFn f ≠ [] := by
  intro h
  have := congrArg List.length h
  simp at this
  exact hb this

/-- **C153**: once an observation was not finite, the loop of `hutch` does not end under such a criterion. -/
theorem C153_loop (A : SOperand N) (pdf : Pdf N) {b : ℕ} (hb : b ≠ 0) {c : SCrit} (hc : Accuracy c) (fuel : ℕ) : ∀ (history : List ℕ) {e : SEst} {Xs : List (List Fl)},
    Seen e Xs → (∃ x ∈ Xs.flatten, ¬ Finite x) → hutchLoopS A pdf b c fuel history e = none := by
  induction fuel with
  | zero => exact fun _ _ _ _ _ => rfl
  | succ fuel ih =>
    intro history e Xs hs hf
    have h0 := accuracy_false hc (hs.delta hf).1 (.inr (hs.S hf)) fun v hv => .inr (hs.values v hv ▸ hf)
    rw [hutchLoopS, h0]
    have hne := ofFn_ne_nil hb fun j => A.quadForm (pdf history b j)
    obtain ⟨e', hu, _⟩ := supdate_ok e hne
    simp only [hu]
    obtain ⟨x, hx, hxf⟩ := hf
    exact ih _ (seen_update hs hne hu) ⟨x, by simp [List.flatten_append] at hx ⊢; exact .inl hx, hxf⟩

/-- **C153**: `hutch` with a tolerance, confidence or knee criterion never returns if the quadratic forms are never finite. -/
theorem C153_diverges (A : SOperand N) (hN : N ≠ 0) (pdf : Pdf N) {batch : ℕ} (hb : batch ≠ 0) {c : SCrit} (hc : Accuracy c) (batched record : Bool)
    (hq : ∀ history b j, ¬ Finite (A.quadForm (pdf history b j))) (fuel : ℕ) : hutchS A batch pdf c batched record fuel = none := by
  unfold hutchS
  rw [if_neg hN]
  obtain ⟨b, hb', hbd⟩ : ∃ b, b ≠ 0 ∧ b = if batched then batch else 1 := ⟨_, by split_ifs <;> omega, rfl⟩
  rw [← hbd]
  suffices h : hutchLoopS A pdf b c fuel [] (SEst.init record) = none by rw [h]
  cases fuel with
  | zero => rfl
  | succ fuel =>
    rw [hutchLoopS, accuracy_init hc]
    have hne := ofFn_ne_nil hb' fun j => A.quadForm (pdf [] b j)
    obtain ⟨e', hu, _⟩ := supdate_ok (SEst.init record) hne
    simp only [hu]
    refine C153_loop A pdf hb' hc fuel _ (seen_update (seen_init record) hne hu) ⟨A.quadForm (pdf [] b ⟨0, by omega⟩), ?_, hq _ _ _⟩
    simp only [List.nil_append, List.flatten_cons, List.flatten_nil, List.append_nil]
    exact List.mem_ofFn.2 ⟨_, rfl⟩

/-- The first `t` batches. -/
def Spec.batches (A : SOperand N) (pdf : Pdf N) (b t : ℕ) : List (List Fl) :=
  (List.range t).map fun s => List.ofFn fun j => A.quadForm (pdf (List.replicate s b) b j)

theorem batches_length (A : SOperand N) (pdf : Pdf N) (b t : ℕ) : (batches A pdf b t).flatten.length = t * b := by
  induction t with
  | zero => simp [batches]
  | succ t ih =>
    unfold batches at ih ⊢
    rw [List.range_succ, List.map_append, List.flatten_append, List.length_append, ih]
    simp
    ring

theorem batches_succ (A : SOperand N) (pdf : Pdf N) (b t : ℕ) :
    batches A pdf b (t + 1) = batches A pdf b t ++ [List.ofFn fun j => A.quadForm (pdf (List.replicate t b) b j)] := by
  unfold batches
  rw [List.range_succ, List.map_append]
  rfl

/-- The loop with a sample bound, as long as the other criterion refuses. -/
theorem loop_count (A : SOperand N) (pdf : Pdf N) {b : ℕ} (hb : b ≠ 0) {c : SCrit} (hc : Accuracy c) (hq : ∀ history j, ¬ Finite (A.quadForm (pdf history b j)))
    {k m : ℕ} (hm1 : k ≤ m * b) (hm2 : ∀ t < m, t * b < k) (record : Bool) : ∀ r t : ℕ, t + r = m → ∀ fuel : ℕ, r < fuel → ∀ {e : SEst},
    Seen e (batches A pdf b t) → (t = 0 → e = SEst.init record) →
    ∃ e', hutchLoopS A pdf b (.or (.count k) c) fuel (List.replicate t b) e = some (.ok e') ∧ Seen e' (batches A pdf b m) := by
  intro r
  induction r with
  | zero =>
    intro t ht fuel hfu e hs he0
    obtain ⟨fuel, rfl⟩ : ∃ f, fuel = f + 1 := ⟨fuel - 1, by omega⟩
    obtain rfl : t = m := by omega
    have hn : e.n = t * b := by rw [hs.n, batches_length]
    have hcf : c.eval e = .ok false := by
      rcases Nat.eq_zero_or_pos t with h0 | h0
      · rw [he0 h0]
        exact accuracy_init hc record
      · have hf : ∃ x ∈ (batches A pdf b t).flatten, ¬ Finite x := by
          refine ⟨A.quadForm (pdf (List.replicate 0 b) b ⟨0, by omega⟩), List.mem_flatten.2 ⟨_, List.mem_map.2 ⟨0, List.mem_range.2 h0, rfl⟩, List.mem_ofFn.2 ⟨_, rfl⟩⟩, hq _ _⟩
        exact accuracy_false hc (hs.delta hf).1 (.inr (hs.S hf)) fun v hv => .inr (hs.values v hv ▸ hf)
    have : (SCrit.or (.count k) c).eval e = .ok true := by
      simp [SCrit.eval, hcf, bind, Except.bind, pure, Except.pure, hn]
      exact_mod_cast hm1
    refine ⟨e, ?_, hs⟩
    rw [hutchLoopS, this]
  | succ r ih =>
    intro t ht fuel hfu e hs he0
    obtain ⟨fuel, rfl⟩ : ∃ f, fuel = f + 1 := ⟨fuel - 1, by omega⟩
    have hn : e.n = t * b := by rw [hs.n, batches_length]
    have hcf : c.eval e = .ok false := by
      rcases Nat.eq_zero_or_pos t with h0 | h0
      · rw [he0 h0]
        exact accuracy_init hc record
      · have hf : ∃ x ∈ (batches A pdf b t).flatten, ¬ Finite x := by
          refine ⟨A.quadForm (pdf (List.replicate 0 b) b ⟨0, by omega⟩), List.mem_flatten.2 ⟨_, List.mem_map.2 ⟨0, List.mem_range.2 h0, rfl⟩, List.mem_ofFn.2 ⟨_, rfl⟩⟩, hq _ _⟩
        exact accuracy_false hc (hs.delta hf).1 (.inr (hs.S hf)) fun v hv => .inr (hs.values v hv ▸ hf)
    have : (SCrit.or (.count k) c).eval e = .ok false := by
      simp [SCrit.eval, hcf, bind, Except.bind, pure, Except.pure, hn]
      exact_mod_cast hm2 t (by omega)
    rw [hutchLoopS, this]
    have hne := ofFn_ne_nil hb fun j => A.quadForm (pdf (List.replicate t b) b j)
    obtain ⟨e', hu, _⟩ := supdate_ok e hne
    simp only [hu]
    rw [← List.replicate_succ']
    exact ih (t + 1) (by omega) fuel (by omega) (by rw [batches_succ]; exact seen_update hs hne hu) (by omega)

/-- **C153**: with a sample bound `k` (the default of `hutch` has 200) the loop ends after the least number of batches with `k` samples, and what is returned is not
finite; it is NaN if that takes more than one batch. -/
theorem C153_count (A : SOperand N) (hN : N ≠ 0) (pdf : Pdf N) {batch : ℕ} (hb : batch ≠ 0) {c : SCrit} (hc : Accuracy c) {k : ℕ} (hk : 0 < k) (batched record : Bool)
    (hq : ∀ history b j, ¬ Finite (A.quadForm (pdf history b j))) {fuel : ℕ} (hfuel : k < fuel) :
    ∃ x, hutchS A batch pdf (.or (.count k) c) batched record fuel = some (.ok x) ∧ ¬ Finite x ∧ ((if batched then batch else 1) < k → x = .nan) := by
  unfold hutchS
  rw [if_neg hN]
  obtain ⟨b, hb', hbd⟩ : ∃ b, b ≠ 0 ∧ b = if batched then batch else 1 := ⟨_, by split_ifs <;> omega, rfl⟩
  rw [← hbd]
  obtain ⟨m, hm1, hm2⟩ : ∃ m, k ≤ m * b ∧ ∀ t < m, t * b < k := by
    have hex : ∃ m, k ≤ m * b := ⟨k, Nat.le_mul_of_pos_right k (Nat.pos_of_ne_zero hb')⟩
    classical
    exact ⟨Nat.find hex, Nat.find_spec hex, fun t ht => not_le.1 (Nat.find_min hex ht)⟩
  have hm0 : m ≠ 0 := by
    rintro rfl
    omega
  have hmk : m ≤ k := by
    by_contra hh
    have := hm2 k (by omega)
    have := Nat.le_mul_of_pos_right k (Nat.pos_of_ne_zero hb')
    omega
  obtain ⟨e, h1, h2⟩ := loop_count A pdf hb' hc (fun h j => hq h b j) hm1 hm2 record m 0 (by omega) fuel (by omega) (seen_init record) fun _ => rfl
  rw [show ([] : List ℕ) = List.replicate 0 b from rfl, h1]
  have hn : e.n = m * b := by rw [h2.n, batches_length]
  have he : e.estimate = e.mu := by
    unfold SEst.estimate
    rw [if_neg (by rw [hn]; exact Nat.mul_ne_zero hm0 hb')]
  have h0 : 0 < m := Nat.pos_of_ne_zero hm0
  have hin : ∀ t, 0 < t → ∃ x ∈ (batches A pdf b t).flatten, ¬ Finite x := fun t ht =>
    ⟨A.quadForm (pdf (List.replicate 0 b) b ⟨0, by omega⟩), List.mem_flatten.2 ⟨_, List.mem_map.2 ⟨0, List.mem_range.2 ht, rfl⟩, List.mem_ofFn.2 ⟨_, rfl⟩⟩, hq _ _ _⟩
  refine ⟨_, rfl, he ▸ h2.mu (hin m h0), fun hbk => ?_⟩
  rw [he]
  have hm3 : 1 < m := by
    by_contra hh
    obtain rfl : m = 1 := by omega
    omega
  obtain ⟨m', rfl⟩ : ∃ m', m = m' + 1 := ⟨m - 1, by omega⟩
  exact h2.before _ _ (batches_succ A pdf b m') (hin m' (by omega))

/-! ## Matrices with infinite or NaN entries -/

/-- **C153**: a matrix with an entry that is not finite has no finite quadratic form, whatever the vector (`0 * inf` is NaN). -/
theorem C153_matrix (A : Fin N → Fin N → Fl) {i j : Fin N} (hA : ¬ Finite (A i j)) (v : Vec N) : ¬ Finite ((SOperand.ofMatrix A).quadForm v) := by
  intro h
  have h1 := (Fl.finite_sum _).1 h _ (List.mem_ofFn.2 ⟨i, rfl⟩)
  rw [Fl.finite_scale] at h1
  have h2 := (Fl.finite_sum _).1 h1 _ (List.mem_ofFn.2 ⟨j, rfl⟩)
  rw [Fl.finite_mul] at h2
  exact hA h2.1

/-- **C153**: `hutch(A)` with the default criterion and any sampler returns NaN for a matrix with an entry that is not finite (`full=False`, where batches have one
vector); with `converge="confidence"`, `"tolerance"` or `"knee"` it never returns. -/
theorem C153_hutch (A : Fin N → Fin N → Fl) {i j : Fin N} (hA : ¬ Finite (A i j)) (pdf : Pdf N) (batch : ℕ) (record : Bool) (cc : ConfCrit) :
    hutchS (SOperand.ofMatrix A) batch pdf (.or (.count 200) (.conf cc)) false record 201 = some (.ok .nan) ∧
    ∀ c, Accuracy c → ∀ fuel, hutchS (SOperand.ofMatrix A) batch pdf c false record fuel = none := by
  have hN : N ≠ 0 := fun h => by
    subst h
    exact i.elim0
  have hq : ∀ history b j, ¬ Finite ((SOperand.ofMatrix A).quadForm (pdf history b j)) := fun _ _ _ => C153_matrix A hA _
  have e : ∀ c fuel, hutchS (SOperand.ofMatrix A) batch pdf c false record fuel = hutchS (SOperand.ofMatrix A) 1 pdf c false record fuel := fun _ _ => rfl
  constructor
  · obtain ⟨x, h1, _, h3⟩ := C153_count (SOperand.ofMatrix A) hN pdf one_ne_zero (Accuracy.conf cc) (k := 200) (by norm_num) false record hq (fuel := 201) (by norm_num)
    rw [e]
    rw [h3 (by simp)] at h1
    exact h1
  · intro c hc fuel
    rw [e]
    exact C153_diverges _ hN pdf one_ne_zero hc false record hq fuel

/-- **C153**, counterexample: for infinite observations the estimate depends on the batches (C01 and C03 are about finite ones).  The mean of `inf` and `1` is `inf`; the
estimator returns it for one batch and NaN for two. -/
theorem C153_counterexample (record : Bool) :
    (∃ e, (SEst.init record).updates [[.pinf, .fin 1]] = .ok e ∧ e.estimate = .pinf) ∧ (∃ e, (SEst.init record).updates [[.pinf], [.fin 1]] = .ok e ∧ e.estimate = .nan) := by
  constructor
  · obtain ⟨e, h1, _, _, h2, _⟩ := C153_estimate record [] [.pinf, .fin 1] (by simp)
    exact ⟨e, h1, h2.2 (by simp)⟩
  · obtain ⟨e, h1, h2⟩ := seen_updates record [[.pinf], [.fin 1]] (by simp)
    have hn : e.n = 2 := h2.n
    refine ⟨e, h1, ?_⟩
    unfold SEst.estimate
    rw [if_neg (by omega)]
    exact h2.before [[.pinf]] [.fin 1] rfl (by simp)

/-- The hypotheses are satisfiable: a matrix of order 2 with an infinite entry, Rademacher vectors. -/
example (rng : Rng) (cc : ConfCrit) : ∃ pdf, isotropicPdf "rademacher" rng 2 = .ok pdf ∧
    hutchS (SOperand.ofMatrix fun i j => if i = j then .fin 1 else if i < j then .pinf else .fin 0) 32 pdf (.or (.count 200) (.conf cc)) false false 201 = some (.ok .nan) ∧
    ∀ fuel, hutchS (SOperand.ofMatrix fun i j => if i = j then .fin 1 else if i < j then .pinf else .fin 0) 32 pdf (.or (.conf cc) (.tol 0.01 0 .two)) false false fuel = none := by
  obtain ⟨pdf, hp⟩ : ∃ pdf : Pdf 2, isotropicPdf "rademacher" rng 2 = .ok pdf := ⟨_, rfl⟩
  obtain ⟨h1, h2⟩ := C153_hutch (N := 2) (fun i j => if i = j then .fin 1 else if i < j then .pinf else .fin 0) (i := 0) (j := 1) (by simp) pdf 32 false cc
  exact ⟨pdf, hp, h1, h2 _ (.or (.conf cc) (.tol _ _ _ (by simp)))⟩

end Primate
