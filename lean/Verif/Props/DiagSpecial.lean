import Verif.Model.DiagSpecial
import Verif.Props.HutchSpecialRun
import Verif.Props.Diagonal

/-!
# C154: `diag` with infinite and NaN values
-/

noncomputable section

namespace Primate

open Spec

variable {N : ℕ}

theorem Fl.add_zero' (x : Fl) : x.add (.fin 0) = x := by cases x <;> simp [Fl.add]

theorem Fl.div_one' (x : Fl) : x.div (.fin 1) = x := by cases x <;> simp [Fl.div, Fl.divFin]

theorem sum_map_range (f : ℕ → ℝ) (k : ℕ) : ((List.range k).map f).sum = ∑ t ∈ Finset.range k, f t := by
  induction k with
  | zero => simp
  | succ k ih => rw [List.range_succ, List.map_append, List.sum_append, ih, Finset.sum_range_succ]; simp

/-- A coordinate of the vector estimator is a scalar estimator. -/
theorem dupdate_proj {e : SEst} {d : DEst N} {i : Fin N} (hn : e.n = d.n) (hm : e.mu = d.mu i) (x : Fin N → Fl) :
    ∃ e', e.update [x i] = .ok e' ∧ e'.n = (d.update x).n ∧ e'.mu = (d.update x).mu i ∧ e'.delta = (d.update x).delta i := by
  unfold SEst.update DEst.update
  simp only [List.length_singleton, Fl.sum, Fl.add_zero', Nat.cast_one, Fl.div_one']
  rw [if_neg (by omega), if_neg one_ne_zero, hn, hm]
  exact ⟨_, rfl, rfl, rfl, rfl⟩

/-- The state after `t` passes. -/
def Spec.passes (A : SOperand N) (pdf : Pdf N) (record : Bool) : ℕ → SDiagState N
  | 0 => ⟨[], fun _ => .fin 0, fun _ => .fin 0, DEst.init N record⟩
  | t + 1 => sDiagBody A pdf (passes A pdf record t)

/-- The ratio computed in pass `t`. -/
def Spec.ratio (A : SOperand N) (pdf : Pdf N) (t : ℕ) (i : Fin N) : Fl :=
  ((passes A pdf false (t + 1)).numer i).div ((passes A pdf false (t + 1)).denom i)

theorem passes_same (A : SOperand N) (pdf : Pdf N) (record : Bool) (t : ℕ) :
    (passes A pdf record t).history = List.replicate t 1 ∧ (passes A pdf record t).numer = (passes A pdf false t).numer ∧
    (passes A pdf record t).denom = (passes A pdf false t).denom := by
  have h1 : ∀ (record : Bool) t, (passes A pdf record t).history = List.replicate t 1 := by
    intro record t
    induction t with
    | zero => rfl
    | succ t ih =>
      show (passes A pdf record t).history ++ [1] = _
      rw [ih, ← List.replicate_succ']
  refine ⟨h1 _ t, ?_⟩
  induction t with
  | zero => exact ⟨rfl, rfl⟩
  | succ t ih =>
    simp only [passes, sDiagBody, h1, ih.1, ih.2, and_self]

theorem passes_est (A : SOperand N) (pdf : Pdf N) (record : Bool) (t : ℕ) : (passes A pdf record t).est.n = t ∧
    (∀ v, (passes A pdf record t).est.values = some v → v = (List.range t).map fun s => ratio A pdf s) ∧
    ∀ i, ∃ e, Seen e ((List.range t).map fun s => [ratio A pdf s i]) ∧ e.n = t ∧ e.mu = (passes A pdf record t).est.mu i ∧ e.delta = (passes A pdf record t).est.delta i := by
  induction t with
  | zero =>
    refine ⟨rfl, ?_, fun i => ⟨SEst.init false, seen_init false, rfl, rfl, rfl⟩⟩
    intro v hv
    simp only [passes, DEst.init] at hv
    cases record <;> simp at hv
    rw [hv]
    rfl
  | succ t ih =>
    obtain ⟨h1, h2, h3⟩ := ih
    have hx : (passes A pdf record (t + 1)).est = (passes A pdf record t).est.update (ratio A pdf t) := by
      have e1 := passes_same A pdf record (t + 1)
      show (passes A pdf record t).est.update (fun i => ((passes A pdf record (t + 1)).numer i).div ((passes A pdf record (t + 1)).denom i)) = _
      rw [e1.2.1, e1.2.2]
      rfl
    rw [hx]
    refine ⟨by show _ + 1 = _; rw [h1], ?_, fun i => ?_⟩
    · intro v hv
      have : ((passes A pdf record t).est.update (ratio A pdf t)).values = (passes A pdf record t).est.values.map fun v => v ++ [ratio A pdf t] := rfl
      rw [this, Option.map_eq_some_iff] at hv
      obtain ⟨w, hw, rfl⟩ := hv
      rw [h2 w hw, List.range_succ, List.map_append]
      rfl
    · obtain ⟨e, g1, g2, g3, _⟩ := h3 i
      obtain ⟨e', u1, u2, u3, u4⟩ := dupdate_proj (x := ratio A pdf t) (g2.trans h1.symm) g3
      refine ⟨e', ?_, by rw [u2]; show _ + 1 = _; rw [h1], u3, u4⟩
      rw [List.range_succ, List.map_append]
      exact seen_update g1 (by simp) u1

theorem loop_passes (A : SOperand N) (pdf : Pdf N) (record : Bool) (c : SCrit) (k : ℕ) (h1 : ∀ t < k, c.dEval (passes A pdf record t).est = .ok false)
    (h2 : c.dEval (passes A pdf record k).est = .ok true) : ∀ r t fuel, t + r = k → r < fuel →
    sDiagLoop A pdf c fuel (passes A pdf record t) = some (.ok (passes A pdf record k)) := by
  intro r
  induction r with
  | zero =>
    intro t fuel ht hf
    obtain ⟨fuel, rfl⟩ : ∃ f, fuel = f + 1 := ⟨fuel - 1, by omega⟩
    obtain rfl : t = k := by omega
    rw [sDiagLoop, h2]
  | succ r ih =>
    intro t fuel ht hf
    obtain ⟨fuel, rfl⟩ : ∃ f, fuel = f + 1 := ⟨fuel - 1, by omega⟩
    rw [sDiagLoop, h1 t (by omega)]
    exact ih (t + 1) fuel (by omega) (by omega)

theorem loop_none (A : SOperand N) (pdf : Pdf N) (record : Bool) (c : SCrit) (h1 : ∀ t, c.dEval (passes A pdf record t).est = .ok false) : ∀ fuel t,
    sDiagLoop A pdf c fuel (passes A pdf record t) = none := by
  intro fuel
  induction fuel with
  | zero => exact fun _ => rfl
  | succ fuel ih =>
    intro t
    rw [sDiagLoop, h1 t]
    exact ih (t + 1)

/-- What `diag` returns with a sample count. -/
theorem diagS_count (A : SOperand N) (pdf : Pdf N) (record : Bool) (k fuel : ℕ) (hf : k < fuel) :
    diagS A pdf (.count k) record fuel = some (.ok (passes A pdf record k).est.estimate) := by
  have h : ∀ t, (passes A pdf record t).est.n = t := fun t => (passes_est A pdf record t).1
  unfold diagS
  have := loop_passes A pdf record (.count k) k (fun t ht => by simp [SCrit.dEval, h]; exact_mod_cast ht) (by simp [SCrit.dEval, h]) k 0 fuel (by omega) hf
  rw [show (⟨[], fun _ => .fin 0, fun _ => .fin 0, DEst.init N record⟩ : SDiagState N) = passes A pdf record 0 from rfl, this]

theorem denom_fin (A : SOperand N) (pdf : Pdf N) (t : ℕ) (i : Fin N) :
    (passes A pdf false t).denom i = .fin (∑ s ∈ Finset.range t, draw1 pdf s i ^ 2) := by
  induction t with
  | zero => simp [passes]
  | succ t ih =>
    show ((passes A pdf false t).denom i).add _ = _
    rw [ih, (passes_same A pdf false t).1, Finset.sum_range_succ]
    rfl

theorem numer_fin (A : SOperand N) (pdf : Pdf N) {a : Vec N → ℝ} {i : Fin N} (ha : ∀ v, A.apply v i = .fin (a v)) (t : ℕ) :
    (passes A pdf false t).numer i = .fin (∑ s ∈ Finset.range t, a (draw1 pdf s) * draw1 pdf s i) := by
  induction t with
  | zero => simp [passes]
  | succ t ih =>
    show ((passes A pdf false t).numer i).add _ = _
    rw [ih, (passes_same A pdf false t).1, Finset.sum_range_succ, ha]
    rfl

theorem numer_not (A : SOperand N) (pdf : Pdf N) {i : Fin N} (ha : ∀ v, ¬ Finite (A.apply v i)) (t : ℕ) : ¬ Finite ((passes A pdf false (t + 1)).numer i) := by
  show ¬ Finite (((passes A pdf false t).numer i).add _)
  rw [Fl.finite_add, Fl.finite_mul]
  exact fun h => ha _ h.2.1

/-- The ratio estimate after `t + 1` vectors for values `a v` of the operator at the coordinate. -/
def Spec.ratioR (pdf : Pdf N) (a : Vec N → ℝ) (i : Fin N) (t : ℕ) : ℝ :=
  (∑ s ∈ Finset.range (t + 1), a (draw1 pdf s) * draw1 pdf s i) / ∑ s ∈ Finset.range (t + 1), draw1 pdf s i ^ 2

theorem ratio_fin (A : SOperand N) (pdf : Pdf N) {a : Vec N → ℝ} {i : Fin N} (ha : ∀ v, A.apply v i = .fin (a v)) (h0 : draw1 pdf 0 i ≠ 0) (t : ℕ) :
    ratio A pdf t i = .fin (ratioR pdf a i t) := by
  unfold ratio ratioR
  rw [numer_fin A pdf ha, denom_fin, Fl.div_fin]
  rw [Finset.sum_range_succ']
  have : 0 ≤ ∑ s ∈ Finset.range t, draw1 pdf (s + 1) i ^ 2 := Finset.sum_nonneg fun _ _ => sq_nonneg _
  have : 0 < draw1 pdf 0 i ^ 2 := by positivity
  linarith

theorem ratio_zero (A : SOperand N) (pdf : Pdf N) {a : Vec N → ℝ} {i : Fin N} (ha : ∀ v, A.apply v i = .fin (a v)) (h0 : draw1 pdf 0 i = 0) : ratio A pdf 0 i = .nan := by
  unfold ratio
  rw [numer_fin A pdf ha, denom_fin]
  simp [h0, Fl.div, Fl.divFin]

theorem ratio_not (A : SOperand N) (pdf : Pdf N) {i : Fin N} (ha : ∀ v, ¬ Finite (A.apply v i)) (t : ℕ) : ¬ Finite (ratio A pdf t i) := by
  have h := numer_not A pdf ha t
  unfold ratio
  rw [denom_fin]
  generalize (passes A pdf false (t + 1)).numer i = x at h
  generalize ∑ s ∈ Finset.range (t + 1), draw1 pdf s i ^ 2 = y
  cases x with
  | fin r => simp at h
  | pinf => simp only [Fl.div]; split_ifs <;> simp
  | ninf => simp only [Fl.div]; split_ifs <;> simp
  | nan => simp [Fl.nan_div]

/-- **C154**: coordinates with finite values and a nonzero first entry: `diag` returns the mean of the running ratio estimates, whatever happens at other coordinates. -/
theorem C154_finite (A : SOperand N) (pdf : Pdf N) (record : Bool) {k fuel : ℕ} (hk : 0 < k) (hf : k < fuel) {a : Vec N → ℝ} {i : Fin N} (ha : ∀ v, A.apply v i = .fin (a v))
    (h0 : draw1 pdf 0 i ≠ 0) : ∃ y, diagS A pdf (.count k) record fuel = some (.ok y) ∧ y i = .fin ((∑ t ∈ Finset.range k, ratioR pdf a i t) / k) := by
  refine ⟨_, diagS_count A pdf record k fuel hf, ?_⟩
  obtain ⟨h1, _, h3⟩ := passes_est A pdf record k
  obtain ⟨e, g1, g2, g3, _⟩ := h3 i
  unfold DEst.estimate
  rw [h1, if_neg (by omega), ← g3]
  have e1 : ((List.range k).map fun s => [ratio A pdf s i]).flatten = (List.range k).map fun s => .fin (ratioR pdf a i s) := by
    simp only [ratio_fin A pdf ha h0]
    induction (List.range k) with
    | nil => rfl
    | cons x l ih => simp [ih]
  have := (g1.fin (by rw [e1]; simp)).2.2 (by simp; omega)
  rw [this, e1]
  simp only [List.map_map, Function.comp_def, real, List.length_map, List.length_range, sum_map_range]

/-- **C154**: coordinates whose first entry is zero: `diag` returns NaN there (`0/0` in the first pass). -/
theorem C154_zero (A : SOperand N) (pdf : Pdf N) (record : Bool) {k fuel : ℕ} (hk : 0 < k) (hf : k < fuel) {a : Vec N → ℝ} {i : Fin N} (ha : ∀ v, A.apply v i = .fin (a v))
    (h0 : draw1 pdf 0 i = 0) : ∃ y, diagS A pdf (.count k) record fuel = some (.ok y) ∧ y i = .nan := by
  refine ⟨_, diagS_count A pdf record k fuel hf, ?_⟩
  obtain ⟨h1, _, h3⟩ := passes_est A pdf record k
  obtain ⟨e, g1, g2, g3, _⟩ := h3 i
  unfold DEst.estimate
  rw [h1, if_neg (by omega), ← g3]
  have hz := ratio_zero A pdf ha h0
  obtain ⟨m, rfl⟩ : ∃ m, k = m + 1 := ⟨k - 1, by omega⟩
  have hs : (List.range (m + 1)).map (fun s => [ratio A pdf s i]) = (List.range m).map (fun s => [ratio A pdf s i]) ++ [[ratio A pdf m i]] := by
    rw [List.range_succ, List.map_append]
    rfl
  rcases Nat.eq_zero_or_pos m with hm | hm
  · subst hm
    have hl := g1.last _ _ hs (by simp)
    rw [hz] at hl
    simp only [Fl.sum, Fl.nan_add, reduceCtorEq, iff_false] at hl
    have hn := g1.mu ⟨.nan, by simp [hz], by simp⟩
    cases hmu : e.mu with
    | fin r => exact absurd ⟨r, hmu⟩ hn
    | pinf => exact absurd hmu hl.1
    | ninf => exact absurd hmu hl.2
    | nan => rfl
  · exact g1.before _ _ hs ⟨.nan, List.mem_flatten.2 ⟨[.nan], List.mem_map.2 ⟨0, List.mem_range.2 hm, by rw [hz]⟩, by simp⟩, by simp⟩

/-- **C154**: coordinates at which the operator is never finite: `diag` returns NaN there from the second vector on. -/
theorem C154_not_finite (A : SOperand N) (pdf : Pdf N) (record : Bool) {k fuel : ℕ} (hk : 2 ≤ k) (hf : k < fuel) {i : Fin N} (ha : ∀ v, ¬ Finite (A.apply v i)) :
    ∃ y, diagS A pdf (.count k) record fuel = some (.ok y) ∧ y i = .nan := by
  refine ⟨_, diagS_count A pdf record k fuel hf, ?_⟩
  obtain ⟨h1, _, h3⟩ := passes_est A pdf record k
  obtain ⟨e, g1, g2, g3, _⟩ := h3 i
  unfold DEst.estimate
  rw [h1, if_neg (by omega), ← g3]
  obtain ⟨m, rfl⟩ : ∃ m, k = m + 1 := ⟨k - 1, by omega⟩
  have hs : (List.range (m + 1)).map (fun s => [ratio A pdf s i]) = (List.range m).map (fun s => [ratio A pdf s i]) ++ [[ratio A pdf m i]] := by
    rw [List.range_succ, List.map_append]
    rfl
  exact g1.before _ _ hs ⟨ratio A pdf 0 i, List.mem_flatten.2 ⟨_, List.mem_map.2 ⟨0, List.mem_range.2 (by omega), rfl⟩, by simp⟩, ratio_not A pdf ha 0⟩

/-! ## Criteria -/

/-- The criteria built from tolerance and knee criteria by `|` and `&`. -/
inductive Spec.DAccuracy : SCrit → Prop
  | tol (rtol atol : ℝ) (ord : NormOrd) : ord ≠ .str → Spec.DAccuracy (.tol rtol atol ord)
  | knee (S : ℝ) : Spec.DAccuracy (.knee S)
  | or {a b : SCrit} : Spec.DAccuracy a → Spec.DAccuracy b → Spec.DAccuracy (.or a b)
  | and {a b : SCrit} : Spec.DAccuracy a → Spec.DAccuracy b → Spec.DAccuracy (.and a b)

theorem mul_self_ne (x : Fl) : x.mul x ≠ .ninf := by cases x <;> simp [Fl.mul, Fl.scale]

/-- The norm of a vector with an entry that is not finite is `+inf` or NaN. -/
theorem dNorm_up {ord : NormOrd} (ho : ord ≠ .str) {x : Fin N → Fl} {i : Fin N} (hx : ¬ Finite (x i)) : ∃ y, dNorm ord x = .ok y ∧ (y = .pinf ∨ y = .nan) := by
  have up : ∀ y : Fl, ¬ Finite y → y ≠ .ninf → y = .pinf ∨ y = .nan := fun y h1 h2 => by
    cases y with
    | fin r => simp at h1
    | pinf => exact .inl rfl
    | ninf => exact absurd rfl h2
    | nan => exact .inr rfl
  have sq : ∃ y, (Fl.sum (List.ofFn fun i => (x i).mul (x i))).sqrt = y ∧ (y = .pinf ∨ y = .nan) := by
    refine ⟨_, rfl, ?_⟩
    rcases up (Fl.sum (List.ofFn fun i => (x i).mul (x i))) (fun h => hx ((Fl.finite_mul _ _).1 ((Fl.finite_sum _).1 h _ (List.mem_ofFn.2 ⟨i, rfl⟩))).1) (fun h => by
      obtain ⟨j, hj⟩ := List.mem_ofFn.1 ((Fl.sum_ninf _).1 h).1
      exact mul_self_ne _ hj) with h | h <;> rw [h] <;> simp [Fl.sqrt]
  cases ord with
  | none => obtain ⟨y, h1, h2⟩ := sq; exact ⟨y, by rw [dNorm, h1], h2⟩
  | two => obtain ⟨y, h1, h2⟩ := sq; exact ⟨y, by rw [dNorm, h1], h2⟩
  | one =>
    refine ⟨_, rfl, up _ (fun h => hx ((finite_abs _).1 ((Fl.finite_sum _).1 h _ (List.mem_ofFn.2 ⟨i, rfl⟩)))) fun h => ?_⟩
    obtain ⟨j, hj⟩ := List.mem_ofFn.1 ((Fl.sum_ninf _).1 h).1
    exact abs_ne_ninf _ hj
  | inf =>
    have hi := i.isLt
    refine ⟨_, rfl, arrMax_up (fun k => abs_ne_ninf _) (k := i) ?_ _ (by omega)⟩
    refine up _ (fun h => hx ?_) (abs_ne_ninf _)
    rw [finite_abs] at h
    simpa using h
  | str => exact absurd rfl ho

theorem daccuracy_false {c : SCrit} (hc : DAccuracy c) {e : DEst N} {i : Fin N} (h1 : ¬ Finite (e.delta i))
    (h3 : ∀ v, e.values = some v → v.length < 3 ∨ ∃ x ∈ v, ¬ Finite (x i)) : c.dEval e = .ok false := by
  induction hc with
  | tol rtol atol ord ho =>
    obtain ⟨y, hy, hy'⟩ := dNorm_up ho h1
    have hlt : ∀ z, ¬ y.lt z := fun z => by rcases hy' with h | h <;> rw [h] <;> cases z <;> simp [Fl.lt]
    obtain ⟨z, hz⟩ : ∃ z, dNorm ord e.estimate = .ok z := by
      cases ord <;> first | exact ⟨_, rfl⟩ | exact absurd rfl ho
    unfold SCrit.dEval dTolerance
    simp only [hy, hz, bind, Except.bind, pure, Except.pure]
    rw [(truth_eq_false _).2 (hlt _), (truth_eq_false _).2 (hlt _)]
    rfl
  | knee S =>
    suffices h : dKnee S e = false by rw [SCrit.dEval, h]
    unfold dKnee
    cases hv : e.values with
    | none => rfl
    | some v =>
      simp only
      by_cases hl : v.length < 3
      · rw [if_pos hl]
      · rw [if_neg hl]
        obtain ⟨x, hx, hxf⟩ := (h3 v hv).resolve_left hl
        refine sknee_false fun w hw => .inr ?_
        obtain rfl : _ = w := Option.some.inj hw
        exact ⟨x i, List.mem_flatMap.2 ⟨x, hx, List.mem_ofFn.2 ⟨i, rfl⟩⟩, hxf⟩
  | or _ _ ha hb => simp [SCrit.dEval, ha, hb, bind, Except.bind, pure, Except.pure]
  | and _ _ ha hb => simp [SCrit.dEval, ha, hb, bind, Except.bind, pure, Except.pure]

/-- **C154**: with a tolerance or knee criterion `diag` never returns if the first ratio is not finite at some coordinate: because the operator is never finite there, or
because the first vector has a zero there. -/
theorem C154_diverges (A : SOperand N) (pdf : Pdf N) (record : Bool) {c : SCrit} (hc : DAccuracy c) {i : Fin N}
    (h : (∀ v, ¬ Finite (A.apply v i)) ∨ (∃ a : Vec N → ℝ, ∀ v, A.apply v i = .fin (a v)) ∧ draw1 pdf 0 i = 0) (fuel : ℕ) : diagS A pdf c record fuel = none := by
  have h0 : ¬ Finite (ratio A pdf 0 i) := by
    rcases h with h | ⟨⟨a, ha⟩, h⟩
    · exact ratio_not A pdf h 0
    · rw [ratio_zero A pdf ha h]
      simp
  unfold diagS
  rw [show (⟨[], fun _ => .fin 0, fun _ => .fin 0, DEst.init N record⟩ : SDiagState N) = passes A pdf record 0 from rfl, loop_none A pdf record c ?_ fuel 0]
  intro t
  rcases Nat.eq_zero_or_pos t with ht | ht
  · subst ht
    refine daccuracy_false hc (i := i) (by simp [passes, DEst.init]) fun v hv => .inl ?_
    simp only [passes, DEst.init] at hv
    cases record <;> simp at hv
    simp [hv]
  · obtain ⟨_, h2, h3⟩ := passes_est A pdf record t
    obtain ⟨e, g1, _, _, g4⟩ := h3 i
    refine daccuracy_false hc (i := i) ?_ fun v hv => .inr ?_
    · rw [← g4]
      exact (g1.delta ⟨ratio A pdf 0 i, List.mem_flatten.2 ⟨_, List.mem_map.2 ⟨0, List.mem_range.2 ht, rfl⟩, by simp⟩, h0⟩).1
    · rw [h2 v hv]
      exact ⟨ratio A pdf 0, List.mem_map.2 ⟨0, List.mem_range.2 ht, rfl⟩, h0⟩

/-! ## Matrices -/

theorem ofMatrix_row (M : Fin N → Fin N → Fl) {i : Fin N} {R : Fin N → ℝ} (hR : ∀ j, M i j = .fin (R j)) (v : Vec N) :
    (SOperand.ofMatrix M).apply v i = .fin (∑ j, R j * v j) := by
  unfold SOperand.ofMatrix
  simp only [hR, Fl.mul, Fl.scale]
  rw [← List.sum_ofFn, ← Fl.sum_fin, List.map_ofFn]
  rfl

theorem ofMatrix_not (M : Fin N → Fin N → Fl) {i j : Fin N} (hM : ¬ Finite (M i j)) (v : Vec N) : ¬ Finite ((SOperand.ofMatrix M).apply v i) := fun h =>
  hM ((Fl.finite_mul _ _).1 ((Fl.finite_sum _).1 h _ (List.mem_ofFn.2 ⟨j, rfl⟩))).1

/-- **C154**: infinite and NaN entries of a matrix spoil exactly the entries of the diagonal in their rows. -/
theorem C154_matrix (M : Fin N → Fin N → Fl) (pdf : Pdf N) (hv : ∀ i, draw1 pdf 0 i ≠ 0) (record : Bool) {k fuel : ℕ} (hk : 2 ≤ k) (hf : k < fuel) :
    ∃ y, diagS (SOperand.ofMatrix M) pdf (.count k) record fuel = some (.ok y) ∧
      (∀ i, (∃ j, ¬ Finite (M i j)) → y i = .nan) ∧
      ∀ i (R : Fin N → ℝ), (∀ j, M i j = .fin (R j)) → y i = .fin ((∑ t ∈ Finset.range k, ratioR pdf (fun v => ∑ j, R j * v j) i t) / k) := by
  refine ⟨_, diagS_count _ pdf record k fuel hf, fun i ⟨j, hj⟩ => ?_, fun i R hR => ?_⟩
  · obtain ⟨y, h1, h2⟩ := C154_not_finite (SOperand.ofMatrix M) pdf record hk hf (ofMatrix_not M hj)
    rw [diagS_count _ pdf record k fuel hf] at h1
    cases h1
    exact h2
  · obtain ⟨y, h1, h2⟩ := C154_finite (SOperand.ofMatrix M) pdf record (by omega) hf (ofMatrix_row M hR) (hv i)
    rw [diagS_count _ pdf record k fuel hf] at h1
    cases h1
    exact h2

/-- The hypotheses are satisfiable: Rademacher vectors have no zero entry; the matrix has an infinite entry in its first row. -/
example (rng : Rng) (hu : ∀ p, 0 ≤ rng.unif p ∧ rng.unif p < 1) : ∃ pdf y, isotropicPdf "rademacher" rng 2 = .ok pdf ∧
    diagS (SOperand.ofMatrix fun i j => if i = 0 then (if j = 1 then .pinf else .fin 3) else (if j = 1 then .fin 5 else .fin 0)) pdf (.count 7) false 8 = some (.ok y) ∧
    y 0 = .nan ∧ y 1 = .fin 5 := by
  obtain ⟨pdf, hp⟩ : ∃ pdf : Pdf 2, isotropicPdf "rademacher" rng 2 = .ok pdf := ⟨_, rfl⟩
  have hd := rademacher_draw1 rng hu pdf hp
  obtain ⟨y, h1, h2, h3⟩ := C154_matrix (N := 2) (fun i j => if i = 0 then (if j = 1 then .pinf else .fin 3) else (if j = 1 then .fin 5 else .fin 0)) pdf
    (fun i => by rcases hd 0 i with h | h <;> rw [h] <;> norm_num) false (k := 7) (fuel := 8) (by norm_num) (by norm_num)
  refine ⟨pdf, y, hp, h1, h2 0 ⟨1, by simp⟩, ?_⟩
  rw [h3 1 (fun j => if j = 1 then 5 else 0) (by intro j; fin_cases j <;> simp)]
  congr 1
  have : ∀ t ∈ Finset.range 7, ratioR pdf (fun v => ∑ j, (if j = 1 then (5 : ℝ) else 0) * v j) 1 t = 5 := fun t _ => by
    unfold ratioR
    have hs : ∀ s, draw1 pdf s 1 ^ 2 = 1 := fun s => by rcases hd s 1 with h | h <;> rw [h] <;> norm_num
    have hs' : ∀ s, (∑ j, (if j = 1 then (5 : ℝ) else 0) * draw1 pdf s j) * draw1 pdf s 1 = 5 := fun s => by
      have := hs s
      rw [Fin.sum_univ_two]
      simp
      nlinarith
    simp only [hs, hs', Finset.sum_const, Finset.card_range, nsmul_eq_mul, mul_one]
    have : ((t + 1 : ℕ) : ℝ) ≠ 0 := by positivity
    field_simp
  rw [Finset.sum_congr rfl this]
  norm_num

end Primate
