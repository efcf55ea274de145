import Verif.Model.HutchSpecial
import Verif.Props.Hutch

/-!
# C153: infinite and NaN observations
-/

noncomputable section

namespace Primate

/-- A finite number. -/
def Spec.Finite (x : Fl) : Prop := ∃ r, x = .fin r

/-- The plain sum of finite numbers (special values count as zero). -/
def Spec.real : Fl → ℝ
  | .fin r => r
  | _ => 0

open Spec

namespace Fl

@[simp] theorem finite_fin (r : ℝ) : Finite (.fin r) := ⟨r, rfl⟩
@[simp] theorem finite_pinf : ¬ Finite .pinf := fun ⟨_, h⟩ => by cases h
@[simp] theorem finite_ninf : ¬ Finite .ninf := fun ⟨_, h⟩ => by cases h
@[simp] theorem finite_nan : ¬ Finite .nan := fun ⟨_, h⟩ => by cases h

theorem finite_add (x y : Fl) : Finite (x.add y) ↔ Finite x ∧ Finite y := by
  cases x <;> cases y <;> simp [add]

theorem finite_neg (x : Fl) : Finite x.neg ↔ Finite x := by
  cases x <;> simp [neg]

theorem finite_sub (x y : Fl) : Finite (x.sub y) ↔ Finite x ∧ Finite y := by
  rw [sub, finite_add, finite_neg]

theorem finite_scale (c : ℝ) (x : Fl) : Finite (scale c x) ↔ Finite x := by
  cases x <;> simp only [scale, finite_fin, finite_pinf, finite_ninf, finite_nan] <;> split_ifs <;> simp

theorem finite_mul (x y : Fl) : Finite (x.mul y) ↔ Finite x ∧ Finite y := by
  cases x <;> cases y <;> simp [mul, finite_scale]

theorem finite_sum (l : List Fl) : Finite (sum l) ↔ ∀ x ∈ l, Finite x := by
  induction l with
  | nil => simp [sum]
  | cons a l ih => rw [sum, finite_add, ih]; simp

theorem nan_add (x : Fl) : add .nan x = .nan := by cases x <;> rfl
theorem add_nan (x : Fl) : add x .nan = .nan := by cases x <;> rfl
theorem nan_sub (x : Fl) : sub .nan x = .nan := nan_add _
theorem sub_nan (x : Fl) : sub x .nan = .nan := add_nan _
theorem nan_mul (x : Fl) : mul .nan x = .nan := by cases x <;> rfl
theorem nan_div (x : Fl) : div .nan x = .nan := by cases x <;> rfl
theorem div_nan (x : Fl) : div x .nan = .nan := by cases x <;> rfl
theorem scale_nan (c : ℝ) : scale c .nan = .nan := rfl

theorem sum_nan {l : List Fl} (h : .nan ∈ l) : sum l = .nan := by
  induction l with
  | nil => simp at h
  | cons a l ih =>
    rw [sum]
    rcases List.mem_cons.1 h with h | h
    · rw [← h, nan_add]
    · rw [ih h, add_nan]

/-- The sum is `+inf` exactly if some terms are `+inf` and all others are finite. -/
theorem sum_pinf (l : List Fl) : sum l = .pinf ↔ .pinf ∈ l ∧ ∀ x ∈ l, Finite x ∨ x = .pinf := by
  induction l with
  | nil => simp [sum]
  | cons a l ih =>
    rw [sum]
    have hf := finite_sum l
    cases hs : sum l with
    | fin r =>
      rw [hs] at ih hf
      have h1 := hf.1 ⟨r, rfl⟩
      have h2 : .pinf ∉ l := fun h => finite_pinf (h1 _ h)
      cases a <;> simp [add, h2]
      exact fun x hx => .inl (h1 x hx)
    | pinf =>
      rw [hs] at ih
      have h1 := ih.1 rfl
      cases a <;> simp [add, h1.1]
      · exact h1.2
      · exact h1.2
    | ninf =>
      rw [hs] at ih hf
      have h0 : ¬ (Fl.pinf ∈ l ∧ ∀ x ∈ l, Finite x ∨ x = .pinf) := fun h => by cases ih.2 h
      have h2 : ¬ ∀ x ∈ l, Finite x ∨ x = .pinf := fun h => by
        by_cases hp : .pinf ∈ l
        · exact h0 ⟨hp, h⟩
        · exact finite_ninf (hf.2 fun x hx => (h x hx).resolve_right fun e => hp (e ▸ hx))
      cases a <;> simp only [add, reduceCtorEq, false_iff] <;> exact fun h => h2 fun x hx => h.2 x (List.mem_cons_of_mem _ hx)
    | nan =>
      rw [hs] at ih hf
      have h0 : ¬ (Fl.pinf ∈ l ∧ ∀ x ∈ l, Finite x ∨ x = .pinf) := fun h => by cases ih.2 h
      have h2 : ¬ ∀ x ∈ l, Finite x ∨ x = .pinf := fun h => by
        by_cases hp : .pinf ∈ l
        · exact h0 ⟨hp, h⟩
        · exact finite_nan (hf.2 fun x hx => (h x hx).resolve_right fun e => hp (e ▸ hx))
      rw [add_nan]
      simp only [reduceCtorEq, false_iff]
      exact fun h => h2 fun x hx => h.2 x (List.mem_cons_of_mem _ hx)

theorem neg_add (x y : Fl) : (x.add y).neg = x.neg.add y.neg := by
  cases x <;> cases y <;> simp [add, neg]
  ring

theorem neg_sum (l : List Fl) : (sum l).neg = sum (l.map neg) := by
  induction l with
  | nil => simp [sum, neg]
  | cons a l ih => rw [List.map_cons, sum, sum, neg_add, ih]

/-- The sum is `-inf` exactly if some terms are `-inf` and all others are finite. -/
theorem sum_ninf (l : List Fl) : sum l = .ninf ↔ .ninf ∈ l ∧ ∀ x ∈ l, Finite x ∨ x = .ninf := by
  have h := sum_pinf (l.map neg)
  rw [← neg_sum] at h
  have e1 : (sum l).neg = .pinf ↔ sum l = .ninf := by cases sum l <;> simp [neg]
  have e2 : .pinf ∈ l.map neg ↔ .ninf ∈ l := by
    rw [List.mem_map]
    constructor
    · rintro ⟨x, hx, e⟩
      cases x <;> simp [neg] at e
      exact hx
    · exact fun hx => ⟨_, hx, rfl⟩
  have e3 : (∀ x ∈ l.map neg, Finite x ∨ x = .pinf) ↔ ∀ x ∈ l, Finite x ∨ x = .ninf := by
    simp only [List.forall_mem_map]
    refine forall₂_congr fun x _ => ?_
    cases x <;> simp [neg]
  rw [← e1, h, e2, e3]

theorem sum_fin (l : List ℝ) : sum (l.map fin) = .fin l.sum := by
  induction l with
  | nil => simp [sum]
  | cons a l ih => rw [List.map_cons, sum, ih, List.sum_cons]; rfl

theorem sub_fin (x y : ℝ) : sub (.fin x) (.fin y) = .fin (x - y) := by
  simp [sub, neg, add, sub_eq_add_neg]

theorem div_fin {x y : ℝ} (h : y ≠ 0) : div (.fin x) (.fin y) = .fin (x / y) := by
  simp [div, divFin, h]

theorem finite_div {y : ℝ} (h : y ≠ 0) (x : Fl) : Finite (x.div (.fin y)) ↔ Finite x := by
  cases x with
  | fin x => simp [div_fin h]
  | pinf => simp only [div]; split_ifs <;> simp
  | ninf => simp only [div]; split_ifs <;> simp
  | nan => simp [nan_div]

end Fl

/-! ## One update -/

/-- An update with finite numbers of an estimator with finite state. -/
theorem supdate_fin {e : SEst} {m s : ℝ} (hm : e.mu = .fin m) (hs : e.S = .fin s) {X : List ℝ} (hX : X ≠ []) :
    ∃ e', e.update (X.map .fin) = .ok e' ∧ e'.n = e.n + X.length ∧
      e'.mu = .fin (m + (X.length : ℝ) / ((e.n + X.length : ℕ) : ℝ) * (X.sum / X.length - m)) ∧
      e'.S = .fin (s + ((X.map fun x => (x - X.sum / X.length) * (x - X.sum / X.length)).sum +
        (e.n : ℝ) * (X.length : ℝ) / ((e.n + X.length : ℕ) : ℝ) * ((X.sum / X.length - m) * (X.sum / X.length - m)))) ∧
      e'.delta = .fin (m + (X.length : ℝ) / ((e.n + X.length : ℕ) : ℝ) * (X.sum / X.length - m) - m) ∧
      e'.values = e.values.map fun v => v ++ X.map .fin := by
  have hl : X.length ≠ 0 := by simpa using hX
  have hl' : (X.length : ℝ) ≠ 0 := by exact_mod_cast hl
  unfold SEst.update
  simp only [List.length_map]
  rw [if_neg (by omega), if_neg hl, Fl.sum_fin, Fl.div_fin hl', hm, hs, Fl.sub_fin]
  have e1 : List.map (fun x : Fl => x.mul x) (List.map (fun x => Fl.sub x (.fin (X.sum / X.length))) (X.map .fin)) =
      (X.map fun x => (x - X.sum / X.length) * (x - X.sum / X.length)).map .fin := by
    simp only [List.map_map]
    refine List.map_congr_left fun x _ => ?_
    simp [Fl.sub_fin, Fl.mul, Fl.scale]
  rw [e1, Fl.sum_fin]
  refine ⟨_, rfl, rfl, rfl, rfl, ?_, rfl⟩
  simp only [Fl.mul, Fl.scale, Fl.add]
  exact Fl.sub_fin _ _

/-- After an observation that is not finite the sum of squares is NaN. -/
theorem supdate_S {e e' : SEst} {X : List Fl} (h : e.update X = .ok e') (hf : e.S = .nan ∨ ∃ x ∈ X, ¬ Finite x) : e'.S = .nan := by
  unfold SEst.update at h
  simp only at h
  split_ifs at h with h0 hl
  · rw [List.length_eq_zero_iff] at hl
    subst hl
    rcases hf with hf | ⟨x, hx, _⟩
    · cases h
      simp [hf, Fl.nan_add]
    · simp at hx
  · cases h
    simp only
    rcases hf with hf | ⟨x, hx, hxf⟩
    · rw [hf, Fl.nan_add]
    · have hl' : (X.length : ℝ) ≠ 0 := by exact_mod_cast hl
      have key : Fl.nan ∈ List.map (fun x : Fl => x.mul x) (List.map (fun x => Fl.sub x ((Fl.sum X).div (.fin X.length))) X) := by
        have hne : ¬ Finite (Fl.sum X) := fun hh => hxf ((Fl.finite_sum X).1 hh x hx)
        simp only [List.map_map, List.mem_map, Function.comp]
        have hpos : (0 : ℝ) ≤ X.length := Nat.cast_nonneg _
        cases hs : Fl.sum X with
        | fin r => exact absurd ⟨r, hs⟩ hne
        | pinf =>
          exact ⟨.pinf, ((Fl.sum_pinf X).1 hs).1, by simp [Fl.div, Fl.sub, Fl.neg, Fl.add, Fl.mul]⟩
        | ninf =>
          exact ⟨.ninf, ((Fl.sum_ninf X).1 hs).1, by simp [Fl.div, Fl.sub, Fl.neg, Fl.add, Fl.mul]⟩
        | nan => exact ⟨x, hx, by rw [Fl.nan_div, Fl.sub_nan, Fl.nan_mul]⟩
      rw [Fl.sum_nan key, Fl.nan_add, Fl.add_nan]

/-- An update of a mean that is not finite gives NaN. -/
theorem supdate_mu {e e' : SEst} {X : List Fl} (h : e.update X = .ok e') (hf : ¬ Finite e.mu) : e'.mu = .nan ∧ e'.delta = .nan := by
  unfold SEst.update at h
  simp only at h
  split_ifs at h with h0 hl
  · cases h
    simp [Fl.nan_sub, Fl.scale_nan, Fl.add_nan]
  · cases h
    simp only
    have hw : (0 : ℝ) < (X.length : ℝ) / ((e.n + X.length : ℕ) : ℝ) := by
      have : 0 < X.length := by omega
      have : 0 < e.n + X.length := by omega
      positivity
    have key : e.mu.add (Fl.scale ((X.length : ℝ) / ((e.n + X.length : ℕ) : ℝ)) (((Fl.sum X).div (.fin X.length)).sub e.mu)) = .nan := by
      generalize (X.length : ℝ) / ((e.n + X.length : ℕ) : ℝ) = w at hw
      cases hm : e.mu with
      | fin r => exact absurd ⟨r, hm⟩ hf
      | nan => rw [Fl.nan_add]
      | pinf =>
        cases (Fl.sum X).div (.fin X.length) <;> simp [Fl.sub, Fl.neg, Fl.add, Fl.scale, hw, hw.ne']
      | ninf =>
        cases (Fl.sum X).div (.fin X.length) <;> simp [Fl.sub, Fl.neg, Fl.add, Fl.scale, hw, hw.ne']
    rw [key, Fl.nan_sub]
    exact ⟨rfl, rfl⟩

/-- An update of a finite mean: the new mean is finite, infinite or NaN as the sum of the batch is. -/
theorem supdate_mu_fin {e e' : SEst} {X : List Fl} {m : ℝ} (h : e.update X = .ok e') (hm : e.mu = .fin m) (hX : X ≠ []) :
    (Finite e'.mu ↔ ∀ x ∈ X, Finite x) ∧ (e'.mu = .pinf ↔ Fl.sum X = .pinf) ∧ (e'.mu = .ninf ↔ Fl.sum X = .ninf) ∧ (¬ Finite e'.mu → e'.delta = e'.mu) := by
  unfold SEst.update at h
  have hl : X.length ≠ 0 := by simpa using hX
  simp only at h
  rw [if_neg (by omega), if_neg hl] at h
  cases h
  simp only [hm]
  have hl' : (X.length : ℝ) ≠ 0 := by exact_mod_cast hl
  have hp : (0 : ℝ) ≤ X.length := Nat.cast_nonneg _
  have hw : (0 : ℝ) < (X.length : ℝ) / ((e.n + X.length : ℕ) : ℝ) := by
    have : 0 < X.length := by omega
    have : 0 < e.n + X.length := by omega
    positivity
  generalize (X.length : ℝ) / ((e.n + X.length : ℕ) : ℝ) = w at hw
  refine ⟨?_, ?_, ?_, ?_⟩
  · rw [Fl.finite_add, Fl.finite_scale, Fl.finite_sub, Fl.finite_div hl', Fl.finite_sum]
    simp
  · cases Fl.sum X <;> simp [Fl.div, Fl.divFin, hl', Fl.sub, Fl.neg, Fl.add, Fl.scale, hw, hw.ne']
  · cases Fl.sum X <;> simp [Fl.div, Fl.divFin, hl', Fl.sub, Fl.neg, Fl.add, Fl.scale, hw, hw.ne']
  · cases Fl.sum X <;> simp [Fl.div, Fl.divFin, hl', Fl.sub, Fl.neg, Fl.add, Fl.scale, hw, hw.ne']


/-! ## Histories -/

theorem supdate_ok (e : SEst) {X : List Fl} (hX : X ≠ []) : ∃ e', e.update X = .ok e' ∧ e'.n = e.n + X.length := by
  unfold SEst.update
  have hl : X.length ≠ 0 := by simpa using hX
  simp only
  rw [if_neg (by omega)]
  exact ⟨_, rfl, rfl⟩

theorem supdates_ok (Xs : List (List Fl)) (hX : ∀ X ∈ Xs, X ≠ []) : ∀ e : SEst, ∃ e', e.updates Xs = .ok e' ∧ e'.n = e.n + Xs.flatten.length := by
  induction Xs with
  | nil => exact fun e => ⟨e, rfl, by simp⟩
  | cons X Xs ih =>
    intro e
    obtain ⟨e1, h1, n1⟩ := supdate_ok e (hX X (by simp))
    obtain ⟨e2, h2, n2⟩ := ih (fun Y hY => hX Y (List.mem_cons_of_mem _ hY)) e1
    refine ⟨e2, ?_, by rw [n2, n1, List.flatten_cons, List.length_append]; omega⟩
    unfold SEst.updates at h2 ⊢
    rw [List.foldlM_cons, h1]
    exact h2

theorem supdates_snoc {e e1 e2 : SEst} {Xs : List (List Fl)} {X : List Fl} (h1 : e.updates Xs = .ok e1) (h2 : e1.update X = .ok e2) :
    e.updates (Xs ++ [X]) = .ok e2 := by
  unfold SEst.updates at h1 ⊢
  rw [List.foldlM_append, h1]
  show List.foldlM SEst.update e1 [X] = _
  rw [List.foldlM_cons, h2]
  rfl

/-- State of an estimator that has seen the batches `Xs`. -/
structure Spec.Seen (e : SEst) (Xs : List (List Fl)) : Prop where
  n : e.n = Xs.flatten.length
  fin : (∀ x ∈ Xs.flatten, Finite x) → Finite e.mu ∧ Finite e.S ∧ (Xs ≠ [] → e.mu = .fin ((Xs.flatten.map real).sum / Xs.flatten.length))
  S : (∃ x ∈ Xs.flatten, ¬ Finite x) → e.S = .nan
  mu : (∃ x ∈ Xs.flatten, ¬ Finite x) → ¬ Finite e.mu
  delta : (∃ x ∈ Xs.flatten, ¬ Finite x) → ¬ Finite e.delta ∧ (e.delta = .nan ∨ e.delta = e.mu)
  values : ∀ v, e.values = some v → v = Xs.flatten
  last : ∀ Ys X, Xs = Ys ++ [X] → (∀ x ∈ Ys.flatten, Finite x) → (e.mu = .pinf ↔ Fl.sum X = .pinf) ∧ (e.mu = .ninf ↔ Fl.sum X = .ninf)
  before : ∀ Ys X, Xs = Ys ++ [X] → (∃ x ∈ Ys.flatten, ¬ Finite x) → e.mu = .nan

theorem map_real_fin {l : List Fl} (h : ∀ x ∈ l, Finite x) : (l.map real).map .fin = l := by
  rw [List.map_map]
  conv_rhs => rw [← List.map_id l]
  refine List.map_congr_left fun x hx => ?_
  obtain ⟨r, rfl⟩ := h x hx
  rfl

theorem seen_init (record : Bool) : Seen (SEst.init record) [] where
  n := rfl
  fin _ := ⟨⟨0, rfl⟩, ⟨0, rfl⟩, fun h => absurd rfl h⟩
  S := by simp
  mu := by simp
  delta := by simp
  values := by
    intro v hv
    unfold SEst.init at hv
    cases record <;> simp at hv
    rw [hv]
    rfl
  last Ys X h := by simp at h
  before Ys X h := by simp at h

theorem seen_update {e e' : SEst} {Xs : List (List Fl)} (h : Seen e Xs) {X : List Fl} (hX : X ≠ []) (hu : e.update X = .ok e') : Seen e' (Xs ++ [X]) := by
  obtain ⟨e1, u1, n1⟩ := supdate_ok e hX
  rw [hu] at u1
  cases u1
  have hl : X.length ≠ 0 := by simpa using hX
  have fl : (Xs ++ [X]).flatten = Xs.flatten ++ X := by simp
  have hmem : ∀ x, x ∈ (Xs ++ [X]).flatten ↔ x ∈ Xs.flatten ∨ x ∈ X := fun x => by rw [fl, List.mem_append]
  have hex : (∃ x ∈ (Xs ++ [X]).flatten, ¬ Finite x) → (∃ x ∈ Xs.flatten, ¬ Finite x) ∨ ((∀ x ∈ Xs.flatten, Finite x) ∧ ∃ x ∈ X, ¬ Finite x) := by
    rintro ⟨x, hx, hf⟩
    by_cases hh : ∃ x ∈ Xs.flatten, ¬ Finite x
    · exact .inl hh
    · push Not at hh
      rcases (hmem x).1 hx with hx | hx
      · exact absurd (hh x hx) hf
      · exact .inr ⟨hh, x, hx, hf⟩
  have hS : (∃ x ∈ (Xs ++ [X]).flatten, ¬ Finite x) → e'.S = .nan := fun hh => by
    rcases hex hh with hh | ⟨_, hh⟩
    · exact supdate_S hu (.inl (h.S hh))
    · exact supdate_S hu (.inr hh)
  refine ⟨by rw [n1, h.n, fl, List.length_append], ?_, hS, ?_, ?_, ?_, ?_, ?_⟩
  · intro hf
    have f1 : ∀ x ∈ Xs.flatten, Finite x := fun x hx => hf x ((hmem x).2 (.inl hx))
    have f2 : ∀ x ∈ X, Finite x := fun x hx => hf x ((hmem x).2 (.inr hx))
    obtain ⟨⟨m, hm⟩, ⟨s, hs⟩, g⟩ := h.fin f1
    have hX' : X.map real ≠ [] := by simpa using hX
    obtain ⟨e2, u2, _, g1, g2, _⟩ := supdate_fin hm hs hX'
    rw [map_real_fin f2, hu] at u2
    cases u2
    refine ⟨⟨_, g1⟩, ⟨_, g2⟩, fun _ => ?_⟩
    rw [g1, fl]
    congr 1
    have hl' : (X.length : ℝ) ≠ 0 := by exact_mod_cast hl
    have hnl : (e.n : ℝ) + X.length ≠ 0 := by positivity
    rw [List.map_append, List.sum_append, List.length_append, ← h.n, List.length_map]
    push_cast
    by_cases h0 : Xs = []
    · subst h0
      have hn : e.n = 0 := by rw [h.n]; rfl
      rw [hn]
      simp
      field_simp
      ring
    · have e3 := g h0
      rw [hm, ← h.n] at e3
      have e4 : m = (Xs.flatten.map real).sum / e.n := by cases e3; rfl
      by_cases hn : e.n = 0
      · have hF : Xs.flatten = [] := List.length_eq_zero_iff.1 (by rw [← h.n, hn])
        rw [hF, hn] at *
        simp
        field_simp
        ring
      · have hn' : (e.n : ℝ) ≠ 0 := by exact_mod_cast hn
        rw [e4]
        field_simp
        ring
  · intro hh
    rcases hex hh with hh | ⟨hf, x, hx, hxf⟩
    · rw [(supdate_mu hu (h.mu hh)).1]
      simp
    · obtain ⟨⟨m, hm⟩, _⟩ := h.fin hf
      exact fun hh' => hxf ((supdate_mu_fin hu hm hX).1.1 hh' x hx)
  · intro hh
    rcases hex hh with hh | ⟨hf, x, hx, hxf⟩
    · rw [(supdate_mu hu (h.mu hh)).2]
      simp
    · obtain ⟨⟨m, hm⟩, _⟩ := h.fin hf
      obtain ⟨g1, _, _, g4⟩ := supdate_mu_fin hu hm hX
      have : ¬ Finite e'.mu := fun hh' => hxf (g1.1 hh' x hx)
      rw [g4 this]
      exact ⟨this, .inr rfl⟩
  · intro v hv
    have e1 : e'.values = e.values.map fun v => v ++ X := by
      unfold SEst.update at hu
      simp only at hu
      rw [if_neg (by omega)] at hu
      cases hu
      rfl
    rw [e1, Option.map_eq_some_iff] at hv
    obtain ⟨w, hw, rfl⟩ := hv
    rw [h.values w hw, fl]
  · intro Ys Y hY hf
    obtain ⟨rfl, e2⟩ := List.append_inj' hY rfl
    cases e2
    obtain ⟨⟨m, hm⟩, _⟩ := h.fin hf
    obtain ⟨_, g2, g3, _⟩ := supdate_mu_fin hu hm hX
    exact ⟨g2, g3⟩
  · intro Ys Y hY hf
    obtain ⟨rfl, e2⟩ := List.append_inj' hY rfl
    exact (supdate_mu hu (h.mu hf)).1

theorem seen_updates (record : Bool) (Xs : List (List Fl)) (hX : ∀ X ∈ Xs, X ≠ []) : ∃ e, (SEst.init record).updates Xs = .ok e ∧ Seen e Xs := by
  induction Xs using List.reverseRecOn with
  | nil => exact ⟨_, rfl, seen_init record⟩
  | append_singleton Xs X ih =>
    obtain ⟨e, h1, h2⟩ := ih fun Y hY => hX Y (by simp [hY])
    have hX' : X ≠ [] := hX X (by simp)
    obtain ⟨e', h3, _⟩ := supdate_ok e hX'
    exact ⟨e', supdates_snoc h1 h3, seen_update h2 hX' h3⟩

/-- **C153**: what the estimate is after any sequence of nonempty batches.  All observations finite: the mean.  Otherwise it is infinite exactly if all batches but the last
one are finite and the last one contains infinities of one sign and no NaN; in every other case it is NaN.  The sum of squares is NaN as soon as one observation is not
finite. -/
theorem C153_estimate (record : Bool) (Xs : List (List Fl)) (X : List Fl) (hX : ∀ Y ∈ Xs ++ [X], Y ≠ []) :
    ∃ e, (SEst.init record).updates (Xs ++ [X]) = .ok e ∧ e.n = Xs.flatten.length + X.length ∧
      ((∀ x ∈ Xs.flatten ++ X, Finite x) → e.estimate = .fin (((Xs.flatten ++ X).map real).sum / (Xs.flatten ++ X).length)) ∧
      (e.estimate = .pinf ↔ (∀ x ∈ Xs.flatten, Finite x) ∧ .pinf ∈ X ∧ ∀ x ∈ X, Finite x ∨ x = .pinf) ∧
      (e.estimate = .ninf ↔ (∀ x ∈ Xs.flatten, Finite x) ∧ .ninf ∈ X ∧ ∀ x ∈ X, Finite x ∨ x = .ninf) ∧
      (Finite e.estimate ↔ ∀ x ∈ Xs.flatten ++ X, Finite x) ∧ ((∃ x ∈ Xs.flatten ++ X, ¬ Finite x) → e.S = .nan) := by
  obtain ⟨e, h1, h2⟩ := seen_updates record (Xs ++ [X]) hX
  have fl : (Xs ++ [X]).flatten = Xs.flatten ++ X := by simp
  have hl : 0 < X.length := List.length_pos_iff.2 (hX X (by simp))
  have hn : e.n = Xs.flatten.length + X.length := by rw [h2.n, fl, List.length_append]
  have he : e.estimate = e.mu := by
    unfold SEst.estimate
    rw [if_neg (by omega)]
  have hb : ∀ s, s ≠ Fl.nan → e.mu = s → ∀ x ∈ Xs.flatten, Finite x := fun s hs hm => by
    by_contra hh
    push Not at hh
    exact hs (hm.symm.trans (h2.before Xs X rfl hh))
  refine ⟨e, h1, hn, ?_⟩
  rw [he]
  refine ⟨?_, ?_, ?_, ?_, ?_⟩
  · intro hf
    rw [← fl] at hf ⊢
    exact (h2.fin hf).2.2 (by simp)
  · constructor
    · intro hm
      have hf := hb _ (by simp) hm
      exact ⟨hf, (Fl.sum_pinf X).1 (((h2.last Xs X rfl hf).1).1 hm)⟩
    · rintro ⟨hf, hx⟩
      exact ((h2.last Xs X rfl hf).1).2 ((Fl.sum_pinf X).2 hx)
  · constructor
    · intro hm
      have hf := hb _ (by simp) hm
      exact ⟨hf, (Fl.sum_ninf X).1 (((h2.last Xs X rfl hf).2).1 hm)⟩
    · rintro ⟨hf, hx⟩
      exact ((h2.last Xs X rfl hf).2).2 ((Fl.sum_ninf X).2 hx)
  · rw [← fl]
    constructor
    · intro hm
      by_contra hh
      push Not at hh
      exact h2.mu hh hm
    · exact fun hf => (h2.fin hf).1
  · rw [← fl]
    exact h2.S

end Primate
