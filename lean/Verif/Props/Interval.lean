import Verif.Prelude
import Verif.Model.Interval
import Mathlib.Algebra.Order.Field.Basic

/-! # Property C06: confidence_interval -/

namespace Primate

/-- What the theorems use of a quantile function of a distribution symmetric about zero. -/
structure SymQuantile (q : ℝ → ℝ) : Prop where
  mono : ∀ p p', 0 < p → p ≤ p' → p' < 1 → q p ≤ q p'
  symm : ∀ p, 0 < p → p < 1 → q (1 - p) = - q p

theorem SymQuantile.nonneg {q : ℝ → ℝ} (h : SymQuantile q) {p : ℝ} (h1 : 1 / 2 ≤ p) (h2 : p < 1) :
    0 ≤ q p := by
  have a := h.symm (1/2) (by norm_num) (by norm_num)
  norm_num at a
  have b := h.mono (1/2) p (by norm_num) h1 h2
  norm_num at b
  linarith

variable {tppf : ℝ → ℕ → ℝ} {nppf : ℝ → ℝ}

/-- The supported calls: Student-t always, normal for samples that are not constant. -/
def Supported (sdist : String) (a : List ℝ) : Prop :=
  sdist = "t" ∨ (sdist = "normal" ∧ ∃ x ∈ a, ∃ y ∈ a, x ≠ y)

theorem npStd_pos (a : List ℝ) (hn : 2 ≤ a.length) (h : ∃ x ∈ a, ∃ y ∈ a, x ≠ y) : 0 < npStd a := by
  obtain ⟨x, hx, y, hy, hxy⟩ := h
  have hl : (1:ℝ) < a.length := by exact_mod_cast hn
  have hz : ∃ z ∈ a, z - npMean a ≠ 0 := by
    by_contra hcon
    push Not at hcon
    have h1 := hcon x hx
    have h2 := hcon y hy
    exact hxy (by linarith)
  obtain ⟨z, hz, hz0⟩ := hz
  refine Real.sqrt_pos.mpr (div_pos ?_ (by linarith))
  have hmem : (z - npMean a) ^ 2 ∈ a.map fun x => (x - npMean a) ^ 2 :=
    List.mem_map.mpr ⟨z, hz, rfl⟩
  have hnn : ∀ w ∈ (a.map fun x => (x - npMean a) ^ 2), 0 ≤ w := by
    intro w hw; obtain ⟨v, -, rfl⟩ := List.mem_map.mp hw; positivity
  exact lt_of_lt_of_le (by positivity) (List.single_le_sum hnn _ hmem)

/-- The half width of the interval. -/
noncomputable def halfWidth (tppf : ℝ → ℕ → ℝ) (nppf : ℝ → ℝ) (a : List ℝ) (c : ℝ) (sdist : String) : ℝ :=
  (if sdist = "t" then tppf ((1 + c) / 2) (a.length - 1) else nppf ((1 + c) / 2)) *
    (npStd a / Real.sqrt a.length)

theorem ci_eq (hq : SymQuantile nppf) (a : List ℝ) (hn : 2 ≤ a.length) (c : ℝ) (h0 : 0 ≤ c)
    (h1 : c < 1) (sdist : String) (hs : Supported sdist a) :
    confidenceInterval tppf nppf a c sdist =
      .ok (.fin (npMean a - halfWidth tppf nppf a c sdist)
        (npMean a + halfWidth tppf nppf a c sdist)) := by
  unfold confidenceInterval
  rw [if_neg (by simp [h0, h1.le])]
  rcases hs with rfl | ⟨rfl, hne⟩
  · rw [if_pos rfl, if_neg (by omega)]
    simp [halfWidth, h1.ne]
  · rw [if_neg (by decide), if_pos rfl, if_neg (by omega)]
    have hpos : 0 < npStd a / Real.sqrt a.length :=
      div_pos (npStd_pos a hn hne) (Real.sqrt_pos.mpr (by exact_mod_cast (by omega : 0 < a.length)))
    have hsym := hq.symm ((1 + c) / 2) (by linarith) (by linarith)
    rw [show 1 - (1 + c) / 2 = (1 - c) / 2 by ring] at hsym
    dsimp only
    rw [if_pos hpos, if_neg h1.ne, hsym]
    have : halfWidth tppf nppf a c "normal" =
        npStd a / Real.sqrt a.length * nppf ((1 + c) / 2) := by
      unfold halfWidth; rw [if_neg (by decide), mul_comm]
    rw [this]
    congr 2; ring

theorem halfWidth_nonneg (ht : ∀ df, SymQuantile fun p => tppf p df) (hq : SymQuantile nppf)
    (a : List ℝ) (c : ℝ) (h0 : 0 ≤ c) (h1 : c < 1) (sdist : String) :
    0 ≤ halfWidth tppf nppf a c sdist := by
  refine mul_nonneg ?_ (div_nonneg (Real.sqrt_nonneg _) (Real.sqrt_nonneg _))
  split_ifs
  · exact (ht _).nonneg (by linarith) (by linarith)
  · exact hq.nonneg (by linarith) (by linarith)

theorem halfWidth_mono (ht : ∀ df, SymQuantile fun p => tppf p df) (hq : SymQuantile nppf)
    (a : List ℝ) (c c' : ℝ) (h0 : 0 ≤ c) (hc : c ≤ c') (h1 : c' < 1) (sdist : String) :
    halfWidth tppf nppf a c sdist ≤ halfWidth tppf nppf a c' sdist := by
  refine mul_le_mul_of_nonneg_right ?_ (div_nonneg (Real.sqrt_nonneg _) (Real.sqrt_nonneg _))
  split_ifs
  · exact (ht _).mono _ _ (by linarith) (by linarith) (by linarith)
  · exact hq.mono _ _ (by linarith) (by linarith) (by linarith)

/-- **C06** (all but constant samples with `sdist='normal'`, see `C06_normal_constant`): the
interval is centred at the sample mean, ordered, and grows with the confidence. -/
theorem C06_centred_nested_partial (ht : ∀ df, SymQuantile fun p => tppf p df)
    (hq : SymQuantile nppf) (a : List ℝ) (hn : 2 ≤ a.length) (c c' : ℝ) (h0 : 0 ≤ c)
    (hcc : c ≤ c') (h1 : c' < 1) (sdist : String) (hs : Supported sdist a) :
    ∃ lo hi lo' hi', confidenceInterval tppf nppf a c sdist = .ok (.fin lo hi) ∧
      confidenceInterval tppf nppf a c' sdist = .ok (.fin lo' hi') ∧
      (lo + hi) / 2 = a.sum / a.length ∧ lo ≤ a.sum / a.length ∧ a.sum / a.length ≤ hi ∧
      lo' ≤ lo ∧ hi ≤ hi' := by
  refine ⟨_, _, _, _, ci_eq hq a hn c h0 (by linarith) sdist hs,
    ci_eq hq a hn c' (by linarith) h1 sdist hs, ?_, ?_, ?_, ?_, ?_⟩
  · show _ = npMean a; ring
  · have := halfWidth_nonneg ht hq a c h0 (by linarith) sdist
    show _ ≤ npMean a; linarith
  · have := halfWidth_nonneg ht hq a c h0 (by linarith) sdist
    show npMean a ≤ _; linarith
  · have := halfWidth_mono ht hq a c c' h0 hcc h1 sdist; linarith
  · have := halfWidth_mono ht hq a c c' h0 hcc h1 sdist; linarith

theorem npMean_affine (a : List ℝ) (hn : a ≠ []) (s t : ℝ) :
    npMean (a.map fun x => s * x + t) = s * npMean a + t := by
  have hl : (a.length : ℝ) ≠ 0 := by exact_mod_cast (List.length_pos_iff.mpr hn).ne'
  have key : ∀ l : List ℝ, (l.map fun x => s * x + t).sum = s * l.sum + l.length * t := by
    intro l
    induction l with
    | nil => simp
    | cons x l ih => simp only [List.map_cons, List.sum_cons, ih, List.length_cons]; push_cast; ring
  unfold npMean
  rw [key, List.length_map]
  field_simp

theorem npStd_affine (a : List ℝ) (hn : a ≠ []) (s t : ℝ) (hs : 0 ≤ s) :
    npStd (a.map fun x => s * x + t) = s * npStd a := by
  unfold npStd
  rw [npMean_affine a hn, List.map_map, List.length_map]
  have : ((fun x => (x - (s * npMean a + t)) ^ 2) ∘ fun x => s * x + t) =
      fun x => s ^ 2 * (x - npMean a) ^ 2 := by funext x; simp only [Function.comp]; ring
  rw [this, List.sum_map_mul_left, mul_div_assoc, Real.sqrt_mul (by positivity), Real.sqrt_sq hs]

/-- **C06**: translating and (positively) scaling the data transforms the interval alike. -/
theorem C06_equivariant_partial (hq : SymQuantile nppf) (a : List ℝ) (hn : 2 ≤ a.length) (c : ℝ)
    (h0 : 0 ≤ c) (h1 : c < 1) (sdist : String) (hs : Supported sdist a) (s t : ℝ) (hpos : 0 < s) :
    ∃ lo hi, confidenceInterval tppf nppf a c sdist = .ok (.fin lo hi) ∧
      confidenceInterval tppf nppf (a.map fun x => s * x + t) c sdist =
        .ok (.fin (s * lo + t) (s * hi + t)) := by
  have hne : a ≠ [] := by rintro rfl; simp at hn
  have hs' : Supported sdist (a.map fun x => s * x + t) := by
    rcases hs with h | ⟨h, x, hx, y, hy, hxy⟩
    · exact Or.inl h
    · refine Or.inr ⟨h, _, List.mem_map.mpr ⟨x, hx, rfl⟩, _, List.mem_map.mpr ⟨y, hy, rfl⟩, ?_⟩
      intro he
      exact hxy (mul_left_cancel₀ hpos.ne' (by linarith))
  refine ⟨_, _, ci_eq hq a hn c h0 h1 sdist hs, ?_⟩
  rw [ci_eq hq _ (by simpa using hn) c h0 h1 sdist hs', npMean_affine a hne]
  have : halfWidth tppf nppf (a.map fun x => s * x + t) c sdist =
      s * halfWidth tppf nppf a c sdist := by
    unfold halfWidth
    rw [npStd_affine a hne s t hpos.le, List.length_map]; ring
  rw [this]
  congr 2 <;> ring

/-- **C06 is false of the code** for constant samples with `sdist='normal'`: the interval is
`(nan, nan)`, which does not contain the mean. -/
theorem C06_normal_constant (x c : ℝ) (n : ℕ) (h0 : 0 ≤ c) (h1 : c ≤ 1) :
    confidenceInterval tppf nppf (List.replicate n x) c "normal" = .ok .nan := by
  have hstd : npStd (List.replicate n x) = 0 := by
    unfold npStd
    by_cases hn : n = 0
    · subst hn; simp
    · have hm : npMean (List.replicate n x) = x := by
        unfold npMean
        have : (n : ℝ) ≠ 0 := by exact_mod_cast hn
        simp only [List.sum_replicate, List.length_replicate, nsmul_eq_mul]
        field_simp
      rw [hm, List.map_replicate]; simp
  simp [confidenceInterval, h0, h1, hstd]

/-- **C06** with confidence one: the whole line, which contains every interval; for a constant sample `(nan, nan)` with both distributions. -/
theorem C06_full_confidence_partial (a : List ℝ) (hn : 2 ≤ a.length) (sdist : String) (hs : sdist = "t" ∨ sdist = "normal") :
    ((∃ x ∈ a, ∃ y ∈ a, x ≠ y) → confidenceInterval tppf nppf a 1 sdist = .ok .all) ∧
    (∀ x, a = List.replicate a.length x → confidenceInterval tppf nppf a 1 sdist = .ok .nan) := by
  have hl : 0 < Real.sqrt a.length := Real.sqrt_pos.mpr (by exact_mod_cast (by omega : 0 < a.length))
  have h01 : (0 : ℝ) ≤ 1 ∧ (1 : ℝ) ≤ 1 := by norm_num
  constructor
  · intro h
    have hpos : 0 < npStd a / Real.sqrt a.length := div_pos (npStd_pos a hn h) hl
    rcases hs with rfl | rfl
    · simp [confidenceInterval, hpos, show ¬ a.length < 2 by omega]
    · simp [confidenceInterval, hpos, show ¬ a.length < 2 by omega]
  · intro x hx
    have hstd : npStd a = 0 := by
      have hm : npMean a = x := by
        unfold npMean
        have hne : (a.length : ℝ) ≠ 0 := by
          have : a.length ≠ 0 := by omega
          exact_mod_cast this
        rw [hx]
        simp only [List.sum_replicate, List.length_replicate, nsmul_eq_mul]
        field_simp
      unfold npStd
      rw [hm, hx, List.map_replicate]; simp
    rcases hs with rfl | rfl
    · simp [confidenceInterval, hstd, show ¬ a.length < 2 by omega]
    · simp [confidenceInterval, hstd, show ¬ a.length < 2 by omega]

/-- **C06**: rejected arguments. -/
theorem C06_rejects (a : List ℝ) (c : ℝ) (sdist : String) :
    (¬ (0 ≤ c ∧ c ≤ 1) → confidenceInterval tppf nppf a c sdist = .error .assertion) ∧
    (0 ≤ c ∧ c ≤ 1 → sdist ≠ "t" → sdist ≠ "normal" →
      confidenceInterval tppf nppf a c sdist = .error .value) := by
  constructor
  · intro h; simp [confidenceInterval, h]
  · intro h h1 h2; simp [confidenceInterval, h, h1, h2]

/-- **C06**: the exact interval.  With `n` values and mean `mu`, the half width is the quantile at
`(1 + c) / 2` times the standard error `sqrt (Σ (x - mu)² / (n (n - 1)))`; the Student quantile has
`n - 1` degrees of freedom. -/
theorem C06_width_partial (hq : SymQuantile nppf) (a : List ℝ) (hn : 2 ≤ a.length) (c : ℝ)
    (h0 : 0 ≤ c) (h1 : c < 1) (mu se : ℝ) (hmu : mu * a.length = a.sum) (hse0 : 0 ≤ se)
    (hse : se ^ 2 * (a.length * (a.length - 1)) = (a.map fun x => (x - mu) ^ 2).sum) :
    confidenceInterval tppf nppf a c "t" =
        .ok (.fin (mu - tppf ((1 + c) / 2) (a.length - 1) * se)
          (mu + tppf ((1 + c) / 2) (a.length - 1) * se)) ∧
      ((∃ x ∈ a, ∃ y ∈ a, x ≠ y) → confidenceInterval tppf nppf a c "normal" =
        .ok (.fin (mu - nppf ((1 + c) / 2) * se) (mu + nppf ((1 + c) / 2) * se))) := by
  have hl : (2 : ℝ) ≤ a.length := by exact_mod_cast hn
  have hm : npMean a = mu := by
    unfold npMean; rw [← hmu]; field_simp
  have hs : npStd a / Real.sqrt a.length = se := by
    unfold npStd
    rw [hm, ← hse, ← Real.sqrt_div' _ (by linarith)]
    have : se ^ 2 * (a.length * (a.length - 1)) / ((a.length : ℝ) - 1) / a.length = se ^ 2 := by
      have : (a.length : ℝ) - 1 ≠ 0 := by linarith
      field_simp
    rw [this, Real.sqrt_sq hse0]
  constructor
  · rw [ci_eq hq a hn c h0 h1 "t" (Or.inl rfl), hm]
    simp [halfWidth, hs]
  · intro hne
    rw [ci_eq hq a hn c h0 h1 "normal" (Or.inr ⟨rfl, hne⟩), hm]
    simp [halfWidth, hs]

example (q : ℝ → ℝ) (hq : SymQuantile q) : confidenceInterval (fun p df => p / df) q [1, 3] (1/2) "t" =
    .ok (.fin (2 - 3 / 4) (2 + 3 / 4)) := by
  rw [(C06_width_partial hq [1, 3] (by simp) (1/2) (by norm_num) (by norm_num) 2 1 (by norm_num)
    (by norm_num) (by norm_num)).1]
  norm_num

/-- Non-vacuity of the quantile hypotheses: the quantile of the uniform distribution on
(-1/2, 1/2). -/
example : SymQuantile fun p => p - 1 / 2 :=
  ⟨fun p p' _ h _ => by linarith, fun p _ _ => by ring⟩

example : ∃ lo hi, confidenceInterval (fun p _ => p - 1/2) (fun p => p - 1/2) [1, 3] (1/2) "t" =
    .ok (.fin lo hi) ∧ lo ≤ 2 ∧ 2 ≤ hi := by
  have hq : SymQuantile fun p => p - 1 / 2 :=
    ⟨fun p p' _ h _ => by linarith, fun p _ _ => by ring⟩
  obtain ⟨lo, hi, _, _, h, _, _, h2, h3, _⟩ := C06_centred_nested_partial (fun _ => hq) hq [1, 3]
    (by simp) (1/2) (1/2) (by norm_num) (le_refl _) (by norm_num) "t" (Or.inl rfl)
  norm_num at h2 h3
  exact ⟨lo, hi, h, h2, h3⟩

end Primate
