import Verif.Lemmas.SpecialFl
import Verif.Props.FunFl
import Verif.Props.CovFl
import Verif.Props.HutchFl

/-!
# C159: the functions of `special.py` in rounded arithmetic
-/

noncomputable section

namespace Primate

open Spec Finset

variable {φ : Fmt} {fl : ℝ → ℝ} {K : SpecialKernels}

/-- The width of the step: the distance of the ends, or one if they coincide. -/
def Spec.stepWidth (a b : ℝ) : ℝ := if a ≠ b then b - a else 1

theorem stepWidth_ne (a b : ℝ) : stepWidth a b ≠ 0 := by
  unfold stepWidth
  split_ifs with h
  · exact sub_ne_zero.2 (Ne.symm h)
  · exact one_ne_zero

theorem width_near (hn : φ.Nearest fl) (h : SmallOk φ) {a b : ℝ} (ha : φ.Mem a) (hb : φ.Mem b) (hab : |b - a| ≤ φ.top) :
    |(if a ≠ b then fl (b - a) else 1) - stepWidth a b| ≤ φ.u * |stepWidth a b| := by
  unfold stepWidth
  split_ifs with h1
  · exact hn.err_sub h.exp hb ha hab
  · have := φ.u_pos
    simp only [sub_self, abs_zero, abs_one, mul_one]
    exact this.le

/-- The quotient does not overflow. -/
theorem quotient_le (hn : φ.Nearest fl) (h : SmallOk φ) {x a d d' : ℝ} (hd : d ≠ 0) (hd' : |d' - d| ≤ φ.u * |d|) (hx : |x - a| ≤ φ.top)
    (hx2 : 2 * |x - a| + 1 ≤ φ.top * |d|) : |fl (x - a) / d'| ≤ φ.top := by
  have hu1 := h.u
  have he1 := h.eta
  have hdp : 0 < |d| := abs_pos.2 hd
  have hd2 : 63 / 64 * |d| ≤ |d'| := by
    have := abs_sub_abs_le_abs_sub d d'
    rw [abs_sub_comm] at this
    nlinarith
  have h1 := hn.err h.exp hx
  have h2 := abs_sub_abs_le_abs_sub (fl (x - a)) (x - a)
  have h3 : φ.u * |x - a| ≤ 1 / 64 * |x - a| := mul_le_mul_of_nonneg_right hu1 (abs_nonneg _)
  rw [abs_div, div_le_iff₀ (by linarith)]
  have h4 : φ.top * (63 / 64 * |d|) ≤ φ.top * |d'| := mul_le_mul_of_nonneg_left hd2 φ.top_nonneg
  have h5 := abs_nonneg (x - a)
  linarith

/-- **C159**, `smoothstep`: the computed value differs from the exact one by at most 27 units of roundoff (and multiples of the least positive number), wherever `x` is. -/
theorem C159_smoothstep (hn : φ.Nearest fl) (h : SmallOk φ) (hp : PowOk φ K.pow) (a b : ℝ) (ha : φ.Mem a) (hb : φ.Mem b) (hab : |b - a| ≤ φ.top)
    (hw : φ.eta ≤ 1 / 8 * |stepWidth a b|) (deg : ℤ) (hdeg : deg % 2 = 1) :
    ∃ f g, smoothstepFl fl K a b deg = .ok f ∧ smoothstep a b deg = .ok g ∧
      ∀ x, |x - a| ≤ φ.top → 2 * |x - a| + 1 ≤ φ.top * |stepWidth a b| →
        |f x - g x| ≤ 27 * φ.u + 3 * (φ.eta / |stepWidth a b|) + 12 * φ.eta := by
  refine ⟨_, _, by unfold smoothstepFl; rw [if_neg (not_not.2 hdeg)], by unfold smoothstep; rw [if_neg (not_not.2 hdeg)], ?_⟩
  intro x hx hx2
  have hd := width_near hn h ha hb hab
  have hd0 := stepWidth_ne a b
  have hdp : 0 < |stepWidth a b| := abs_pos.2 hd0
  have hq := quotient_le hn h hd0 hd hx hx2
  have h1 := quotient_near hn h hd0 hd hx hq
  change |_ - (3 * npClipR ((x - a) / stepWidth a b) 0 1 ^ 2 - 2 * npClipR ((x - a) / stepWidth a b) 0 1 ^ 3)| ≤ _
  set y := fl (fl (x - a) / if a ≠ b then fl (b - a) else 1)
  set w := (x - a) / stepWidth a b
  have hu := φ.u_pos
  have he := φ.eta_pos
  have hu1 := h.u
  have he1 := h.eta
  have hη : φ.eta / |stepWidth a b| ≤ 1 / 8 := by rw [div_le_iff₀ hdp]; exact hw
  have hη0 : 0 ≤ φ.eta / |stepWidth a b| := by positivity
  have h2 := clip_near (w := w) (y := y) (ω := 4 * φ.u) (κ := 2 * (φ.eta / |stepWidth a b|) + φ.eta) (by linarith) (by linarith) (by linarith) (by linarith)
    (by linarith)
  have c1 := clip_unit y
  have c2 := clip_unit w
  have h3 := cubic_lipschitz c1.1 c1.2 c2.1 c2.2
  have h4 := cubic_near hn h hp c1.1 c1.2
  have h5 := abs_sub_le (fl (fl (3 * fl (npClipR y 0 1 * npClipR y 0 1)) - fl (2 * K.pow 3 (npClipR y 0 1))))
    (3 * npClipR y 0 1 ^ 2 - 2 * npClipR y 0 1 ^ 3) (3 * npClipR w 0 1 ^ 2 - 2 * npClipR w 0 1 ^ 3)
  linarith

/-- C159, `smoothstep`: the computed function is exactly zero up to `a` and exactly one from `b` on. -/
theorem C159_plateaus (hn : φ.Nearest fl) (h : SmallOk φ) (hp : PowOk φ K.pow) (a b : ℝ) (ha : φ.Mem a) (hb : φ.Mem b) (hab : a < b) (hab2 : b - a ≤ φ.top)
    (deg : ℤ) (hdeg : deg % 2 = 1) :
    ∃ f, smoothstepFl fl K a b deg = .ok f ∧ ∀ x, |x - a| ≤ φ.top → 2 * |x - a| + 1 ≤ φ.top * (b - a) → (x ≤ a → f x = 0) ∧ (b ≤ x → f x = 1) := by
  refine ⟨_, by unfold smoothstepFl; rw [if_neg (not_not.2 hdeg)], ?_⟩
  intro x hx hx2
  have hba : |b - a| = b - a := abs_of_pos (by linarith)
  have hsw : stepWidth a b = b - a := by unfold stepWidth; rw [if_pos hab.ne]
  have hd := width_near hn h ha hb (by rw [hba]; exact hab2)
  have hd0 := stepWidth_ne a b
  have hq := quotient_le hn h hd0 hd hx (by rw [hsw, hba]; exact hx2)
  rw [if_pos hab.ne, hsw, hba] at hd
  rw [if_pos hab.ne] at hq
  have hu1 := h.u
  have ht := h.four_le_top
  have hd' : 0 < fl (b - a) := by
    have := (abs_le.1 hd).1
    have : φ.u * (b - a) ≤ 1 / 64 * (b - a) := mul_le_mul_of_nonneg_right hu1 (by linarith)
    linarith
  have hz := hn.zero h.exp
  have h1 := hn.eq_self h.one
  have h3 := hn.eq_self h.three
  have h2 := hn.eq_self h.two
  rw [if_pos hab.ne]
  constructor
  · intro hxa
    have s0 : fl (x - a) ≤ 0 := by
      have := hn.mono hx (y := 0) (by rw [abs_zero]; linarith) (by linarith)
      rwa [hz] at this
    have y0 : fl (fl (x - a) / fl (b - a)) ≤ 0 := by
      have := hn.mono hq (y := 0) (by rw [abs_zero]; linarith) (div_nonpos_of_nonpos_of_nonneg s0 hd'.le)
      rwa [hz] at this
    have hc : npClipR (fl (fl (x - a) / fl (b - a))) 0 1 = 0 := by
      unfold npClipR
      rw [max_eq_right y0, min_eq_left zero_le_one]
    simp only [hc]
    rw [hp.zero 3 (by norm_num)]
    simp [hz]
  · intro hbx
    have s1 : fl (b - a) ≤ fl (x - a) := hn.mono (by rw [hba]; exact hab2) hx (by linarith)
    have y1 : 1 ≤ fl (fl (x - a) / fl (b - a)) := by
      have := hn.mono (x := 1) (by rw [abs_one]; linarith) hq (by rw [one_le_div hd']; exact s1)
      rwa [h1] at this
    have hc : npClipR (fl (fl (x - a) / fl (b - a))) 0 1 = 1 := by
      unfold npClipR
      rw [max_eq_left (by linarith), min_eq_right y1]
    simp only [hc]
    rw [hp.one 3]
    norm_num [h1, h2, h3]

/-- **C159**, `softsign`: the error of the computed value is at most of the order `q²` units of roundoff; its sign is right, and it is exact at zero and outside the unit interval. -/
theorem C159_softsign (hn : φ.Nearest fl) (h : SmallOk φ) (hp : PowOk φ K.pow) (hs : ∀ xs, xs ≠ [] → SumOrder fl xs (K.sum xs)) (q : ℕ)
    (hq : (q + 1) * φ.u ≤ 1 / 32) (htop : 2 * ((q : ℝ) + 1) ≤ φ.top) (x : ℝ) :
    |softsignFl fl K q x - softsign q x| ≤ (q + 1) * (4 * q + 6) * (φ.u + φ.eta) ∧ (0 ≤ x → 0 ≤ softsignFl fl K q x) ∧
      (x = 0 → softsignFl fl K q x = 0) ∧ (1 ≤ x → softsignFl fl K q x = 1) ∧ (x ≤ -1 → softsignFl fl K q x = -1) := by
  have hu := φ.u_pos
  have he := φ.eta_pos
  have hqn : ((q : ℤ) + 1).toNat = q + 1 := by omega
  have hq0 : (0 : ℝ) ≤ q := Nat.cast_nonneg q
  unfold softsignFl softsign
  simp only [hqn, Nat.add_one_ne_zero, if_false]
  obtain ⟨z, hz⟩ : ∃ z, z = npClipR x (-1) 1 := ⟨_, rfl⟩
  have hzx : |z| ≤ 1 := by rw [hz]; exact clip_abs x
  rw [← hz]
  have hT := fun k => softTerm_near hn h hp hzx k
  set L := (List.range (q + 1)).map (softTermFl fl K z) with hL
  have hne : L ≠ [] := by simp [hL]
  have hso := hs L hne
  have hlen : L.length = q + 1 := by simp [hL]
  have hmem : ∀ y ∈ L, φ.Mem y := by
    intro y hy
    obtain ⟨k, -, rfl⟩ := List.mem_map.1 hy
    exact (hT k).1
  have habs : (L.map abs).sum ≤ (q + 1) * (5 / 4) := by
    have := List.sum_le_card_nsmul (L.map abs) (5 / 4) (by
      intro y hy
      obtain ⟨w, hw, rfl⟩ := List.mem_map.1 hy
      obtain ⟨k, -, rfl⟩ := List.mem_map.1 hw
      exact (hT k).2.2.1)
    rw [List.length_map, hlen, nsmul_eq_mul] at this
    push_cast at this
    exact this
  have habs0 := sum_abs_nonneg L
  have hpw := pow_one_add_le' hu.le (q + 1) (by push_cast; exact hq)
  have htop' : (1 + φ.u) ^ L.length * (L.map abs).sum ≤ φ.top := by
    rw [hlen]
    have : (1 + φ.u) ^ (q + 1) ≤ 17 / 16 := by
      refine hpw.trans ?_
      push_cast
      linarith
    have := mul_le_mul this habs habs0 (by norm_num)
    linarith
  obtain ⟨-, hse⟩ := hso.err hn h.exp hmem htop'
  have hfz : ∀ c : ℝ, c = 0 ∨ (c ≠ 0 ∧ c * c = 1) → z = c → φ.Mem c → L.filter (fun x => x ≠ 0) = if c = 0 then [] else [c] := by
    intro c hc hzc hcm
    have hfz := hn.zero h.exp
    have hf1 := hn.eq_self h.one
    rcases hc with rfl | ⟨c0, cc⟩
    · rw [if_pos rfl, List.filter_eq_nil_iff]
      intro y hy
      obtain ⟨k, -, rfl⟩ := List.mem_map.1 hy
      simp [softTermFl, hzc, hfz]
    · rw [if_neg c0, hL, List.range_succ_eq_map, List.map_cons, List.filter_cons]
      have e0 : softTermFl fl K z 0 = c := by
        unfold softTermFl
        rw [hzc, cc, hf1, sub_self, hfz, hp.zero_exp 0 le_rfl zero_le_one, mul_one, softJFl, mul_one, hn.eq_self hcm, hn.eq_self hcm]
      rw [e0, if_pos (by simpa using c0), List.filter_eq_nil_iff.2]
      intro y hy
      obtain ⟨k, hk, rfl⟩ := List.mem_map.1 hy
      obtain ⟨j, -, rfl⟩ := List.mem_map.1 hk
      simp [softTermFl, hzc, cc, hf1, hfz, hp.zero (j + 1) (by omega)]
  refine ⟨?_, ?_, ?_, ?_, ?_⟩
  · have hsum : |L.sum - ∑ k ∈ range (q + 1), z * (1 - z ^ 2) ^ k * softJ k| ≤ (q + 1) * (2 * q + 6) * (φ.u + φ.eta) := by
      have e1 : L.sum = ∑ k ∈ range (q + 1), softTermFl fl K z k := by
        rw [hL]
        rfl
      rw [e1, ← Finset.sum_sub_distrib]
      refine (Finset.abs_sum_le_sum_abs _ _).trans ((Finset.sum_le_sum fun k _ => (hT k).2.2.2).trans (le_of_eq ?_))
      rw [← Finset.sum_mul]
      congr 1
      clear * -
      induction q with
      | zero => simp
      | succ q ih => rw [Finset.sum_range_succ, ih]; push_cast; ring
    have hpw2 := pow_one_add_le' hu.le q (by nlinarith)
    rw [hlen, Nat.add_sub_cancel] at hse
    have hqu : 0 ≤ q * φ.u := mul_nonneg hq0 hu.le
    have h1 : ((1 + φ.u) ^ q - 1) * (L.map abs).sum ≤ 17 / 16 * (q * φ.u) * ((q + 1) * (5 / 4)) :=
      mul_le_mul (by linarith) habs habs0 (by linarith)
    have h2 := abs_sub_le (K.sum L) L.sum (∑ k ∈ range (q + 1), z * (1 - z ^ 2) ^ k * softJ k)
    have h3 : 0 ≤ (q + 1) * (q * φ.u) := mul_nonneg (by linarith) hqu
    have h4 : 0 ≤ (q + 1) * (q * φ.eta) := mul_nonneg (by linarith) (mul_nonneg hq0 he.le)
    nlinarith
  · intro hx
    have hz0 : 0 ≤ z := by rw [hz]; exact le_min (le_max_of_le_left hx) zero_le_one
    refine hso.nonneg hn h.exp hmem ?_ htop'
    intro y hy
    obtain ⟨k, -, rfl⟩ := List.mem_map.1 hy
    exact (hT k).2.1 hz0
  · intro hx
    have hz0 : z = 0 := by rw [hz, hx]; unfold npClipR; norm_num
    exact (SumOrder.only hn h.exp h.one hso).1 (by simpa using hfz 0 (Or.inl rfl) hz0 (Fmt.mem_zero h.exp))
  · intro hx
    have hz0 : z = 1 := by rw [hz]; unfold npClipR; rw [max_eq_left (by linarith), min_eq_right hx]
    exact (SumOrder.only hn h.exp h.one hso).2 (by simpa using hfz 1 (Or.inr (by norm_num)) hz0 h.one)
  · intro hx
    have hz0 : z = -1 := by rw [hz]; unfold npClipR; rw [max_eq_right hx]; norm_num
    exact (SumOrder.only hn h.exp h.one.neg hso).2 (by simpa using hfz (-1) (Or.inr (by norm_num)) hz0 h.one.neg)

/-- `softsign` with a negative `q` is zero, as in exact arithmetic. -/
theorem C159_negative_q (q : ℤ) (hq : q < 0) (x : ℝ) : softsignFl fl K q x = 0 := by
  unfold softsignFl
  rw [if_pos (by omega)]

/-- What is assumed of a function of the C library: a relative error of at most `ε`. -/
def Spec.LibmOk (φ : Fmt) (ε : ℝ) (f F : ℝ → ℝ) (D : Set ℝ) : Prop := ∀ x ∈ D, |f x - F x| ≤ ε * |F x| + φ.eta

/-- **C159**, `param_callable`: rounding changes neither the names accepted nor the exceptions raised. -/
theorem C159_errors (top : ℝ) (fl : ℝ → ℝ) (K : SpecialKernels) (fun_ : FunArg) (kw : String → Option ℝ) (e : PyErr) :
    paramCallableFl top fl K fun_ kw = .error e ↔ paramCallable fun_ kw = .error e := by
  cases fun_ with
  | none => simp [paramCallableFl, paramCallable]
  | callable f => simp [paramCallableFl, paramCallable]
  | other => simp [paramCallableFl, paramCallable]
  | str s =>
    by_cases hs : s ∈ BUILTIN_MATRIX_FUNCTIONS
    · have h3 : ¬ ((3 : ℤ) % 2 ≠ 1) := by norm_num
      simp only [BUILTIN_MATRIX_FUNCTIONS, List.mem_cons, List.not_mem_nil, or_false] at hs
      rcases hs with rfl | rfl | rfl | rfl | rfl | rfl | rfl | rfl <;>
        simp [paramCallableFl, paramCallable, BUILTIN_MATRIX_FUNCTIONS, smoothstepFl, smoothstep]
    · simp only [paramCallableFl, paramCallable, if_pos hs]

/-- C159: `identity`, `abs`, `numrank` and callables are not affected by rounding. -/
theorem C159_exact (top : ℝ) (fl : ℝ → ℝ) (K : SpecialKernels) (kw : String → Option ℝ) :
    (∀ s ∈ ["identity", "abs", "numrank"], paramCallableFl top fl K (.str s) kw = paramCallable (.str s) kw) ∧
    paramCallableFl top fl K .none kw = paramCallable .none kw ∧
    ∀ f, paramCallableFl top fl K (.callable f) kw = paramCallable (.callable f) kw := by
  refine ⟨?_, rfl, fun f => rfl⟩
  intro s hs
  simp only [List.mem_cons, List.not_mem_nil, or_false] at hs
  rcases hs with rfl | rfl | rfl <;> simp [paramCallableFl, paramCallable, BUILTIN_MATRIX_FUNCTIONS]

/-- C159: `param_callable` passes the keywords `a` and `b` to `smoothstep`, with the bound of `C159_smoothstep`. -/
theorem C159_keywords (hn : φ.Nearest fl) (h : SmallOk φ) (hp : PowOk φ K.pow) (top : ℝ) (kw : String → Option ℝ) (a b : ℝ) (hka : (kw "a").getD 0 = a)
    (hkb : (kw "b").getD 1 = b) (ha : φ.Mem a) (hb : φ.Mem b) (hab : |b - a| ≤ φ.top) (hw : φ.eta ≤ 1 / 8 * |stepWidth a b|) :
    ∃ f g, paramCallableFl top fl K (.str "smoothstep") kw = .ok f ∧ paramCallable (.str "smoothstep") kw = .ok g ∧
      ∀ x, |x - a| ≤ φ.top → 2 * |x - a| + 1 ≤ φ.top * |stepWidth a b| →
        ∃ y z, f x = .fin y ∧ g x = .fin z ∧ |y - z| ≤ 27 * φ.u + 3 * (φ.eta / |stepWidth a b|) + 12 * φ.eta := by
  obtain ⟨f, g, hf, hg, hfg⟩ := C159_smoothstep hn h hp a b ha hb hab hw 3 (by norm_num)
  refine ⟨fun x => .fin (f x), fun x => .fin (g x), ?_, ?_, fun x h1 h2 => ⟨f x, g x, rfl, rfl, hfg x h1 h2⟩⟩
  · simp [paramCallableFl, BUILTIN_MATRIX_FUNCTIONS, hka, hkb, hf]
  · simp [paramCallable, BUILTIN_MATRIX_FUNCTIONS, hka, hkb, hg]

/-- C159: `sqrt` and `inv` are correctly rounded where the result is a number, with NaN and infinity as in exact arithmetic. -/
theorem C159_sqrt_inv (hn : φ.Nearest fl) (h : SmallOk φ) (kw : String → Option ℝ) :
    (∃ f, paramCallableFl φ.top fl K (.str "sqrt") kw = .ok f ∧ (∀ x < 0, f x = .nan) ∧
      ∀ x, 0 ≤ x → x ≤ φ.top → ∃ y, f x = .fin y ∧ |y - Real.sqrt x| ≤ φ.u * Real.sqrt x + φ.eta) ∧
    (∃ f, paramCallableFl φ.top fl K (.str "inv") kw = .ok f ∧ f 0 = .pinf ∧
      (∀ x, φ.top < 1 / x → f x = .pinf) ∧ (∀ x, φ.top < - (1 / x) → f x = .ninf) ∧
      ∀ x, x ≠ 0 → |1 / x| ≤ φ.top → ∃ y, f x = .fin y ∧ |y - 1 / x| ≤ φ.u * |1 / x| + φ.eta) := by
  have ht := h.four_le_top
  constructor
  · refine ⟨_, by simp [paramCallableFl, BUILTIN_MATRIX_FUNCTIONS]; rfl, fun x hx => if_pos hx, fun x h0 h1 => ⟨_, if_neg (not_lt.2 h0), ?_⟩⟩
    have hs0 := Real.sqrt_nonneg x
    have := hn.err h.exp (x := Real.sqrt x) (by
      rw [abs_of_nonneg hs0, Real.sqrt_le_left (by linarith)]
      nlinarith)
    rwa [abs_of_nonneg hs0] at this
  · refine ⟨_, by simp [paramCallableFl, BUILTIN_MATRIX_FUNCTIONS]; rfl, ?_, ?_, ?_, ?_⟩
    · simp [flDiv, Fl.divFin]
    · intro x hx
      have hx0 : x ≠ 0 := by rintro rfl; norm_num at hx; linarith
      have hp : 0 < 1 / x := by linarith
      simp only [flDiv]
      rw [if_neg hx0, if_pos (by rw [abs_of_pos hp]; exact hx), if_pos hp]
    · intro x hx
      have hx0 : x ≠ 0 := by rintro rfl; norm_num at hx; linarith
      have hp : 1 / x < 0 := by linarith
      simp only [flDiv]
      rw [if_neg hx0, if_pos (by rw [abs_of_neg hp]; exact hx), if_neg (by linarith)]
    · intro x hx hx1
      refine ⟨fl (1 / x), ?_, hn.err h.exp hx1⟩
      simp only [flDiv]
      rw [if_neg hx, if_neg (not_lt.2 hx1)]

/-- C159: `log` has the accuracy of the C library; the error of `exp` grows with the size of the argument, since the product with `t` is rounded. -/
theorem C159_exp_log (hn : φ.Nearest fl) (he : φ.emin ≤ φ.emax) (ε : ℝ) (hε : 0 ≤ ε) (kw : String → Option ℝ) :
    (LibmOk φ ε K.log Real.log {x | eps64 ≤ x} → ∃ f, paramCallableFl φ.top fl K (.str "log") kw = .ok f ∧
      ∀ x, ∃ y, f x = .fin y ∧ |y - Real.log (max x eps64)| ≤ ε * |Real.log (max x eps64)| + φ.eta) ∧
    (∀ X, LibmOk φ ε K.exp Real.exp {x | |x| ≤ X + 1} → X ≤ φ.top → φ.u * X + φ.eta ≤ 1 → ∃ f, paramCallableFl φ.top fl K (.str "exp") kw = .ok f ∧
      ∀ x, |(kw "t").getD 1 * x| ≤ X → ∃ y, f x = .fin y ∧
        |y - Real.exp ((kw "t").getD 1 * x)| ≤ (ε + 2 * (1 + ε) * (φ.u * X + φ.eta)) * Real.exp ((kw "t").getD 1 * x) + φ.eta) := by
  constructor
  · intro hl
    refine ⟨_, by simp [paramCallableFl, BUILTIN_MATRIX_FUNCTIONS]; rfl, fun x => ⟨_, rfl, ?_⟩⟩
    exact hl _ (show eps64 ≤ max x eps64 from le_max_right _ _)
  · intro X hl hX hX1
    refine ⟨_, by simp [paramCallableFl, BUILTIN_MATRIX_FUNCTIONS]; rfl, fun x hx => ⟨_, rfl, ?_⟩⟩
    have hu := φ.u_pos
    unfold expFl
    set p := (kw "t").getD 1 * x
    have h1 := hn.err he (x := p) (hx.trans hX)
    have h2 : φ.u * |p| ≤ φ.u * X := mul_le_mul_of_nonneg_left hx hu.le
    set δ := φ.u * X + φ.eta
    have h3 : |fl p - p| ≤ δ := by linarith
    have h4 := hl (fl p) (show |fl p| ≤ X + 1 by
      have := abs_sub_abs_le_abs_sub (fl p) p
      linarith)
    rw [abs_of_pos (Real.exp_pos _)] at h4
    have hep := Real.exp_pos p
    have h5 : |Real.exp (fl p) - Real.exp p| ≤ 2 * δ * Real.exp p := by
      have e : Real.exp (fl p) - Real.exp p = (Real.exp (fl p - p) - 1) * Real.exp p := by
        rw [sub_mul, ← Real.exp_add, one_mul, sub_add_cancel]
      rw [e, abs_mul, abs_of_pos hep]
      refine mul_le_mul_of_nonneg_right ?_ hep.le
      have := Real.abs_exp_sub_one_le (x := fl p - p) (h3.trans hX1)
      linarith
    have h6 : Real.exp (fl p) ≤ (1 + 2 * δ) * Real.exp p := by linarith [(abs_le.1 h5).2]
    have h7 := mul_le_mul_of_nonneg_left h6 hε
    have h8 := abs_sub_le (K.exp (fl p)) (Real.exp (fl p)) (Real.exp p)
    linarith

/-- C159 for matrices: the function computed by `smoothstep`, applied to a symmetric matrix with its eigenvalues in range, changes quadratic forms by at most
27 units of roundoff times `|v|²` (and multiples of the least positive number). -/
theorem C159_matrix (hn : φ.Nearest fl) (h : SmallOk φ) (hp : PowOk φ K.pow) (a b : ℝ) (ha : φ.Mem a) (hb : φ.Mem b) (hab : |b - a| ≤ φ.top)
    (hw : φ.eta ≤ 1 / 8 * |stepWidth a b|) {n : ℕ} (A : Matrix (Fin n) (Fin n) ℝ) (lam : Fin n → ℝ) (U : Matrix (Fin n) (Fin n) ℝ) (hU : Eigen A lam U)
    (hl : ∀ i, |lam i - a| ≤ φ.top ∧ 2 * |lam i - a| + 1 ≤ φ.top * |stepWidth a b|) :
    ∃ f g, smoothstepFl fl K a b 3 = .ok f ∧ smoothstep a b 3 = .ok g ∧
      ∀ v : Vec n, |quadForm (matFun lam U f) v - quadForm (matFun lam U g) v| ≤
        (27 * φ.u + 3 * (φ.eta / |stepWidth a b|) + 12 * φ.eta) * nrm v ^ 2 := by
  obtain ⟨f, g, h1, h2, h3⟩ := C159_smoothstep hn h hp a b ha hb hab hw 3 (by norm_num)
  exact ⟨f, g, h1, h2, fun v => C144_quadForm (A := A) lam U hU f g _ (fun i => h3 _ (hl i).1 (hl i).2) v⟩

/-! ## A concrete case -/

theorem binary64_small : SmallOk binary64 := by
  refine ⟨fun m hm => ?_, ?_, ?_⟩
  · exact Fmt.mem_int (by norm_num [binary64]) (by norm_num [binary64]) (by norm_num [binary64]) m (hm.trans (by norm_num [binary64]))
  · have : binary64.u = (2 : ℝ) ^ (-53 : ℤ) := rfl
    rw [this]; norm_num
  · have : binary64.eta = (2 : ℝ) ^ (-1075 : ℤ) := rfl
    rw [this]
    exact (zpow_le_zpow_right₀ (by norm_num) (show (-1075 : ℤ) ≤ -6 by norm_num)).trans (by norm_num)

/-- Correctly rounded powers satisfy the assumption. -/
theorem powOk_round (hn : φ.Nearest fl) (h : SmallOk φ) : PowOk φ fun k t => fl (t ^ k) := by
  have ht := h.four_le_top
  have hb : ∀ k (t : ℝ), 0 ≤ t → t ≤ 1 → |t ^ k| ≤ φ.top := fun k t h0 h1 => by
    rw [abs_of_nonneg (pow_nonneg h0 k)]
    linarith [pow_le_one₀ h0 h1 (n := k)]
  refine ⟨fun k t h0 h1 => (hn _ (hb k t h0 h1)).1, fun k t h0 h1 => (fl_unit hn h (pow_nonneg h0 k) (pow_le_one₀ h0 h1)).1, fun k t h0 h1 => ?_, fun t h0 h1 => ?_, fun k hk => ?_,
    fun k => ?_⟩
  · have := hn.err h.exp (hb k t h0 h1)
    rw [abs_of_nonneg (pow_nonneg h0 k)] at this
    have := φ.u_pos
    have := φ.eta_pos
    have : 0 ≤ φ.u * t ^ k := mul_nonneg φ.u_pos.le (pow_nonneg h0 k)
    linarith
  · rw [pow_zero]; exact hn.eq_self h.one
  · rw [zero_pow hk]; exact hn.zero h.exp
  · rw [one_pow]; exact hn.eq_self h.one

/-- `smoothstep` with its default arguments in double precision at 1/2: the exact value is 1/2, the computed one is within 1e-14, whatever the rounding to nearest. -/
example (fl : ℝ → ℝ) (hn : binary64.Nearest fl) :
    ∃ f, smoothstepFl fl ⟨fun k t => fl (t ^ k), List.sum, Real.exp, Real.log⟩ 0 1 3 = .ok f ∧ |f (1 / 2) - 1 / 2| ≤ 1e-14 ∧ f (-3) = 0 ∧ f 2 = 1 := by
  have hs := binary64_small
  have ht : (1024 : ℝ) ≤ binary64.top := by
    have h1 : (1 : ℝ) ≤ 2 ^ (971 : ℤ) := one_le_zpow₀ (by norm_num) (by norm_num)
    have h2 : binary64.top = (2 ^ 53 - 1) * (2 : ℝ) ^ (971 : ℤ) := rfl
    rw [h2]
    generalize (2 : ℝ) ^ (971 : ℤ) = z at h1
    linarith
  have m0 : binary64.Mem 0 := by simpa using hs.int 0 (by norm_num)
  have hw : stepWidth (0 : ℝ) 1 = 1 := by unfold stepWidth; norm_num
  obtain ⟨f, g, h1, h2, h3⟩ := C159_smoothstep (K := ⟨fun k t => fl (t ^ k), List.sum, Real.exp, Real.log⟩) hn hs (powOk_round hn hs) 0 1 m0 hs.one
    (by norm_num; linarith) (by
      rw [hw]
      have : binary64.eta = (2 : ℝ) ^ (-1075 : ℤ) := rfl
      rw [this, abs_one]
      exact (zpow_le_zpow_right₀ (by norm_num) (show (-1075 : ℤ) ≤ -6 by norm_num)).trans (by norm_num)) 3 (by norm_num)
  obtain ⟨f', h1', h4⟩ := C159_plateaus (K := ⟨fun k t => fl (t ^ k), List.sum, Real.exp, Real.log⟩) hn hs (powOk_round hn hs) 0 1 m0 hs.one (by norm_num)
    (by norm_num; linarith) 3 (by norm_num)
  obtain rfl : f' = f := Except.ok.inj (h1'.symm.trans h1)
  refine ⟨f', h1, ?_, (h4 (-3) (by norm_num; linarith) (by norm_num; linarith)).1 (by norm_num), (h4 2 (by norm_num; linarith) (by norm_num; linarith)).2 (by norm_num)⟩
  have h5 := h3 (1 / 2) (by rw [sub_zero, abs_of_pos (by norm_num)]; linarith) (by rw [hw, sub_zero, abs_one, abs_of_pos (by norm_num)]; linarith)
  have hg : g (1 / 2) = 1 / 2 := by
    have := h2
    unfold smoothstep at this
    norm_num at this
    rw [← this]
    norm_num [npClipR]
  have hu : binary64.u = (2 : ℝ) ^ (-53 : ℤ) := rfl
  have he : binary64.eta ≤ (2 : ℝ) ^ (-60 : ℤ) := by
    have : binary64.eta = (2 : ℝ) ^ (-1075 : ℤ) := rfl
    rw [this]
    exact zpow_le_zpow_right₀ (by norm_num) (by norm_num)
  rw [hg, hw, abs_one, div_one, hu] at h5
  refine h5.trans ?_
  norm_num at he ⊢
  linarith

/-- Powers and sums that meet the assumptions exist, and then `softsign(1/2, 1)`, which is 11/16, is computed within 1e-14. -/
example (fl : ℝ → ℝ) (hn : binary64.Nearest fl) :
    ∃ K : SpecialKernels, PowOk binary64 K.pow ∧ (∀ xs, xs ≠ [] → SumOrder fl xs (K.sum xs)) ∧ |softsignFl fl K 1 (1 / 2) - 11 / 16| ≤ 1e-14 := by
  classical
  have hs := binary64_small
  have hex : ∀ xs : List ℝ, ∃ s, xs ≠ [] → SumOrder fl xs s := fun xs => by
    by_cases h : xs = []
    · exact ⟨0, fun h' => absurd h h'⟩
    · obtain ⟨s, hs⟩ := SumOrder.exists (fl := fl) xs h
      exact ⟨s, fun _ => hs⟩
  choose sm hsm using hex
  refine ⟨⟨fun k t => fl (t ^ k), sm, Real.exp, Real.log⟩, powOk_round hn hs, hsm, ?_⟩
  have ht := hs.four_le_top
  have hu : binary64.u = (2 : ℝ) ^ (-53 : ℤ) := rfl
  have he : binary64.eta ≤ (2 : ℝ) ^ (-60 : ℤ) := by
    have : binary64.eta = (2 : ℝ) ^ (-1075 : ℤ) := rfl
    rw [this]
    exact zpow_le_zpow_right₀ (by norm_num) (by norm_num)
  have h1 := (C159_softsign (K := ⟨fun k t => fl (t ^ k), sm, Real.exp, Real.log⟩) hn hs (powOk_round hn hs) hsm 1
    (by rw [hu]; norm_num) (by norm_num; linarith) (1 / 2)).1
  have h2 := softsign_eq 1 (1 / 2) (by rw [abs_le]; norm_num)
  have h3 : softsign ((1 : ℕ) : ℤ) (1 / 2) = 11 / 16 := by
    rw [h2]
    norm_num [softP, sum_range_succ, softJ]
  rw [h3] at h1
  refine h1.trans ?_
  rw [hu]
  norm_num at he ⊢
  linarith

end Primate
