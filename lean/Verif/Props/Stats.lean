import Verif.Lemmas.Stats
import Verif.Prelude

/-! # Properties C01-C05: streaming mean and covariance -/

namespace Primate

variable {K : Type} [Field K] [CharZero K] {d : ℕ}

/-- **C01** (class `Mean`).  Whatever non-empty batches are supplied, the mean
reported is the sample mean of all observations and the count is their number. -/
theorem C01_mean (Xs : List (List (Fin d → K))) (hne : ∀ X ∈ Xs, X ≠ []) (hX : Xs ≠ []) :
    ∃ m, (Mean.init K d).updates (Xs.map fun X => .mat ⟨d, X⟩) = .ok m ∧
      m.n = Xs.flatten.length ∧ m.mean = .val (Spec.sampleMean Xs.flatten) := by
  obtain ⟨m, h, inv⟩ := (MeanInv.init (K := K) (d := d)).steps Xs hne
  simp only [List.nil_append] at inv
  have hf : Xs.flatten ≠ [] := by
    obtain ⟨X, Xs', rfl⟩ := List.exists_cons_of_ne_nil hX
    have := hne X (by simp)
    simp [this]
  refine ⟨m, h, inv.n, ?_⟩
  have : m.n ≠ 0 := by rw [inv.n]; exact (List.length_pos_iff.mpr hf).ne'
  simp [Mean.mean, this, inv.nan, inv.mean_eq hf]

/-- **C01** (class `Covariance`). -/
theorem C01_cov_mean (Xs : List (List (Fin d → K))) (hne : ∀ X ∈ Xs, X ≠ []) (hX : Xs ≠ []) :
    ∃ c, (Covariance.init K d).updates (Xs.map fun X => .mat ⟨d, X⟩) = .ok c ∧
      c.n = Xs.flatten.length ∧ c.mean = .val (Spec.sampleMean Xs.flatten) := by
  obtain ⟨c, h, inv⟩ := (CovInv.init (K := K) (d := d)).steps Xs hne
  simp only [List.nil_append] at inv
  have hf : Xs.flatten ≠ [] := by
    obtain ⟨X, Xs', rfl⟩ := List.exists_cons_of_ne_nil hX
    have := hne X (by simp)
    simp [this]
  refine ⟨c, h, inv.n, ?_⟩
  have : c.n ≠ 0 := by rw [inv.n]; exact (List.length_pos_iff.mpr hf).ne'
  simp [Covariance.mean, this, inv.nan, inv.mean_eq hf]

omit [CharZero K] in
/-- **C01**, boundary: before the first observation the mean is NaN. -/
theorem C01_initial : (Mean.init K d).mean = .nan ∧ (Covariance.init K d).mean = .nan := by
  simp [Mean.init, Covariance.init, Mean.mean, Covariance.mean]

/-- **C02**.  Whatever non-empty batches are supplied, `covariance(ddof)` is the
sample covariance of all observations with divisor `n - ddof`. -/
theorem C02_covariance (Xs : List (List (Fin d → K))) (hne : ∀ X ∈ Xs, X ≠ []) (ddof : ℤ)
    (hn : ddof < Xs.flatten.length) :
    ∃ c, (Covariance.init K d).updates (Xs.map fun X => .mat ⟨d, X⟩) = .ok c ∧
      c.covariance ddof = .ok (.val (Spec.sampleCov ddof Xs.flatten)) := by
  obtain ⟨c, h, inv⟩ := (CovInv.init (K := K) (d := d)).steps Xs hne
  simp only [List.nil_append] at inv
  exact ⟨c, h, inv.cov_eq ddof hn⟩

/-- **C02**, boundary: with at most `ddof` observations the covariance is infinite. -/
theorem C02_infinite (Xs : List (List (Fin d → K))) (hne : ∀ X ∈ Xs, X ≠ []) (ddof : ℤ)
    (hd : d ≠ 0) (hn : (Xs.flatten.length : ℤ) ≤ ddof) :
    ∃ c, (Covariance.init K d).updates (Xs.map fun X => .mat ⟨d, X⟩) = .ok c ∧
      c.covariance ddof = .ok .inf := by
  obtain ⟨c, h, inv⟩ := (CovInv.init (K := K) (d := d)).steps Xs hne
  simp only [List.nil_append] at inv
  refine ⟨c, h, ?_⟩
  unfold Covariance.covariance
  rw [if_pos (by rw [inv.n]; omega), if_neg hd]

omit [CharZero K] in
theorem sampleMean_perm {xs ys : List (Fin d → K)} (h : xs.Perm ys) :
    Spec.sampleMean xs = Spec.sampleMean ys := by
  funext i
  simp only [Spec.sampleMean, h.length_eq, (h.map fun x => x i).sum_eq]

omit [CharZero K] in
theorem sampleCov_perm {xs ys : List (Fin d → K)} (h : xs.Perm ys) (ddof : ℤ) :
    Spec.sampleCov ddof xs = Spec.sampleCov ddof ys := by
  funext i j
  simp only [Spec.sampleCov, sampleMean_perm h, h.length_eq]
  rw [(h.map fun x => (x i - Spec.sampleMean ys i) * (x j - Spec.sampleMean ys j)).sum_eq]

/-- **C03**.  Two histories supplying the same observations in any order and any
batching agree in count, mean and every covariance. -/
theorem C03_batching_and_order (Xs Ys : List (List (Fin d → K)))
    (hX : ∀ X ∈ Xs, X ≠ []) (hY : ∀ Y ∈ Ys, Y ≠ []) (hp : Xs.flatten.Perm Ys.flatten) :
    ∃ c c' m m',
      (Covariance.init K d).updates (Xs.map fun X => .mat ⟨d, X⟩) = .ok c ∧
      (Covariance.init K d).updates (Ys.map fun X => .mat ⟨d, X⟩) = .ok c' ∧
      (Mean.init K d).updates (Xs.map fun X => .mat ⟨d, X⟩) = .ok m ∧
      (Mean.init K d).updates (Ys.map fun X => .mat ⟨d, X⟩) = .ok m' ∧
      c.n = c'.n ∧ c.mean = c'.mean ∧ (∀ ddof, c.covariance ddof = c'.covariance ddof) ∧
      m.n = m'.n ∧ m.mean = m'.mean ∧ m.mean = c.mean := by
  obtain ⟨c, h, i⟩ := (CovInv.init (K := K) (d := d)).steps Xs hX
  obtain ⟨c', h', i'⟩ := (CovInv.init (K := K) (d := d)).steps Ys hY
  obtain ⟨m, g, j⟩ := (MeanInv.init (K := K) (d := d)).steps Xs hX
  obtain ⟨m', g', j'⟩ := (MeanInv.init (K := K) (d := d)).steps Ys hY
  simp only [List.nil_append] at i i' j j'
  have hl : c.n = c'.n := by rw [i.n, i'.n, hp.length_eq]
  have hl2 : m.n = m'.n := by rw [j.n, j'.n, hp.length_eq]
  have hl3 : m.n = c.n := by rw [j.n, i.n]
  refine ⟨c, c', m, m', h, h', g, g', hl, ?_, ?_, hl2, ?_, ?_⟩
  · unfold Covariance.mean
    rw [hl, i.nan, i'.nan]
    by_cases h0 : c'.n = 0
    · simp [h0]
    · have e1 : Ys.flatten ≠ [] := by
        intro e; rw [i'.n, e] at h0; simp at h0
      have e2 : Xs.flatten ≠ [] := by
        intro e; rw [e] at hp; exact e1 (by simpa using hp)
      rw [i.mean_eq e2, i'.mean_eq e1, sampleMean_perm hp]
  · intro ddof
    unfold Covariance.covariance
    rw [hl, i.nan, i'.nan]
    have : c.S = c'.S := by
      funext a b
      rw [i.S_eq, i'.S_eq, sampleMean_perm hp]
      exact (hp.map fun x => (x a - Spec.sampleMean Ys.flatten a) *
        (x b - Spec.sampleMean Ys.flatten b)).sum_eq
    rw [this]
  · unfold Mean.mean
    rw [hl2, j.nan, j'.nan]
    by_cases h0 : m'.n = 0
    · simp [h0]
    · have e1 : Ys.flatten ≠ [] := by
        intro e; rw [j'.n, e] at h0; simp at h0
      have e2 : Xs.flatten ≠ [] := by
        intro e; rw [e] at hp; exact e1 (by simpa using hp)
      rw [j.mean_eq e2, j'.mean_eq e1, sampleMean_perm hp]
  · unfold Mean.mean Covariance.mean
    rw [hl3, j.nan, i.nan]
    by_cases h0 : c.n = 0
    · simp [h0]
    · have e2 : Xs.flatten ≠ [] := by
        intro e; rw [i.n, e] at h0; simp at h0
      rw [j.mean_eq e2, i.mean_eq e2]

/-- **C04**.  The covariance returned after any history is symmetric positive
semi-definite. -/
theorem C04_covariance_psd (Xs : List (List (Fin d → ℝ))) (hne : ∀ X ∈ Xs, X ≠ []) (ddof : ℤ)
    (hn : ddof < Xs.flatten.length) :
    ∃ c C, (Covariance.init ℝ d).updates (Xs.map fun X => .mat ⟨d, X⟩) = .ok c ∧
      c.covariance ddof = .ok (.val C) ∧ C.transpose = C ∧
      ∀ w : Fin d → ℝ, 0 ≤ w ⬝ᵥ (C.mulVec w) := by
  obtain ⟨c, h, hc⟩ := C02_covariance Xs hne ddof hn
  refine ⟨c, _, h, hc, ?_, ?_⟩
  · funext i j
    simp only [Matrix.transpose_apply, Spec.sampleCov, mul_comm]
  · intro w
    set xs := Xs.flatten
    set N : ℝ := (((xs.length : ℤ) - ddof : ℤ) : ℝ) with hN
    have hNpos : 0 < N := by
      rw [hN]; exact_mod_cast (show (0:ℤ) < (xs.length : ℤ) - ddof by omega)
    have key : w ⬝ᵥ ((Spec.sampleCov ddof xs).mulVec w) =
        (xs.map fun x => (∑ i, w i * (x i - Spec.sampleMean xs i)) ^ 2).sum / N := by
      have hgen : ∀ (l : List (Fin d → ℝ)) (mu : Fin d → ℝ),
          (l.map fun x => (∑ i, w i * (x i - mu i)) ^ 2).sum =
          ∑ i, w i * ∑ j, (l.map fun x => (x i - mu i) * (x j - mu j)).sum * w j := by
        intro l mu
        induction l with
        | nil => simp
        | cons x l ih =>
          simp only [List.map_cons, List.sum_cons, ih, add_mul, Finset.sum_add_distrib, mul_add]
          congr 1
          rw [sq, Finset.sum_mul_sum]
          refine Finset.sum_congr rfl fun i _ => ?_
          rw [Finset.mul_sum]
          refine Finset.sum_congr rfl fun j _ => ?_
          ring
      rw [hgen, Finset.sum_div]
      simp only [dotProduct, Matrix.mulVec, Spec.sampleCov]
      refine Finset.sum_congr rfl fun i _ => ?_
      rw [mul_div_assoc, Finset.sum_div]
      congr 1
      refine Finset.sum_congr rfl fun j _ => ?_
      rw [div_mul_eq_mul_div]
    rw [key]
    refine div_nonneg (List.sum_nonneg ?_) hNpos.le
    intro a ha
    obtain ⟨x, -, rfl⟩ := List.mem_map.mp ha
    positivity

theorem sum_sq_eq_zero_iff (l : List ℝ) (h : ∀ a ∈ l, 0 ≤ a) : l.sum = 0 ↔ ∀ a ∈ l, a = 0 := by
  induction l with
  | nil => simp
  | cons a l ih =>
    have ha : 0 ≤ a := h a (by simp)
    have hl : ∀ b ∈ l, 0 ≤ b := fun b hb => h b (by simp [hb])
    have hs : 0 ≤ l.sum := List.sum_nonneg hl
    rw [List.sum_cons]
    constructor
    · intro e
      have h1 : a = 0 := by linarith
      have h2 : l.sum = 0 := by linarith
      intro b hb
      rcases List.mem_cons.mp hb with rfl | hb
      · exact h1
      · exact (ih hl).mp h2 b hb
    · intro e
      rw [(ih hl).mpr fun b hb => e b (by simp [hb]), e a (by simp)]; ring

/-- **C04**, one dimension: the variance is non-negative, and zero exactly when
all observations are equal. -/
theorem C04_variance (Xs : List (List (Fin 1 → ℝ))) (hne : ∀ X ∈ Xs, X ≠ []) (ddof : ℤ)
    (hn : ddof < Xs.flatten.length) :
    ∃ c C, (Covariance.init ℝ 1).updates (Xs.map fun X => .mat ⟨1, X⟩) = .ok c ∧
      c.covariance ddof = .ok (.val C) ∧ 0 ≤ C 0 0 ∧
      (C 0 0 = 0 ↔ ∀ x ∈ Xs.flatten, ∀ y ∈ Xs.flatten, x = y) := by
  obtain ⟨c, C, h, hc, -, hpsd⟩ := C04_covariance_psd Xs hne ddof hn
  have hC : C = Spec.sampleCov ddof Xs.flatten := by
    obtain ⟨c', h', hc'⟩ := C02_covariance Xs hne ddof hn
    rw [h] at h'
    cases h'
    rw [hc] at hc'
    cases hc'; rfl
  refine ⟨c, C, h, hc, ?_, ?_⟩
  · have := hpsd fun _ => 1
    simpa [dotProduct, Matrix.mulVec] using this
  · subst hC
    set xs := Xs.flatten
    have hN : (((xs.length : ℤ) - ddof : ℤ) : ℝ) ≠ 0 := by
      exact_mod_cast (show (xs.length : ℤ) - ddof ≠ 0 by omega)
    simp only [Spec.sampleCov, div_eq_zero_iff, hN, or_false]
    rw [sum_sq_eq_zero_iff]
    · constructor
      · intro e x hx y hy
        have e1 := e _ (List.mem_map.mpr ⟨x, hx, rfl⟩)
        have e2 := e _ (List.mem_map.mpr ⟨y, hy, rfl⟩)
        have f1 : x 0 = Spec.sampleMean xs 0 := by nlinarith [mul_self_eq_zero.mp e1]
        have f2 : y 0 = Spec.sampleMean xs 0 := by nlinarith [mul_self_eq_zero.mp e2]
        funext i
        rw [Fin.fin_one_eq_zero i, f1, f2]
      · intro e a ha
        obtain ⟨x, hx, rfl⟩ := List.mem_map.mp ha
        have hall : ∀ y ∈ xs, y 0 = x 0 := fun y hy => by rw [e y hy x hx]
        have hm : Spec.sampleMean xs 0 = x 0 := by
          have hl : (xs.length : ℝ) ≠ 0 := by
            have : 0 < xs.length := List.length_pos_iff.mpr (List.ne_nil_of_mem hx)
            exact_mod_cast this.ne'
          have hs : (xs.map fun y => y 0).sum = xs.length * x 0 := by
            rw [List.map_congr_left hall]; simp
          unfold Spec.sampleMean
          rw [hs]; field_simp
        rw [hm]; ring
    · intro a ha
      obtain ⟨x, -, rfl⟩ := List.mem_map.mp ha
      exact mul_self_nonneg _

omit [CharZero K] in
/-- **C05**.  An update is rejected with AssertionError exactly on a width
mismatch, for every state. -/
theorem C05_rejected_iff (m : Mean K d) (c : Covariance K d) (X : ArrayLike K) :
    (m.update X = .error .assertion ↔ X.promote.width ≠ d) ∧
    (c.update X = .error .assertion ↔ X.promote.width ≠ d) := by
  constructor
  · unfold Mean.update
    by_cases h : X.promote.width = d
    · simp only [h, dite_true, ne_eq, not_true, iff_false]
      unfold Mean.updateRows
      dsimp only
      split_ifs <;> simp
    · simp [h]
  · unfold Covariance.update
    by_cases h : X.promote.width = d
    · simp only [h, dite_true, ne_eq, not_true, iff_false]
      unfold Covariance.updateRows
      dsimp only
      split_ifs <;> simp
    · simp [h]

omit [Field K] [CharZero K] in
/-- **C05**: scalars and 1-d sequences are batches of width-one observations,
2-d arrays are read row by row. -/
theorem C05_promotion (x : K) (xs : List K) (b : Batch K) :
    (ArrayLike.scalar x).promote = ⟨1, [fun _ => x]⟩ ∧
    (ArrayLike.vec xs).promote.width = 1 ∧
    (ArrayLike.vec xs).promote.rows.length = xs.length ∧
    (∀ (i : ℕ) (h : i < xs.length),
      (ArrayLike.vec xs).promote.rows[i]? = some fun _ => xs[i]) ∧
    (ArrayLike.mat b).promote = b := by
  refine ⟨rfl, rfl, by simp [ArrayLike.promote], ?_, rfl⟩
  intro i h
  show (List.map (fun (x : K) (_ : Fin 1) => x) xs)[i]? = some fun _ => xs[i]
  rw [List.getElem?_map, List.getElem?_eq_getElem h]
  rfl

omit [CharZero K] in
/-- **C05**: for a caller that catches exceptions and goes on, rejected calls
leave no trace: the state is the one reached by the well-formed calls alone. -/
theorem C05_rejected_no_effect (Xs : List (ArrayLike K)) (m : Mean K d) (c : Covariance K d) :
    Xs.foldl Mean.tryUpdate m =
      (Xs.filter fun X => X.promote.width = d).foldl Mean.tryUpdate m ∧
    Xs.foldl Covariance.tryUpdate c =
      (Xs.filter fun X => X.promote.width = d).foldl Covariance.tryUpdate c := by
  induction Xs generalizing m c with
  | nil => simp
  | cons X Xs ih =>
    by_cases h : X.promote.width = d
    · simpa [h] using ih _ _
    · have h1 : m.tryUpdate X = m := by simp [Mean.tryUpdate, Mean.update, h]
      have h2 : c.tryUpdate X = c := by simp [Covariance.tryUpdate, Covariance.update, h]
      simpa [h, h1, h2] using ih m c

omit [CharZero K] in
/-- **C05**, empty batches: on a fresh accumulator an empty batch raises
ZeroDivisionError; afterwards it silently turns the mean into NaN, permanently. -/
theorem C05_empty_batch (m : Mean K d) :
    (m.n = 0 → m.update (.mat ⟨d, []⟩) = .error .zeroDivision) ∧
    (m.n ≠ 0 → ∃ m', m.update (.mat ⟨d, []⟩) = .ok m' ∧ m'.n = m.n ∧
      ∀ Xs m'', m'.updates Xs = .ok m'' → m''.mean = .nan) := by
  constructor
  · intro h; simp [Mean.update, ArrayLike.promote, Mean.updateRows, h]
  · intro h
    refine ⟨{ m with n := m.n + 0, nan := true }, ?_, rfl, ?_⟩
    · simp [Mean.update, ArrayLike.promote, Mean.updateRows, h]
    · have key : ∀ (Xs : List (ArrayLike K)) (a b : Mean K d), a.nan = true →
          a.updates Xs = .ok b → b.nan = true := by
        intro Xs
        induction Xs with
        | nil => intro a b ha e; simp [Mean.updates, pure, Except.pure] at e; exact e ▸ ha
        | cons X Xs ih =>
          intro a b ha e
          simp only [Mean.updates, List.foldlM_cons] at e
          cases hu : a.update X with
          | error err => rw [hu] at e; exact absurd e (by simp [bind, Except.bind])
          | ok a' =>
            rw [hu] at e
            refine ih a' b ?_ e
            unfold Mean.update Mean.updateRows at hu
            dsimp only at hu
            split_ifs at hu <;> simp_all <;> (subst hu; rfl)
      intro Xs m'' e
      have := key Xs _ m'' rfl e
      simp [Mean.mean, this]

omit [CharZero K] in
/-- **C05**, empty batches given to a `Covariance`: ZeroDivisionError on a fresh object, and
afterwards the mean and every covariance with `ddof < n` are NaN, permanently. -/
theorem C05_empty_batch_cov (c : Covariance K d) :
    (c.n = 0 → c.update (.mat ⟨d, []⟩) = .error .zeroDivision) ∧
    (c.n ≠ 0 → ∃ c', c.update (.mat ⟨d, []⟩) = .ok c' ∧ c'.n = c.n ∧
      ∀ Xs c'', c'.updates Xs = .ok c'' → c''.mean = .nan ∧
        ∀ ddof : ℤ, ddof < c''.n → c''.covariance ddof = .ok .nan) := by
  constructor
  · intro h; simp [Covariance.update, ArrayLike.promote, Covariance.updateRows, h]
  · intro h
    refine ⟨{ c with n := c.n + 0, nan := true }, ?_, rfl, ?_⟩
    · simp [Covariance.update, ArrayLike.promote, Covariance.updateRows, h]
    · have key : ∀ (Xs : List (ArrayLike K)) (a b : Covariance K d), a.nan = true →
          a.updates Xs = .ok b → b.nan = true := by
        intro Xs
        induction Xs with
        | nil => intro a b ha e; simp [Covariance.updates, pure, Except.pure] at e; exact e ▸ ha
        | cons X Xs ih =>
          intro a b ha e
          simp only [Covariance.updates, List.foldlM_cons] at e
          cases hu : a.update X with
          | error err => rw [hu] at e; exact absurd e (by simp [bind, Except.bind])
          | ok a' =>
            rw [hu] at e
            refine ih a' b ?_ e
            unfold Covariance.update Covariance.updateRows at hu
            dsimp only at hu
            split_ifs at hu <;> simp_all <;> (subst hu; rfl)
      intro Xs c'' e
      have := key Xs _ c'' rfl e
      refine ⟨by simp [Covariance.mean, this], fun ddof hd => ?_⟩
      unfold Covariance.covariance
      rw [if_neg (by omega), if_pos this]

/-! Non-vacuity: a concrete history with batches of different sizes. -/

example : ∃ m, (Mean.init ℚ 2).updates
      [.mat ⟨2, [![1, 2], ![3, 4]]⟩, .mat ⟨2, [![5, 9]]⟩] = .ok m ∧
    m.n = 3 ∧ m.mean = .val ![3, 5] := by
  obtain ⟨m, h, hn, hm⟩ := C01_mean (K := ℚ) (d := 2) [[![1, 2], ![3, 4]], [![5, 9]]]
    (by simp) (by simp)
  refine ⟨m, h, hn, ?_⟩
  rw [hm]
  congr 1
  funext i
  fin_cases i <;> norm_num [Spec.sampleMean]

example : ∃ c, (Covariance.init ℚ 1).updates
      [.mat ⟨1, [![1], ![3]]⟩, .mat ⟨1, [![5]]⟩] = .ok c ∧
    c.covariance 1 = .ok (.val !![4]) := by
  obtain ⟨c, h, hc⟩ := C02_covariance (K := ℚ) (d := 1) [[![1], ![3]], [![5]]] (by simp) 1
    (by simp)
  refine ⟨c, h, ?_⟩
  rw [hc]
  congr 2
  funext i j
  fin_cases i; fin_cases j
  norm_num [Spec.sampleCov, Spec.sampleMean]

example : ([[![1], ![3]], [![5]]] : List (List (Fin 1 → ℚ))).flatten.Perm
    ([[![5], ![1], ![3]]] : List (List (Fin 1 → ℚ))).flatten := by decide

end Primate
