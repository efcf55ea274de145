import Verif.Model.KneeLoopFl
import Verif.Props.KneeFl
import Verif.Props.HutchFl

/-!
# C165: `hutch` with `KneeCriterion` in rounded arithmetic
-/

noncomputable section

namespace Primate

open Spec StatsFl

variable {φ : Fmt} {fl : ℝ → ℝ} {N : ℕ}

theorem flatMap_scalar (xs : List ℝ) : (xs.map fun y (_ : Fin 1) => y).flatMap (fun row => List.ofFn row) = xs := by
  induction xs with
  | nil => rfl
  | cons x xs ih => simp [List.flatMap_map]

/-- With three or more values the knee criterion answers. -/
theorem kneeDecideFl_ok (fl : ℝ → ℝ) (S : ℝ) (mv : List ℝ) (h : 3 ≤ mv.length) : ∃ r, kneeDecideFl fl S mv = .ok r := by
  unfold kneeDecideFl
  simp only
  rw [dif_pos (by omega)]
  split_ifs <;> exact ⟨_, rfl⟩

/-- The answer of the criterion for recorded values `xs`. -/
def Spec.KneeStops (fl : ℝ → ℝ) (count : Option ℕ) (S : ℝ) (xs : List ℝ) : Prop :=
  (∃ c, count = some c ∧ c ≤ xs.length) ∨ (3 ≤ xs.length ∧ kneeDecideFl fl S xs = .ok true)

theorem kneeCountFl_recorded (fl : ℝ → ℝ) (count : Option ℕ) (S : ℝ) (e : RecFl) (xs : List ℝ) (hv : e.values = some (xs.map fun y _ => y)) (hn : e.cov.n = xs.length) :
    ∃ r, kneeCountFl fl count S e = .ok r ∧ (r = true ↔ KneeStops fl count S xs) := by
  obtain ⟨-, q2, q3, -⟩ := C162_call fl S e.view
  have hv' : e.view.values = some (xs.map fun y _ => y) := hv
  unfold kneeCountFl KneeStops
  by_cases h3 : xs.length < 3
  · rw [q2 _ hv' (by simpa using h3)]
    refine ⟨_, rfl, ?_⟩
    rw [Bool.or_false, truth_eq_true, hn]
    constructor
    · exact Or.inl
    · rintro (h | h)
      · exact h
      · omega
  · rw [q3 _ hv' (by rw [List.length_map]; omega), flatMap_scalar]
    obtain ⟨r, hr⟩ := kneeDecideFl_ok fl S xs (by omega)
    rw [hr]
    refine ⟨_, rfl, ?_⟩
    rw [Bool.or_eq_true, truth_eq_true, hn]
    constructor
    · rintro (h | rfl)
      · exact Or.inl h
      · exact Or.inr ⟨by omega, rfl⟩
    · rintro (h | ⟨-, h⟩)
      · exact Or.inl h
      · exact Or.inr (Except.ok.inj h)

theorem RecFl.step (hn : φ.Nearest fl) {K : FlKernels N} (hK : FlKernelsOk fl K) (A : Matrix (Fin N) (Fin N) ℝ) (pdf : Pdf N) {b : ℕ} (hb : 0 < b) {M : ℝ} {L : ℕ}
    (hfit : φ.Fits (L * b) M) (t : ℕ) (ht : t < L) (hq : ∀ x ∈ quadFormFl K A t (pdf (List.replicate t b) b), φ.Mem x ∧ |x| ≤ M) (e : RecFl) (hc : e.cov.nan = false)
    (inv : FInv φ M e.cov.n e.cov.mu ((flSamples K A pdf b t).map fun x _ => x)) :
    ∃ e', e.update fl (quadFormFl K A t (pdf (List.replicate t b) b)) (K.colsum t (quadFormFl K A t (pdf (List.replicate t b) b)))
        (K.gram t (quadFormFl K A t (pdf (List.replicate t b) b))) = .ok e' ∧ e'.cov.nan = false ∧
      FInv φ M e'.cov.n e'.cov.mu ((flSamples K A pdf b (t + 1)).map fun x _ => x) ∧
      e'.values = e.values.map fun v => v ++ (quadFormFl K A t (pdf (List.replicate t b) b)).map fun y _ => y := by
  have hn' : e.cov.n = t * b := by rw [inv.count]; simp [flSamples_length]
  have hlt : t * b + b ≤ L * b := by
    rw [← Nat.succ_mul]
    exact Nat.mul_le_mul_right b (by omega)
  set x := quadFormFl K A t (pdf (List.replicate t b) b) with hx
  have hxl : x.length = b := by simp [hx, quadFormFl]
  have hx0 : x ≠ [] := by intro h; rw [h] at hxl; simp at hxl; omega
  have hstep := inv.step (X := x.map fun y _ => y) (s := fun _ => K.colsum t x) hn hfit (by simpa using hx0) (by
      intro i
      simp only [List.map_map, Function.comp_def, List.map_id']
      exact hK.colsum t x hx0) (by
      intro y hy i
      obtain ⟨z, hz, rfl⟩ := List.mem_map.1 hy
      exact hq z hz) (by rw [List.length_map, hxl, hn']; exact hlt)
  have hne : (x.map fun y (_ : Fin 1) => y).length ≠ 0 := by simpa using hx0
  unfold RecFl.update Covariance.updateRowsFl
  simp only [hne, if_false, show ¬ (e.cov.n + (x.map fun y (_ : Fin 1) => y).length = 0) by omega]
  refine ⟨_, rfl, hc, ?_, rfl⟩
  rw [flSamples_succ, List.map_append]
  exact hstep

theorem hutchLoopKneeFl_run (hn : φ.Nearest fl) {K : FlKernels N} (hK : FlKernelsOk fl K) (A : Matrix (Fin N) (Fin N) ℝ) (pdf : Pdf N) {b : ℕ} (hb : 0 < b) {M : ℝ} {L : ℕ}
    (hfit : φ.Fits (L * b) M) (hq : ∀ t < L, ∀ x ∈ quadFormFl K A t (pdf (List.replicate t b) b), φ.Mem x ∧ |x| ≤ M) (c : ℕ) (hL : c ≤ L * b) (S : ℝ) :
    ∀ (m t : ℕ) (e : RecFl), t + m = L → e.cov.nan = false → FInv φ M e.cov.n e.cov.mu ((flSamples K A pdf b t).map fun x _ => x) →
      e.values = some ((flSamples K A pdf b t).map fun y _ => y) →
      ∃ k e', t ≤ k ∧ k ≤ L ∧ hutchLoopKneeFl fl K A pdf b (some c) S (m + 1) t e = some (.ok (k, e')) ∧ e'.cov.nan = false ∧
        FInv φ M e'.cov.n e'.cov.mu ((flSamples K A pdf b k).map fun x _ => x) ∧ e'.values = some ((flSamples K A pdf b k).map fun y _ => y) ∧
        KneeStops fl (some c) S (flSamples K A pdf b k) ∧ ∀ j, t ≤ j → j < k → ¬ KneeStops fl (some c) S (flSamples K A pdf b j) := by
  intro m
  induction m with
  | zero =>
    intro t e htL hc inv hv
    obtain ⟨r, r1, r2⟩ := kneeCountFl_recorded fl (some c) S e (flSamples K A pdf b t) hv (by rw [inv.count]; simp)
    have hs : KneeStops fl (some c) S (flSamples K A pdf b t) := Or.inl ⟨c, rfl, by
      rw [flSamples_length]
      obtain rfl : t = L := by omega
      exact hL⟩
    obtain rfl : r = true := r2.2 hs
    refine ⟨t, e, le_rfl, by omega, ?_, hc, inv, hv, hs, fun j h1 h2 => absurd h2 (by omega)⟩
    simp only [hutchLoopKneeFl, r1]
  | succ m ih =>
    intro t e htL hc inv hv
    obtain ⟨r, r1, r2⟩ := kneeCountFl_recorded fl (some c) S e (flSamples K A pdf b t) hv (by rw [inv.count]; simp)
    cases r with
    | true =>
      refine ⟨t, e, le_rfl, by omega, ?_, hc, inv, hv, r2.1 rfl, fun j h1 h2 => absurd h2 (by omega)⟩
      rw [hutchLoopKneeFl, r1]
    | false =>
      obtain ⟨e1, u1, u2, u3, u4⟩ := RecFl.step hn hK A pdf hb hfit t (by omega) (hq t (by omega)) e hc inv
      obtain ⟨k, e', k1, k2, k3, k4, k5, k6, k7, k8⟩ := ih (t + 1) e1 (by omega) u2 u3 (by
        rw [u4, hv, flSamples_succ, List.map_append]
        rfl)
      refine ⟨k, e', by omega, k2, ?_, k4, k5, k6, k7, fun j h1 h2 => ?_⟩
      · rw [hutchLoopKneeFl, r1]
        simp only [u1]
        exact k3
      · rcases Nat.eq_or_lt_of_le h1 with rfl | h3
        · intro h
          exact absurd (r2.2 h) (by simp)
        · exact k8 j h3 h2

/-- **C165**, `hutch` with `CountCriterion(c) | KneeCriterion(S)` and `record=True`: it stops after the first pass at which the count is reached or the rounded knee test
on the samples so far accepts, at the latest when `c` samples are there; the values recorded are the samples, and the estimate is within `16 n u M` of their mean. -/
theorem C165_hutch (hn : φ.Nearest fl) {K : FlKernels N} (hK : FlKernelsOk fl K) (A : Matrix (Fin N) (Fin N) ℝ) (pdf : Pdf N) {b : ℕ} (hb : 0 < b) (M : ℝ) (L : ℕ)
    (hfit : φ.Fits (L * b) M) (hq : ∀ t < L, ∀ x ∈ quadFormFl K A t (pdf (List.replicate t b) b), φ.Mem x ∧ |x| ≤ M) (c : ℕ) (hc : 0 < c) (hL : c ≤ L * b) (S : ℝ) :
    ∃ k e mu, 0 < k ∧ k ≤ L ∧ hutchLoopKneeFl fl K A pdf b (some c) S (L + 1) 0 (RecFl.init true) = some (.ok (k, e)) ∧ e.cov.n = k * b ∧
      e.values = some ((flSamples K A pdf b k).map fun y _ => y) ∧
      (c ≤ k * b ∨ (3 ≤ k * b ∧ kneeDecideFl fl S (flSamples K A pdf b k) = .ok true)) ∧
      (∀ j < k, j * b < c ∧ (3 ≤ j * b → kneeDecideFl fl S (flSamples K A pdf b j) = .ok false)) ∧
      e.cov.mean = .val mu ∧ |mu 0 - (flSamples K A pdf b k).sum / (k * b : ℕ)| ≤ 16 * (k * b : ℕ) * φ.u * M := by
  obtain ⟨k, e, -, k2, k3, k4, k5, k6, k7, k8⟩ := hutchLoopKneeFl_run hn hK A pdf hb hfit hq c hL S L 0 (RecFl.init true) (by omega) rfl
    (by simpa [flSamples, Covariance.init, RecFl.init] using FInv.init (d := 1) (M := M) hfit.exp) rfl
  have hcount : e.cov.n = k * b := by rw [k5.count]; simp [flSamples_length]
  have hk : 0 < k := by
    rcases Nat.eq_zero_or_pos k with rfl | h
    · rcases k7 with ⟨c', h1, h2⟩ | ⟨h1, -⟩
      · obtain rfl := Option.some.inj h1
        simp [flSamples] at h2
        omega
      · simp [flSamples] at h1
    · exact h
  have hne : (flSamples K A pdf b k).map (fun x (_ : Fin 1) => x) ≠ [] := by
    intro h
    have := congrArg List.length h
    simp [flSamples_length] at this
    omega
  have hm := k5.mean_err hne 0
  refine ⟨k, e, e.cov.mu, hk, k2, k3, hcount, k6, ?_, fun j hj => ?_, ?_, ?_⟩
  · rcases k7 with ⟨c', h1, h2⟩ | h
    · obtain rfl := Option.some.inj h1
      rw [flSamples_length] at h2
      exact Or.inl h2
    · rw [flSamples_length] at h
      exact Or.inr h
  · have h1 := k8 j (Nat.zero_le j) hj
    refine ⟨?_, fun h3 => ?_⟩
    · by_contra h2
      exact h1 (Or.inl ⟨c, rfl, by rw [flSamples_length]; omega⟩)
    · obtain ⟨r, hr⟩ := kneeDecideFl_ok fl S (flSamples K A pdf b j) (by rw [flSamples_length]; exact h3)
      cases r with
      | false => exact hr
      | true => exact absurd (Or.inr ⟨by rw [flSamples_length]; exact h3, hr⟩) h1
  · have : 0 < k * b := Nat.mul_pos hk hb
    unfold Covariance.mean
    rw [if_neg (by omega)]
    simp only [k4, Bool.false_eq_true, if_false]
  · simpa [flSamples_length, sampleMean, Function.comp_def] using hm

/-- **C165**, the knee: under the assumptions of C162 on the samples of each pass, if `hutch` stops before `c` samples then the exact curve of the samples rises above the
diagonal by more than `S / (n - 2)` up to rounding, and if the exact curve of some pass rises by more than that up to rounding, `hutch` makes no further pass. -/
theorem C165_knee (hn : φ.Nearest fl) {K : FlKernels N} (hK : FlKernelsOk fl K) (A : Matrix (Fin N) (Fin N) ℝ) (pdf : Pdf N) {b : ℕ} (hb : 0 < b) (M : ℝ) (L : ℕ)
    (hfit : φ.Fits (L * b) M) (hq : ∀ t < L, ∀ x ∈ quadFormFl K A t (pdf (List.replicate t b) b), φ.Mem x ∧ |x| ≤ M) (c : ℕ) (hc : 0 < c) (hL : c ≤ L * b) (S : ℝ)
    (hroom : ∀ j ≤ L, 3 ≤ j * b → KneeRoom φ (j * b) (scaledValues (flSamples K A pdf b j)) M ∧ 0 < kneeRange (scaledValues (flSamples K A pdf b j)) (j * b) ∧
      5 * kneeErr φ (j * b) (scaledValues (flSamples K A pdf b j)) M ≤ kneeRange (scaledValues (flSamples K A pdf b j)) (j * b) ∧
      4 * φ.u ≤ S / (((j * b : ℕ) : ℝ) - 2) ∧ S / (((j * b : ℕ) : ℝ) - 2) ≤ 1) :
    ∃ k e, k ≤ L ∧ hutchLoopKneeFl fl K A pdf b (some c) S (L + 1) 0 (RecFl.init true) = some (.ok (k, e)) ∧
      (k * b < c → 3 ≤ k * b ∧ ∃ i, i < k * b - 1 ∧ S / (((k * b : ℕ) : ℝ) - 2) - (2 * φ.u + kneeTol φ (k * b) (scaledValues (flSamples K A pdf b k)) M) <
        kneeRise (scaledValues (flSamples K A pdf b k)) (k * b) i) ∧
      ∀ j, 3 ≤ j * b → j ≤ L → (∃ i, i < j * b - 1 ∧ S / (((j * b : ℕ) : ℝ) - 2) + (2 * φ.u + kneeTol φ (j * b) (scaledValues (flSamples K A pdf b j)) M) <
        kneeRise (scaledValues (flSamples K A pdf b j)) (j * b) i) → k ≤ j := by
  obtain ⟨k, e, mu, -, k2, k3, -, -, k6, k7, -⟩ := C165_hutch hn hK A pdf hb M L hfit hq c hc hL S
  refine ⟨k, e, k2, k3, fun hlt => ?_, fun j h3 hj hi => ?_⟩
  · rcases k6 with h | ⟨h3, hd⟩
    · omega
    · obtain ⟨r1, r2, r3, r4, r5⟩ := hroom k k2 h3
      have hl := flSamples_length K A pdf b k
      rw [← hl] at r1 r2 r3 r4 r5 ⊢
      have ht : (4 : ℝ) ≤ φ.top := r1.small.four_le_top
      have hu := φ.u_pos
      exact ⟨by rw [hl]; exact h3, (C162_sound hn r1 r2 r3 (by rw [abs_of_nonneg (by linarith)]; linarith) hd).2⟩
  · by_contra hlt
    obtain ⟨i, i1, i2⟩ := hi
    obtain ⟨r1, r2, r3, r4, r5⟩ := hroom j hj h3
    have hf := (k7 j (by omega)).2 h3
    have hl := flSamples_length K A pdf b j
    rw [← hl] at r1 r2 r3 r4 r5 i1 i2
    have := C162_complete hn r1 r2 r3 r4 r5 i i1 i2
    rw [hf] at this
    cases this

/-- **C165**, nothing recorded: with `KneeCriterion` alone and without `record=True` the criterion never accepts, and `hutch` never returns. -/
theorem C165_no_record (K : FlKernels N) (A : Matrix (Fin N) (Fin N) ℝ) (pdf : Pdf N) {b : ℕ} (hb : 0 < b) (S : ℝ) (fuel : ℕ) :
    hutchLoopKneeFl fl K A pdf b none S fuel 0 (RecFl.init false) = none := by
  have key : ∀ (fuel t : ℕ) (e : RecFl), e.values = none → hutchLoopKneeFl fl K A pdf b none S fuel t e = none := by
    intro fuel
    induction fuel with
    | zero => intro t e _; rfl
    | succ fuel ih =>
      intro t e he
      have h1 : kneeCountFl fl none S e = .ok false := by
        unfold kneeCountFl
        rw [(C162_call fl S e.view).1 he]
        simp [truth]
      have hx0 : (quadFormFl K A t (pdf (List.replicate t b) b)).length = b := by simp [quadFormFl]
      rw [hutchLoopKneeFl, h1]
      simp only [RecFl.update, Covariance.updateRowsFl, List.length_map, hx0]
      rw [if_neg (by omega), if_neg (by omega)]
      exact ih _ _ (by simp [he])
  exact key fuel 0 _ rfl

/-- Curves `0, 1, 2, 2, ..., 2` in double precision satisfy the assumptions on each pass. -/
theorem kneeEx_curve (c : ℕ → ℝ) (n : ℕ) (h5 : 5 ≤ n) (h10 : n ≤ 10) (c0 : c 0 = 0) (c1 : c 1 = 1) (c2 : ∀ i, 2 ≤ i → i < n → c i = 2) :
    KneeRoom binary64 n c 20 ∧ kneeRange c n = 1 ∧ kneeErr binary64 n c 20 ≤ 1 / 2 ^ 40 ∧ kneeRise c n 1 = 1 - 1 / ((n : ℝ) - 2) := by
  have hn5 : (5 : ℝ) ≤ n := by exact_mod_cast h5
  have hn10 : (n : ℝ) ≤ 10 := by exact_mod_cast h10
  obtain ⟨-, -, -, -, hu, he⟩ := kneeEx_room
  have hu1 : binary64.u = 1 / 9007199254740992 := by rw [hu]; norm_num
  have he1 : binary64.eta ≤ 1 / 1152921504606846976 := he.trans (by norm_num)
  have ht : (2048 : ℝ) ≤ binary64.top := by
    have h1 : (1 : ℝ) ≤ 2 ^ (971 : ℤ) := one_le_zpow₀ (by norm_num) (by norm_num)
    have h2 : binary64.top = (2 ^ 53 - 1) * (2 : ℝ) ^ (971 : ℤ) := rfl
    rw [h2]
    generalize (2 : ℝ) ^ (971 : ℤ) = z at h1
    linarith
  have v0 : variation c 0 = 1 := by simp [variation, c0, c1]
  have v : ∀ k, k + 3 ≤ n → variation c (k + 1) = 2 := by
    intro k
    induction k with
    | zero => intro _; rw [variation_succ, v0, c1, c2 2 le_rfl (by omega)]; norm_num
    | succ k ih => intro h; rw [variation_succ, ih (by omega), c2 (k + 1 + 2) (by omega) (by omega), c2 (k + 1 + 1) (by omega) (by omega)]; norm_num
  have vn : variation c (n - 2) = 2 := by
    have := v (n - 3) (by omega)
    rwa [show n - 3 + 1 = n - 2 by omega] at this
  have hR : kneeRange c n = 1 := by unfold kneeRange; rw [vn, v0]; norm_num
  refine ⟨⟨binary64_small, by omega, ?_, ?_, ?_, ?_, ?_⟩, hR, ?_, ?_⟩
  · rw [hu1]; linarith
  · rw [hu1]
    have := mul_le_mul hn10 he1 binary64.eta_pos.le (by norm_num)
    linarith
  · intro i hi
    rcases Nat.lt_or_ge i 2 with h | h
    · interval_cases i
      · rw [c0]; norm_num
      · rw [c1]; norm_num
    · rw [c2 i h hi]; norm_num
  · rw [hu1]; linarith
  · linarith
  · unfold kneeErr
    rw [vn, hu1]
    norm_num
    linarith
  · unfold kneeRise
    rw [hR, v 0 (by omega), v0]
    norm_num

/-- Kernels for two columns: the second product is rounded first, the other is fused. -/
theorem kernels_two (fl : ℝ → ℝ) : ∃ K : FlKernels 2, FlKernelsOk fl K ∧ (∀ t j A v i, K.matvec t j A v i = fl (A i 0 * v 0 + fl (A i 1 * v 1))) ∧
    ∀ t j v w, K.dot t j v w = fl (v 0 * w 0 + fl (v 1 * w 1)) := by
  have h2 : ∀ l : List ℝ, ∃ s, l ≠ [] → SumOrder fl l s := fun l => by
    by_cases h : l = []
    · exact ⟨0, fun h' => absurd h h'⟩
    · obtain ⟨s, hs⟩ := SumOrder.exists fl l h
      exact ⟨s, fun _ => hs⟩
  choose T hT using h2
  refine ⟨⟨fun _ _ A v i => fl (A i 0 * v 0 + fl (A i 1 * v 1)), fun _ _ v w => fl (v 0 * w 0 + fl (v 1 * w 1)), fun _ => T, fun _ _ => 0⟩, ⟨?_, ?_, fun _ => hT⟩, fun _ _ _ _ _ => rfl,
    fun _ _ _ _ => rfl⟩
  · intro t j A v i
    exact DotOrder.fma (DotOrder.single _ _)
  · intro t j v w
    exact DotOrder.fma (DotOrder.single _ _)

/-- The vectors `(1, q)` with `q = 0, 1, 3, 4, 5, 6, ...`. -/
def kneeExQ (n : ℕ) : ℤ := if n = 0 then 0 else if n = 1 then 1 else n + 1

/-- Concrete case of **C165**: `[[0, 2], [0, 0]]` in double precision with a sampler that returns these vectors, five at a time: the samples are 0, 2, 6, 8, 10, ..., and
`CountCriterion(6) | KneeCriterion(1)` stops after the first pass, before six samples are there. -/
example (fl : ℝ → ℝ) (hn : binary64.Nearest fl) : ∃ (K : FlKernels 2) (e : RecFl), FlKernelsOk fl K ∧
    hutchLoopKneeFl fl K !![0, 2; 0, 0] (fun l b (j : Fin b) => ![1, (kneeExQ (5 * l.length + j) : ℝ)]) 5 (some 6) 1 3 0 (RecFl.init true) = some (.ok (1, e)) := by
  obtain ⟨K, hK, hm, hd⟩ := kernels_two fl
  set pdf : Pdf 2 := fun l b (j : Fin b) => ![1, (kneeExQ (5 * l.length + j) : ℝ)] with hpdf
  have z := hn.zero (by decide : binary64.emin ≤ binary64.emax)
  have mi : ∀ m : ℤ, |m| ≤ 100 → fl (m : ℝ) = m := fun m h => hn.eq_self (binary64_mem_int m (h.trans (by norm_num)))
  have hquad : ∀ t j (q : ℤ), |q| ≤ 50 → K.dot t j ![1, (q : ℝ)] (K.matvec t j !![0, 2; 0, 0] ![1, (q : ℝ)]) = ((2 * q : ℤ) : ℝ) := by
    intro t j q hq
    have e1 : fl (2 * (q : ℝ)) = 2 * q := by
      have := mi (2 * q) (by rw [abs_mul]; norm_num; linarith)
      push_cast at this
      exact this
    rw [hd, hm, hm]
    simp [e1, z]
  have hq50 : ∀ m, m < 10 → |kneeExQ m| ≤ 50 ∧ |2 * kneeExQ m| ≤ 20 := by
    intro m hm
    interval_cases m <;> simp [kneeExQ]
  have hform : ∀ t < 2, quadFormFl K !![0, 2; 0, 0] t (pdf (List.replicate t 5) 5) = List.ofFn fun j : Fin 5 => ((2 * kneeExQ (5 * t + j) : ℤ) : ℝ) := by
    intro t ht
    unfold quadFormFl
    congr 1
    funext j
    have := hquad t j (kneeExQ (5 * t + j)) (hq50 _ (by omega)).1
    simp only [hpdf, List.length_replicate]
    exact this
  have s1 : flSamples K !![0, 2; 0, 0] pdf 5 1 = [0, 2, 6, 8, 10] := by
    rw [flSamples_succ, hform 0 (by norm_num)]
    norm_num [flSamples, kneeExQ, List.ofFn_succ, Fin.succ]
  have s2 : flSamples K !![0, 2; 0, 0] pdf 5 2 = [0, 2, 6, 8, 10, 12, 14, 16, 18, 20] := by
    rw [flSamples_succ, s1, hform 1 (by norm_num)]
    norm_num [kneeExQ, List.ofFn_succ, Fin.succ]
  have r1 := kneeEx_curve (scaledValues [0, 2, 6, 8, 10]) 5 (by norm_num) (by norm_num) (by simp [scaledValues]) (by norm_num [scaledValues])
    (by intro i h1 h2; interval_cases i <;> norm_num [scaledValues])
  have r2 := kneeEx_curve (scaledValues [0, 2, 6, 8, 10, 12, 14, 16, 18, 20]) 10 (by norm_num) (by norm_num) (by simp [scaledValues]) (by norm_num [scaledValues])
    (by intro i h1 h2; interval_cases i <;> norm_num [scaledValues])
  have hu1 : binary64.u = 1 / 9007199254740992 := by
    have : binary64.u = (2 : ℝ) ^ (-53 : ℤ) := rfl
    rw [this]; norm_num
  obtain ⟨k, e, k1, k2, k3, k4⟩ := C165_knee hn hK !![0, 2; 0, 0] pdf (b := 5) (by norm_num) 20 2 (binary64_fits _ (by norm_num) _
      ((zpow_le_one_of_nonpos₀ (by norm_num) (by norm_num)).trans (by norm_num))
      (le_trans (by norm_num) (zpow_le_zpow_right₀ (by norm_num) (by norm_num : (5 : ℤ) ≤ 900))))
    (by
      intro t ht x hx
      rw [hform t ht, List.mem_ofFn] at hx
      obtain ⟨j, rfl⟩ := hx
      have h := (hq50 (5 * t + j) (by omega)).2
      exact ⟨binary64_mem_int _ (h.trans (by norm_num)), by exact_mod_cast h⟩) 6 (by norm_num) (by norm_num) 1
    (by
      intro j hj h3
      have : j = 1 ∨ j = 2 := by omega
      rcases this with rfl | rfl
      · rw [s1]
        refine ⟨r1.1, by rw [show 1 * 5 = 5 from rfl, r1.2.1]; norm_num, ?_, ?_, ?_⟩
        · rw [show 1 * 5 = 5 from rfl, r1.2.1]
          have := r1.2.2.1
          linarith
        · rw [hu1]; norm_num
        · norm_num
      · rw [s2]
        refine ⟨r2.1, by rw [show 2 * 5 = 10 from rfl, r2.2.1]; norm_num, ?_, ?_, ?_⟩
        · rw [show 2 * 5 = 10 from rfl, r2.2.1]
          have := r2.2.2.1
          linarith
        · rw [hu1]; norm_num
        · norm_num)
  have hle : k ≤ 1 := by
    refine k4 1 (by norm_num) (by norm_num) ⟨1, by norm_num, ?_⟩
    rw [s1, show 1 * 5 = 5 from rfl, r1.2.2.2]
    unfold kneeTol
    rw [r1.2.1, hu1]
    have := r1.2.2.1
    norm_num at this ⊢
    linarith
  have hge : k ≠ 0 := by
    rintro rfl
    have := (k3 (by norm_num)).1
    omega
  obtain rfl : k = 1 := by omega
  exact ⟨K, e, hK, k2⟩

end Primate
