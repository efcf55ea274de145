import Verif.Model.Isotropic
import Verif.Props.HutchMoments

/-!
# C56, C57, C58, C59, C84: isotropic random vectors
-/

noncomputable section

namespace Primate

open Matrix

/-! ## C56 -/

/-- C56: a variate of `[0, 1)` gives `-1` below one half and `+1` from one half on. -/
theorem C56_signs (u : ℝ) (h0 : 0 ≤ u) (h1 : u < 1) :
    rademacherEntry u = if u < 1 / 2 then -1 else 1 := by
  split_ifs with h
  · exact (rademacherEntry_half u).1 h0 h
  · exact (rademacherEntry_half u).2 (not_lt.1 h) h1

/-- The variates `rng.random` returns are `k / 2^53`; more generally a grid of `2 M` points. -/
def Spec.variate (M : ℕ) (k : Fin (2 * M)) : ℝ := (k : ℝ) / (2 * M : ℕ)

theorem variate_range {M : ℕ} (k : Fin (2 * M)) : 0 ≤ Spec.variate M k ∧ Spec.variate M k < 1 := by
  unfold Spec.variate
  have := k.2
  have hp : (0 : ℝ) < (2 * M : ℕ) := by exact_mod_cast (by omega : 0 < 2 * M)
  refine ⟨by positivity, ?_⟩
  rw [div_lt_one hp]
  exact_mod_cast this

theorem variate_half {M : ℕ} (k : Fin (2 * M)) : Spec.variate M k < 1 / 2 ↔ (k : ℕ) < M := by
  unfold Spec.variate
  have := k.2
  have hp : (0 : ℝ) < (2 * M : ℕ) := by exact_mod_cast (by omega : 0 < 2 * M)
  rw [div_lt_iff₀ hp, show (1 / 2 : ℝ) * (2 * M : ℕ) = (M : ℝ) by push_cast; ring]
  exact Nat.cast_lt

/-- C56: of the `2 M` equally likely variates (`M = 2^52` for the generator) exactly half give `-1` and half give `+1`. -/
theorem C56_balanced (M : ℕ) :
    (Finset.univ.filter fun k : Fin (2 * M) => rademacherEntry (Spec.variate M k) = -1).card = M ∧
      (Finset.univ.filter fun k : Fin (2 * M) => rademacherEntry (Spec.variate M k) = 1).card = M := by
  have hlow : (Finset.univ.filter fun k : Fin (2 * M) => (k : ℕ) < M).card = M := by
    rw [Fin.card_filter_val_lt]
    exact min_eq_right (by omega)
  have e1 : (Finset.univ.filter fun k : Fin (2 * M) => rademacherEntry (Spec.variate M k) = -1) =
      Finset.univ.filter fun k : Fin (2 * M) => (k : ℕ) < M := by
    apply Finset.filter_congr
    intro k _
    rw [C56_signs _ (variate_range k).1 (variate_range k).2, ← variate_half]
    split_ifs with h
    · exact ⟨fun _ => h, fun _ => rfl⟩
    · exact ⟨fun hc => by norm_num at hc, fun hc => absurd hc h⟩
  have e2 : (Finset.univ.filter fun k : Fin (2 * M) => rademacherEntry (Spec.variate M k) = 1) =
      Finset.univ.filter fun k : Fin (2 * M) => ¬ (k : ℕ) < M := by
    apply Finset.filter_congr
    intro k _
    rw [C56_signs _ (variate_range k).1 (variate_range k).2, ← variate_half]
    split_ifs with h
    · exact ⟨fun hc => by norm_num at hc, fun hc => absurd h hc⟩
    · exact ⟨fun _ => h, fun _ => rfl⟩
  rw [e1, e2]
  refine ⟨hlow, ?_⟩
  have h := Finset.card_filter_add_card_filter_not (s := (Finset.univ : Finset (Fin (2 * M)))) (fun k => (k : ℕ) < M)
  rw [hlow, Finset.card_univ, Fintype.card_fin] at h
  omega

theorem sum_entry_zero (M : ℕ) : ∑ k : Fin (2 * M), rademacherEntry (Spec.variate M k) = 0 := by
  obtain ⟨h1, h2⟩ := C56_balanced M
  have key : ∀ k : Fin (2 * M), rademacherEntry (Spec.variate M k) =
      (if rademacherEntry (Spec.variate M k) = 1 then (1 : ℝ) else 0) - (if rademacherEntry (Spec.variate M k) = -1 then (1 : ℝ) else 0) := by
    intro k
    rw [C56_signs _ (variate_range k).1 (variate_range k).2]
    by_cases h : Spec.variate M k < 1 / 2 <;> simp only [h, if_true, if_false] <;> norm_num
  rw [Finset.sum_congr rfl fun k _ => key k, Finset.sum_sub_distrib, Finset.sum_boole, Finset.sum_boole, h1, h2]
  simp

/-- C56: the vectors are isotropic: over all `(2 M)^n` equally likely inputs the mean of `v vᵀ` is the identity. -/
theorem C56_isotropic (M : ℕ) (hM : 0 < M) (n : ℕ) (a b : Fin n) :
    (∑ f : Fin n → Fin (2 * M), rademacherEntry (Spec.variate M (f a)) * rademacherEntry (Spec.variate M (f b))) /
      (2 * M : ℝ) ^ n = (1 : Matrix (Fin n) (Fin n) ℝ) a b := by
  have hpos : (2 * M : ℝ) ^ n ≠ 0 := by
    have : (0 : ℝ) < M := by exact_mod_cast hM
    positivity
  rw [div_eq_iff hpos, Matrix.one_apply]
  by_cases h : a = b
  · subst h
    rw [if_pos rfl, one_mul]
    have : ∀ f : Fin n → Fin (2 * M), rademacherEntry (Spec.variate M (f a)) * rademacherEntry (Spec.variate M (f a)) = 1 := by
      intro f
      rw [C56_signs _ (variate_range _).1 (variate_range _).2]
      split_ifs <;> norm_num
    rw [Finset.sum_congr rfl fun f _ => this f, Finset.sum_const, Finset.card_univ, Fintype.card_fun, Fintype.card_fin,
      Fintype.card_fin, nsmul_eq_mul, mul_one]
    push_cast
    rfl
  · rw [if_neg h, zero_mul]
    have hprod : ∀ f : Fin n → Fin (2 * M),
        rademacherEntry (Spec.variate M (f a)) * rademacherEntry (Spec.variate M (f b)) =
          ∏ l : Fin n, (if l = a ∨ l = b then rademacherEntry (Spec.variate M (f l)) else 1) := by
      intro f
      rw [← Finset.prod_filter, show (Finset.univ.filter fun l : Fin n => l = a ∨ l = b) = {a, b} by ext l; simp,
        Finset.prod_pair h]
    rw [Finset.sum_congr rfl fun f _ => hprod f,
      ← Fintype.prod_sum (fun (l : Fin n) (k : Fin (2 * M)) => if l = a ∨ l = b then rademacherEntry (Spec.variate M k) else 1)]
    refine Finset.prod_eq_zero (Finset.mem_univ a) ?_
    simp only [true_or, if_true]
    exact sum_entry_zero M

/-! ## C57 -/

/-- C57: every nonzero Gaussian column becomes a positive multiple of itself with `‖v‖² = n`. -/
theorem C57_sphere {n : ℕ} (x : Vec n) (hx : x ≠ 0) :
    sphereCol x ⬝ᵥ sphereCol x = n ∧ Real.sqrt (sphereCol x ⬝ᵥ sphereCol x) = Real.sqrt n ∧
      ∃ c : ℝ, 0 < c ∧ sphereCol x = c • x := by
  have hpos : 0 < ∑ i, x i ^ 2 := by
    obtain ⟨i, hi⟩ := Function.ne_iff.1 hx
    exact Finset.sum_pos' (fun j _ => sq_nonneg _) ⟨i, Finset.mem_univ i, by
      have : x i ≠ 0 := hi
      positivity⟩
  have hn : 0 < n := by
    obtain ⟨i, hi⟩ := Function.ne_iff.1 hx
    exact i.pos
  have hs := Real.sqrt_pos.2 hpos
  have hsq := Real.sq_sqrt hpos.le
  have hnn : Real.sqrt (n : ℝ) ^ 2 = n := Real.sq_sqrt (by positivity)
  have h1 : sphereCol x ⬝ᵥ sphereCol x = n := by
    unfold dotProduct sphereCol
    rw [Finset.sum_congr rfl fun i _ => show x i / Real.sqrt (∑ i, x i ^ 2) * Real.sqrt n *
      (x i / Real.sqrt (∑ i, x i ^ 2) * Real.sqrt n) = x i ^ 2 * (Real.sqrt n ^ 2 / Real.sqrt (∑ i, x i ^ 2) ^ 2) by
        field_simp]
    rw [← Finset.sum_mul, hsq, hnn, mul_div_assoc', mul_comm, mul_div_assoc, div_self hpos.ne', mul_one]
  refine ⟨h1, by rw [h1], Real.sqrt n / Real.sqrt (∑ i, x i ^ 2), by positivity, ?_⟩
  funext i
  show x i / Real.sqrt (∑ i, x i ^ 2) * Real.sqrt n = Real.sqrt n / Real.sqrt (∑ i, x i ^ 2) * x i
  ring

/-- `C57` for the column `(3, 4)`: the result is `√2 / 5 · (3, 4)`. -/
example : sphereCol ![3, 4] ⬝ᵥ sphereCol ![3, 4] = (2 : ℝ) := by
  have h : (![3, 4] : Vec 2) ≠ 0 := fun h => by
    have := congrFun h 0
    norm_num at this
  have := (C57_sphere _ h).1
  rw [this]
  norm_num

/-! ## C58 -/

/-- The values of `N × b` numbers drawn at `pos`, column by column. -/
def isoVals (dist : IsoDist) (N b : ℕ) (rng : Rng) (pos : ℕ) : ℕ → ℕ → ℝ := fun j i =>
  if h : j < b ∧ i < N then dist.fill N b rng pos ⟨j, h.1⟩ ⟨i, h.2⟩ else 0

theorem isoDraw_eq (dist : IsoDist) (rng : Rng) (pos : ℕ) (size : PySize) (shape : List ℕ) (N b : ℕ)
    (h : size.dims = shape.map Nat.cast) (hs : shape ≠ []) (hN : isoRows shape = N) (hb : isoCols shape = b) :
    isoDraw dist rng pos size = .ok (⟨shape, isoVals dist N b rng pos⟩, pos + N * b) := by
  subst hN hb
  have hm : size.dims.map Int.toNat = shape := by
    rw [h, List.map_map]
    conv_rhs => rw [← List.map_id shape]
    exact List.map_congr_left fun a _ => by simp
  unfold isoDraw
  rw [if_neg (by rw [h]; simp), hm]
  unfold isoFill
  rw [if_neg (fun hc => hs hc.2)]
  rfl

theorem lookup_of_name (name : String) (hname : name ∈ ["rademacher", "normal", "sphere", "signs", "gaussian"]) :
    ∃ dist, ISO_DISTRIBUTIONS.lookup name = some dist := by
  simp only [List.mem_cons, List.not_mem_nil, or_false] at hname
  rcases hname with h | h | h | h | h <;> subst h <;> exact ⟨_, rfl⟩

theorem isotropicDraw_eq {name : String} {dist : IsoDist} (hd : ISO_DISTRIBUTIONS.lookup name = some dist) (rng : Rng)
    (pos : ℕ) (size : PySize) : isotropicDraw name rng pos size = isoDraw dist rng pos size := by
  unfold isotropicDraw
  rw [hd]

theorem isotropicOut_eq {name : String} {dist : IsoDist} (hd : ISO_DISTRIBUTIONS.lookup name = some dist) (rng : Rng)
    (pos : ℕ) (out : OutArg) : isotropicOut name rng pos out = match out with
    | .notArray => .error .assertion
    | .mat rows cols dtype order =>
      if dist ≠ .rademacher ∧ dtype = .other then .error .type
      else if order = .strided then .error .value
      else if dist = .rademacher ∧ dtype ≠ .f64 then .error .type
      else .ok (fillOrdered dist rows (fun j i => if order = .f then j * rows + i else i * cols + j) rng pos) := by
  unfold isotropicOut
  rw [hd]
  rfl

theorem fill_col (dist : IsoDist) (N : ℕ) (rng : Rng) (b pos : ℕ) (j : Fin b) (i : Fin N) :
    dist.fill N b rng pos j i = dist.fill N 1 rng (pos + j * N) 0 i := by
  have : ∀ raw, rawCols N b raw pos j = rawCols N 1 raw (pos + j * N) 0 := by
    intro raw; funext i; simp [rawCols]
  cases dist <;> simp [IsoDist.fill, this]

/-- C58: the accepted names are the three distributions and the two aliases; anything else raises AssertionError, both for a
draw and for `out`. -/
theorem C58_names (name : String) (rng : Rng) (pos : ℕ) (size : PySize) (out : OutArg) :
    isotropicDraw "signs" rng pos size = isotropicDraw "rademacher" rng pos size ∧
    isotropicDraw "gaussian" rng pos size = isotropicDraw "normal" rng pos size ∧
    isotropicOut "signs" rng pos out = isotropicOut "rademacher" rng pos out ∧
    isotropicOut "gaussian" rng pos out = isotropicOut "normal" rng pos out ∧
    (name ∉ ["rademacher", "normal", "sphere", "signs", "gaussian"] →
      isotropicDraw name rng pos size = .error .assertion ∧ isotropicOut name rng pos out = .error .assertion ∧
      isotropicSampler name rng pos [] = .error .assertion) := by
  refine ⟨rfl, rfl, rfl, rfl, fun h => ?_⟩
  have hl : ISO_DISTRIBUTIONS.lookup name = none := by
    simp only [List.mem_cons, List.not_mem_nil, or_false, not_or] at h
    obtain ⟨h1, h2, h3, h4, h5⟩ := h
    simp [ISO_DISTRIBUTIONS, List.lookup, beq_eq_false_iff_ne.2 h1, beq_eq_false_iff_ne.2 h2, beq_eq_false_iff_ne.2 h3,
      beq_eq_false_iff_ne.2 h4, beq_eq_false_iff_ne.2 h5]
  unfold isotropicDraw isotropicOut isotropicSampler
  rw [hl]
  exact ⟨rfl, rfl, rfl⟩

/-- C58: an integer size means one column: the array has shape `(n, 1)` and is that of `size=(n, 1)`; negative sizes raise
ValueError. -/
theorem C58_int_size (name : String) (hname : name ∈ ["rademacher", "normal", "sphere", "signs", "gaussian"]) (rng : Rng)
    (pos n : ℕ) :
    isotropicDraw name rng pos (.int n) = isotropicDraw name rng pos (.tuple [n, 1]) ∧
    (∃ W, isotropicDraw name rng pos (.int n) = .ok (W, pos + n) ∧ W.shape = [n, 1]) ∧
    isotropicDraw name rng pos (.int (-(n + 1 : ℤ))) = .error .value := by
  obtain ⟨dist, hd⟩ := lookup_of_name name hname
  simp only [isotropicDraw_eq hd]
  refine ⟨rfl, ⟨⟨[n, 1], isoVals dist n 1 rng pos⟩, ?_, rfl⟩, ?_⟩
  · rw [isoDraw_eq dist rng pos (.int n) [n, 1] n 1 rfl (by simp) rfl rfl, mul_one]
  · unfold isoDraw
    rw [if_pos]
    simp only [PySize.dims, List.any_cons, Bool.or_eq_true, decide_eq_true_eq]
    omega

/-- C58, a limit of the claim: a NumPy integer is not an `int`, so `size=np.int64(n)` gives a one-dimensional array of shape
`(n,)`, with the same numbers. -/
theorem C58_numpy_int_size (name : String) (hname : name ∈ ["rademacher", "normal", "sphere", "signs", "gaussian"])
    (rng : Rng) (pos n : ℕ) :
    ∃ W W', isotropicDraw name rng pos (.npInt n) = .ok (W, pos + n) ∧ isotropicDraw name rng pos (.int n) = .ok (W', pos + n) ∧
      W.shape = [n] ∧ W'.shape = [n, 1] ∧ W.data = W'.data := by
  obtain ⟨dist, hd⟩ := lookup_of_name name hname
  simp only [isotropicDraw_eq hd]
  refine ⟨⟨[n], isoVals dist n 1 rng pos⟩, ⟨[n, 1], isoVals dist n 1 rng pos⟩, ?_, ?_, rfl, rfl, rfl⟩
  · rw [isoDraw_eq dist rng pos (.npInt n) [n] n 1 rfl (by simp) rfl rfl, mul_one]
  · rw [isoDraw_eq dist rng pos (.int n) [n, 1] n 1 rfl (by simp) rfl rfl, mul_one]

/-- C58: for a tuple with any number of axes, the array holds the numbers of the matrix with the same first axis and the same number of entries; for the
empty tuple it holds the next number of the stream, except that "sphere" raises IndexError. -/
theorem C58_tuple (name : String) (hname : name ∈ ["rademacher", "normal", "sphere", "signs", "gaussian"]) (rng : Rng) (pos : ℕ) :
    (∀ (n : ℕ) (ds : List ℕ), ∃ W W', isotropicDraw name rng pos (.tuple ((n : ℤ) :: ds.map Nat.cast)) = .ok (W, pos + n * ds.prod) ∧
      isotropicDraw name rng pos (.tuple [n, ds.prod]) = .ok (W', pos + n * ds.prod) ∧ W.shape = n :: ds ∧ W.data = W'.data) ∧
    (name = "sphere" → isotropicDraw name rng pos (.tuple []) = .error .index) ∧
    (name ∈ ["rademacher", "signs"] → ∃ W, isotropicDraw name rng pos (.tuple []) = .ok (W, pos + 1) ∧ W.shape = [] ∧
      W.data 0 0 = rademacherEntry (rng.unif pos)) ∧
    (name ∈ ["normal", "gaussian"] → ∃ W, isotropicDraw name rng pos (.tuple []) = .ok (W, pos + 1) ∧ W.shape = [] ∧
      W.data 0 0 = rng.norm pos) := by
  obtain ⟨dist, hd⟩ := lookup_of_name name hname
  refine ⟨fun n ds => ?_, ?_, ?_, ?_⟩
  · simp only [isotropicDraw_eq hd]
    refine ⟨⟨n :: ds, isoVals dist n ds.prod rng pos⟩, ⟨[n, ds.prod], isoVals dist n ds.prod rng pos⟩, ?_, ?_, rfl, rfl⟩
    · exact isoDraw_eq dist rng pos (.tuple ((n : ℤ) :: ds.map Nat.cast)) (n :: ds) n ds.prod rfl (by simp) rfl rfl
    · exact isoDraw_eq dist rng pos (.tuple [n, ds.prod]) [n, ds.prod] n ds.prod rfl (by simp) rfl (by simp [isoCols])
  · rintro rfl; rfl
  · intro h
    simp only [List.mem_cons, List.not_mem_nil, or_false] at h
    rcases h with rfl | rfl <;> exact ⟨_, rfl, rfl, by simp [PySize.dims, isoCols, isoRows, IsoDist.fill, rawCols]⟩
  · intro h
    simp only [List.mem_cons, List.not_mem_nil, or_false] at h
    rcases h with rfl | rfl <;> exact ⟨_, rfl, rfl, by simp [PySize.dims, isoCols, isoRows, IsoDist.fill, rawCols]⟩

/-- C58: drawing an `N × b` matrix consumes `N b` numbers, and its columns are the `b` vectors that `b` draws of one column
in a row return. -/
theorem C58_columns (name : String) (hname : name ∈ ["rademacher", "normal", "sphere", "signs", "gaussian"])
    (rng : Rng) (N : ℕ) : ∀ (b pos : ℕ), ∃ W Ws,
      isotropicDraw name rng pos (.tuple [N, b]) = .ok (W, pos + N * b) ∧
      isotropicSampler name rng pos (List.replicate b (.int N)) = .ok (Ws, pos + N * b) ∧ Ws.length = b ∧
      ∀ j (hj : j < Ws.length) i, i < N → Ws[j].data 0 i = W.data j i := by
  obtain ⟨dist, hd⟩ := lookup_of_name name hname
  have hdraw : ∀ b pos : ℕ, isotropicDraw name rng pos (.tuple [N, b]) =
      .ok (⟨[N, b], isoVals dist N b rng pos⟩, pos + N * b) := fun b pos => by
    rw [isotropicDraw_eq hd]
    exact isoDraw_eq dist rng pos (.tuple [N, b]) [N, b] N b rfl (by simp) rfl (by simp [isoCols])
  have hone : ∀ pos : ℕ, isotropicDraw name rng pos (.int N) =
      .ok (⟨[N, 1], isoVals dist N 1 rng pos⟩, pos + N * 1) := fun pos => by
    have := hdraw 1 pos
    exact_mod_cast this
  have hsam : ∀ b pos, ∃ Ws, isotropicSampler name rng pos (List.replicate b (.int N)) = .ok (Ws, pos + N * b) ∧
      Ws.length = b ∧ ∀ j (hj : j < Ws.length) (i : Fin N), Ws[j].data 0 i = dist.fill N 1 rng (pos + j * N) 0 i := by
    intro b
    induction b with
    | zero =>
      intro pos
      refine ⟨[], ?_, rfl, fun j hj => absurd hj (by simp)⟩
      rw [List.replicate_zero, isotropicSampler, hd]
      rfl
    | succ b ih =>
      intro pos
      obtain ⟨Ws, h1, h2, h3⟩ := ih (pos + N * 1)
      refine ⟨⟨[N, 1], isoVals dist N 1 rng pos⟩ :: Ws, ?_, by rw [List.length_cons, h2], ?_⟩
      · rw [List.replicate_succ, isotropicSampler, hone]
        simp only
        rw [h1]
        simp only [Except.ok.injEq, Prod.mk.injEq]
        exact ⟨trivial, by ring⟩
      · intro j hj i
        cases j with
        | zero => simp [isoVals]
        | succ j =>
          simp only [List.getElem_cons_succ]
          rw [h3 j (by simpa using hj) i]
          congr 1
          ring
  intro b pos
  obtain ⟨Ws, h1, h2, h3⟩ := hsam b pos
  refine ⟨_, Ws, hdraw b pos, h1, h2, ?_⟩
  intro j hj i hi
  rw [h3 j hj ⟨i, hi⟩]
  simp only [isoVals]
  rw [dif_pos ⟨by omega, hi⟩]
  exact (fill_col dist N rng b pos ⟨j, by omega⟩ ⟨i, hi⟩).symm

/-- `C58` for three columns of length two: the second column is made of the numbers 2 and 3 of the stream. -/
example (rng : Rng) : ∃ W, isotropicDraw "normal" rng 0 (.tuple [2, 3]) = .ok (W, 6) ∧ W.shape = [2, 3] ∧
    W.data 1 0 = rng.norm 2 ∧ W.data 1 1 = rng.norm 3 := by
  rw [isotropicDraw_eq (dist := .normal) rfl,
    isoDraw_eq .normal rng 0 (.tuple [2, 3]) [2, 3] 2 3 rfl (by simp) rfl (by simp [isoCols])]
  exact ⟨_, rfl, rfl, rfl, rfl⟩

/-! ## C84 -/

/-- C84: `out` is filled in memory order: a Fortran-ordered float64 matrix gets the values of a fresh array of its shape, for
every distribution. -/
theorem C84_out_fortran (name : String) (hname : name ∈ ["rademacher", "normal", "sphere", "signs", "gaussian"])
    (rng : Rng) (pos N b : ℕ) :
    ∃ W V, isotropicDraw name rng pos (.tuple [N, b]) = .ok (W, pos + N * b) ∧
      isotropicOut name rng pos (.mat N b .f64 .f) = .ok V ∧ ∀ j i, j < b → i < N → V j i = W.data j i := by
  obtain ⟨dist, hd⟩ := lookup_of_name name hname
  refine ⟨⟨[N, b], isoVals dist N b rng pos⟩, fillOrdered dist N (fun j i => j * N + i) rng pos, ?_, ?_, ?_⟩
  · rw [isotropicDraw_eq hd]
    exact isoDraw_eq dist rng pos (.tuple [N, b]) [N, b] N b rfl (by simp) rfl (by simp [isoCols])
  · rw [isotropicOut_eq hd]
    simp
  · intro j i hj hi
    have hr : ∀ raw : ℕ → ℝ, (fun i' : Fin N => raw (pos + (j * N + i'))) = rawCols N b raw pos ⟨j, hj⟩ := by
      intro raw; funext i'; simp [rawCols, add_assoc]
    simp only [isoVals]
    rw [dif_pos ⟨hj, hi⟩]
    cases dist
    · exact congrArg rademacherEntry (congrFun (hr rng.unif) ⟨i, hi⟩)
    · exact congrFun (hr rng.norm) ⟨i, hi⟩
    · simp only [fillOrdered, IsoDist.fill]
      rw [dif_pos hi, hr]

/-- C84: a float32 array is accepted by the Gaussian and spherical samplers but makes the Rademacher sampler raise TypeError. -/
theorem C84_out_float32 (rng : Rng) (pos N b : ℕ) (order : OutOrder) (ho : order ≠ .strided) :
    isotropicOut "rademacher" rng pos (.mat N b .f32 order) = .error .type ∧
    (∃ V, isotropicOut "normal" rng pos (.mat N b .f32 order) = .ok V) ∧
    (∃ V, isotropicOut "sphere" rng pos (.mat N b .f32 order) = .ok V) := by
  refine ⟨?_, ⟨fillOrdered .normal N (fun j i => if order = .f then j * N + i else i * b + j) rng pos, ?_⟩,
    ⟨fillOrdered .sphere N (fun j i => if order = .f then j * N + i else i * b + j) rng pos, ?_⟩⟩
  · rw [isotropicOut_eq (dist := .rademacher) rfl]
    simp [ho]
  · rw [isotropicOut_eq (dist := .normal) rfl]
    simp [ho]
  · rw [isotropicOut_eq (dist := .sphere) rfl]
    simp [ho]

/-- C84: objects that are not arrays raise AssertionError, arrays that are not contiguous ValueError, and integer arrays
TypeError, for every distribution. -/
theorem C84_out_rejects (name : String) (hname : name ∈ ["rademacher", "normal", "sphere", "signs", "gaussian"])
    (rng : Rng) (pos N b : ℕ) :
    isotropicOut name rng pos .notArray = .error .assertion ∧
    isotropicOut name rng pos (.mat N b .f64 .strided) = .error .value ∧
    ∀ order, order ≠ .strided → isotropicOut name rng pos (.mat N b .other order) = .error .type := by
  obtain ⟨dist, hd⟩ := lookup_of_name name hname
  simp only [isotropicOut_eq hd]
  refine ⟨trivial, ?_, ?_⟩
  · simp
  · intro order ho
    cases dist <;> simp [ho]

/-! ## C59 -/

/-- C59: the slices of the threads partition the columns: every column belongs to exactly one thread. -/
theorem C59_partition (rows cols : ℕ) (name : String) (threads : Option ℤ) (cpus : ℕ) (gens : ℕ → Rng) (o : IsoObj)
    (h : IsoObj.init rows cols name threads cpus gens = .ok o) :
    ∀ j, j < cols → ∃! i, i < o.threads ∧ o.lo i ≤ j ∧ j < o.lo i + o.width i := by
  unfold IsoObj.init at h
  rcases hl : ISO_DISTRIBUTIONS.lookup name with _ | dist
  · rw [hl] at h; cases h
  rw [hl] at h
  simp only at h
  by_cases ht : threads.getD cpus ≤ 0
  · rw [if_pos ht] at h; cases h
  rw [if_neg ht] at h
  obtain rfl := Except.ok.inj h
  intro j hj
  obtain ⟨t, htd⟩ : ∃ t, t = (threads.getD (cpus : ℤ)).toNat := ⟨_, rfl⟩
  have ht0 : 0 < t := by omega
  obtain ⟨s, hs⟩ : ∃ s, s = ⌈(cols : ℚ) / (t : ℚ)⌉₊ := ⟨_, rfl⟩
  have hcov : cols ≤ t * s := by
    have h1 : (cols : ℚ) / t ≤ s := by rw [hs]; exact Nat.le_ceil _
    rw [div_le_iff₀ (by exact_mod_cast ht0)] at h1
    have : (cols : ℚ) ≤ ((s * t : ℕ) : ℚ) := by push_cast; exact h1
    have := Nat.cast_le.1 this
    rwa [mul_comm] at this
  have hs0 : 0 < s := by
    rcases Nat.eq_zero_or_pos s with h | h
    · rw [h] at hcov; omega
    · exact h
  rw [← htd, ← hs]
  have hdiv := Nat.div_add_mod j s
  have hmod := Nat.mod_lt j hs0
  refine ⟨j / s, ⟨?_, ?_, ?_⟩, ?_⟩
  · show j / s < t
    exact Nat.div_lt_of_lt_mul (by rw [mul_comm]; omega)
  · show min (j / s * s) cols ≤ j
    rw [mul_comm]; omega
  · show j < min (j / s * s) cols + (min ((j / s + 1) * s) cols - min (j / s * s) cols)
    have : (j / s + 1) * s = s * (j / s) + s := by ring
    rw [this, mul_comm (j / s) s]
    omega
  · rintro i ⟨-, h1, h2⟩
    change min (i * s) cols ≤ j at h1
    change j < min (i * s) cols + (min ((i + 1) * s) cols - min (i * s) cols) at h2
    have e : (i + 1) * s = i * s + s := by ring
    rw [e] at h2
    exact (Nat.div_eq_of_lt_le (by omega) (by rw [e]; omega)).symm

theorem runSteps_col (n : ℕ) (steps : List FillStep) (st : ℕ → ColState) (j : ℕ) :
    runSteps n steps st j = (steps.filter (fun a => a.1 = j)).foldl (fun s a => a.2.exec n s) (st j) := by
  induction steps generalizing st with
  | nil => rfl
  | cons a l ih =>
    show runSteps n l _ j = _
    rw [ih]
    by_cases h : a.1 = j
    · rw [List.filter_cons_of_pos (by simpa using h)]
      subst h
      simp
    · rw [List.filter_cons_of_neg (by simpa using h)]
      exact congrArg (fun s => List.foldl _ s _) (Function.update_of_ne (fun hc => h hc.symm) _ _)

theorem filter_tags (L : List (ℕ × FillStep)) (i j : ℕ) (h : ∀ a ∈ L, a.2.1 = j → a.1 = i) :
    (L.map Prod.snd).filter (fun a => a.1 = j) =
      ((L.filter (fun a => a.1 = i)).map Prod.snd).filter (fun a => a.1 = j) := by
  induction L with
  | nil => rfl
  | cons a l ih =>
    have ih := ih fun b hb => h b (List.mem_cons_of_mem _ hb)
    by_cases hi : a.1 = i
    · rw [List.filter_cons_of_pos (by simpa using hi), List.map_cons, List.map_cons, List.filter_cons, List.filter_cons, ih]
    · have hj : ¬ a.2.1 = j := fun hc => hi (h a List.mem_cons_self hc)
      rw [List.filter_cons_of_neg (p := fun a : ℕ × FillStep => decide (a.1 = i)) (by simpa using hi), List.map_cons,
        List.filter_cons_of_neg (by simpa using hj), ih]

theorem flatMap_single {β : Type*} (X : ℕ → List β) (j : ℕ) : ∀ w,
    (List.range w).flatMap (fun k => if k = j then X k else []) = if j < w then X j else [] := by
  intro w
  induction w with
  | zero => simp
  | succ w ih =>
    rw [List.range_succ, List.flatMap_append, ih]
    by_cases h : w = j
    · subst h; simp
    · by_cases h2 : j < w
      · simp [h, h2, Nat.lt_succ_of_lt h2]
      · simp [h, h2, show ¬ j < w + 1 by omega]

theorem cellsOf_col (n lo w : ℕ) (f : ℕ → ℕ → ColAct) (j : ℕ) :
    (cellsOf n lo w f).filter (fun a => a.1 = lo + j) =
      if j < w then (List.range n).map (fun i => (lo + j, f j i)) else [] := by
  unfold cellsOf
  rw [List.filter_flatMap, ← flatMap_single (fun j => (List.range n).map (fun i => (lo + j, f j i)))]
  congr 1
  funext k
  by_cases h : k = j
  · subst h
    rw [if_pos rfl]
    refine List.filter_eq_self.2 fun a ha => ?_
    obtain ⟨i, -, rfl⟩ := List.mem_map.1 ha
    simp
  · rw [if_neg h]
    refine List.filter_eq_nil_iff.2 fun a ha => ?_
    obtain ⟨i, -, rfl⟩ := List.mem_map.1 ha
    simpa using h

theorem norms_col (lo w j : ℕ) :
    ((List.range w).map (fun j => ((lo + j, ColAct.norm) : FillStep))).filter (fun a => a.1 = lo + j) =
      if j < w then [(lo + j, ColAct.norm)] else [] := by
  rw [← flatMap_single (fun j => [((lo + j, ColAct.norm) : FillStep)])]
  induction List.range w with
  | nil => rfl
  | cons k l ih =>
    rw [List.map_cons, List.flatMap_cons, ← ih]
    by_cases h : k = j
    · subst h; simp
    · simp [h]

/-- Folding a step over the entries of a column changes each entry once. -/
theorem fold_cells (n c : ℕ) (act : ℕ → ColAct) (φ : ℕ → ℝ → ℝ → ℝ)
    (h : ∀ i s, (act i).exec n s = { s with vals := Function.update s.vals i (φ i s.norm (s.vals i)) }) (s : ColState) :
    ∀ m, ((List.range m).map (fun i => ((c, act i) : FillStep))).foldl (fun s a => a.2.exec n s) s =
      ⟨fun i => if i < m then φ i s.norm (s.vals i) else s.vals i, s.norm⟩ := by
  intro m
  induction m with
  | zero => simp
  | succ m ih =>
    rw [List.range_succ, List.map_append, List.foldl_append, ih]
    simp only [List.map_cons, List.map_nil, List.foldl_cons, List.foldl_nil, h]
    congr 1
    funext i
    by_cases hi : i = m
    · subst hi; simp
    · rw [Function.update_of_ne hi]
      by_cases h2 : i < m
      · simp [h2, Nat.lt_succ_of_lt h2]
      · simp [h2, show ¬ i < m + 1 by omega]

/-- The steps of one thread on one of its columns leave the values of the sampler there. -/
theorem fillProgram_col (dist : IsoDist) (n lo w : ℕ) (rng : Rng) (pos : ℕ) (s : ColState) (j : Fin w) (r : Fin n) :
    (((fillProgram dist n lo w rng pos).filter (fun a => a.1 = lo + j)).foldl (fun s a => a.2.exec n s) s).vals r =
      dist.fill n w rng pos j r := by
  have hj := j.2
  have hr := r.2
  cases dist
  · unfold fillProgram
    simp only [List.filter_append, cellsOf_col, if_pos hj, List.foldl_append]
    rw [fold_cells n _ (fun i => .write i _) (fun i _ _ => rng.unif (pos + j * n + i)) (fun _ _ => rfl),
      fold_cells n _ (fun i => .mul2 i) (fun _ _ x => x * 2) (fun _ _ => rfl), fold_cells n _ (fun i => .floor i) (fun _ _ x => (⌊x⌋ : ℝ)) (fun _ _ => rfl),
      fold_cells n _ (fun i => .mul2 i) (fun _ _ x => x * 2) (fun _ _ => rfl), fold_cells n _ (fun i => .sub1 i) (fun _ _ x => x - 1) (fun _ _ => rfl)]
    simp only [if_pos hr, IsoDist.fill, rawCols, rademacherEntry]
    ring
  · unfold fillProgram
    simp only [cellsOf_col, if_pos hj]
    rw [fold_cells n _ (fun i => .write i _) (fun i _ _ => rng.norm (pos + j * n + i)) (fun _ _ => rfl)]
    simp only [if_pos hr, IsoDist.fill, rawCols]
  · unfold fillProgram
    simp only [List.filter_append, cellsOf_col, norms_col, if_pos hj, List.foldl_append, List.foldl_cons, List.foldl_nil]
    rw [fold_cells n _ (fun i => .write i _) (fun i _ _ => rng.norm (pos + j * n + i)) (fun _ _ => rfl)]
    rw [fold_cells n _ (fun i => .div i) (fun _ c x => x / c) (fun _ _ => rfl), fold_cells n _ (fun i => .mulRoot i) (fun _ _ x => x * Real.sqrt n) (fun _ _ => rfl)]
    simp only [ColAct.exec, if_pos hr, IsoDist.fill, rawCols, sphereCol]
    have hsum : ∑ i ∈ Finset.range n, (if i < n then rng.norm (pos + j * n + i) else s.vals i) ^ 2 =
        ∑ i : Fin n, rng.norm (pos + j * n + i) ^ 2 := by
      rw [← Fin.sum_univ_eq_sum_range (fun i => (if i < n then rng.norm (pos + j * n + i) else s.vals i) ^ 2)]
      exact Finset.sum_congr rfl fun i _ => by rw [if_pos i.2]
    rw [hsum]

theorem fillProgram_cols (dist : IsoDist) (n lo w : ℕ) (rng : Rng) (pos : ℕ) (a : FillStep)
    (h : a ∈ fillProgram dist n lo w rng pos) : lo ≤ a.1 ∧ a.1 < lo + w := by
  have hc : ∀ f, a ∈ cellsOf n lo w f → lo ≤ a.1 ∧ a.1 < lo + w := by
    intro f hf
    obtain ⟨j, hj, hf⟩ := List.mem_flatMap.1 hf
    obtain ⟨i, -, rfl⟩ := List.mem_map.1 hf
    have := List.mem_range.1 hj
    constructor <;> simp; omega
  have hn : a ∈ (List.range w).map (fun j => ((lo + j, ColAct.norm) : FillStep)) → lo ≤ a.1 ∧ a.1 < lo + w := by
    intro hf
    obtain ⟨j, hj, rfl⟩ := List.mem_map.1 hf
    have := List.mem_range.1 hj
    constructor <;> simp; omega
  cases dist <;> unfold fillProgram at h <;> simp only [List.mem_append] at h
  · rcases h with (((h | h) | h) | h) | h <;> exact hc _ h
  · exact hc _ h
  · rcases h with ((h | h) | h) | h
    · exact hc _ h
    · exact hn h
    · exact hc _ h
    · exact hc _ h

/-- C59: whatever the interleaving of the threads, `fill()` writes in every column exactly the column that the sampler draws
from the generator of the owning thread; so the result does not depend on the schedule. -/
theorem C59_fill (rows cols : ℕ) (name : String) (threads : Option ℤ) (cpus : ℕ) (gens : ℕ → Rng) (o₀ : IsoObj)
    (h : IsoObj.init rows cols name threads cpus gens = .ok o₀) (pos : ℕ → ℕ) (L : List (ℕ × FillStep))
    (hL : IsoObj.Schedule { o₀ with pos := pos } L) (st : ℕ → ColState) (i : ℕ) (hi : i < o₀.threads)
    (j : Fin (o₀.width i)) (r : Fin rows) :
    (runSteps rows (L.map Prod.snd) st (o₀.lo i + j)).vals r = o₀.dist.fill rows (o₀.width i) (gens i) (pos i) j r := by
  have hpart := C59_partition rows cols name threads cpus gens o₀ h
  have hobj : o₀.rows = rows ∧ o₀.cols = cols ∧ o₀.gens = gens := by
    unfold IsoObj.init at h
    rcases hl : ISO_DISTRIBUTIONS.lookup name with _ | dist
    · rw [hl] at h; cases h
    rw [hl] at h
    simp only at h
    split at h
    · cases h
    · obtain rfl := Except.ok.inj h
      exact ⟨rfl, rfl, rfl⟩
  have hw : ∀ k, o₀.lo k + o₀.width k ≤ max cols (o₀.lo k) := by
    intro k
    rw [← hobj.2.1]
    unfold IsoObj.width IsoObj.lo
    omega
  have hcol : o₀.lo i + j < cols := by
    have := hw i
    have := j.2
    omega
  rw [runSteps_col, filter_tags L i]
  · rw [hL i, if_pos hi]
    show ColState.vals (((fillProgram o₀.dist o₀.rows (o₀.lo i) (o₀.width i) (o₀.gens i) (pos i)).filter _).foldl _ _) r = _
    rw [hobj.1, hobj.2.2]
    exact fillProgram_col o₀.dist rows (o₀.lo i) (o₀.width i) (gens i) (pos i) _ j r
  · intro a ha hj
    have hmem : a.2 ∈ (L.filter (fun b => b.1 = a.1)).map Prod.snd :=
      List.mem_map.2 ⟨a, List.mem_filter.2 ⟨ha, by simp⟩, rfl⟩
    rw [hL a.1] at hmem
    by_cases ht : a.1 < o₀.threads
    · rw [if_pos ht] at hmem
      have := fillProgram_cols _ _ _ _ _ _ _ hmem
      rw [hj] at this
      obtain ⟨k, -, hk⟩ := hpart _ hcol
      rw [hk i ⟨hi, by omega, by have := j.2; omega⟩]
      exact hk a.1 ⟨ht, this.1, this.2⟩
    · rw [if_neg ht] at hmem
      cases hmem

/-- C59: unknown names raise KeyError; a thread count that is not positive raises ValueError. -/
theorem C59_rejects (rows cols : ℕ) (name : String) (threads : Option ℤ) (cpus : ℕ) (gens : ℕ → Rng) :
    (name ∉ ["rademacher", "normal", "sphere", "signs", "gaussian"] →
      IsoObj.init rows cols name threads cpus gens = .error .key) ∧
    (name ∈ ["rademacher", "normal", "sphere", "signs", "gaussian"] → threads.getD cpus ≤ 0 →
      IsoObj.init rows cols name threads cpus gens = .error .value) ∧
    (name ∈ ["rademacher", "normal", "sphere", "signs", "gaussian"] → 0 < threads.getD cpus →
      ∃ o, IsoObj.init rows cols name threads cpus gens = .ok o ∧ (o.threads : ℤ) = threads.getD cpus) := by
  refine ⟨fun h => ?_, fun h ht => ?_, fun h ht => ?_⟩
  · have hl : ISO_DISTRIBUTIONS.lookup name = none := by
      simp only [List.mem_cons, List.not_mem_nil, or_false, not_or] at h
      obtain ⟨h1, h2, h3, h4, h5⟩ := h
      simp [ISO_DISTRIBUTIONS, List.lookup, beq_eq_false_iff_ne.2 h1, beq_eq_false_iff_ne.2 h2, beq_eq_false_iff_ne.2 h3,
        beq_eq_false_iff_ne.2 h4, beq_eq_false_iff_ne.2 h5]
    unfold IsoObj.init
    rw [hl]
  · obtain ⟨dist, hd⟩ := lookup_of_name name h
    unfold IsoObj.init
    rw [hd]
    exact if_pos ht
  · obtain ⟨dist, hd⟩ := lookup_of_name name h
    unfold IsoObj.init
    rw [hd]
    refine ⟨_, if_neg (not_le.2 ht), ?_⟩
    exact Int.toNat_of_nonneg ht.le

/-- A schedule exists for every object: the threads one after another. -/
theorem schedule_exists (o : IsoObj) : ∃ L, o.Schedule L := by
  refine ⟨(List.range o.threads).flatMap (fun i => (o.program i).map (fun a => (i, a))), fun i => ?_⟩
  rw [List.filter_flatMap, List.map_flatMap]
  rw [← flatMap_single (fun i => o.program i)]
  congr 1
  funext k
  by_cases h : k = i
  · subst h
    rw [if_pos rfl, List.filter_eq_self.2, List.map_map]
    · simp [Function.comp_def]
    · intro a ha
      obtain ⟨b, -, rfl⟩ := List.mem_map.1 ha
      simp
  · rw [if_neg h, List.filter_eq_nil_iff.2, List.map_nil]
    intro a ha
    obtain ⟨b, -, rfl⟩ := List.mem_map.1 ha
    simpa using h

/-- Three columns and two threads: thread 0 owns columns 0 and 1, thread 1 column 2. -/
example (gens : ℕ → Rng) : ∃ o, IsoObj.init 2 3 "normal" (some 2) 8 gens = .ok o ∧ o.threads = 2 ∧ o.lo 0 = 0 ∧
    o.width 0 = 2 ∧ o.lo 1 = 2 ∧ o.width 1 = 1 := by
  refine ⟨_, rfl, rfl, ?_⟩
  have hs : ⌈((3 : ℕ) : ℚ) / ((Int.toNat 2 : ℕ) : ℚ)⌉₊ = 2 := by
    rw [show Int.toNat 2 = 2 from rfl, Nat.ceil_eq_iff (by norm_num)]
    norm_num
  unfold IsoObj.width IsoObj.lo
  simp only [Option.getD_some, hs]
  norm_num

end Primate
