import Verif.Model.FunAttr
import Verif.Props.MatrixFunctionHistory

/-! # Property C111: the attribute `fun` of `MatrixFunction` -/

noncomputable section

namespace Primate

open Matrix

variable {n : ℕ}

/-! ## What the setter accepts -/

/-- **C111**: the assignment returns exactly for callables that give, on the array of `n` ones, an array whose last axis has `n` entries; then the
attribute is the assigned object.  Otherwise something is raised and the attribute is what it was. -/
theorem C111_accept_iff (n : ℕ) (old v : FnVal) :
    (((setFun n old v).1 = .ok () ↔ ∃ call shape g, v = .callable call ∧ call (List.replicate n 1) = .ok (.arr shape g) ∧ shape.getLast? = some n)) ∧
    ((setFun n old v).1 = .ok () → (setFun n old v).2 = v) ∧ ((setFun n old v).1 ≠ .ok () → (setFun n old v).2 = old) := by
  cases v with
  | notCallable => simp [setFun]
  | callable call =>
    unfold setFun
    rcases h : call (List.replicate n 1) with er | out
    · simp [h]
    · cases out with
      | num x => simp [h]
      | other => simp [h]
      | arr shape g =>
        rcases hs : shape.getLast? with _ | d
        · simp [h, hs]
        · by_cases hd : d = n
          · subst hd
            simp [h, hs]
          · simp [h, hs, hd]

/-- **C111**: which exception an assignment ends in. -/
theorem C111_errors (n : ℕ) (old : FnVal) :
    (setFun n old .notCallable).1 = .error .assertion ∧
    (∀ call er, call (List.replicate n 1) = .error er → (setFun n old (.callable call)).1 = .error er) ∧
    (∀ call x, call (List.replicate n 1) = .ok (.num x) → (setFun n old (.callable call)).1 = .error .assertion) ∧
    (∀ call g, call (List.replicate n 1) = .ok (.arr [] g) → (setFun n old (.callable call)).1 = .error .index) ∧
    (∀ call shape d g, call (List.replicate n 1) = .ok (.arr shape g) → shape.getLast? = some d → d ≠ n →
      (setFun n old (.callable call)).1 = .error .assertion) := by
  refine ⟨rfl, ?_, ?_, ?_, ?_⟩
  · intro call er h; simp [setFun, h]
  · intro call x h; simp [setFun, h]
  · intro call g h; simp [setFun, h]
  · intro call shape d g h hs hd; simp [setFun, h, hs, hd]

/-- **C111**: after any sequence of assignments the attribute is the last object that was accepted, or the initial one. -/
theorem C111_last_accepted (n : ℕ) (old : FnVal) (vs : List FnVal) :
    setFuns n old vs = ((vs.filter fun v => decide ((setFun n old v).1 = .ok ())).getLast?).getD old := by
  have hind : ∀ (o o' v : FnVal), (setFun n o v).1 = .ok () ↔ (setFun n o' v).1 = .ok () := fun o o' v => by
    rw [(C111_accept_iff n o v).1, (C111_accept_iff n o' v).1]
  have hcongr : ∀ (o o' : FnVal) (vs : List FnVal), (vs.filter fun v => decide ((setFun n o v).1 = .ok ())) =
      vs.filter fun v => decide ((setFun n o' v).1 = .ok ()) := fun o o' vs => by
    refine List.filter_congr fun v _ => ?_
    rw [decide_eq_decide]
    exact hind o o' v
  induction vs generalizing old with
  | nil => rfl
  | cons v vs ih =>
    show setFuns n (setFun n old v).2 vs = _
    rw [ih, hcongr _ old]
    by_cases h : (setFun n old v).1 = .ok ()
    · rw [(C111_accept_iff n old v).2.1 h, List.filter_cons_of_pos (by simp [h])]
      rw [List.getLast?_cons]
      simp
    · rw [(C111_accept_iff n old v).2.2 h, List.filter_cons_of_neg (by simp [h])]

/-- **C111**: functions acting entry by entry are always accepted, and line 150 computes with them the weighted sum of C45. -/
theorem C111_entrywise (n : ℕ) (old : FnVal) (f : ℝ → ℝ) (m : ℕ) (nodes weights : ℕ → ℝ) (nsq : ℝ) :
    setFun n old (.ofReal f) = (.ok (), .ofReal f) ∧
    quadEntry (.ofReal f) m nodes weights nsq = .ok ((∑ i ∈ Finset.range m, f (nodes i) * weights i) * nsq) := by
  constructor
  · simp [setFun, FnVal.ofReal]
  · have : ∑ i ∈ Finset.range m, f ((List.map nodes (List.range m)).getD i 0) * weights i = ∑ i ∈ Finset.range m, f (nodes i) * weights i := by
      refine Finset.sum_congr rfl fun i hi => ?_
      have hi' := Finset.mem_range.1 hi
      simp [List.getD, hi']
    simp only [quadEntry, FnVal.ofReal, List.length_map, List.length_range, List.getLast?_singleton, bcastSum, if_true, List.dropLast_singleton,
      List.prod_nil]
    rw [this]

/-- **C111**: with a function acting entry by entry, `quad` is the one of C45 and C47. -/
theorem C111_quad_entrywise (K : TriKernels) (eps : ℝ) (fuel : ℕ) (M : MF n) (x : Vec n) :
    M.quadColFn K eps fuel (.ofReal M.f) x = M.quadCol K eps fuel x := by
  unfold MF.quadColFn MF.quadCol
  rcases hl : lanczosNative M.A eps x M.deg M.rtol M.orth M.alpha M.beta M.Q with er | s
  · rfl
  · dsimp only
    rcases hq : quadrature K s.alpha s.beta (some M.deg) "gw" (some M.deg) (some M.deg) "auto" 30 fuel with _ | er | ⟨a, _ | ⟨t, w⟩⟩
    · rfl
    · rfl
    · rfl
    · simp only [(C111_entrywise n (.ofReal M.f) M.f M.deg t w (nrm x ^ 2)).2]

/-! ## Acceptance is neither sufficient nor necessary -/

theorem quadColFn_error (K : TriKernels) (eps : ℝ) (fuel : ℕ) (M M' : MF n) (fn : FnVal) (x : Vec n) (y : ℝ)
    (h : M.quadCol K eps fuel x = some (.ok (M', some y))) (er : PyErr) (he : ∀ nodes weights nsq, quadEntry fn M.deg nodes weights nsq = .error er) :
    M.quadColFn K eps fuel fn x = some (.error er) := by
  unfold MF.quadCol at h
  unfold MF.quadColFn
  rcases hl : lanczosNative M.A eps x M.deg M.rtol M.orth M.alpha M.beta M.Q with er | s
  · rw [hl] at h; simp at h
  · simp only [hl] at h ⊢
    rcases hq : quadrature K s.alpha s.beta (some M.deg) "gw" (some M.deg) (some M.deg) "auto" 30 fuel with _ | er | ⟨a, _ | ⟨t, w⟩⟩
    · simp [hq] at h
    · simp [hq] at h
    · simp [hq] at h
    · simp only [he]

/-- **C111**, negative: the setter calls the function on `n` numbers, `quad` on `degree` numbers.  A function that always returns an array of `n` ones is
accepted, and then every call of `quad` on an object with `2 ≤ degree < n` raises ValueError, whatever was called before. -/
theorem C111_accepted_but_raises (n : ℕ) (old : FnVal) : ∃ v : FnVal, setFun n old v = (.ok (), v) ∧
    ∀ (K : TriKernels) (_ : EighOk K) (eps : ℝ) (_ : 0 ≤ eps) (fuel : ℕ) (B : Matrix (Fin n) (Fin n) ℝ) (_ : B.IsSymm) (f : ℝ → ℝ) (deg orth : ℤ)
      (M0 M : MF n) (_ : MF.init B.mulVec f deg orth = .ok M0) (_ : M0.orth ≤ 2) (_ : deg < n) (_ : MF.Reach K eps fuel M0 M) (x : Vec n),
      M.quadColFn K eps fuel v x = some (.error .value) := by
  refine ⟨.callable fun _ => .ok (.arr [n] fun _ => 1), by simp [setFun], ?_⟩
  intro K hK eps heps fuel B hB f deg orth M0 M h0 ho hdn hR x
  have hdeg : 2 ≤ deg := by
    unfold MF.init at h0
    split_ifs at h0 with hd
    omega
  obtain ⟨M1, -, y1, -, h1, -, -⟩ := C47_quad_history_partial K hK eps heps fuel B hB f deg orth (by omega) M0 M M h0 ho hR hR x
  refine quadColFn_error K eps fuel M M1 _ x y1 h1 _ fun nodes weights nsq => ?_
  obtain ⟨-, -, -, d1, -, -⟩ := reached K eps fuel _ _ deg orth (by omega) M0 M h0 hR
  have h4 : M0.deg = (min deg (n : ℤ)).toNat := by
    unfold MF.init at h0
    split_ifs at h0
    simp only [Except.ok.injEq] at h0
    rw [← h0]
  have h5 : n ≠ M.deg := by omega
  have h6 : n ≠ 1 := by omega
  have h7 : M.deg ≠ 1 := by omega
  simp [quadEntry, bcastSum, h5, h6, h7]

/-- **C111**, negative: a function with two rows of results is accepted (the last axis has the right length), but `quad` cannot store the two sums
in one entry and raises ValueError, for every object and degree. -/
theorem C111_two_rows (n : ℕ) (old : FnVal) (f g : ℝ → ℝ) : ∃ v : FnVal, setFun n old v = (.ok (), v) ∧
    (∀ xs : List ℝ, ∃ call out, v = .callable call ∧ call xs = .ok (.arr [2, xs.length] out) ∧ ∀ i < xs.length, out i = f (xs.getD i 0) ∧
      out (xs.length + i) = g (xs.getD i 0)) ∧
    ∀ (K : TriKernels) (eps : ℝ) (fuel : ℕ) (M M' : MF n) (x : Vec n) (y : ℝ), M.quadCol K eps fuel x = some (.ok (M', some y)) →
      M.quadColFn K eps fuel v x = some (.error .value) := by
  refine ⟨.callable fun xs => .ok (.arr [2, xs.length] fun i => if i < xs.length then f (xs.getD i 0) else g (xs.getD (i - xs.length) 0)), by simp [setFun],
    fun xs => ⟨_, _, rfl, rfl, fun i hi => ⟨if_pos hi, ?_⟩⟩, fun K eps fuel M M' x y h => ?_⟩
  · show (if xs.length + i < xs.length then _ else g (xs.getD (xs.length + i - xs.length) 0)) = _
    rw [if_neg (by omega), Nat.add_sub_cancel_left]
  · exact quadColFn_error K eps fuel M M' _ x y h _ fun nodes weights nsq => by simp [quadEntry, bcastSum]

/-- **C111**, negative: a function that raises when an argument is 1 or more is refused for every size `n ≥ 1`, although line 150 works
with it whenever the nodes are below 1. -/
theorem C111_refused_but_works (n : ℕ) (hn : 1 ≤ n) (old : FnVal) (f : ℝ → ℝ) : ∃ v : FnVal, setFun n old v = (.error .value, old) ∧
    ∀ m nodes weights nsq, (∀ i < m, nodes i < 1) →
      quadEntry v m nodes weights nsq = .ok ((∑ i ∈ Finset.range m, f (nodes i) * weights i) * nsq) := by
  classical
  refine ⟨.callable fun xs => if ∃ x ∈ xs, 1 ≤ x then .error .value else .ok (.arr [xs.length] fun i => f (xs.getD i 0)), ?_,
    fun m nodes weights nsq hnod => ?_⟩
  · have : ∃ x ∈ List.replicate n (1 : ℝ), 1 ≤ x := ⟨1, List.mem_replicate.2 ⟨by omega, rfl⟩, le_refl _⟩
    simp only [setFun, if_pos this]
  · have : ¬ ∃ x ∈ List.map nodes (List.range m), 1 ≤ x := by
      rintro ⟨x, hx, h1⟩
      obtain ⟨i, hi, rfl⟩ := List.mem_map.1 hx
      exact absurd (hnod i (List.mem_range.1 hi)) (not_lt.2 h1)
    have h2 := (C111_entrywise n old f m nodes weights nsq).2
    simp only [quadEntry, FnVal.ofReal] at h2 ⊢
    rw [if_neg this]
    exact h2

/-- **C111**, negative: constant functions that return a number, an array without axes or an array of length one are refused for every size
`n ≠ 1`, although line 150 computes with them what it computes with the constant function acting entry by entry. -/
theorem C111_constants (n : ℕ) (hn : n ≠ 1) (old : FnVal) (x : ℝ) :
    setFun n old (.callable fun _ => .ok (.num x)) = (.error .assertion, old) ∧
    (∀ g, setFun n old (.callable fun _ => .ok (.arr [] g)) = (.error .index, old)) ∧
    (∀ g, setFun n old (.callable fun _ => .ok (.arr [1] g)) = (.error .assertion, old)) ∧
    ∀ m nodes weights nsq, ∀ out ∈ [FnOut.num x, .arr [] fun _ => x, .arr [1] fun _ => x],
      quadEntry (.callable fun _ => .ok out) m nodes weights nsq = quadEntry (.ofReal fun _ => x) m nodes weights nsq ∧
      quadEntry (.callable fun _ => .ok out) m nodes weights nsq = .ok (x * (∑ i ∈ Finset.range m, weights i) * nsq) := by
  refine ⟨rfl, fun g => rfl, fun g => by simp [setFun, Ne.symm hn], fun m nodes weights nsq out hout => ?_⟩
  rw [(C111_entrywise n old (fun _ => x) m nodes weights nsq).2, ← Finset.mul_sum, and_self]
  simp only [List.mem_cons, List.not_mem_nil, or_false] at hout
  rcases hout with rfl | rfl | rfl
  · simp [quadEntry, Finset.mul_sum]
  · simp [quadEntry, Finset.mul_sum]
  · by_cases hm : m = 1
    · subst hm; simp [quadEntry, bcastSum]
    · simp [quadEntry, bcastSum, Ne.symm hm, Finset.mul_sum]

/-! ## Assignments and calls -/

theorem quadCol_withFun (K : TriKernels) (eps : ℝ) (fuel : ℕ) (M M' : MF n) (g : ℝ → ℝ) (x : Vec n) (y : Option ℝ)
    (h : M.quadCol K eps fuel x = some (.ok (M', y))) : ∃ y', (M.withFun g).quadCol K eps fuel x = some (.ok (M'.withFun g, y')) := by
  unfold MF.quadCol at h ⊢
  simp only [MF.withFun] at h ⊢
  rcases hl : lanczosNative M.A eps x M.deg M.rtol M.orth M.alpha M.beta M.Q with er | s
  · rw [hl] at h; simp at h
  · simp only [hl] at h ⊢
    rcases hq : quadrature K s.alpha s.beta (some M.deg) "gw" (some M.deg) (some M.deg) "auto" 30 fuel with _ | er | ⟨a, _ | ⟨t, w⟩⟩
    · simp [hq] at h
    · simp [hq] at h
    · simp only [hq, Option.some.injEq, Except.ok.injEq, Prod.mk.injEq] at h ⊢
      obtain ⟨rfl, -⟩ := h
      exact ⟨_, rfl, rfl⟩
    · simp only [hq, Option.some.injEq, Except.ok.injEq, Prod.mk.injEq] at h ⊢
      obtain ⟨rfl, -⟩ := h
      exact ⟨_, rfl, rfl⟩

theorem quad_withFun (K : TriKernels) (eps : ℝ) (fuel : ℕ) (g : ℝ → ℝ) (xs : List (Vec n)) : ∀ (M M' : MF n) (ys : List (Option ℝ)),
    M.quad K eps fuel xs = some (.ok (M', ys)) → ∃ ys', (M.withFun g).quad K eps fuel xs = some (.ok (M'.withFun g, ys')) := by
  induction xs with
  | nil =>
    intro M M' ys h
    simp only [MF.quad, Option.some.injEq, Except.ok.injEq, Prod.mk.injEq] at h ⊢
    exact ⟨[], by rw [h.1], rfl⟩
  | cons x xs ih =>
    intro M M' ys h
    unfold MF.quad at h ⊢
    rcases h1 : M.quadCol K eps fuel x with _ | er | ⟨M1, y⟩
    · simp [h1] at h
    · simp [h1] at h
    · simp only [h1] at h
      obtain ⟨y', hy'⟩ := quadCol_withFun K eps fuel M M1 g x y h1
      rcases h2 : MF.quad K eps fuel M1 xs with _ | er | ⟨M2, ys2⟩
      · simp [h2] at h
      · simp [h2] at h
      · simp only [h2, Option.some.injEq, Except.ok.injEq, Prod.mk.injEq] at h
        obtain ⟨ys', hys'⟩ := ih M1 M2 ys2 h2
        simp only [hy', hys']
        exact ⟨_, by rw [h.1]⟩

theorem matvec_withFun (K : TriKernels) (eps : ℝ) (fuel : ℕ) (M M' : MF n) (g : ℝ → ℝ) (x : Vec n) (y : Option (Vec n))
    (h : M.matvec K eps fuel x = some (.ok (M', y))) : ∃ y', (M.withFun g).matvec K eps fuel x = some (.ok (M'.withFun g, y')) := by
  unfold MF.matvec at h ⊢
  have hz : (M.withFun g).zeroQ = M.zeroQ := rfl
  rw [hz]
  simp only [MF.withFun] at h ⊢
  rcases hl : lanczosNative M.A eps x M.deg M.rtol M.orth M.alpha M.beta M.zeroQ with er | s
  · rw [hl] at h; simp at h
  · simp only [hl] at h ⊢
    rcases hq : eighTridiag K ⟨M.deg, s.alpha.get⟩ ⟨M.deg - 1, fun i => s.beta.get (i + 1)⟩ "auto" 30 fuel with _ | er | _ | ⟨rw_, Y⟩
    · simp [hq] at h
    · simp [hq] at h
    · simp only [hq, Option.some.injEq, Except.ok.injEq, Prod.mk.injEq] at h ⊢
      obtain ⟨rfl, -⟩ := h
      exact ⟨_, rfl, rfl⟩
    · simp only [hq, Option.some.injEq, Except.ok.injEq, Prod.mk.injEq] at h ⊢
      obtain ⟨rfl, -⟩ := h
      exact ⟨_, rfl, rfl⟩

/-- Calls and assignments in any order lead to a state that a new object with the present function reaches by the calls alone. -/
theorem reachF_reach (K : TriKernels) (eps : ℝ) (fuel : ℕ) (M0 M : MF n) (h : MF.ReachF K eps fuel M0 M) (g : ℝ → ℝ) :
    MF.Reach K eps fuel (M0.withFun g) (M.withFun g) := by
  induction h with
  | refl => exact .refl _
  | quad xs ys _ h1 ih =>
    obtain ⟨ys', h2⟩ := quad_withFun K eps fuel g xs _ _ ys h1
    exact .quad xs ys' ih h2
  | matvec x y _ h1 ih =>
    obtain ⟨y', h2⟩ := matvec_withFun K eps fuel _ _ g x y h1
    exact .matvec x y' ih h2
  | set f _ ih => exact ih

theorem init_withFun (A : Vec n → Vec n) (f g : ℝ → ℝ) (deg orth : ℤ) (M0 : MF n) (h : MF.init A f deg orth = .ok M0) :
    MF.init A g deg orth = .ok (M0.withFun g) := by
  unfold MF.init at h ⊢
  split_ifs at h ⊢ with hd
  simp only [Except.ok.injEq] at h ⊢
  rw [← h]
  rfl

/-- **C111**: assign `fun` at any point of a history of calls and other assignments.  The next matrix-vector product is the one a new object built with
that function returns (up to the early stop of C48). -/
theorem C111_matvec_switch (K : TriKernels) (hK : EighOk K) (eps : ℝ) (heps : 0 ≤ eps) (fuel : ℕ)
    (B : Matrix (Fin n) (Fin n) ℝ) (hB : B.IsSymm) (f g : ℝ → ℝ) (deg orth : ℤ) (hn : 0 < n) (M0 M N0 : MF n)
    (h0 : MF.init B.mulVec f deg orth = .ok M0) (h : MF.ReachF K eps fuel M0 M)
    (hN : MF.init B.mulVec g deg orth = .ok N0) (x : Vec n) :
    ∃ M1 N1 y1 y2, (M.withFun g).matvec K eps fuel x = some (.ok (M1, some y1)) ∧
      N0.matvec K eps fuel x = some (.ok (N1, some y2)) ∧
      (Spec.CleanStop (Real.sqrt n * 1e-8) N0.deg M1.beta.get → y1 = y2) := by
  have h1 := init_withFun _ f g deg orth M0 h0
  rw [hN] at h1
  simp only [Except.ok.injEq] at h1
  have h2 := reachF_reach K eps fuel M0 M h g
  rw [← h1] at h2
  exact C48_matvec_history K hK eps heps fuel B hB g deg orth hn N0 (M.withFun g) N0 hN h2 (.refl _) x

/-- **C111**, the same for `quad`, for `orth ≤ 2` as in C47. -/
theorem C111_quad_switch (K : TriKernels) (hK : EighOk K) (eps : ℝ) (heps : 0 ≤ eps) (fuel : ℕ)
    (B : Matrix (Fin n) (Fin n) ℝ) (hB : B.IsSymm) (f g : ℝ → ℝ) (deg orth : ℤ) (hn : 0 < n) (M0 M N0 : MF n)
    (h0 : MF.init B.mulVec f deg orth = .ok M0) (ho : M0.orth ≤ 2) (h : MF.ReachF K eps fuel M0 M)
    (hN : MF.init B.mulVec g deg orth = .ok N0) (x : Vec n) :
    ∃ M1 N1 y1 y2, (M.withFun g).quadCol K eps fuel x = some (.ok (M1, some y1)) ∧
      N0.quadCol K eps fuel x = some (.ok (N1, some y2)) ∧
      (Spec.CleanStop (Real.sqrt n * 1e-8) N0.deg M1.beta.get → y1 = y2) := by
  have h1 := init_withFun _ f g deg orth M0 h0
  rw [hN] at h1
  simp only [Except.ok.injEq] at h1
  have h2 := reachF_reach K eps fuel M0 M h g
  rw [← h1] at h2
  have ho' : N0.orth ≤ 2 := by rw [h1]; exact ho
  exact C47_quad_history_partial K hK eps heps fuel B hB g deg orth hn N0 (M.withFun g) N0 hN ho' h2 (.refl _) x

/-- **C111**: `degree` is `min(deg, n)` and no call or assignment changes it. -/
theorem C111_degree (K : TriKernels) (eps : ℝ) (fuel : ℕ) (A : Vec n → Vec n) (f : ℝ → ℝ) (deg orth : ℤ) (hn : 0 < n) (M0 M : MF n)
    (h0 : MF.init A f deg orth = .ok M0) (h : MF.ReachF K eps fuel M0 M) : (M.degree : ℤ) = min deg n ∧ 1 ≤ M.degree := by
  have h2 := reachF_reach K eps fuel M0 M h f
  have h1 := init_withFun _ f f deg orth M0 h0
  obtain ⟨-, -, -, d1, -, -⟩ := reached K eps fuel _ _ deg orth hn _ _ h1 h2
  have h3 : M.deg = M0.deg := d1
  unfold MF.init at h0
  split_ifs at h0 with hd
  simp only [Except.ok.injEq] at h0
  have h4 : M0.deg = (min deg (n : ℤ)).toNat := by rw [← h0]
  unfold MF.degree
  rw [h3, h4]
  constructor <;> omega

/-- A scenario: objects of shape `(3, 3)`; a number, an array without axes, `x ↦ x²` and something not callable are assigned in turn. -/
example : setFuns 3 (.ofReal id) [.callable fun _ => .ok (.num 1), .ofReal (· ^ 2), .callable fun _ => .ok (.arr [] fun _ => 1), .notCallable] =
    .ofReal (· ^ 2) := by
  simp [setFuns, setFun, FnVal.ofReal]

/-- The hypotheses of the switching theorems hold for a 3 x 3 matrix and a history with one call and one assignment. -/
example (K : TriKernels) (hK : EighOk K) (fuel : ℕ) : ∃ (M0 M N0 : MF 3), MF.init (1 : Matrix (Fin 3) (Fin 3) ℝ).mulVec id 20 2 = .ok M0 ∧
    M0.orth ≤ 2 ∧ MF.ReachF K 0 fuel M0 M ∧ M.f = Real.exp ∧ MF.init (1 : Matrix (Fin 3) (Fin 3) ℝ).mulVec Real.sqrt 20 2 = .ok N0 := by
  obtain ⟨M0, hM0, ho⟩ : ∃ M0, MF.init (1 : Matrix (Fin 3) (Fin 3) ℝ).mulVec id 20 2 = .ok M0 ∧ M0.orth = 2 := by
    refine ⟨_, if_neg (by norm_num), ?_⟩
    show (if (2 : ℤ) < 0 ∨ (2 : ℤ) > (((min 20 ((3 : ℕ) : ℤ)).toNat : ℕ) : ℤ) then (((min 20 ((3 : ℕ) : ℤ)).toNat : ℕ) : ℤ) else (2 : ℤ)) = 2
    rfl
  obtain ⟨M1, -, y1, -, h1, -, -⟩ := C48_matvec_history K hK 0 le_rfl fuel 1 Matrix.isSymm_one id 20 2 (by norm_num) M0 M0 M0 hM0 (.refl _) (.refl _)
    (fun _ => 1)
  exact ⟨M0, M1.withFun Real.exp, M0.withFun Real.sqrt, hM0, ho.le, .set _ (.matvec _ _ (.refl _) h1), rfl, init_withFun _ _ _ _ _ _ hM0⟩

end Primate
