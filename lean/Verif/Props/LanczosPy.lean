import Verif.Model.LanczosPy
import Verif.Lemmas.LanczosApi

/-!
# C71, C72, C75: parameter checks and the Python reference recurrence
-/

noncomputable section

namespace Primate

open Matrix

/-! ## C71 -/

/-- C71: `mod` is the remainder of Python: in `[0, b)` and congruent to its argument. -/
theorem C71_mod (a b : ℤ) (hb : 0 < b) : 0 ≤ cmod a b ∧ cmod a b < b ∧ b ∣ a - cmod a b := by
  rw [cmod_eq a b hb]
  refine ⟨Int.emod_nonneg _ hb.ne', Int.emod_lt_of_pos _ hb, ?_⟩
  exact ⟨a / b, by have := Int.emod_add_mul_ediv a b; linarith⟩

/-- C71: the sanitised degree, number of vectors and number of reorthogonalisations, in the order in which they are meant to be computed:
they are in range for every input, and unchanged if in range.  The precondition `ncv >= 2` of the recurrence holds only if the degree
is at least two. -/
theorem C71_params (n : ℕ) (hn : 0 < n) (deg ncv orth : ℤ) :
    let d := paramDeg deg n
    let c := paramNcv ncv d n
    let o := paramOrth orth d c
    (1 ≤ d ∧ d ≤ n) ∧ (1 ≤ c ∧ c ≤ d ∧ (2 ≤ c ↔ 2 ≤ d)) ∧ (0 ≤ o ∧ o < c) ∧
    (1 ≤ deg → deg ≤ n → d = deg) ∧ (2 ≤ ncv → ncv ≤ d → c = ncv) ∧ (0 ≤ orth → orth < c → o = orth) ∧
    (orth < 0 → o = c - 1) := by
  intro d c o
  have hd : d = max 1 (min deg n) := rfl
  have hc : c = min (max ncv 2) (min d n) := rfl
  have ho : o = if orth < 0 ∨ orth > d then min d (c - 1) else min orth (c - 1) := rfl
  have h1 : 1 ≤ d ∧ d ≤ n := by omega
  have h2 : 1 ≤ c ∧ c ≤ d ∧ (2 ≤ c ↔ 2 ≤ d) := by omega
  refine ⟨h1, h2, ?_, by omega, by omega, ?_, ?_⟩
  · split_ifs at ho <;> omega
  · intro h3 h4
    split_ifs at ho <;> omega
  · intro h3
    split_ifs at ho <;> omega

/-- The precondition that is missed: degree one gives one Lanczos vector. -/
example : paramDeg 1 5 = 1 ∧ paramNcv 2 1 5 = 1 ∧ paramOrth 3 1 1 = 0 := by
  refine ⟨?_, ?_, ?_⟩ <;> simp [paramDeg, paramNcv, paramOrth]

/-! ## C72 -/

/-- The degree that `_validate_lanczos` uses: all of it if negative, else clipped. -/
def Spec.effDeg (N deg : ℤ) : ℤ := if deg < 0 then N else min N (max deg 1)

/-- C72: AssertionError is raised exactly if the effective degree is below two or `atol` is NaN; nothing else is raised for a positive
dimension. -/
theorem C72_raises (N ncv deg orth : ℤ) (hN : 0 < N) (atol rtol : Option Fl) :
    (validateLanczos N ncv deg orth atol rtol = .error .assertion ↔ Spec.effDeg N deg < 2 ∨ atol = some .nan) ∧
    ∀ er, validateLanczos N ncv deg orth atol rtol = .error er → er = .assertion := by
  have hnan : ∀ a : Fl, (a.divInt N).isNan = true ↔ a = .nan := by
    intro a
    cases a <;> simp [Fl.divInt, Fl.scale, Fl.isNan, hN.ne', hN]
  have hass : ∀ d c o : ℤ, d = (if deg < 0 then N else npClip deg 1 N) → c = npClip ncv 2 (min d N) →
      o = max 0 (npClip orth 0 (c - 2)) → (¬ (c ≥ 2 ∧ c ≥ o + 2 ∧ c ≤ d) ↔ Spec.effDeg N deg < 2) := by
    intro d c o hd hc ho
    unfold npClip at hd hc ho
    unfold Spec.effDeg
    split_ifs at hd ⊢ <;> omega
  have h0 := hass _ _ _ rfl rfl rfl
  unfold validateLanczos
  cases atol with
  | none =>
    simp only [reduceCtorEq, or_false]
    by_cases h : Spec.effDeg N deg < 2
    · rw [if_pos (h0.2 h)]
      exact ⟨⟨fun _ => h, fun _ => rfl⟩, fun er he => (Except.error.inj he).symm⟩
    · rw [if_neg (mt h0.1 h)]
      simp [Fl.isNan, h]
  | some a =>
    simp only [if_neg hN.ne', Option.some.injEq]
    by_cases h : Spec.effDeg N deg < 2
    · rw [if_pos (h0.2 h)]
      exact ⟨⟨fun _ => Or.inl h, fun _ => rfl⟩, fun er he => (Except.error.inj he).symm⟩
    · rw [if_neg (mt h0.1 h)]
      by_cases ha : (a.divInt N).isNan = true
      · rw [if_pos ha]
        exact ⟨⟨fun _ => Or.inr ((hnan a).1 ha), fun _ => rfl⟩, fun er he => (Except.error.inj he).symm⟩
      · rw [if_neg ha]
        refine ⟨⟨fun hc => (by cases hc), fun hc => ?_⟩, fun er he => (by cases he)⟩
        rcases hc with hc | hc
        · exact absurd hc h
        · exact absurd ((hnan a).2 hc) ha

/-- C72: the values returned are in range, and unchanged if they were valid; `atol` is divided by the dimension. -/
theorem C72_values (N ncv deg orth : ℤ) (hN : 0 < N) (atol rtol : Option Fl) (p : LanczosParams)
    (h : validateLanczos N ncv deg orth atol rtol = .ok p) :
    p.N = N ∧ p.deg = Spec.effDeg N deg ∧ (2 ≤ p.ncv ∧ p.ncv ≤ p.deg ∧ p.deg ≤ N) ∧ (0 ≤ p.orth ∧ p.orth ≤ p.ncv - 2) ∧
    (1 ≤ deg → deg ≤ N → p.deg = deg) ∧ (2 ≤ ncv → ncv ≤ p.deg → p.ncv = ncv) ∧
    (0 ≤ orth → orth ≤ p.ncv - 2 → p.orth = orth) ∧
    (∀ t : ℝ, atol = some (.fin t) → p.atol = .fin (t / N)) ∧ (atol = none → p.atol = .fin 0) ∧
    (∀ t, rtol = some t → p.rtol = t) ∧ (rtol = none → p.rtol = .fin 0) := by
  obtain ⟨d, hd⟩ : ∃ d, d = (if deg < 0 then N else npClip deg 1 N) := ⟨_, rfl⟩
  obtain ⟨c, hc⟩ : ∃ c, c = npClip ncv 2 (min d N) := ⟨_, rfl⟩
  obtain ⟨o, ho⟩ : ∃ o, o = max 0 (npClip orth 0 (c - 2)) := ⟨_, rfl⟩
  obtain ⟨a, ha, hp, hcond⟩ : ∃ a, (match atol with
      | none => (.ok (.fin 0) : Py Fl)
      | some a => if N = 0 then .error .zeroDivision else .ok (a.divInt N)) = .ok a ∧
      p = ⟨N, c, d, o, a, rtol.getD (.fin 0)⟩ ∧ (c ≥ 2 ∧ c ≥ o + 2 ∧ c ≤ d) := by
    unfold validateLanczos at h
    simp only at h
    rw [← hd, ← hc, ← ho] at h
    split at h
    · cases h
    · rename_i a ha
      by_cases hcond : c ≥ 2 ∧ c ≥ o + 2 ∧ c ≤ d
      · rw [if_neg (not_not.2 hcond)] at h
        split at h
        · cases h
        · exact ⟨a, ha, (Except.ok.inj h).symm, hcond⟩
      · rw [if_pos hcond] at h
        cases h
  subst hp
  have hdd : d = Spec.effDeg N deg := by
    rw [hd]; unfold Spec.effDeg npClip; rfl
  refine ⟨rfl, hdd, ?_, ?_, ?_, ?_, ?_, ?_, ?_, ?_, ?_⟩
  · show 2 ≤ c ∧ c ≤ d ∧ d ≤ N
    unfold npClip at hd hc ho
    split_ifs at hd <;> omega
  · show 0 ≤ o ∧ o ≤ c - 2
    omega
  · intro h1 h2
    show d = deg
    unfold npClip at hd
    split_ifs at hd <;> omega
  · intro h1 h2
    show c = ncv
    have : ncv ≤ d := h2
    unfold npClip at hd hc
    split_ifs at hd <;> omega
  · intro h1 h2
    show o = orth
    have : orth ≤ c - 2 := h2
    unfold npClip at ho
    omega
  · rintro t rfl
    simp only [if_neg hN.ne'] at ha
    rw [← Except.ok.inj ha]
    show Fl.fin (1 / (N : ℝ) * t) = _
    congr 1
    ring
  · rintro rfl
    exact (Except.ok.inj ha).symm
  · rintro t rfl
    rfl
  · rintro rfl
    rfl

/-- C72, the case the claim leaves out: for `N = 0` a tolerance raises ZeroDivisionError. -/
theorem C72_zero (ncv deg orth : ℤ) (a : Fl) (rtol : Option Fl) :
    validateLanczos 0 ncv deg orth (some a) rtol = .error .zeroDivision := rfl

/-- A call: `_validate_lanczos(10, 3, 20, 5, 1.0, None)`. -/
example : ∃ p, validateLanczos 10 3 20 5 (some (.fin 1)) none = .ok p ∧ p.deg = 10 ∧ p.ncv = 3 ∧ p.orth = 1 := by
  have : ∃ p, validateLanczos 10 3 20 5 (some (.fin 1)) none = .ok p := by
    rcases h : validateLanczos 10 3 20 5 (some (.fin 1)) none with er | p
    · have := (C72_raises 10 3 20 5 (by norm_num) (some (.fin 1)) none).2 er h
      subst this
      have := (C72_raises 10 3 20 5 (by norm_num) (some (.fin 1)) none).1.1 h
      simp [Spec.effDeg] at this
    · exact ⟨p, rfl⟩
  obtain ⟨p, hp⟩ := this
  obtain ⟨-, h1, -, h3, -, h5, -⟩ := C72_values 10 3 20 5 (by norm_num) _ _ p hp
  have hd : p.deg = 10 := by rw [h1]; simp [Spec.effDeg]
  have hc := h5 (by norm_num) (by rw [hd]; norm_num)
  refine ⟨p, hp, hd, hc, ?_⟩
  unfold validateLanczos at hp
  simp [npClip, Fl.divInt, Fl.scale, Fl.isNan] at hp
  rw [← hp]

/-! ## C75 -/

variable {n : ℕ}

theorem pyOrth_eq (tol : ℝ) (U : Buf (Vec n)) (hU : 0 < U.len) (start diff : ℤ) : ∀ (rem c : ℕ) (v : Vec n),
    pyOrthLoop tol U start diff rem c v = orthLoop tol U diff rem ((start + c * diff) % U.len) v := by
  intro rem
  induction rem with
  | zero => intro c v; rfl
  | succ rem ih =>
    intro c v
    unfold pyOrthLoop orthLoop
    rcases h : U.read ((start + c * diff) % U.len) with er | u
    · rfl
    · simp only [bind, Except.bind]
      have hn : nrm u ^ 2 = u ⬝ᵥ u := Real.sq_sqrt (Finset.sum_nonneg fun i _ => mul_self_nonneg (u i))
      rw [hn, ih]
      congr 1
      rw [cmod_eq _ _ (by exact_mod_cast hU), Int.emod_add_emod]
      congr 1
      push_cast
      ring

theorem pyOrthVector_eq (eps : ℝ) (v : Vec n) (U : Buf (Vec n)) (hU : 0 < U.len) (start p : ℤ) (rev : Bool) :
    pyOrthVector eps v U start p rev = orthVector eps v U start p rev := by
  unfold pyOrthVector orthVector
  rw [pyOrth_eq _ _ hU, cmod_eq _ _ (by exact_mod_cast hU)]
  congr 2
  push_cast
  ring

/-- Corresponding outcomes of the native and the Python loop. -/
def LoopRel (deg : ℕ) (r : Py (LState n)) (r' : Py (PyLState n)) : Prop :=
  (∃ er, r = .error er ∧ r' = .error er) ∨
  ∃ s s', r = .ok s ∧ r' = .ok s' ∧ s.alpha.get = s'.alpha.get ∧ s.beta = s'.beta ∧ s.Q = s'.Q ∧ s'.alpha.len = deg

theorem loop_agree (A : Vec n → Vec n) (deg : ℕ) (tol eps : ℝ) (orth : ℤ) : ∀ (rem j : ℕ) (s : LState n) (s' : PyLState n),
    rem + j = deg → s.alpha.get = s'.alpha.get → s'.alpha.len = deg → s.alpha.len = deg + 1 → s.beta = s'.beta → s.Q = s'.Q →
    s.pos = s'.pos → 0 < s.Q.len → s.pos.2.2 % s.Q.len = ((j : ℤ) + 1) % s.Q.len →
    LoopRel deg (lanczosLoop A deg tol eps orth rem j s) (pyLanczosLoop A deg tol eps orth rem j s') := by
  intro rem
  induction rem with
  | zero =>
    intro j s s' _ h2 h3 h4 h5 h6 _ _ _
    exact Or.inr ⟨s, s', rfl, rfl, h2, h5, h6, h3⟩
  | succ rem ih =>
    rintro j ⟨v0, al, be, Q, pos⟩ ⟨al', be', Q', pos'⟩ h1 h2 h3 h4 h5 h6 h7 h8 h9
    simp only at h2 h3 h4 h5 h6 h7 h8 h9
    subst h5 h6 h7
    unfold lanczosLoop pyLanczosLoop
    simp only [bind, Except.bind]
    rcases hqc : Q.read pos.2.1 with er | qc
    · exact Or.inl ⟨er, rfl, rfl⟩
    simp only
    rcases hbj : be.read j with er | bj
    · exact Or.inl ⟨er, rfl, rfl⟩
    simp only
    rcases hqp : Q.read pos.1 with er | qp
    · exact Or.inl ⟨er, rfl, rfl⟩
    simp only
    rw [Buf.write_ok al j _ (by omega), Buf.write_ok al' j _ (by omega)]
    simp only
    have hor : ∀ w : Vec n, pyReorth eps w Q pos.2.1 orth = reorth eps orth w Q pos.2.1 := fun w => by
      unfold pyReorth reorth
      rw [pyOrthVector_eq _ _ _ h8]
    rw [hor]
    generalize reorth eps orth _ Q pos.2.1 = rv
    rcases rv with er | v
    · exact Or.inl ⟨er, rfl, rfl⟩
    simp only
    rcases hbe : be.write (j + 1) (nrm v) with er | be2
    · exact Or.inl ⟨er, rfl, rfl⟩
    simp only
    by_cases hstop : nrm v < tol ∨ (j : ℤ) + 1 = deg
    · rw [if_pos hstop, if_pos hstop]
      refine Or.inr ⟨_, _, rfl, rfl, ?_, rfl, rfl, ?_⟩
      · simp only [h2]
      · exact h3
    · rw [if_neg hstop, if_neg hstop]
      have hv : (fun i => v i / nrm v) = (nrm v)⁻¹ • v := by
        funext i
        rw [Pi.smul_apply, smul_eq_mul]
        ring
      rw [hv]
      rcases hQ : Q.write pos.2.2 ((nrm v)⁻¹ • v) with er | Q2
      · exact Or.inl ⟨er, rfl, rfl⟩
      simp only
      have hlen : Q2.len = Q.len := by
        unfold Buf.write at hQ
        split at hQ
        · rw [← Except.ok.inj hQ]
        · cases hQ
      refine ih (j + 1) _ _ (by omega) ?_ ?_ ?_ rfl rfl ?_ ?_ ?_
      · simp only [h2]
      · exact h3
      · exact h4
      · simp only
        rw [cmod_eq _ _ (by exact_mod_cast h8)]
        congr 2
        rw [← Int.emod_add_emod pos.2.2, h9, Int.emod_add_emod]
        congr 1
      · simp only [hlen]; exact h8
      · simp only [hlen]
        rw [cmod_eq _ _ (by exact_mod_cast h8), Int.emod_emod]
        congr 1

/-- C75: started from zeroed buffers of the sizes that `lanczos` allocates, the native recurrence and the Python reference fail together or
return the same coefficients `alpha`, `beta` and the same basis vectors, for every operator (linear or not), starting vector
`q ≠ 0`, degree, tolerance, number of Lanczos vectors and reorthogonalisation setting. -/
theorem C75_agree (A : Vec n → Vec n) (eps : ℝ) (q : Vec n) (hq : q ≠ 0) (deg : ℕ) (rtol : ℝ) (orth : ℤ) (ncv : ℕ) :
    (∃ er, lanczosNative A eps q deg rtol orth (Buf.zeros (deg + 1)) (Buf.zeros (deg + 1)) (Buf.zeros ncv) = .error er ∧
      pyLanczosRecurrence A eps q deg rtol orth ncv = .error er) ∨
    ∃ s al be Q, lanczosNative A eps q deg rtol orth (Buf.zeros (deg + 1)) (Buf.zeros (deg + 1)) (Buf.zeros ncv) = .ok s ∧
      pyLanczosRecurrence A eps q deg rtol orth ncv = .ok (al, be, Q) ∧ al.len = deg ∧ be.len = deg ∧
      (∀ i < deg, s.alpha.get i = al.get i) ∧ (∀ i < deg, s.beta.get i = be.get i) ∧ s.Q = Q := by
  unfold lanczosNative pyLanczosRecurrence
  simp only [bind, Except.bind]
  rcases Nat.eq_zero_or_pos ncv with h0 | hpos
  · subst h0
    exact Or.inl ⟨.index, rfl, rfl⟩
  · have hnorm : normalized q = fun i => q i / nrm q := by
      unfold normalized
      rw [if_pos]
      rcases (Finset.sum_nonneg fun i _ => mul_self_nonneg (q i) : 0 ≤ q ⬝ᵥ q).lt_or_eq with h | h
      · exact h
      · exact absurd (dotProduct_self_eq_zero.1 h.symm) hq
    rw [Buf.write_ok' (Buf.zeros ncv : Buf (Vec n)) (((Buf.zeros ncv : Buf (Vec n)).len : ℤ) - 1) 0 (by show (0 : ℤ) ≤ ncv - 1; omega)
      (by show (ncv : ℤ) - 1 < ncv; omega)]
    have hz : (Buf.zeros ncv : Buf (Vec n)) = ⟨ncv, Function.update (Buf.zeros ncv : Buf (Vec n)).get
        (((Buf.zeros ncv : Buf (Vec n)).len : ℤ) - 1).toNat 0⟩ := by
      unfold Buf.zeros
      congr 1
      funext i
      simp [Function.update_apply]
    simp only
    have hz' : (⟨(Buf.zeros ncv : Buf (Vec n)).len, Function.update (Buf.zeros ncv : Buf (Vec n)).get
        (((Buf.zeros ncv : Buf (Vec n)).len : ℤ) - 1).toNat 0⟩ : Buf (Vec n)) = Buf.zeros ncv := hz.symm
    rw [hz', hnorm, Buf.write_ok' (Buf.zeros ncv : Buf (Vec n)) 0 _ (le_refl _) (by show (0 : ℤ) < ncv; omega)]
    rw [Buf.write_ok' (Buf.zeros (deg + 1) : Buf ℝ) 0 _ (le_refl _) (by show (0 : ℤ) < (deg + 1 : ℕ); omega)]
    simp only [Int.toNat_natCast]
    have hb : (⟨(Buf.zeros (deg + 1) : Buf ℝ).len, Function.update (Buf.zeros (deg + 1) : Buf ℝ).get (Int.toNat 0) 0⟩ : Buf ℝ) =
        Buf.zeros (deg + 1) := by
      unfold Buf.zeros
      congr 1
      funext i
      simp [Function.update_apply]
    rw [hb]
    rcases loop_agree A deg (Real.sqrt n * rtol) eps orth deg 0
      ⟨q, Buf.zeros (deg + 1), Buf.zeros (deg + 1), ⟨(Buf.zeros ncv : Buf (Vec n)).len,
        Function.update (Buf.zeros ncv : Buf (Vec n)).get (Int.toNat 0) fun i => q i / nrm q⟩, (ncv : ℤ) - 1, 0, 1⟩
      ⟨Buf.zeros deg, Buf.zeros (deg + 1), ⟨(Buf.zeros ncv : Buf (Vec n)).len,
        Function.update (Buf.zeros ncv : Buf (Vec n)).get (Int.toNat 0) fun i => q i / nrm q⟩, (ncv : ℤ) - 1, 0, 1⟩
      (by omega) rfl rfl rfl rfl rfl rfl hpos (by simp) with ⟨er, e1, e2⟩ | ⟨s, s', e1, e2, e3, e4, e5, e6⟩
    · left
      refine ⟨er, e1, ?_⟩
      rw [e2]
    · right
      refine ⟨s, s'.alpha, ⟨deg, s'.beta.get⟩, s'.Q, e1, ?_, ?_, rfl, ?_, ?_, e5⟩
      · rw [e2]
      · exact e6
      · intro i _; rw [e3]
      · intro i _; rw [e4]

/-- C75: with at least two Lanczos vectors (or one, at degree one) neither fails, so the outputs agree. -/
theorem C75_same_output (A : Vec n → Vec n) (eps : ℝ) (q : Vec n) (hq : q ≠ 0) (deg : ℕ) (rtol : ℝ) (orth : ℤ) (ncv : ℕ)
    (h1 : 1 ≤ ncv) (h2 : deg ≤ 1 ∨ 2 ≤ ncv) :
    ∃ s al be Q, lanczosNative A eps q deg rtol orth (Buf.zeros (deg + 1)) (Buf.zeros (deg + 1)) (Buf.zeros ncv) = .ok s ∧
      pyLanczosRecurrence A eps q deg rtol orth ncv = .ok (al, be, Q) ∧ al.len = deg ∧ be.len = deg ∧
      (∀ i < deg, s.alpha.get i = al.get i) ∧ (∀ i < deg, s.beta.get i = be.get i) ∧ s.Q = Q := by
  rcases C75_agree A eps q hq deg rtol orth ncv with ⟨er, h, -⟩ | h
  · obtain ⟨t, ht, -⟩ := lanczosNative_safe A eps q deg rtol orth (Buf.zeros (deg + 1)) (Buf.zeros (deg + 1)) (Buf.zeros ncv)
      (by show deg ≤ deg + 1; omega) (le_refl _) h1 h2
    rw [ht] at h
    cases h
  · exact h

/-- Three vectors in dimension two at degree four: the columns wrap around. -/
example : ∃ al be Q, pyLanczosRecurrence (n := 2) (fun x => ![x 1, x 0]) 0 ![1, 0] 4 (1 / 2) 2 3 = .ok (al, be, Q) := by
  obtain ⟨_, al, be, Q, -, h, -⟩ := C75_same_output (n := 2) (fun x => ![x 1, x 0]) 0 ![1, 0]
    (fun h => by simpa using congrFun h 0) 4 (1 / 2) 2 3 (by norm_num) (by norm_num)
  exact ⟨al, be, Q, h⟩

end Primate
