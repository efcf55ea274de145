import Verif.Lemmas.MatFunRun

/-! The native recurrence from `c v` compared with the recurrence from `v`. -/

noncomputable section

namespace Primate

open Matrix

variable {n : ℕ}

/-- Same columns up to sign. -/
def SignEq (Q Q' : Buf (Vec n)) : Prop := Q'.len = Q.len ∧ ∀ l, Q'.get l = Q.get l ∨ Q'.get l = -Q.get l

theorem read_index {α : Type} (b : Buf α) (i : ℤ) (h : ¬ (0 ≤ i ∧ i < b.len)) : b.read i = .error .index := if_neg h

theorem orthLoop_neg (tol : ℝ) (U U' : Buf (Vec n)) (hU : SignEq U U') (diff : ℤ) (c : ℕ) : ∀ (i : ℤ) (v : Vec n),
    orthLoop tol U' diff c i (-v) = (orthLoop tol U diff c i v).map fun w => -w := by
  induction c with
  | zero => intro i v; rfl
  | succ c ih =>
    intro i v
    unfold orthLoop
    by_cases hi : 0 ≤ i ∧ i < U.len
    · rw [U.read_ok' i hi.1 hi.2, U'.read_ok' i hi.1 (by rw [hU.1]; exact hi.2)]
      simp only [bind, Except.bind]
      rw [hU.1, ← ih]
      rcases hU.2 i.toNat with h | h
      · rw [h]
        simp only [neg_dotProduct, abs_neg]
        split_ifs
        · congr 1
          rw [neg_div, neg_smul, neg_sub]
          abel
        · rfl
      · rw [h]
        simp only [neg_dotProduct, dotProduct_neg, neg_neg]
        split_ifs
        · congr 1
          rw [smul_neg, neg_sub]
          abel
        · rfl
    · rw [read_index U i hi, read_index U' i (by rw [hU.1]; exact hi)]
      rfl

theorem reorth_neg (eps : ℝ) (orth : ℤ) (U U' : Buf (Vec n)) (hU : SignEq U U') (v : Vec n) (c : ℤ) :
    reorth eps orth (-v) U' c = (reorth eps orth v U c).map fun w => -w := by
  unfold reorth orthVector
  by_cases ho : 0 < orth
  · rw [if_pos ho, if_pos ho, orthLoop_neg _ U U' hU, hU.1]
  · rw [if_neg ho, if_neg ho]
    rfl

theorem nrm_neg (v : Vec n) : nrm (-v) = nrm v := by
  unfold nrm
  rw [neg_dotProduct, dotProduct_neg, neg_neg]

/-- States that differ in the signs of vectors, the current and previous columns being opposite. -/
structure NegRel (z : Prop) (s s' : LState n) : Prop where
  alpha : s'.alpha = s.alpha
  beta : s'.beta = s.beta
  pos : s'.pos = s.pos
  Q : SignEq s.Q s'.Q
  cur : s'.Q.get s.pos.2.1.toNat = -s.Q.get s.pos.2.1.toNat
  prev : s'.Q.get s.pos.1.toNat = -s.Q.get s.pos.1.toNat
  all : z → ∀ l, s'.Q.get l = -s.Q.get l

/-- What remains of it at the end. -/
structure NegEnd (z : Prop) (s s' : LState n) : Prop where
  alpha : s'.alpha = s.alpha
  beta : s'.beta = s.beta
  Q : SignEq s.Q s'.Q
  all : z → ∀ l, s'.Q.get l = -s.Q.get l

inductive NegOut (z : Prop) : Py (LState n) → Py (LState n) → Prop
  | ok {s s' : LState n} : NegEnd z s s' → NegOut z (.ok s) (.ok s')
  | error {e : PyErr} : NegOut z (.error e) (.error e)

theorem lanczosLoop_neg (A : Vec n → Vec n) (hA : ∀ v, A (-v) = -A v) (deg : ℤ) (tol eps : ℝ) (orth : ℤ) (z : Prop) (rem : ℕ) :
    ∀ (j : ℕ) (s s' : LState n), NegRel z s s' →
      NegOut z (lanczosLoop A deg tol eps orth rem j s) (lanczosLoop A deg tol eps orth rem j s') := by
  induction rem with
  | zero => intro j s s' h; exact .ok ⟨h.alpha, h.beta, h.Q, h.all⟩
  | succ rem ih =>
    intro j s s' h
    unfold lanczosLoop
    rw [h.pos, h.alpha, h.beta]
    by_cases hc : 0 ≤ s.pos.2.1 ∧ s.pos.2.1 < s.Q.len
    swap
    · rw [read_index s.Q _ hc, read_index s'.Q _ (by rw [h.Q.1]; exact hc)]
      exact .error
    rw [Buf.read_ok' s.Q _ hc.1 hc.2, Buf.read_ok' s'.Q _ hc.1 (by rw [h.Q.1]; exact hc.2)]
    simp only [bind, Except.bind]
    rcases hb : s.beta.read (j : ℤ) with e | bj
    · exact .error
    by_cases hp : 0 ≤ s.pos.1 ∧ s.pos.1 < s.Q.len
    swap
    · rw [read_index s.Q _ hp, read_index s'.Q _ (by rw [h.Q.1]; exact hp)]
      exact .error
    rw [Buf.read_ok' s.Q _ hp.1 hp.2, Buf.read_ok' s'.Q _ hp.1 (by rw [h.Q.1]; exact hp.2)]
    simp only
    rw [h.cur, h.prev, hA]
    have e1 : -A (s.Q.get s.pos.2.1.toNat) - bj • -s.Q.get s.pos.1.toNat =
        -(A (s.Q.get s.pos.2.1.toNat) - bj • s.Q.get s.pos.1.toNat) := by
      rw [smul_neg]; abel
    rw [e1]
    generalize hw : A (s.Q.get s.pos.2.1.toNat) - bj • s.Q.get s.pos.1.toNat = w
    rw [neg_dotProduct, dotProduct_neg, neg_neg]
    generalize ha : s.Q.get s.pos.2.1.toNat ⬝ᵥ w = a
    rcases hwa : s.alpha.write (j : ℤ) a with e | al
    · exact .error
    simp only
    have e2 : -w - a • -s.Q.get s.pos.2.1.toNat = -(w - a • s.Q.get s.pos.2.1.toNat) := by
      rw [smul_neg]; abel
    rw [e2, reorth_neg eps orth s.Q s'.Q h.Q]
    rcases hr : reorth eps orth (w - a • s.Q.get s.pos.2.1.toNat) s.Q s.pos.2.1 with e | v
    · exact .error
    simp only [Except.map]
    rw [nrm_neg]
    rcases hwb : s.beta.write ((j : ℤ) + 1) (nrm v) with e | be
    · exact .error
    simp only
    split_ifs with hstop
    · exact .ok ⟨rfl, rfl, h.Q, h.all⟩
    · by_cases hx : 0 ≤ s.pos.2.2 ∧ s.pos.2.2 < s.Q.len
      swap
      · unfold Buf.write
        rw [if_neg hx, if_neg (by rw [h.Q.1]; exact hx)]
        exact .error
      rw [Buf.write_ok' _ _ _ hx.1 hx.2, Buf.write_ok' _ _ _ hx.1 (by rw [h.Q.1]; exact hx.2)]
      simp only
      rw [h.Q.1]
      refine ih _ _ _ ⟨rfl, rfl, rfl, ⟨rfl, fun l => ?_⟩, ?_, ?_, fun hz l => ?_⟩
      · show Function.update _ _ _ _ = Function.update _ _ _ _ ∨ Function.update _ _ _ _ = -Function.update _ _ _ _
        by_cases hl : l = s.pos.2.2.toNat
        · subst hl
          right
          rw [Function.update_self, Function.update_self, smul_neg]
        · rw [Function.update_of_ne hl, Function.update_of_ne hl]
          exact h.Q.2 l
      · show Function.update _ _ _ _ = -Function.update _ _ _ _
        rw [Function.update_self, Function.update_self, smul_neg]
      · show Function.update _ _ _ _ = -Function.update _ _ _ _
        by_cases hl : s.pos.2.1.toNat = s.pos.2.2.toNat
        · rw [hl, Function.update_self, Function.update_self, smul_neg]
        · rw [Function.update_of_ne hl, Function.update_of_ne hl]
          exact h.cur
      · show Function.update _ _ _ _ = -Function.update _ _ _ _
        by_cases hl : l = s.pos.2.2.toNat
        · rw [hl, Function.update_self, Function.update_self, smul_neg]
        · rw [Function.update_of_ne hl, Function.update_of_ne hl]
          exact h.all hz l

theorem lanczosNative_neg (A : Vec n → Vec n) (hA : ∀ v, A (-v) = -A v) (eps : ℝ) (v v' : Vec n)
    (hv : normalized v' = -normalized v) (deg : ℤ) (rtol : ℝ) (orth : ℤ) (alpha beta : Buf ℝ) (Q : Buf (Vec n)) :
    NegOut (∀ l, Q.get l = 0) (lanczosNative A eps v deg rtol orth alpha beta Q)
      (lanczosNative A eps v' deg rtol orth alpha beta Q) := by
  unfold lanczosNative
  simp only [bind, Except.bind]
  rcases h1 : Q.write ((Q.len : ℤ) - 1) 0 with e | Q1
  · exact .error
  simp only
  have hQ1 : Q1 = ⟨Q.len, Function.update Q.get (Q.len - 1) 0⟩ := by
    unfold Buf.write at h1
    split_ifs at h1 with hc
    simp only [Except.ok.injEq] at h1
    rw [← h1]
    have : ((Q.len : ℤ) - 1).toNat = Q.len - 1 := by omega
    rw [this]
  subst hQ1
  by_cases hl : 0 < Q.len
  swap
  · have w : ∀ x, Buf.write (⟨Q.len, Function.update Q.get (Q.len - 1) 0⟩ : Buf (Vec n)) 0 x = .error .index := fun x =>
      if_neg (by simpa using hl)
    simp only [w]
    exact .error
  have w := fun x => Buf.write_ok (⟨Q.len, Function.update Q.get (Q.len - 1) 0⟩ : Buf (Vec n)) 0 x hl
  simp only [Nat.cast_zero] at w
  simp only [w]
  rcases h3 : beta.write 0 0 with e | be
  · exact .error
  simp only
  refine lanczosLoop_neg A hA deg _ eps orth _ _ 0 _ _ ⟨rfl, rfl, rfl, ⟨rfl, fun l => ?_⟩, ?_, ?_, fun hz l => ?_⟩
  · show Function.update _ _ _ _ = Function.update _ _ _ _ ∨ Function.update _ _ _ _ = -Function.update _ _ _ _
    by_cases hl : l = 0
    · subst hl
      rw [Function.update_self, Function.update_self]
      exact Or.inr hv
    · rw [Function.update_of_ne hl, Function.update_of_ne hl]
      exact Or.inl rfl
  · simp only [Int.toNat_zero, Function.update_self]
    exact hv
  · have e : ((Q.len : ℤ) - 1).toNat = Q.len - 1 := by omega
    simp only [e]
    by_cases h0 : Q.len - 1 = 0
    · rw [h0, Function.update_self, Function.update_self]
      exact hv
    · rw [Function.update_of_ne h0, Function.update_of_ne h0, Function.update_self, neg_zero]
  · show Function.update _ _ _ _ = -Function.update _ _ _ _
    by_cases hl : l = 0
    · rw [hl, Function.update_self, Function.update_self]
      exact hv
    · rw [Function.update_of_ne hl, Function.update_of_ne hl]
      by_cases hl' : l = Q.len - 1
      · rw [hl', Function.update_self, neg_zero]
      · rw [Function.update_of_ne hl', hz l, neg_zero]

/-- Results that differ at most in the work vector. -/
inductive DirOut : Py (LState n) → Py (LState n) → Prop
  | ok {s s' : LState n} : s'.alpha = s.alpha → s'.beta = s.beta → s'.Q = s.Q → DirOut (.ok s) (.ok s')
  | error {e : PyErr} : DirOut (.error e) (.error e)

/-- The same starting direction gives the same run (but for the work vector, when no step is made). -/
theorem lanczosNative_dir (A : Vec n → Vec n) (eps : ℝ) (v v' : Vec n)
    (hv : normalized v' = normalized v) (deg : ℤ) (rtol : ℝ) (orth : ℤ) (alpha beta : Buf ℝ) (Q : Buf (Vec n)) :
    DirOut (lanczosNative A eps v deg rtol orth alpha beta Q) (lanczosNative A eps v' deg rtol orth alpha beta Q) := by
  unfold lanczosNative
  rw [hv]
  simp only [bind, Except.bind]
  rcases h1 : Q.write ((Q.len : ℤ) - 1) 0 with e | Q1
  · exact .error
  simp only
  rcases h2 : Q1.write 0 (normalized v) with e | Q2
  · exact .error
  simp only
  rcases h3 : beta.write 0 0 with e | be
  · exact .error
  simp only
  rcases deg.toNat with _ | rem
  · exact .ok rfl rfl rfl
  · have : ∀ w : Vec n, lanczosLoop A deg (Real.sqrt n * rtol) eps orth (rem + 1) 0 ⟨w, alpha, be, Q2, (Q.len : ℤ) - 1, 0, 1⟩ =
      lanczosLoop A deg (Real.sqrt n * rtol) eps orth (rem + 1) 0 ⟨v, alpha, be, Q2, (Q.len : ℤ) - 1, 0, 1⟩ := fun w => rfl
    rw [this v']
    rcases lanczosLoop A deg (Real.sqrt n * rtol) eps orth (rem + 1) 0 ⟨v, alpha, be, Q2, (Q.len : ℤ) - 1, 0, 1⟩ with e | s
    · exact .error
    · exact .ok rfl rfl rfl

theorem nrm_smul (c : ℝ) (v : Vec n) : nrm (c • v) = |c| * nrm v := by
  unfold nrm
  rw [smul_dotProduct, dotProduct_smul, smul_eq_mul, smul_eq_mul, ← mul_assoc, Real.sqrt_mul (mul_self_nonneg c),
    Real.sqrt_mul_self_eq_abs]

theorem normalized_scale (c : ℝ) (hc : c ≠ 0) (v : Vec n) :
    (0 < c ∧ normalized (c • v) = normalized v) ∨ (c < 0 ∧ normalized (c • v) = -normalized v) := by
  by_cases hv : 0 < v ⬝ᵥ v
  · have hv' : 0 < (c • v) ⬝ᵥ (c • v) := by
      rw [smul_dotProduct, dotProduct_smul, smul_eq_mul, smul_eq_mul, ← mul_assoc]
      exact mul_pos (mul_self_pos.mpr hc) hv
    have hn : 0 < nrm v := Real.sqrt_pos.mpr hv
    rcases lt_or_gt_of_ne hc with h | h
    · refine Or.inr ⟨h, ?_⟩
      unfold normalized
      rw [if_pos hv, if_pos hv', nrm_smul, abs_of_neg h]
      funext i
      show c * v i / (-c * nrm v) = -(v i / nrm v)
      field_simp
    · refine Or.inl ⟨h, ?_⟩
      unfold normalized
      rw [if_pos hv, if_pos hv', nrm_smul, abs_of_pos h]
      funext i
      show c * v i / (c * nrm v) = v i / nrm v
      field_simp
  · have h0 : v = 0 := dot_self_eq_zero (le_antisymm (not_lt.mp hv) (dot_self_nonneg v))
    subst h0
    rw [smul_zero, normalized_zero, neg_zero]
    rcases lt_or_gt_of_ne hc with h | h
    · exact Or.inr ⟨h, rfl⟩
    · exact Or.inl ⟨h, rfl⟩

/-- Results with the same `alpha` and `beta`; the columns of `Q` are multiplied by the sign of `c` when they were zero
before the run. -/
inductive ScaleOut (c : ℝ) (z : Prop) : Py (LState n) → Py (LState n) → Prop
  | ok {s s' : LState n} : s'.alpha = s.alpha → s'.beta = s.beta → s'.Q.len = s.Q.len →
      (z → ∀ l, |c| • s'.Q.get l = c • s.Q.get l) → ScaleOut c z (.ok s) (.ok s')
  | error {e : PyErr} : ScaleOut c z (.error e) (.error e)

/-- `alpha` and `beta` do not depend on the length or sign of the starting vector. -/
theorem lanczosNative_scale (A : Vec n → Vec n) (hA : ∀ v, A (-v) = -A v) (eps c : ℝ) (hc : c ≠ 0) (v : Vec n)
    (deg : ℤ) (rtol : ℝ) (orth : ℤ) (alpha beta : Buf ℝ) (Q : Buf (Vec n)) :
    ScaleOut c (∀ l, Q.get l = 0) (lanczosNative A eps v deg rtol orth alpha beta Q)
      (lanczosNative A eps (c • v) deg rtol orth alpha beta Q) := by
  rcases normalized_scale c hc v with ⟨h0, h⟩ | ⟨h0, h⟩
  · have hd := lanczosNative_dir A eps v (c • v) h deg rtol orth alpha beta Q
    generalize lanczosNative A eps v deg rtol orth alpha beta Q = o at *
    generalize lanczosNative A eps (c • v) deg rtol orth alpha beta Q = o' at *
    rcases hd with ⟨h1, h2, h3⟩ | _
    · exact .ok h1 h2 (by rw [h3]) fun _ l => by rw [h3, abs_of_pos h0]
    · exact .error
  · have hd := lanczosNative_neg A hA eps v (c • v) h deg rtol orth alpha beta Q
    generalize lanczosNative A eps v deg rtol orth alpha beta Q = o at *
    generalize lanczosNative A eps (c • v) deg rtol orth alpha beta Q = o' at *
    rcases hd with ⟨h1, h2, h3, h4⟩ | _
    · exact .ok h1 h2 h3.1 fun hz l => by rw [h4 hz l, abs_of_neg h0, smul_neg, neg_smul, neg_neg]
    · exact .error

end Primate
