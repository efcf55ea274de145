import Verif.Lemmas.Krylov

/-! What the native Lanczos code computes. -/

noncomputable section

namespace Primate

open Matrix

variable {n : ℕ}

theorem cmod_eq (a b : ℤ) (hb : 0 < b) : cmod a b = a % b := by
  unfold cmod
  have h1 : -b < a.tmod b := by
    have := Int.lt_tmod_of_pos a hb
    exact this
  have h2 : 0 ≤ b + a.tmod b := by omega
  rw [Int.tmod_eq_emod_of_nonneg h2]
  have h3 : (b + a.tmod b) % b = a.tmod b % b := by
    rw [Int.add_emod, Int.emod_self, zero_add, Int.emod_emod]
  rw [h3]
  have h4 : a.tmod b = a - b * a.tdiv b := by
    have := Int.tmod_add_mul_tdiv a b
    omega
  rw [h4, Int.sub_mul_emod_self_left]

theorem Buf.read_ok {α : Type} (b : Buf α) (i : ℕ) (h : i < b.len) : b.read i = .ok (b.get i) := by
  unfold Buf.read
  rw [if_pos ⟨by omega, by omega⟩]
  simp

theorem Buf.read_ok' {α : Type} (b : Buf α) (i : ℤ) (h0 : 0 ≤ i) (h : i < b.len) :
    b.read i = .ok (b.get i.toNat) := by
  unfold Buf.read
  rw [if_pos ⟨h0, h⟩]

theorem Buf.write_ok {α : Type} (b : Buf α) (i : ℕ) (x : α) (h : i < b.len) :
    b.write i x = .ok ⟨b.len, Function.update b.get i x⟩ := by
  unfold Buf.write
  rw [if_pos ⟨by omega, by omega⟩]
  simp

theorem Buf.write_ok' {α : Type} (b : Buf α) (i : ℤ) (x : α) (h0 : 0 ≤ i) (h : i < b.len) :
    b.write i x = .ok ⟨b.len, Function.update b.get i.toNat x⟩ := by
  unfold Buf.write
  rw [if_pos ⟨h0, h⟩]

/-! ## Memory safety for arbitrary operators and values -/

theorem orthLoop_safe (tol : ℝ) (U : Buf (Vec n)) (diff : ℤ) (c : ℕ) :
    ∀ (i : ℤ) (v : Vec n), 0 ≤ i → i < U.len → ∃ v', orthLoop tol U diff c i v = .ok v' := by
  induction c with
  | zero => intro i v _ _; exact ⟨v, rfl⟩
  | succ c ih =>
    intro i v h0 h1
    have hpos : (0 : ℤ) < U.len := by omega
    unfold orthLoop
    simp only [U.read_ok' i h0 h1, bind, Except.bind]
    apply ih
    · rw [cmod_eq _ _ hpos]; exact Int.emod_nonneg _ (by omega)
    · rw [cmod_eq _ _ hpos]; exact Int.emod_lt_of_pos _ hpos

theorem orthVector_safe (eps : ℝ) (v : Vec n) (U : Buf (Vec n)) (start p : ℤ) (rev : Bool)
    (hU : 0 < U.len) : ∃ v', orthVector eps v U start p rev = .ok v' := by
  have hpos : (0 : ℤ) < U.len := by omega
  unfold orthVector
  apply orthLoop_safe
  · rw [cmod_eq _ _ hpos]; exact Int.emod_nonneg _ (by omega)
  · rw [cmod_eq _ _ hpos]; exact Int.emod_lt_of_pos _ hpos

/-- What the loop may touch. -/
structure Touched (deg : ℕ) (s t : LState n) : Prop where
  alpha_len : t.alpha.len = s.alpha.len
  beta_len : t.beta.len = s.beta.len
  Q_len : t.Q.len = s.Q.len
  alpha_out : ∀ i, deg ≤ i → t.alpha.get i = s.alpha.get i
  beta_out : ∀ i, deg < i → t.beta.get i = s.beta.get i
  beta_zero : t.beta.get 0 = s.beta.get 0

theorem lanczosLoop_safe (A : Vec n → Vec n) (deg : ℕ) (tol eps : ℝ) (orth : ℤ) (rem : ℕ) :
    ∀ (j : ℕ) (s : LState n), j + rem = deg → deg ≤ s.alpha.len → deg + 1 ≤ s.beta.len →
      1 ≤ s.Q.len → (rem ≤ 1 ∨ 2 ≤ s.Q.len) → 0 ≤ s.pos.1 → s.pos.1 < s.Q.len → 0 ≤ s.pos.2.1 →
      s.pos.2.1 < s.Q.len → (2 ≤ s.Q.len → 0 ≤ s.pos.2.2 ∧ s.pos.2.2 < s.Q.len) →
      ∃ t, lanczosLoop A deg tol eps orth rem j s = .ok t ∧ Touched deg s t := by
  induction rem with
  | zero => intro j s _ _ _ _ _ _ _ _ _ _; exact ⟨s, rfl, rfl, rfl, rfl, fun _ _ => rfl, fun _ _ => rfl, rfl⟩
  | succ rem ih =>
    intro j s hj ha hb hQ hrem p0 p1 c0 c1 hn
    have hpos : (0 : ℤ) < s.Q.len := by omega
    unfold lanczosLoop
    simp only [s.Q.read_ok' _ c0 c1, s.Q.read_ok' _ p0 p1, s.beta.read_ok j (by omega),
      s.alpha.write_ok j _ (by omega), bind, Except.bind]
    generalize A (s.Q.get s.pos.2.1.toNat) - s.beta.get j • s.Q.get s.pos.1.toNat = w
    obtain ⟨v', hv'⟩ : ∃ v', reorth eps orth
        (w - (s.Q.get s.pos.2.1.toNat ⬝ᵥ w) • s.Q.get s.pos.2.1.toNat) s.Q s.pos.2.1 = Except.ok v' := by
      unfold reorth
      split_ifs
      · exact orthVector_safe _ _ _ _ _ _ (by omega)
      · exact ⟨_, rfl⟩
    rw [hv']
    have hw := s.beta.write_ok (j + 1) (nrm v') (by omega)
    push_cast at hw
    simp only [hw]
    by_cases hstop : nrm v' < tol ∨ (j : ℤ) + 1 = deg
    · rw [if_pos hstop]
      refine ⟨_, rfl, rfl, rfl, rfl, fun i hi => ?_, fun i hi => ?_, ?_⟩
      · exact Function.update_of_ne (by omega) _ _
      · exact Function.update_of_ne (by omega) _ _
      · exact Function.update_of_ne (Nat.succ_ne_zero j).symm (nrm v') s.beta.get
    · rw [if_neg hstop]
      have h2 : 2 ≤ s.Q.len := by
        rcases hrem with h | h
        · exfalso; apply hstop; right; omega
        · exact h
      simp only [s.Q.write_ok' _ _ (hn h2).1 (hn h2).2]
      obtain ⟨t, ht, hT⟩ := ih (j + 1)
        ⟨v', ⟨s.alpha.len, Function.update s.alpha.get j _⟩, ⟨s.beta.len, Function.update s.beta.get (j + 1) (nrm v')⟩,
          ⟨s.Q.len, Function.update s.Q.get s.pos.2.2.toNat ((nrm v')⁻¹ • v')⟩, s.pos.2.1, s.pos.2.2,
            cmod (j + 2) s.Q.len⟩ (by omega) ha hb hQ (Or.inr h2) c0 c1 (hn h2).1 (hn h2).2
        (fun _ => by
          simp only [cmod_eq _ _ hpos]
          exact ⟨Int.emod_nonneg _ (by omega), Int.emod_lt_of_pos _ hpos⟩)
      refine ⟨t, ht, hT.alpha_len, hT.beta_len, hT.Q_len, fun i hi => ?_, fun i hi => ?_, ?_⟩
      · rw [hT.alpha_out i hi]; exact Function.update_of_ne (by omega) _ _
      · rw [hT.beta_out i hi]; exact Function.update_of_ne (by omega) _ _
      · rw [hT.beta_zero]; exact Function.update_of_ne (Nat.succ_ne_zero j).symm (nrm v') s.beta.get

/-! ## The values, for self-adjoint operators -/

theorem orthLoop_noop (tol : ℝ) (htol : 0 ≤ tol) (U : Buf (Vec n)) (hU : 0 < U.len) (v : Vec n) (c : ℕ) :
    ∀ (i : ℤ), 0 ≤ i → i < U.len →
      (∀ t : ℕ, t < c → v ⬝ᵥ U.get (((i - t) % (U.len : ℤ)).toNat) = 0) →
      orthLoop tol U (-1) c i v = .ok v := by
  induction c with
  | zero => intro i _ _ _; rfl
  | succ c ih =>
    intro i h0 h1 hz
    have hpos : (0 : ℤ) < U.len := by omega
    have hz0 := hz 0 (by omega)
    rw [Nat.cast_zero, sub_zero, Int.emod_eq_of_lt h0 h1] at hz0
    unfold orthLoop
    simp only [U.read_ok' i h0 h1, bind, Except.bind, hz0, abs_zero]
    rw [if_neg (fun h => absurd h.2 (not_lt.mpr htol)), cmod_eq _ _ hpos]
    apply ih
    · exact Int.emod_nonneg _ (by omega)
    · exact Int.emod_lt_of_pos _ hpos
    · intro t ht
      have := hz (t + 1) (by omega)
      have he : ((i + -1) % (U.len : ℤ) - (t : ℤ)) % (U.len : ℤ) = (i - ((t + 1 : ℕ) : ℤ)) % (U.len : ℤ) := by
        rw [Int.emod_sub_emod]
        congr 1
        push_cast
        ring
      rw [he]
      exact this

/-- The state at the start of iteration `j`. -/
structure LInv (A : Vec n → Vec n) (v : Vec n) (alpha0 beta0 : Buf ℝ) (Q0 : Buf (Vec n)) (j : ℕ)
    (s : LState n) : Prop where
  alpha_len : s.alpha.len = alpha0.len
  beta_len : s.beta.len = beta0.len
  Q_len : s.Q.len = Q0.len
  alpha_lt : ∀ i < j, s.alpha.get i = lza A v i
  alpha_ge : ∀ i, j ≤ i → s.alpha.get i = alpha0.get i
  beta_le : ∀ i ≤ j, s.beta.get i = lzb A v i
  beta_gt : ∀ i, j < i → s.beta.get i = beta0.get i
  Qcol : ∀ i ≤ j, j < i + Q0.len → s.Q.get (i % Q0.len) = lzq A v i
  Qrest : ∀ l, j < l → l < Q0.len → s.Q.get l = if l + 1 = Q0.len then 0 else Q0.get l
  pos1 : s.pos.1 = ((j : ℤ) - 1) % (Q0.len : ℤ)
  pos2 : s.pos.2.1 = (j : ℤ) % (Q0.len : ℤ)
  pos3 : 2 ≤ Q0.len → s.pos.2.2 = ((j : ℤ) + 1) % (Q0.len : ℤ)

/-- The state after the last iteration `J`. -/
structure LFinal (A : Vec n → Vec n) (v : Vec n) (alpha0 beta0 : Buf ℝ) (Q0 : Buf (Vec n)) (J : ℕ)
    (s : LState n) : Prop where
  alpha_len : s.alpha.len = alpha0.len
  beta_len : s.beta.len = beta0.len
  Q_len : s.Q.len = Q0.len
  alpha_le : ∀ i ≤ J, s.alpha.get i = lza A v i
  alpha_gt : ∀ i, J < i → s.alpha.get i = alpha0.get i
  beta_le : ∀ i ≤ J + 1, s.beta.get i = lzb A v i
  beta_gt : ∀ i, J + 1 < i → s.beta.get i = beta0.get i
  Qcol : ∀ i ≤ J, J < i + Q0.len → s.Q.get (i % Q0.len) = lzq A v i
  Qrest : ∀ l, J < l → l < Q0.len → s.Q.get l = if l + 1 = Q0.len then 0 else Q0.get l

/-- The columns that may hold stale data are not used: at most two projections, or zero columns. -/
def FreshQ (orth : ℤ) (Q0 : Buf (Vec n)) : Prop := orth ≤ 2 ∨ ∀ l, 1 ≤ l → l + 1 < Q0.len → Q0.get l = 0

theorem nat_emod_toNat (a b : ℕ) : ((a : ℤ) % (b : ℤ)).toNat = a % b := by
  rw [← Int.natCast_mod, Int.toNat_natCast]

/-- The columns visited by the re-orthogonalisation are orthogonal to the residual. -/
theorem LInv.cols_orth {A : Vec n → Vec n} {v : Vec n} {alpha0 beta0 : Buf ℝ} {Q0 : Buf (Vec n)} {j : ℕ}
    {s : LState n} (h : LInv A v alpha0 beta0 Q0 j s) (hA : SelfAdj A)
    (hb : ∀ i < j, lzb A v (i + 1) ≠ 0) (hQ : 0 < Q0.len) (orth : ℤ) (hf : FreshQ orth Q0) (t : ℕ)
    (ht : (t : ℤ) < orth) :
    lzr A v j ⬝ᵥ s.Q.get ((((j : ℤ) - t) % (Q0.len : ℤ)).toNat) = 0 := by
  set ncv := Q0.len with hncv
  set l := (((j : ℤ) - t) % (ncv : ℤ)).toNat with hl
  have hpos : (0 : ℤ) < ncv := by omega
  have hl0 := Int.emod_nonneg ((j : ℤ) - t) (show (ncv : ℤ) ≠ 0 by omega)
  have hl1 := Int.emod_lt_of_pos ((j : ℤ) - t) hpos
  have hll : (l : ℤ) = ((j : ℤ) - t) % (ncv : ℤ) := Int.toNat_of_nonneg hl0
  have hlt : l < ncv := by omega
  by_cases hlj : j < l
  · -- not yet written
    rw [h.Qrest l hlj hlt]
    by_cases hlast : l + 1 = ncv
    · rw [if_pos hlast, dotProduct_zero]
    · rw [if_neg hlast]
      rcases hf with ho | hz
      · exfalso
        have ht2 : t = 0 ∨ t = 1 := by omega
        rcases ht2 with rfl | rfl
        · have : ((j : ℤ) - (0 : ℕ)) % (ncv : ℤ) = j := by
            rw [Nat.cast_zero, sub_zero]; exact Int.emod_eq_of_lt (by omega) (by omega)
          omega
        · by_cases hj0 : j = 0
          · have : ((j : ℤ) - (1 : ℕ)) % (ncv : ℤ) = ncv - 1 := by
              rw [hj0, show ((0 : ℕ) : ℤ) - (1 : ℕ) = (ncv - 1) + ncv * (-1) by push_cast; ring,
                Int.add_mul_emod_self_left]
              exact Int.emod_eq_of_lt (by omega) (by omega)
            omega
          · have : ((j : ℤ) - (1 : ℕ)) % (ncv : ℤ) = j - 1 := by
              rw [Int.emod_eq_of_lt (by omega) (by omega)]; norm_num
            omega
      · rw [hz l (by omega) (by omega), dotProduct_zero]
  · -- holds the last Lanczos vector with this residue
    push Not at hlj
    set i := j - (j - l) % ncv with hi
    have hmod : (j - l) % ncv < ncv := Nat.mod_lt _ hQ
    have hle : (j - l) % ncv ≤ j - l := Nat.mod_le _ _
    have hieq : i % ncv = l := by
      have h1 : i = l + ncv * ((j - l) / ncv) := by
        have := Nat.mod_add_div (j - l) ncv
        omega
      rw [h1, Nat.add_mul_mod_self_left]
      exact Nat.mod_eq_of_lt hlt
    rw [← hieq, h.Qcol i (by omega) (by omega)]
    exact lzr_orth A v hA j hb i (by omega)

theorem lanczosLoop_run (A : Vec n → Vec n) (hA : SelfAdj A) (v : Vec n) (alpha0 beta0 : Buf ℝ)
    (Q0 : Buf (Vec n)) (deg : ℕ) (tol eps : ℝ) (htol : 0 < tol) (heps : 0 ≤ eps) (orth : ℤ)
    (hf : FreshQ orth Q0) (ha : deg ≤ alpha0.len) (hbl : deg + 1 ≤ beta0.len) (hQ1 : 1 ≤ Q0.len)
    (hQ2 : deg ≤ 1 ∨ 2 ≤ Q0.len) (rem : ℕ) :
    ∀ (j : ℕ) (s : LState n), j + rem = deg → 1 ≤ rem → (∀ i < j, tol ≤ lzb A v (i + 1)) →
      LInv A v alpha0 beta0 Q0 j s →
      ∃ J t, j ≤ J ∧ J < deg ∧ (∀ i < J, tol ≤ lzb A v (i + 1)) ∧
        (lzb A v (J + 1) < tol ∨ J + 1 = deg) ∧
        lanczosLoop A deg tol eps orth rem j s = .ok t ∧ LFinal A v alpha0 beta0 Q0 J t := by
  induction rem with
  | zero => intro j s _ h; omega
  | succ rem ih =>
    intro j s hj _ hb h
    have hpos : (0 : ℤ) < Q0.len := by omega
    have hc0 : 0 ≤ s.pos.2.1 := by rw [h.pos2]; exact Int.emod_nonneg _ (by omega)
    have hc1 : s.pos.2.1 < s.Q.len := by rw [h.pos2, h.Q_len]; exact Int.emod_lt_of_pos _ hpos
    have hp0 : 0 ≤ s.pos.1 := by rw [h.pos1]; exact Int.emod_nonneg _ (by omega)
    have hp1 : s.pos.1 < s.Q.len := by rw [h.pos1, h.Q_len]; exact Int.emod_lt_of_pos _ hpos
    have hqc : s.Q.get s.pos.2.1.toNat = lzq A v j := by
      rw [h.pos2, nat_emod_toNat]
      exact h.Qcol j le_rfl (by omega)
    have hbp : s.beta.get j • s.Q.get s.pos.1.toNat = lzb A v j • lzp A v j := by
      rw [h.beta_le j le_rfl]
      cases j with
      | zero => rw [lzb_zero, zero_smul, zero_smul]
      | succ j =>
        rw [lzp_succ, h.pos1]
        congr 1
        have h2 : 2 ≤ Q0.len := by omega
        rw [show ((j + 1 : ℕ) : ℤ) - 1 = j by push_cast; ring, nat_emod_toNat]
        exact h.Qcol j (by omega) (by omega)
    have hw : A (s.Q.get s.pos.2.1.toNat) - s.beta.get j • s.Q.get s.pos.1.toNat = lzw A v j := by
      rw [hqc, hbp]; rfl
    unfold lanczosLoop
    simp only [s.Q.read_ok' _ hc0 hc1, s.Q.read_ok' _ hp0 hp1,
      s.beta.read_ok j (by rw [h.beta_len]; omega), s.alpha.write_ok j _ (by rw [h.alpha_len]; omega),
      bind, Except.bind, hw]
    rw [hqc]
    have hv' : reorth eps orth (lzw A v j - (lzq A v j ⬝ᵥ lzw A v j) • lzq A v j) s.Q s.pos.2.1 =
        Except.ok (lzr A v j) := by
      unfold reorth
      split_ifs with ho
      · have hb' : ∀ i < j, lzb A v (i + 1) ≠ 0 := fun i hi => (lt_of_lt_of_le htol (hb i hi)).ne'
        unfold orthVector
        rw [cmod_eq _ _ (by rw [h.Q_len]; exact hpos), Int.emod_eq_of_lt hc0 hc1]
        refine orthLoop_noop _ (by positivity) s.Q (by rw [h.Q_len]; omega) _ _ _ hc0 hc1 fun t ht => ?_
        rw [h.pos2, h.Q_len, Int.emod_sub_emod]
        exact h.cols_orth hA hb' (by omega) orth hf t (by omega)
      · rfl
    rw [hv']
    have hwr := s.beta.write_ok (j + 1) (nrm (lzr A v j)) (by rw [h.beta_len]; omega)
    push_cast at hwr
    simp only [hwr]
    have hb1 : nrm (lzr A v j) = lzb A v (j + 1) := rfl
    have ha1 : lzq A v j ⬝ᵥ lzw A v j = lza A v j := rfl
    rw [hb1, ha1]
    have halpha : ∀ i ≤ j, Function.update s.alpha.get j (lza A v j) i = lza A v i := by
      intro i hi
      by_cases hij : i = j
      · rw [hij, Function.update_self]
      · rw [Function.update_of_ne hij]; exact h.alpha_lt i (by omega)
    have hbeta : ∀ i ≤ j + 1, Function.update s.beta.get (j + 1) (lzb A v (j + 1)) i = lzb A v i := by
      intro i hi
      by_cases hij : i = j + 1
      · rw [hij, Function.update_self]
      · rw [Function.update_of_ne hij]; exact h.beta_le i (by omega)
    by_cases hstop : lzb A v (j + 1) < tol ∨ (j : ℤ) + 1 = deg
    · rw [if_pos hstop]
      refine ⟨j, _, le_rfl, by omega, hb, ?_, rfl, ?_⟩
      · rcases hstop with hs | hs
        · exact Or.inl hs
        · right; omega
      · refine ⟨h.alpha_len, h.beta_len, h.Q_len, halpha, fun i hi => ?_, hbeta, fun i hi => ?_,
          h.Qcol, h.Qrest⟩
        · rw [← h.alpha_ge i (by omega)]; exact Function.update_of_ne (by omega) _ _
        · rw [← h.beta_gt i (by omega)]; exact Function.update_of_ne (by omega) _ _
    · rw [if_neg hstop]
      push Not at hstop
      have h2 : 2 ≤ Q0.len := by
        rcases hQ2 with h' | h'
        · exfalso; apply hstop.2; omega
        · exact h'
      have hn0 : 0 ≤ s.pos.2.2 := by rw [h.pos3 h2]; exact Int.emod_nonneg _ (by omega)
      have hn1 : s.pos.2.2 < s.Q.len := by rw [h.pos3 h2, h.Q_len]; exact Int.emod_lt_of_pos _ hpos
      simp only [s.Q.write_ok' _ _ hn0 hn1]
      rw [← lzq_succ]
      have hnext : s.pos.2.2.toNat = (j + 1) % Q0.len := by
        rw [h.pos3 h2]
        exact_mod_cast nat_emod_toNat (j + 1) Q0.len
      rw [hnext]
      have hinv : LInv A v alpha0 beta0 Q0 (j + 1)
          ⟨lzr A v j, ⟨s.alpha.len, Function.update s.alpha.get j (lza A v j)⟩,
            ⟨s.beta.len, Function.update s.beta.get (j + 1) (lzb A v (j + 1))⟩,
            ⟨s.Q.len, Function.update s.Q.get ((j + 1) % Q0.len) (lzq A v (j + 1))⟩,
            s.pos.2.1, s.pos.2.2, cmod (j + 2) s.Q.len⟩ := by
        refine ⟨h.alpha_len, h.beta_len, h.Q_len, fun i hi => halpha i (by omega), fun i hi => ?_,
          hbeta, fun i hi => ?_, fun i hi hi2 => ?_, fun l hl hl2 => ?_, ?_, ?_, fun _ => ?_⟩
        · rw [← h.alpha_ge i (by omega)]; exact Function.update_of_ne (by omega) _ _
        · rw [← h.beta_gt i (by omega)]; exact Function.update_of_ne (by omega) _ _
        · by_cases hij : i = j + 1
          · rw [hij]; exact Function.update_self _ _ _
          · have hne : i % Q0.len ≠ (j + 1) % Q0.len := by
              intro he
              have hd : Q0.len ∣ j + 1 - i := (Nat.modEq_iff_dvd' (by omega)).mp he
              have := Nat.le_of_dvd (by omega) hd
              omega
            rw [show (⟨s.Q.len, Function.update s.Q.get ((j + 1) % Q0.len) (lzq A v (j + 1))⟩ : Buf (Vec n)).get
              (i % Q0.len) = s.Q.get (i % Q0.len) from Function.update_of_ne hne _ _]
            exact h.Qcol i (by omega) (by omega)
        · have hne : l ≠ (j + 1) % Q0.len := by
            rw [Nat.mod_eq_of_lt (by omega)]; omega
          rw [show (⟨s.Q.len, Function.update s.Q.get ((j + 1) % Q0.len) (lzq A v (j + 1))⟩ : Buf (Vec n)).get
              l = s.Q.get l from Function.update_of_ne hne _ _]
          exact h.Qrest l (by omega) hl2
        · simp only [h.pos2]
          push_cast
          congr 1
          ring
        · simp only [h.pos3 h2]
          push_cast
          rfl
        · simp only [h.Q_len, cmod_eq _ _ hpos]
          push_cast
          congr 1
      obtain ⟨J, t, hJ1, hJ2, hJ3, hJ4, hJ5, hJ6⟩ := ih (j + 1) _ (by omega) (by omega) (fun i hi => by
        rcases Nat.lt_or_ge i j with hij | hij
        · exact hb i hij
        · obtain rfl : i = j := by omega
          exact hstop.1) hinv
      exact ⟨J, t, by omega, hJ2, hJ3, hJ4, hJ5, hJ6⟩

/-- What `lanczos_recurrence` computes, for a self-adjoint operator. -/
theorem lanczosNative_run (A : Vec n → Vec n) (hA : SelfAdj A) (eps : ℝ) (heps : 0 ≤ eps) (v : Vec n)
    (deg : ℕ) (hdeg : 1 ≤ deg) (rtol : ℝ) (hrtol : 0 < rtol) (hn : 0 < n) (orth : ℤ) (alpha0 beta0 : Buf ℝ)
    (Q0 : Buf (Vec n)) (hf : FreshQ orth Q0) (ha : deg ≤ alpha0.len) (hbl : deg + 1 ≤ beta0.len)
    (hQ1 : 1 ≤ Q0.len) (hQ2 : deg ≤ 1 ∨ 2 ≤ Q0.len) :
    ∃ J t, J < deg ∧ (∀ i < J, Real.sqrt n * rtol ≤ lzb A v (i + 1)) ∧
      (lzb A v (J + 1) < Real.sqrt n * rtol ∨ J + 1 = deg) ∧
      lanczosNative A eps v deg rtol orth alpha0 beta0 Q0 = .ok t ∧ LFinal A v alpha0 beta0 Q0 J t := by
  have hpos : (0 : ℤ) < Q0.len := by omega
  have htol : 0 < Real.sqrt n * rtol := by
    have : 0 < Real.sqrt n := Real.sqrt_pos.mpr (by exact_mod_cast hn)
    positivity
  unfold lanczosNative
  have w1 := Q0.write_ok' ((Q0.len : ℤ) - 1) 0 (by omega) (by omega)
  have e1 : ((Q0.len : ℤ) - 1).toNat = Q0.len - 1 := by omega
  rw [e1] at w1
  have w2 := Buf.write_ok (⟨Q0.len, Function.update Q0.get (Q0.len - 1) 0⟩ : Buf (Vec n)) 0 (normalized v) (by show 0 < Q0.len; omega)
  have w3 := beta0.write_ok 0 0 (by omega)
  rw [Nat.cast_zero] at w2 w3
  simp only [w1, w2, w3, bind, Except.bind, Int.toNat_natCast]
  have hinv : LInv A v alpha0 beta0 Q0 0 ⟨v, alpha0, ⟨beta0.len, Function.update beta0.get 0 0⟩,
      ⟨Q0.len, Function.update (Function.update Q0.get (Q0.len - 1) 0) 0 (normalized v)⟩,
      (Q0.len : ℤ) - 1, 0, 1⟩ := by
    refine ⟨rfl, rfl, rfl, fun i hi => by omega, fun i _ => rfl, fun i hi => ?_, fun i hi => ?_,
      fun i hi _ => ?_, fun l hl hl2 => ?_, ?_, ?_, fun h2 => ?_⟩
    · obtain rfl : i = 0 := by omega
      rw [lzb_zero]
      exact Function.update_self (0 : ℕ) (0 : ℝ) beta0.get
    · exact Function.update_of_ne (by omega) _ _
    · obtain rfl : i = 0 := by omega
      rw [Nat.zero_mod, lzq_zero]
      show Function.update (Function.update Q0.get (Q0.len - 1) 0) 0 (normalized v) 0 = _
      rw [Function.update_self]
    · simp only
      rw [Function.update_of_ne (by omega)]
      split_ifs with he
      · rw [show l = Q0.len - 1 by omega, Function.update_self]
      · rw [Function.update_of_ne (by omega)]
    · simp only
      rw [show ((0 : ℕ) : ℤ) - 1 = ((Q0.len : ℤ) - 1) + Q0.len * (-1) by push_cast; ring,
        Int.add_mul_emod_self_left, Int.emod_eq_of_lt (by omega) (by omega)]
    · simp
    · simp only
      rw [Int.emod_eq_of_lt (by omega) (by push_cast; omega)]
      simp
  obtain ⟨J, t, -, h2, h3, h4, h5, h6⟩ := lanczosLoop_run A hA v alpha0 beta0 Q0 deg _ eps htol heps orth hf ha hbl
    hQ1 hQ2 deg 0 _ (by omega) hdeg (fun i hi => by omega) hinv
  exact ⟨J, t, h2, h3, h4, h5, h6⟩

end Primate
