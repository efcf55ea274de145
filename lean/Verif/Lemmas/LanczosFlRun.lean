import Verif.Model.LanczosFl
import Verif.Lemmas.LanczosRun

/-! What the Lanczos code computes in rounded arithmetic, as a recursion without buffers. -/

noncomputable section

namespace Primate

open Matrix

variable {n : ℕ}

/-- The previous vector, the current vector and the entry of `beta` at the start of an iteration. -/
structure FlTriple (n : ℕ) where
  p : Vec n
  q : Vec n
  b : ℝ

/-- `A q_c - beta[j] q_p`. -/
def FlTriple.v1 (K : LKernels n) (j : ℕ) (g : FlTriple n) : Vec n := K.axpy (j, 0) (K.matvec j g.q) g.b g.p

/-- `alpha[j]`. -/
def FlTriple.a (K : LKernels n) (j : ℕ) (g : FlTriple n) : ℝ := K.dot (j, 0) g.q (g.v1 K j)

/-- The residual vector. -/
def FlTriple.w (K : LKernels n) (j : ℕ) (g : FlTriple n) : Vec n := K.axpy (j, 1) (g.v1 K j) (g.a K j) g.q

/-- The next iteration. -/
def FlTriple.next (K : LKernels n) (j : ℕ) (g : FlTriple n) : FlTriple n :=
  ⟨g.q, K.scale (j + 1) (g.w K j) (K.norm (j + 1) (g.w K j)), K.norm (j + 1) (g.w K j)⟩

/-- All iterations; `p0` is the column in front of the first one. -/
def flSeq (K : LKernels n) (v p0 : Vec n) : ℕ → FlTriple n
  | 0 => ⟨p0, normalizedFl K v, 0⟩
  | j + 1 => (flSeq K v p0 j).next K j

/-- The column in front of the first one. -/
def flPrev (K : LKernels n) (v : Vec n) (ncv : ℕ) : Vec n := if ncv = 1 then normalizedFl K v else 0

/-- The state at the start of iteration `j`. -/
structure FlInv (K : LKernels n) (v p0 : Vec n) (alpha0 beta0 : Buf ℝ) (Q0 : Buf (Vec n)) (j : ℕ) (s : LState n) : Prop where
  alpha_len : s.alpha.len = alpha0.len
  beta_len : s.beta.len = beta0.len
  Q_len : s.Q.len = Q0.len
  alpha_lt : ∀ i < j, s.alpha.get i = (flSeq K v p0 i).a K i
  beta_le : ∀ i ≤ j, s.beta.get i = (flSeq K v p0 i).b
  Qcol : ∀ i ≤ j, j < i + Q0.len → s.Q.get (i % Q0.len) = (flSeq K v p0 i).q
  Qprev : j = 0 → s.Q.get (Q0.len - 1) = p0
  pos1 : s.pos.1 = ((j : ℤ) - 1) % (Q0.len : ℤ)
  pos2 : s.pos.2.1 = (j : ℤ) % (Q0.len : ℤ)
  pos3 : 2 ≤ Q0.len → s.pos.2.2 = ((j : ℤ) + 1) % (Q0.len : ℤ)
  alpha_ge : ∀ i, j ≤ i → s.alpha.get i = alpha0.get i
  beta_gt : ∀ i, j < i → s.beta.get i = beta0.get i
  Q_gt : ∀ i, j < i → i < Q0.len → s.Q.get i = Q0.get i ∨ s.Q.get i = 0

/-- The state after the last iteration `J`. -/
structure FlFinal (K : LKernels n) (v p0 : Vec n) (alpha0 beta0 : Buf ℝ) (Q0 : Buf (Vec n)) (J : ℕ) (s : LState n) : Prop where
  alpha_len : s.alpha.len = alpha0.len
  beta_len : s.beta.len = beta0.len
  Q_len : s.Q.len = Q0.len
  alpha_le : ∀ i ≤ J, s.alpha.get i = (flSeq K v p0 i).a K i
  beta_le : ∀ i ≤ J + 1, s.beta.get i = (flSeq K v p0 i).b
  Qcol : ∀ i ≤ J, J < i + Q0.len → s.Q.get (i % Q0.len) = (flSeq K v p0 i).q
  v_eq : s.v = (flSeq K v p0 J).w K J
  alpha_gt : ∀ i, J < i → s.alpha.get i = alpha0.get i
  beta_gt : ∀ i, J + 1 < i → s.beta.get i = beta0.get i
  Q_gt : ∀ i, J < i → i < Q0.len → s.Q.get i = Q0.get i ∨ s.Q.get i = 0

theorem flSeq_b (K : LKernels n) (v p0 : Vec n) (j : ℕ) : (flSeq K v p0 (j + 1)).b = K.norm (j + 1) ((flSeq K v p0 j).w K j) := rfl

theorem flSeq_q (K : LKernels n) (v p0 : Vec n) (j : ℕ) :
    (flSeq K v p0 (j + 1)).q = K.scale (j + 1) ((flSeq K v p0 j).w K j) (flSeq K v p0 (j + 1)).b := rfl

theorem flSeq_p (K : LKernels n) (v p0 : Vec n) (j : ℕ) : (flSeq K v p0 (j + 1)).p = (flSeq K v p0 j).q := rfl

theorem lanczosFlLoop_run (K : LKernels n) (v p0 : Vec n) (alpha0 beta0 : Buf ℝ) (Q0 : Buf (Vec n)) (deg : ℕ) (tol otol : ℝ) (orth : ℤ) (ho : orth ≤ 0)
    (ha : deg ≤ alpha0.len) (hbl : deg + 1 ≤ beta0.len) (hQ1 : 1 ≤ Q0.len) (hQ2 : deg ≤ 1 ∨ 2 ≤ Q0.len) (rem : ℕ) :
    ∀ (j : ℕ) (s : LState n), j + rem = deg → 1 ≤ rem → (∀ i < j, tol ≤ (flSeq K v p0 (i + 1)).b) → FlInv K v p0 alpha0 beta0 Q0 j s →
      ∃ J t, J < deg ∧ (∀ i < J, tol ≤ (flSeq K v p0 (i + 1)).b) ∧ ((flSeq K v p0 (J + 1)).b < tol ∨ J + 1 = deg) ∧
        lanczosFlLoop K deg tol otol orth rem j s = .ok t ∧ FlFinal K v p0 alpha0 beta0 Q0 J t := by
  induction rem with
  | zero => intro j s _ h; omega
  | succ rem ih =>
    intro j s hj _ hb h
    have hpos : (0 : ℤ) < Q0.len := by omega
    have hc0 : 0 ≤ s.pos.2.1 := by rw [h.pos2]; exact Int.emod_nonneg _ (by omega)
    have hc1 : s.pos.2.1 < s.Q.len := by rw [h.pos2, h.Q_len]; exact Int.emod_lt_of_pos _ hpos
    have hp0 : 0 ≤ s.pos.1 := by rw [h.pos1]; exact Int.emod_nonneg _ (by omega)
    have hp1 : s.pos.1 < s.Q.len := by rw [h.pos1, h.Q_len]; exact Int.emod_lt_of_pos _ hpos
    have hqc : s.Q.get s.pos.2.1.toNat = (flSeq K v p0 j).q := by
      rw [h.pos2, nat_emod_toNat]
      exact h.Qcol j le_rfl (by omega)
    have hqp : s.Q.get s.pos.1.toNat = (flSeq K v p0 j).p := by
      cases j with
      | zero =>
        rw [h.pos1]
        have e : (((0 : ℕ) : ℤ) - 1) % (Q0.len : ℤ) = Q0.len - 1 := by
          rw [show ((0 : ℕ) : ℤ) - 1 = ((Q0.len : ℤ) - 1) + Q0.len * (-1) by push_cast; ring,
            Int.add_mul_emod_self_left, Int.emod_eq_of_lt (by omega) (by omega)]
        rw [e, show ((Q0.len : ℤ) - 1).toNat = Q0.len - 1 by omega]
        exact h.Qprev rfl
      | succ j =>
        rw [h.pos1, show ((j + 1 : ℕ) : ℤ) - 1 = j by push_cast; ring, nat_emod_toNat]
        exact h.Qcol j (by omega) (by omega)
    unfold lanczosFlLoop
    simp only [s.Q.read_ok' _ hc0 hc1, s.Q.read_ok' _ hp0 hp1, s.beta.read_ok j (by rw [h.beta_len]; omega),
      s.alpha.write_ok j _ (by rw [h.alpha_len]; omega), bind, Except.bind]
    rw [hqc, hqp, h.beta_le j le_rfl]
    have hv1 : K.axpy (j, 0) (K.matvec j (flSeq K v p0 j).q) (flSeq K v p0 j).b (flSeq K v p0 j).p = (flSeq K v p0 j).v1 K j := rfl
    have ha1 : K.dot (j, 0) (flSeq K v p0 j).q ((flSeq K v p0 j).v1 K j) = (flSeq K v p0 j).a K j := rfl
    have hw1 : K.axpy (j, 1) ((flSeq K v p0 j).v1 K j) ((flSeq K v p0 j).a K j) (flSeq K v p0 j).q = (flSeq K v p0 j).w K j := rfl
    have hre : reorthFl K j otol orth ((flSeq K v p0 j).w K j) s.Q s.pos.2.1 = .ok ((flSeq K v p0 j).w K j) := by
      unfold reorthFl
      rw [if_neg (by omega)]
    rw [hv1, ha1, hw1, hre]
    have hwr := s.beta.write_ok (j + 1) (K.norm (j + 1) ((flSeq K v p0 j).w K j)) (by rw [h.beta_len]; omega)
    push_cast at hwr
    simp only [hwr]
    rw [← flSeq_b]
    have halpha : ∀ i ≤ j, Function.update s.alpha.get j ((flSeq K v p0 j).a K j) i = (flSeq K v p0 i).a K i := by
      intro i hi
      by_cases hij : i = j
      · rw [hij, Function.update_self]
      · rw [Function.update_of_ne hij]; exact h.alpha_lt i (by omega)
    have hbeta : ∀ i ≤ j + 1, Function.update s.beta.get (j + 1) (flSeq K v p0 (j + 1)).b i = (flSeq K v p0 i).b := by
      intro i hi
      by_cases hij : i = j + 1
      · rw [hij, Function.update_self]
      · rw [Function.update_of_ne hij]; exact h.beta_le i (by omega)
    have halpha' : ∀ i, j + 1 ≤ i → Function.update s.alpha.get j ((flSeq K v p0 j).a K j) i = alpha0.get i := fun i hi => by
      rw [Function.update_of_ne (by omega)]
      exact h.alpha_ge i (by omega)
    have hbeta' : ∀ i, j + 1 < i → Function.update s.beta.get (j + 1) (flSeq K v p0 (j + 1)).b i = beta0.get i := fun i hi => by
      rw [Function.update_of_ne (by omega)]
      exact h.beta_gt i (by omega)
    by_cases hstop : (flSeq K v p0 (j + 1)).b < tol ∨ (j : ℤ) + 1 = deg
    · rw [if_pos hstop]
      refine ⟨j, _, by omega, hb, ?_, rfl, ⟨h.alpha_len, h.beta_len, h.Q_len, halpha, hbeta, h.Qcol, rfl, halpha', hbeta', h.Q_gt⟩⟩
      rcases hstop with hs | hs
      · exact Or.inl hs
      · right; omega
    · rw [if_neg hstop]
      push Not at hstop
      have h2 : 2 ≤ Q0.len := by
        rcases hQ2 with h' | h'
        · exfalso; apply hstop.2; omega
        · exact h'
      have hn0 : 0 ≤ s.pos.2.2 := by rw [h.pos3 h2]; exact Int.emod_nonneg _ (by omega)
      have hn1 : s.pos.2.2 < s.Q.len := by rw [h.pos3 h2, h.Q_len]; exact Int.emod_lt_of_pos _ hpos
      simp only [s.Q.write_ok' _ _ hn0 hn1]
      rw [← flSeq_q]
      have hnext : s.pos.2.2.toNat = (j + 1) % Q0.len := by
        rw [h.pos3 h2]
        exact_mod_cast nat_emod_toNat (j + 1) Q0.len
      rw [hnext]
      have hinv : FlInv K v p0 alpha0 beta0 Q0 (j + 1)
          ⟨(flSeq K v p0 j).w K j, ⟨s.alpha.len, Function.update s.alpha.get j ((flSeq K v p0 j).a K j)⟩,
            ⟨s.beta.len, Function.update s.beta.get (j + 1) (flSeq K v p0 (j + 1)).b⟩,
            ⟨s.Q.len, Function.update s.Q.get ((j + 1) % Q0.len) (flSeq K v p0 (j + 1)).q⟩,
            s.pos.2.1, s.pos.2.2, cmod (j + 2) s.Q.len⟩ := by
        refine ⟨h.alpha_len, h.beta_len, h.Q_len, fun i hi => halpha i (by omega), hbeta, fun i hi hi2 => ?_, fun h0 => by omega, ?_, ?_, fun _ => ?_, halpha', hbeta', fun i hi hi2 => ?_⟩
        · by_cases hij : i = j + 1
          · rw [hij]; exact Function.update_self _ _ _
          · have hne : i % Q0.len ≠ (j + 1) % Q0.len := by
              intro he
              have hd : Q0.len ∣ j + 1 - i := (Nat.modEq_iff_dvd' (by omega)).mp he
              have := Nat.le_of_dvd (by omega) hd
              omega
            rw [show (⟨s.Q.len, Function.update s.Q.get ((j + 1) % Q0.len) (flSeq K v p0 (j + 1)).q⟩ : Buf (Vec n)).get
              (i % Q0.len) = s.Q.get (i % Q0.len) from Function.update_of_ne hne _ _]
            exact h.Qcol i (by omega) (by omega)
        · simp only [h.pos2]
          push_cast
          congr 1
          ring
        · simp only [h.pos3 h2]
          push_cast
          rfl
        · simp only [h.Q_len, cmod_eq _ _ hpos]
          push_cast
          congr 1
        · show Function.update s.Q.get ((j + 1) % Q0.len) (flSeq K v p0 (j + 1)).q i = _ ∨ Function.update s.Q.get ((j + 1) % Q0.len) (flSeq K v p0 (j + 1)).q i = 0
          rw [Nat.mod_eq_of_lt (by omega), Function.update_of_ne (by omega)]
          exact h.Q_gt i (by omega) hi2
      obtain ⟨J, t, hJ2, hJ3, hJ4, hJ5, hJ6⟩ := ih (j + 1) _ (by omega) (by omega) (fun i hi => by
        rcases Nat.lt_or_ge i j with hij | hij
        · exact hb i hij
        · obtain rfl : i = j := by omega
          exact hstop.1) hinv
      exact ⟨J, t, hJ2, hJ3, hJ4, hJ5, hJ6⟩

/-- What `lanczos_recurrence` computes in rounded arithmetic without re-orthogonalisation. -/
theorem lanczosFl_run (K : LKernels n) (v : Vec n) (deg : ℕ) (hdeg : 1 ≤ deg) (tol otol : ℝ) (orth : ℤ) (ho : orth ≤ 0) (alpha0 beta0 : Buf ℝ)
    (Q0 : Buf (Vec n)) (ha : deg ≤ alpha0.len) (hbl : deg + 1 ≤ beta0.len) (hQ1 : 1 ≤ Q0.len) (hQ2 : deg ≤ 1 ∨ 2 ≤ Q0.len) :
    ∃ J t, J < deg ∧ (∀ i < J, tol ≤ (flSeq K v (flPrev K v Q0.len) (i + 1)).b) ∧
      ((flSeq K v (flPrev K v Q0.len) (J + 1)).b < tol ∨ J + 1 = deg) ∧
      lanczosFl K v deg tol otol orth alpha0 beta0 Q0 = .ok t ∧ FlFinal K v (flPrev K v Q0.len) alpha0 beta0 Q0 J t := by
  have hpos : (0 : ℤ) < Q0.len := by omega
  unfold lanczosFl
  have w1 := Q0.write_ok' ((Q0.len : ℤ) - 1) 0 (by omega) (by omega)
  have e1 : ((Q0.len : ℤ) - 1).toNat = Q0.len - 1 := by omega
  rw [e1] at w1
  have w2 := Buf.write_ok (⟨Q0.len, Function.update Q0.get (Q0.len - 1) 0⟩ : Buf (Vec n)) 0 (normalizedFl K v) (by show 0 < Q0.len; omega)
  have w3 := beta0.write_ok 0 0 (by omega)
  rw [Nat.cast_zero] at w2 w3
  simp only [w1, w2, w3, bind, Except.bind, Int.toNat_natCast]
  have hinv : FlInv K v (flPrev K v Q0.len) alpha0 beta0 Q0 0 ⟨v, alpha0, ⟨beta0.len, Function.update beta0.get 0 0⟩,
      ⟨Q0.len, Function.update (Function.update Q0.get (Q0.len - 1) 0) 0 (normalizedFl K v)⟩,
      (Q0.len : ℤ) - 1, 0, 1⟩ := by
    refine ⟨rfl, rfl, rfl, fun i hi => by omega, fun i hi => ?_, fun i hi _ => ?_, fun _ => ?_, ?_, ?_, fun h2 => ?_, fun i _ => rfl, fun i hi => ?_, fun i hi hi2 => ?_⟩
    · obtain rfl : i = 0 := by omega
      exact Function.update_self (0 : ℕ) (0 : ℝ) beta0.get
    · obtain rfl : i = 0 := by omega
      rw [Nat.zero_mod]
      show Function.update (Function.update Q0.get (Q0.len - 1) 0) 0 (normalizedFl K v) 0 = _
      rw [Function.update_self]
      rfl
    · show Function.update (Function.update Q0.get (Q0.len - 1) 0) 0 (normalizedFl K v) (Q0.len - 1) = _
      unfold flPrev
      split_ifs with h1
      · rw [h1, Function.update_self]
      · rw [Function.update_of_ne (by omega), Function.update_self]
    · simp only
      rw [show ((0 : ℕ) : ℤ) - 1 = ((Q0.len : ℤ) - 1) + Q0.len * (-1) by push_cast; ring,
        Int.add_mul_emod_self_left, Int.emod_eq_of_lt (by omega) (by omega)]
    · simp
    · simp only
      rw [Int.emod_eq_of_lt (by omega) (by push_cast; omega)]
      simp
    · exact Function.update_of_ne (by omega) _ _
    · show Function.update (Function.update Q0.get (Q0.len - 1) 0) 0 (normalizedFl K v) i = _ ∨
        Function.update (Function.update Q0.get (Q0.len - 1) 0) 0 (normalizedFl K v) i = 0
      rw [Function.update_of_ne (by omega)]
      by_cases he : i = Q0.len - 1
      · right; rw [he, Function.update_self]
      · left; exact Function.update_of_ne he _ _
  exact lanczosFlLoop_run K v _ alpha0 beta0 Q0 deg tol otol orth ho ha hbl hQ1 hQ2 deg 0 _ (by omega) hdeg (fun i hi => by omega) hinv

/-! ## Exact kernels -/

theorem orthLoopFl_exact (A : Vec n → Vec n) (j : ℕ) (tol : ℝ) (U : Buf (Vec n)) (diff : ℤ) (c : ℕ) :
    ∀ (i : ℤ) (v : Vec n), orthLoopFl (LKernels.exact A) j tol U diff c i v = orthLoop tol U diff c i v := by
  induction c with
  | zero => intro i v; rfl
  | succ c ih =>
    intro i v
    unfold orthLoopFl orthLoop
    simp only [ih]
    rfl

theorem lanczosFlLoop_exact (A : Vec n → Vec n) (deg : ℤ) (tol eps : ℝ) (orth : ℤ) (rem : ℕ) :
    ∀ (j : ℕ) (s : LState n), lanczosFlLoop (LKernels.exact A) deg tol (2 * eps * Real.sqrt n) orth rem j s = lanczosLoop A deg tol eps orth rem j s := by
  induction rem with
  | zero => intro j s; rfl
  | succ rem ih =>
    intro j s
    have hr : ∀ w c, reorthFl (LKernels.exact A) j (2 * eps * Real.sqrt n) orth w s.Q c = reorth eps orth w s.Q c := by
      intro w c
      unfold reorthFl reorth orthVector
      rw [orthLoopFl_exact]
      rfl
    unfold lanczosFlLoop lanczosLoop
    simp only [ih, hr]
    rfl

theorem normalizedFl_exact (A : Vec n → Vec n) (v : Vec n) : normalizedFl (LKernels.exact A) v = normalized v := by
  unfold normalizedFl normalized
  have h : 0 < (LKernels.exact A).norm 0 v ↔ 0 < v ⬝ᵥ v := Real.sqrt_pos
  by_cases hv : 0 < v ⬝ᵥ v
  · rw [if_pos (h.2 hv), if_pos hv]
    funext i
    show (nrm v)⁻¹ * v i = v i / nrm v
    rw [div_eq_inv_mul]
  · rw [if_neg (fun hc => hv (h.1 hc)), if_neg hv]

/-- With exact operations the model in rounded arithmetic is the model in exact arithmetic. -/
theorem lanczosFl_exact (A : Vec n → Vec n) (eps : ℝ) (v : Vec n) (deg : ℤ) (rtol : ℝ) (orth : ℤ) (alpha beta : Buf ℝ) (Q : Buf (Vec n)) :
    lanczosFl (LKernels.exact A) v deg (Real.sqrt n * rtol) (2 * eps * Real.sqrt n) orth alpha beta Q =
      lanczosNative A eps v deg rtol orth alpha beta Q := by
  unfold lanczosFl lanczosNative
  simp only [lanczosFlLoop_exact, normalizedFl_exact]

end Primate
