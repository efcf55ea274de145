import Verif.Lemmas.LanczosFlStep

/-! The Lanczos recurrence in rounded arithmetic with re-orthogonalisation: the passes over the columns are made part of the last subtraction of an iteration. -/

noncomputable section

namespace Primate

open Matrix

variable {n : ℕ}

theorem orthLoopFl_ok (K : LKernels n) (j : ℕ) (tol : ℝ) (U : Buf (Vec n)) (hU : 0 < U.len) (diff : ℤ) (c : ℕ) :
    ∀ (i : ℤ) (v : Vec n), 0 ≤ i → i < U.len → ∃ v', orthLoopFl K j tol U diff c i v = .ok v' := by
  induction c with
  | zero => intro i v _ _; exact ⟨v, rfl⟩
  | succ c ih =>
    intro i v h0 h1
    unfold orthLoopFl
    simp only [U.read_ok' i h0 h1, bind, Except.bind]
    have hp : (0 : ℤ) < U.len := by omega
    refine ih _ _ ?_ ?_
    · rw [cmod_eq _ _ hp]; exact Int.emod_nonneg _ (by omega)
    · rw [cmod_eq _ _ hp]; exact Int.emod_lt_of_pos _ hp

/-- The result of the re-orthogonalisation in iteration `j` at state `s`. -/
def orthTot (K : LKernels n) (otol : ℝ) (orth : ℤ) (j : ℕ) (s : LState n) (w : Vec n) : Vec n :=
  match reorthFl K j otol orth w s.Q s.pos.2.1 with
  | .ok v => v
  | .error _ => w

theorem reorthFl_eq (K : LKernels n) (otol : ℝ) (orth : ℤ) (j : ℕ) (s : LState n) (w : Vec n) (hQ : 0 < s.Q.len) :
    reorthFl K j otol orth w s.Q s.pos.2.1 = .ok (orthTot K otol orth j s w) := by
  have hp : (0 : ℤ) < s.Q.len := by omega
  have : ∃ v', reorthFl K j otol orth w s.Q s.pos.2.1 = .ok v' := by
    unfold reorthFl
    split_ifs
    · refine orthLoopFl_ok K j otol s.Q hQ _ _ _ _ ?_ ?_
      · rw [cmod_eq _ _ hp]; exact Int.emod_nonneg _ (by omega)
      · rw [cmod_eq _ _ hp]; exact Int.emod_lt_of_pos _ hp
    · exact ⟨w, rfl⟩
  obtain ⟨v', hv⟩ := this
  unfold orthTot
  rw [hv]

/-- One iteration that does not stop, `R` being the re-orthogonalisation. -/
def flNext (K : LKernels n) (R : ℕ → LState n → Vec n → Vec n) (j : ℕ) (s : LState n) : LState n :=
  let qc := s.Q.get s.pos.2.1.toNat
  let v1 := K.axpy (j, 0) (K.matvec j qc) (s.beta.get j) (s.Q.get s.pos.1.toNat)
  let a := K.dot (j, 0) qc v1
  let w := R j s (K.axpy (j, 1) v1 a qc)
  let b := K.norm (j + 1) w
  ⟨w, ⟨s.alpha.len, Function.update s.alpha.get j a⟩, ⟨s.beta.len, Function.update s.beta.get (j + 1) b⟩,
    ⟨s.Q.len, Function.update s.Q.get s.pos.2.2.toNat (K.scale (j + 1) w b)⟩, s.pos.2.1, s.pos.2.2, cmod (j + 2) s.Q.len⟩

/-- The states at the start of the iterations, if none of them stops. -/
def flState (K : LKernels n) (R : ℕ → LState n → Vec n → Vec n) (v : Vec n) (alpha0 beta0 : Buf ℝ) (Q0 : Buf (Vec n)) : ℕ → LState n
  | 0 => ⟨v, alpha0, ⟨beta0.len, Function.update beta0.get 0 0⟩,
      ⟨Q0.len, Function.update (Function.update Q0.get (Q0.len - 1) 0) 0 (normalizedFl K v)⟩, (Q0.len : ℤ) - 1, 0, 1⟩
  | j + 1 => flNext K R j (flState K R v alpha0 beta0 Q0 j)

/-- The re-orthogonalisation as a part of the second subtraction. -/
def absorb (K : LKernels n) (R : ℕ → LState n → Vec n → Vec n) (v : Vec n) (alpha0 beta0 : Buf ℝ) (Q0 : Buf (Vec n)) : LKernels n :=
  { K with axpy := fun p x b q => if p.2 = 1 then R p.1 (flState K R v alpha0 beta0 Q0 p.1) (K.axpy p x b q) else K.axpy p x b q }

variable (K : LKernels n) (R : ℕ → LState n → Vec n → Vec n) (v : Vec n) (alpha0 beta0 : Buf ℝ) (Q0 : Buf (Vec n))

theorem flState_absorb (j : ℕ) :
    flState (absorb K R v alpha0 beta0 Q0) (fun _ _ w => w) v alpha0 beta0 Q0 j = flState K R v alpha0 beta0 Q0 j := by
  induction j with
  | zero => rfl
  | succ j ih =>
    show flNext _ _ j (flState _ _ v alpha0 beta0 Q0 j) = flNext K R j (flState K R v alpha0 beta0 Q0 j)
    rw [ih]
    simp only [flNext, absorb, if_true, show ((0 : ℕ) = 1) = False by simp, if_false]

theorem flInv_zero (hQ : 1 ≤ Q0.len) : FlInv K v (flPrev K v Q0.len) alpha0 beta0 Q0 0 (flState K R v alpha0 beta0 Q0 0) := by
  have hpos : (0 : ℤ) < Q0.len := by omega
  refine ⟨rfl, rfl, rfl, fun i hi => by omega, fun i hi => ?_, fun i hi _ => ?_, fun _ => ?_, ?_, ?_, fun h2 => ?_, fun i _ => rfl, fun i hi => ?_, fun i hi hi2 => ?_⟩
  · obtain rfl : i = 0 := by omega
    exact Function.update_self (0 : ℕ) (0 : ℝ) beta0.get
  · obtain rfl : i = 0 := by omega
    rw [Nat.zero_mod]
    show Function.update (Function.update Q0.get (Q0.len - 1) 0) 0 (normalizedFl K v) 0 = _
    rw [Function.update_self]
    rfl
  · show Function.update (Function.update Q0.get (Q0.len - 1) 0) 0 (normalizedFl K v) (Q0.len - 1) = _
    unfold flPrev
    split_ifs with h1
    · rw [h1, Function.update_self]
    · rw [Function.update_of_ne (by omega), Function.update_self]
  · simp only [flState]
    rw [show ((0 : ℕ) : ℤ) - 1 = ((Q0.len : ℤ) - 1) + Q0.len * (-1) by push_cast; ring,
      Int.add_mul_emod_self_left, Int.emod_eq_of_lt (by omega) (by omega)]
  · simp [flState]
  · simp only [flState]
    rw [Int.emod_eq_of_lt (by omega) (by push_cast; omega)]
    simp
  · exact Function.update_of_ne (by omega) _ _
  · show Function.update (Function.update Q0.get (Q0.len - 1) 0) 0 (normalizedFl K v) i = _ ∨
      Function.update (Function.update Q0.get (Q0.len - 1) 0) 0 (normalizedFl K v) i = 0
    rw [Function.update_of_ne (by omega)]
    by_cases he : i = Q0.len - 1
    · right; rw [he, Function.update_self]
    · left; exact Function.update_of_ne he _ _

variable {K v alpha0 beta0 Q0} {p0 : Vec n} {j : ℕ} {s : LState n}

theorem FlInv.qc (h : FlInv K v p0 alpha0 beta0 Q0 j s) (hQ : 1 ≤ Q0.len) : s.Q.get s.pos.2.1.toNat = (flSeq K v p0 j).q := by
  rw [h.pos2, nat_emod_toNat]
  exact h.Qcol j le_rfl (by omega)

theorem FlInv.qp (h : FlInv K v p0 alpha0 beta0 Q0 j s) (hQ : 1 ≤ Q0.len) (h2 : j = 0 ∨ 2 ≤ Q0.len) : s.Q.get s.pos.1.toNat = (flSeq K v p0 j).p := by
  cases j with
  | zero =>
    rw [h.pos1]
    have e : (((0 : ℕ) : ℤ) - 1) % (Q0.len : ℤ) = Q0.len - 1 := by
      rw [show ((0 : ℕ) : ℤ) - 1 = ((Q0.len : ℤ) - 1) + Q0.len * (-1) by push_cast; ring,
        Int.add_mul_emod_self_left, Int.emod_eq_of_lt (by omega) (by omega)]
    rw [e, show ((Q0.len : ℤ) - 1).toNat = Q0.len - 1 by omega]
    exact h.Qprev rfl
  | succ j =>
    rw [h.pos1, show ((j + 1 : ℕ) : ℤ) - 1 = j by push_cast; ring, nat_emod_toNat]
    exact h.Qcol j (by omega) (by omega)

theorem FlInv.next (h : FlInv K v p0 alpha0 beta0 Q0 j s) (h2 : 2 ≤ Q0.len) : FlInv K v p0 alpha0 beta0 Q0 (j + 1) (flNext K (fun _ _ w => w) j s) := by
  have hpos : (0 : ℤ) < Q0.len := by omega
  have hnext : s.pos.2.2.toNat = (j + 1) % Q0.len := by
    rw [h.pos3 h2]
    exact_mod_cast nat_emod_toNat (j + 1) Q0.len
  unfold flNext
  simp only
  rw [h.qc (by omega), h.qp (by omega) (Or.inr h2), h.beta_le j le_rfl, hnext]
  have hv1 : K.axpy (j, 0) (K.matvec j (flSeq K v p0 j).q) (flSeq K v p0 j).b (flSeq K v p0 j).p = (flSeq K v p0 j).v1 K j := rfl
  have ha1 : K.dot (j, 0) (flSeq K v p0 j).q ((flSeq K v p0 j).v1 K j) = (flSeq K v p0 j).a K j := rfl
  have hw1 : K.axpy (j, 1) ((flSeq K v p0 j).v1 K j) ((flSeq K v p0 j).a K j) (flSeq K v p0 j).q = (flSeq K v p0 j).w K j := rfl
  rw [hv1, ha1, hw1, ← flSeq_b, ← flSeq_q]
  refine ⟨h.alpha_len, h.beta_len, h.Q_len, fun i hi => ?_, fun i hi => ?_, fun i hi hi2 => ?_, fun h0 => by omega, ?_, ?_, fun _ => ?_, fun i hi => ?_,
    fun i hi => ?_, fun i hi hi2 => ?_⟩
  · show Function.update s.alpha.get j _ i = _
    by_cases hij : i = j
    · rw [hij, Function.update_self]
    · rw [Function.update_of_ne hij]; exact h.alpha_lt i (by omega)
  · show Function.update s.beta.get (j + 1) _ i = _
    by_cases hij : i = j + 1
    · rw [hij, Function.update_self]
    · rw [Function.update_of_ne hij]; exact h.beta_le i (by omega)
  · by_cases hij : i = j + 1
    · rw [hij]; exact Function.update_self _ _ _
    · have hne : i % Q0.len ≠ (j + 1) % Q0.len := by
        intro he
        have hd : Q0.len ∣ j + 1 - i := (Nat.modEq_iff_dvd' (by omega)).mp he
        have := Nat.le_of_dvd (by omega) hd
        omega
      show Function.update s.Q.get ((j + 1) % Q0.len) (flSeq K v p0 (j + 1)).q (i % Q0.len) = _
      rw [Function.update_of_ne hne]
      exact h.Qcol i (by omega) (by omega)
  · simp only [h.pos2]
    push_cast
    congr 1
    ring
  · simp only [h.pos3 h2]
    push_cast
    rfl
  · simp only [h.Q_len, cmod_eq _ _ hpos]
    push_cast
    congr 1
  · show Function.update s.alpha.get j _ i = _
    rw [Function.update_of_ne (by omega)]
    exact h.alpha_ge i (by omega)
  · show Function.update s.beta.get (j + 1) _ i = _
    rw [Function.update_of_ne (by omega)]
    exact h.beta_gt i (by omega)
  · show Function.update s.Q.get ((j + 1) % Q0.len) (flSeq K v p0 (j + 1)).q i = _ ∨ Function.update s.Q.get ((j + 1) % Q0.len) (flSeq K v p0 (j + 1)).q i = 0
    rw [Nat.mod_eq_of_lt (by omega), Function.update_of_ne (by omega)]
    exact h.Q_gt i (by omega) hi2

/-- The states of the iteration in terms of the recursion without buffers. -/
theorem flState_inv (hQ : 1 ≤ Q0.len) (j : ℕ) (hj : j = 0 ∨ 2 ≤ Q0.len) :
    FlInv (absorb K R v alpha0 beta0 Q0) v (flPrev K v Q0.len) alpha0 beta0 Q0 j (flState K R v alpha0 beta0 Q0 j) := by
  rw [← flState_absorb]
  induction j with
  | zero => exact flInv_zero (absorb K R v alpha0 beta0 Q0) (fun _ _ w => w) v alpha0 beta0 Q0 hQ
  | succ j ih => exact (ih (by omega)).next (by omega)

theorem absorb_loop (deg : ℕ) (tol otol : ℝ) (orth : ℤ) (ha : deg ≤ alpha0.len) (hbl : deg + 1 ≤ beta0.len) (hQ1 : 1 ≤ Q0.len) (hQ2 : deg ≤ 1 ∨ 2 ≤ Q0.len)
    (rem : ℕ) : ∀ j, j + rem = deg →
      lanczosFlLoop K deg tol otol orth rem j (flState K (orthTot K otol orth) v alpha0 beta0 Q0 j) =
      lanczosFlLoop (absorb K (orthTot K otol orth) v alpha0 beta0 Q0) deg tol otol 0 rem j (flState K (orthTot K otol orth) v alpha0 beta0 Q0 j) := by
  set R := orthTot K otol orth with hR
  induction rem with
  | zero => intro j _; rfl
  | succ rem ih =>
    intro j hj
    have h := flState_inv (K := K) (v := v) (alpha0 := alpha0) (beta0 := beta0) R hQ1 j (by omega)
    set s := flState K R v alpha0 beta0 Q0 j with hs
    have hpos : (0 : ℤ) < Q0.len := by omega
    have hc0 : 0 ≤ s.pos.2.1 := by rw [h.pos2]; exact Int.emod_nonneg _ (by omega)
    have hc1 : s.pos.2.1 < s.Q.len := by rw [h.pos2, h.Q_len]; exact Int.emod_lt_of_pos _ hpos
    have hp0 : 0 ≤ s.pos.1 := by rw [h.pos1]; exact Int.emod_nonneg _ (by omega)
    have hp1 : s.pos.1 < s.Q.len := by rw [h.pos1, h.Q_len]; exact Int.emod_lt_of_pos _ hpos
    have hre : ∀ w, reorthFl K j otol orth w s.Q s.pos.2.1 = .ok (R j s w) := fun w => reorthFl_eq K otol orth j s w (by rw [h.Q_len]; omega)
    have hre' : ∀ K' : LKernels n, ∀ w, reorthFl K' j otol 0 w s.Q s.pos.2.1 = .ok w := fun K' w => by
      unfold reorthFl
      rw [if_neg (by omega)]
    unfold lanczosFlLoop
    simp only [s.Q.read_ok' _ hc0 hc1, s.Q.read_ok' _ hp0 hp1, s.beta.read_ok j (by rw [h.beta_len]; omega),
      s.alpha.write_ok j _ (by rw [h.alpha_len]; omega), bind, Except.bind, hre, hre']
    have ax0 : ∀ x b q, (absorb K R v alpha0 beta0 Q0).axpy (j, 0) x b q = K.axpy (j, 0) x b q := fun x b q => by simp [absorb]
    have ax1 : ∀ x b q, (absorb K R v alpha0 beta0 Q0).axpy (j, 1) x b q = R j s (K.axpy (j, 1) x b q) := fun x b q => by
      simp only [absorb, if_true]
      rfl
    have m0 : (absorb K R v alpha0 beta0 Q0).matvec = K.matvec := rfl
    have m1 : (absorb K R v alpha0 beta0 Q0).dot = K.dot := rfl
    have m2 : (absorb K R v alpha0 beta0 Q0).norm = K.norm := rfl
    have m3 : (absorb K R v alpha0 beta0 Q0).scale = K.scale := rfl
    rw [ax0, ax1, m0, m1, m2, m3]
    have hwr := fun z => s.beta.write_ok (j + 1) z (by rw [h.beta_len]; omega)
    push_cast at hwr
    simp only [hwr]
    split_ifs with hstop
    · rfl
    · push Not at hstop
      have h2 : 2 ≤ Q0.len := by
        rcases hQ2 with h' | h'
        · exfalso; apply hstop.2; omega
        · exact h'
      have hn0 : 0 ≤ s.pos.2.2 := by rw [h.pos3 h2]; exact Int.emod_nonneg _ (by omega)
      have hn1 : s.pos.2.2 < s.Q.len := by rw [h.pos3 h2, h.Q_len]; exact Int.emod_lt_of_pos _ hpos
      simp only [s.Q.write_ok' _ _ hn0 hn1]
      have := ih (j + 1) (by omega)
      exact this

/-- With re-orthogonalisation the code does what it does without, for other vector operations. -/
theorem lanczosFl_absorb (deg : ℕ) (tol otol : ℝ) (orth : ℤ) (ha : deg ≤ alpha0.len) (hbl : deg + 1 ≤ beta0.len) (hQ1 : 1 ≤ Q0.len)
    (hQ2 : deg ≤ 1 ∨ 2 ≤ Q0.len) :
    lanczosFl K v deg tol otol orth alpha0 beta0 Q0 = lanczosFl (absorb K (orthTot K otol orth) v alpha0 beta0 Q0) v deg tol otol 0 alpha0 beta0 Q0 := by
  unfold lanczosFl
  have w1 := Q0.write_ok' ((Q0.len : ℤ) - 1) 0 (by omega) (by omega)
  have e1 : ((Q0.len : ℤ) - 1).toNat = Q0.len - 1 := by omega
  rw [e1] at w1
  have w2 := fun z => Buf.write_ok (⟨Q0.len, Function.update Q0.get (Q0.len - 1) 0⟩ : Buf (Vec n)) 0 z (by show 0 < Q0.len; omega)
  have w3 := beta0.write_ok 0 0 (by omega)
  rw [Nat.cast_zero] at w3
  simp only [Nat.cast_zero] at w2
  simp only [w1, w2, w3, bind, Except.bind, Int.toNat_natCast]
  exact absorb_loop deg tol otol orth ha hbl hQ1 hQ2 deg 0 (by omega)

end Primate
