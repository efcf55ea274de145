import Verif.Model.LanczosFlat

/-! # Property C98: shapes of operators in lanczos, and the recurrence on flat memory -/

namespace Primate

open Matrix

/-! ## Reading and writing columns of a flat block -/

/-- The flat block `F` holds the columns `Q`. -/
structure Holds {n : ℕ} (F : Buf ℝ) (Q : Buf (Vec n)) : Prop where
  len : F.len = n * Q.len
  val : ∀ c < Q.len, ∀ i : Fin n, F.get (c * n + i) = Q.get c i

/-- The flat block `F` holds the vector `v`. -/
structure HoldsVec {n : ℕ} (F : Buf ℝ) (v : Vec n) : Prop where
  len : F.len = n
  val : ∀ i : Fin n, F.get i = v i

variable {n : ℕ}

theorem Holds.read {F : Buf ℝ} {Q : Buf (Vec n)} (h : Holds F Q) (hn : 0 < n) (c : ℤ) :
    F.readN (c * n) n = Q.read c := by
  unfold Buf.readN Buf.read
  by_cases hc : 0 ≤ c ∧ c < Q.len
  · obtain ⟨c, rfl⟩ := Int.eq_ofNat_of_zero_le hc.1
    have hc' : c < Q.len := by have := hc.2; omega
    have h1 : (c + 1) * n ≤ n * Q.len := by rw [mul_comm n]; exact Nat.mul_le_mul_right _ hc'
    rw [if_pos hc, if_pos]
    · congr 1
      funext i
      have : ((c : ℤ) * n).toNat = c * n := by rw [← Nat.cast_mul]; rfl
      rw [this, h.val c hc']; rfl
    · rw [h.len]
      constructor
      · positivity
      · rw [Nat.succ_mul] at h1; exact_mod_cast h1
  · rw [if_neg hc, if_neg]
    rintro ⟨h1, h2⟩
    apply hc
    have hn' : (0 : ℤ) < n := by exact_mod_cast hn
    rw [h.len] at h2
    constructor
    · by_contra h3
      nlinarith
    · by_contra h3
      push_cast at h2
      nlinarith

theorem Holds.write {F : Buf ℝ} {Q : Buf (Vec n)} (h : Holds F Q) (hn : 0 < n) (c : ℤ) (x : Vec n) :
    (∃ F' Q', F.writeN (c * n) x = .ok F' ∧ Q.write c x = .ok Q' ∧ Holds F' Q') ∨
      (F.writeN (c * n) x = .error .index ∧ Q.write c x = .error .index) := by
  unfold Buf.writeN Buf.write
  by_cases hc : 0 ≤ c ∧ c < Q.len
  · left
    obtain ⟨c, rfl⟩ := Int.eq_ofNat_of_zero_le hc.1
    have hc' : c < Q.len := by have := hc.2; omega
    have h1 : (c + 1) * n ≤ n * Q.len := by rw [mul_comm n]; exact Nat.mul_le_mul_right _ hc'
    rw [if_pos hc, if_pos]
    · refine ⟨_, _, rfl, rfl, h.len, fun d hd i => ?_⟩
      have hcn : ((c : ℤ) * n).toNat = c * n := by rw [← Nat.cast_mul]; rfl
      simp only [hcn]
      by_cases hdc : d = c
      · subst hdc
        rw [dif_pos ⟨by omega, by have := i.2; omega⟩]
        have : (d : ℤ).toNat = d := rfl
        rw [this, Function.update_self]
        congr 1
        exact Fin.ext (by simp)
      · have h3 : (c : ℤ).toNat = c := rfl
        rw [dif_neg, h3, Function.update_of_ne hdc, h.val d hd]
        rintro ⟨h4, h5⟩
        have hi := i.2
        rcases Nat.lt_or_gt_of_ne hdc with h6 | h6
        · have := Nat.mul_le_mul_right n (Nat.succ_le_of_lt h6)
          rw [Nat.succ_mul] at this
          omega
        · have := Nat.mul_le_mul_right n (Nat.succ_le_of_lt h6)
          rw [Nat.succ_mul] at this
          omega
    · rw [h.len]
      constructor
      · positivity
      · rw [Nat.succ_mul] at h1; exact_mod_cast h1
  · right
    rw [if_neg hc, if_neg]
    · exact ⟨rfl, rfl⟩
    rintro ⟨h1, h2⟩
    apply hc
    have hn' : (0 : ℤ) < n := by exact_mod_cast hn
    rw [h.len] at h2
    constructor
    · by_contra h3
      nlinarith
    · by_contra h3
      push_cast at h2
      nlinarith

theorem HoldsVec.read {F : Buf ℝ} {v : Vec n} (h : HoldsVec F v) : F.readN 0 n = .ok v := by
  unfold Buf.readN
  rw [if_pos ⟨le_rfl, by rw [h.len]; simp⟩]
  congr 1
  funext i
  simpa using h.val i

theorem HoldsVec.write {F : Buf ℝ} {v : Vec n} (h : HoldsVec F v) (x : Vec n) :
    ∃ F', F.writeN 0 x = .ok F' ∧ HoldsVec F' x := by
  unfold Buf.writeN
  rw [if_pos ⟨le_rfl, by rw [h.len]; simp⟩]
  refine ⟨_, rfl, h.len, fun i => ?_⟩
  simp

/-- Two outcomes agree: the same exception, or related values. -/
def Agree {α β : Type} (R : α → β → Prop) : Py α → Py β → Prop
  | .ok a, .ok b => R a b
  | .error e, .error e' => e = e'
  | _, _ => False

theorem orthLoop_flat (hn : 0 < n) {F : Buf ℝ} {Q : Buf (Vec n)} (h : Holds F Q) (tol : ℝ) (diff : ℤ) :
    ∀ (c : ℕ) (i : ℤ) (V : Buf ℝ) (v : Vec n), HoldsVec V v →
      Agree HoldsVec (orthLoopFlat n n Q.len tol F diff c i V) (orthLoop tol Q diff c i v) := by
  intro c
  induction c with
  | zero => intro i V v hv; exact hv
  | succ c ih =>
    intro i V v hv
    unfold orthLoopFlat orthLoop
    simp only [h.read hn, hv.read]
    rcases hQ : Q.read i with e | u
    · exact rfl
    · simp only [bind, Except.bind]
      split_ifs with hc
      · obtain ⟨V', h1, h2⟩ := hv.write (v - ((v ⬝ᵥ u) / (u ⬝ᵥ u)) • u)
        rw [h1]
        exact ih _ _ _ h2
      · exact ih _ _ _ hv

/-- The flat state holds the state of the column model. -/
structure HoldsState (F : FState) (s : LState n) : Prop where
  v : HoldsVec F.v s.v
  alpha : F.alpha = s.alpha
  beta : F.beta = s.beta
  Q : Holds F.Q s.Q
  pos : F.pos = s.pos

theorem Buf.write_len {α : Type} {b b' : Buf α} {i : ℤ} {x : α} (h : b.write i x = .ok b') : b'.len = b.len := by
  unfold Buf.write at h
  split_ifs at h
  cases h; rfl

theorem lanczosLoop_flat (hn : 0 < n) (A : Vec n → Vec n) (deg : ℤ) (tol eps : ℝ) (orth : ℤ) :
    ∀ (rem j : ℕ) (F : FState) (s : LState n), HoldsState F s →
      Agree HoldsState (lanczosLoopFlat A s.Q.len deg tol eps orth rem j F) (lanczosLoop A deg tol eps orth rem j s) := by
  intro rem
  induction rem with
  | zero => intro j F s h; exact h
  | succ rem ih =>
    intro j F s h
    unfold lanczosLoopFlat lanczosLoop
    obtain ⟨hv, ha, hb, hQ, hp⟩ := h
    simp only [hp, ha, hb, hQ.read hn]
    rcases hqc : s.Q.read s.pos.2.1 with e | qc
    · exact rfl
    simp only [bind, Except.bind]
    obtain ⟨V1, e1, hv1⟩ := hv.write (A qc)
    rw [e1]
    rcases hbj : s.beta.read (j : ℤ) with e | bj
    · exact rfl
    simp only
    rcases hqp : s.Q.read s.pos.1 with e | qp
    · exact rfl
    simp only [hv1.read]
    obtain ⟨V2, e2, hv2⟩ := hv1.write (A qc - bj • qp)
    rw [e2]
    simp only [hv2.read]
    rcases hal : s.alpha.write (j : ℤ) (qc ⬝ᵥ (A qc - bj • qp)) with e | alpha
    · exact rfl
    simp only
    obtain ⟨V3, e3, hv3⟩ := hv2.write (A qc - bj • qp - (qc ⬝ᵥ (A qc - bj • qp)) • qc)
    rw [e3]
    simp only
    have horth : Agree HoldsVec
        (reorthFlat n n s.Q.len eps orth V3 F.Q s.pos.2.1)
        (reorth eps orth (A qc - bj • qp - (qc ⬝ᵥ (A qc - bj • qp)) • qc) s.Q s.pos.2.1) := by
      unfold reorth orthVector reorthFlat
      by_cases ho : 0 < orth
      · rw [if_pos ho, if_pos ho]
        exact orthLoop_flat hn hQ _ _ _ _ _ _ hv3
      · rw [if_neg ho, if_neg ho]
        exact hv3
    revert horth
    generalize reorth eps orth (A qc - bj • qp - (qc ⬝ᵥ (A qc - bj • qp)) • qc) s.Q s.pos.2.1 = o
    generalize reorthFlat n n s.Q.len eps orth V3 F.Q s.pos.2.1 = o'
    intro horth
    rcases o' with e' | V4 <;> rcases o with e | v4
    · exact horth
    · exact horth.elim
    · exact horth.elim
    have hv4 : HoldsVec V4 v4 := horth
    simp only [hv4.read]
    rcases hbe : s.beta.write ((j : ℤ) + 1) (nrm v4) with e | beta
    · exact rfl
    simp only
    split_ifs with hstop
    · exact ⟨hv4, rfl, rfl, hQ, rfl⟩
    · rcases hQ.write hn s.pos.2.2 ((nrm v4)⁻¹ • v4) with ⟨F', Q', h1, h2, h3⟩ | ⟨h1, h2⟩
      · rw [h1, h2]
        have := ih (j + 1) ⟨V4, alpha, beta, F', s.pos.2.1, s.pos.2.2, cmod (j + 2) s.Q.len⟩
          ⟨v4, alpha, beta, Q', s.pos.2.1, s.pos.2.2, cmod (j + 2) s.Q.len⟩ ⟨hv4, rfl, rfl, h3, rfl⟩
        rw [Buf.write_len h2] at this
        exact this
      · rw [h1, h2]; exact rfl

/-- **C98**: for square operators the recurrence on flat memory and the recurrence on whole columns agree on every input: the
same out of bounds accesses, or the same coefficients, basis and work vector. -/
theorem C98_square (hn : 0 < n) (A : Vec n → Vec n) (eps : ℝ) (V : Buf ℝ) (v : Vec n) (hv : HoldsVec V v) (deg : ℤ)
    (rtol : ℝ) (orth : ℤ) (alpha beta : Buf ℝ) (F : Buf ℝ) (Q : Buf (Vec n)) (hF : Holds F Q) :
    Agree HoldsState (lanczosNativeFlat A eps V deg rtol orth alpha beta F Q.len)
      (lanczosNative A eps v deg rtol orth alpha beta Q) := by
  unfold lanczosNativeFlat lanczosNative
  simp only [hv.read]
  rcases hF.write hn ((Q.len : ℤ) - 1) 0 with ⟨F1, Q1, h1, h2, h3⟩ | ⟨h1, h2⟩
  · have hsrc : (⟨n, fun i => if h : i < n then normalized v ⟨i, h⟩ else 0⟩ : Buf ℝ).readN 0 n = .ok (normalized v) :=
      HoldsVec.read ⟨rfl, fun i => by simp⟩
    simp only [h1, h2, bind, Except.bind, hsrc]
    have h00 : (0 : ℤ) = 0 * (n : ℤ) := by simp
    rw [show F1.writeN 0 (normalized v) = F1.writeN (0 * (n : ℤ)) (normalized v) by rw [← h00]]
    rcases h3.write hn 0 (normalized v) with ⟨F2, Q2, h4, h5, h6⟩ | ⟨h4, h5⟩
    · rw [h4, h5]
      simp only
      rcases hb : beta.write 0 0 with e | beta'
      · exact rfl
      · simp only
        have := lanczosLoop_flat hn A deg (Real.sqrt n * rtol) eps orth deg.toNat 0
          ⟨V, alpha, beta', F2, (Q.len : ℤ) - 1, 0, 1⟩ ⟨v, alpha, beta', Q2, (Q.len : ℤ) - 1, 0, 1⟩ ⟨hv, rfl, rfl, h6, rfl⟩
        rw [Buf.write_len h5, Buf.write_len h2] at this
        exact this
    · rw [h4, h5]; exact rfl
  · simp only [h1, h2, bind, Except.bind]; exact rfl

/-- **C98**: `lanczos` does not reject operators that are not square; for every such operator (with a column) and
every positive degree the native code accesses memory outside its arrays. -/
theorem C98_rectangular {n m : ℕ} (hnm : n ≠ m) (A : (Fin m → ℝ) → Fin n → ℝ) (eps : ℝ) (v0 : Fin m → ℝ) (deg : Option ℤ)
    (hdeg : 0 < lanczosDeg m deg) (rtol : ℝ) (orth : ℤ) (return_basis : Bool) :
    lanczosShape A eps v0 deg rtol orth return_basis = .error .index := by
  unfold lanczosShape
  simp only
  rw [if_neg (by omega)]
  generalize lanczosOrth (lanczosDeg m deg) orth = orth
  have hncv : 1 ≤ (lanczosNcv (lanczosDeg m deg) orth return_basis) := by
    unfold lanczosNcv npClip
    split_ifs <;> omega
  obtain ⟨ncv, hncv'⟩ := Int.eq_ofNat_of_zero_le (show 0 ≤ lanczosNcv (lanczosDeg m deg) orth return_basis by omega)
  rw [hncv', Int.toNat_natCast]
  have hpos : 1 ≤ ncv := by omega
  generalize lanczosDeg m deg = d at hdeg
  unfold lanczosNativeFlat
  have hw : ∀ (b : Buf ℝ), b.len = n * ncv → ∃ b', b.writeN (((ncv : ℤ) - 1) * n) (0 : Fin n → ℝ) = .ok b' ∧ b'.len = n * ncv := by
    intro b hb
    unfold Buf.writeN
    rw [if_pos]
    · exact ⟨_, rfl, hb⟩
    · rw [hb]
      have : (1 : ℤ) ≤ ncv := by exact_mod_cast hpos
      constructor
      · exact mul_nonneg (by omega) (by positivity)
      · push_cast; nlinarith
  obtain ⟨Q1, h1, h1l⟩ := hw (Buf.zeros (n * ncv)) rfl
  have hv : (⟨m, fun i => if h : i < m then v0 ⟨i, h⟩ else 0⟩ : Buf ℝ).readN 0 m = .ok v0 := HoldsVec.read ⟨rfl, fun i => by simp⟩
  simp only [h1, bind, Except.bind, hv]
  rcases Nat.lt_or_gt_of_ne hnm with hlt | hgt
  · -- fewer rows than columns
    have h2 : ∀ g : ℕ → ℝ, ∃ x, (⟨m, g⟩ : Buf ℝ).readN 0 n = .ok x := by
      intro g
      unfold Buf.readN
      rw [if_pos ⟨le_rfl, by simp; omega⟩]
      exact ⟨_, rfl⟩
    obtain ⟨x, hx⟩ := h2 fun i => if h : i < m then normalized v0 ⟨i, h⟩ else 0
    simp only [hx]
    have h3 : ∃ Q2, Q1.writeN 0 x = .ok Q2 ∧ Q2.len = n * ncv := by
      unfold Buf.writeN
      rw [if_pos ⟨le_rfl, by rw [h1l]; push_cast; nlinarith [show (1 : ℤ) ≤ ncv by exact_mod_cast hpos]⟩]
      exact ⟨_, rfl, h1l⟩
    obtain ⟨Q2, h3, h3l⟩ := h3
    simp only [h3]
    have h4 : ∃ b, (Buf.zeros (d + 1).toNat : Buf ℝ).write 0 0 = .ok b ∧ b.len = (d + 1).toNat := by
      unfold Buf.write
      rw [if_pos ⟨le_rfl, by simp only [Buf.zeros]; omega⟩]
      exact ⟨_, rfl, rfl⟩
    obtain ⟨b, h4, h4l⟩ := h4
    simp only [h4]
    obtain ⟨r, hr⟩ : ∃ r, d.toNat = r + 1 := ⟨d.toNat - 1, by omega⟩
    rw [hr]
    unfold lanczosLoopFlat
    simp only [bind, Except.bind, Int.natCast_zero, zero_mul]
    rcases hin : Q2.readN 0 m with e | inp
    · have : e = .index := by
        unfold Buf.readN at hin
        split_ifs at hin
        exact (Except.error.inj hin).symm
      rw [this]
    · simp only
      have h5 : ∃ V, (⟨m, fun i => if h : i < m then v0 ⟨i, h⟩ else 0⟩ : Buf ℝ).writeN 0 (A inp) = .ok V := by
        unfold Buf.writeN
        rw [if_pos ⟨le_rfl, by simp; omega⟩]
        exact ⟨_, rfl⟩
      obtain ⟨V, h5⟩ := h5
      simp only [h5]
      have h6 : ∃ x, b.read 0 = .ok x := by
        unfold Buf.read
        rw [if_pos ⟨le_rfl, by rw [h4l]; omega⟩]
        exact ⟨_, rfl⟩
      obtain ⟨b0, h6⟩ := h6
      simp only [h6]
      have h7 : Q2.readN (((ncv : ℤ) - 1) * n) m = .error .index := by
        unfold Buf.readN
        rw [if_neg]
        rintro ⟨-, h⟩
        rw [h3l] at h
        push_cast at h
        have : (n : ℤ) < m := by exact_mod_cast hlt
        nlinarith
      rw [h7]
  · -- more rows than columns
    have h2 : ∀ g : ℕ → ℝ, (⟨m, g⟩ : Buf ℝ).readN 0 n = .error .index := by
      intro g
      unfold Buf.readN
      rw [if_neg]
      rintro ⟨-, h⟩
      simp only at h
      omega
    simp only [h2]

/-- Non-vacuity and counterexample: a matrix with 3 rows and 2 columns, `deg=2`. -/
theorem C98_counterexample (eps rtol : ℝ) : lanczosShape (fun x : Fin 2 → ℝ => (fun _ : Fin 3 => x 0 + x 1)) eps (fun _ => 1) (some 2) rtol 0 false =
    .error .index :=
  C98_rectangular (by norm_num) _ _ _ _ (by norm_num [lanczosDeg]) _ _ _

/-- Non-vacuity of `C98_square`: blocks that hold a given state exist. -/
example (n : ℕ) (v : Vec n) (Q : Buf (Vec n)) : ∃ V F, HoldsVec V v ∧ Holds F Q := by
  refine ⟨⟨n, fun i => if h : i < n then v ⟨i, h⟩ else 0⟩,
    ⟨n * Q.len, fun p => if h : 0 < n then Q.get (p / n) ⟨p % n, Nat.mod_lt _ h⟩ else 0⟩, ⟨rfl, fun i => by simp⟩, rfl, fun c _ i => ?_⟩
  have hn : 0 < n := Fin.pos i
  simp only [dif_pos hn]
  have h1 : (c * n + i) / n = c := by rw [mul_comm, Nat.mul_add_div hn, Nat.div_eq_of_lt i.2, add_zero]
  have h2 : (c * n + i) % n = i := by rw [mul_comm, Nat.mul_add_mod, Nat.mod_eq_of_lt i.2]
  simp only [h1, h2]

end Primate
