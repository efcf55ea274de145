import Verif.Lemmas.FullOrth

/-! The code of the Lanczos recurrence with full re-orthogonalisation gives the data of `Lemmas/FullOrth.lean`. -/

noncomputable section

namespace Primate

open Matrix

variable {n : ℕ} {K : LKernels n} {A : Matrix (Fin n) (Fin n) ℝ} {M ε τ B : ℝ}

/-- A pass does not increase the norm by more than rounding errors, whatever the angles between the columns are. -/
theorem orth_pass_norm (hK : Spec.LKernelsOk K A M ε τ B) (hO : Spec.OKernelsOk K M ε B) (h0 : 0 ≤ ε) (h1 : ε ≤ 1 / 100) (hM : 0 ≤ M) (j : ℕ) (U : Buf (Vec n))
    {N otol : ℝ} (hN0 : 0 ≤ N) (hB : 2 * N ≤ B) (ht0 : 0 ≤ otol) (ht1 : otol ≤ 1 / 2) (hcol : ∀ m < U.len, U.get m = 0 ∨ |nrm (U.get m) - 1| ≤ 5 * ε) (c : ℕ) :
    ∀ (i : ℤ) (v : Vec n), 0 ≤ i → i < U.len → nrm v + M + 25 * c * (ε * N) ≤ N →
      ∃ v', orthLoopFl K j otol U (-1) c i v = .ok v' ∧ nrm v' ≤ nrm v + 25 * c * (ε * N) := by
  induction c with
  | zero => intro i v _ _ _; exact ⟨v, rfl, by simp⟩
  | succ c ih =>
    intro i v hi0 hi hNv
    push_cast at hNv
    have eN : 0 ≤ ε * N := mul_nonneg h0 hN0
    have hcN : 0 ≤ c * (ε * N) := by positivity
    have hp : (0 : ℤ) < U.len := by omega
    have hci0 : 0 ≤ cmod (i + -1) U.len := by rw [cmod_eq _ _ hp]; exact Int.emod_nonneg _ (by omega)
    have hci1 : cmod (i + -1) U.len < U.len := by rw [cmod_eq _ _ hp]; exact Int.emod_lt_of_pos _ hp
    unfold orthLoopFl
    simp only [U.read_ok' i hi0 hi, bind, Except.bind]
    have him : i.toNat < U.len := by omega
    obtain ⟨w, hw, s1⟩ : ∃ w : Vec n,
        (if otol < K.sqnorm (j, c + 2) (U.get i.toNat) ∧ otol < |K.dot (j, c + 2) v (U.get i.toNat)| then
          K.axpy (j, c + 2) v (K.div (K.dot (j, c + 2) v (U.get i.toNat)) (K.sqnorm (j, c + 2) (U.get i.toNat))) (U.get i.toNat) else v) = w ∧
        nrm w ≤ nrm v + 25 * (ε * N) := by
      rcases hcol i.toNat him with hz | hu
      · rw [hz, hO.sqnorm_zero, if_neg (by intro hc; linarith [hc.1])]
        exact ⟨v, rfl, by linarith⟩
      · obtain ⟨g, e, hge, -, -, -, -, hn⟩ := orth_step hK hO h0 h1 hM (j, c + 2) v (U.get i.toNat) hu (by linarith) hB ht0 ht1
        exact ⟨_, hge, hn⟩
    rw [hw]
    obtain ⟨v', r1, r2⟩ := ih _ w hci0 hci1 (by linarith)
    exact ⟨v', r1, by push_cast; linarith⟩

/-- The input of the recurrence with full re-orthogonalisation. -/
structure Spec.FullInput (K : LKernels n) (A : Matrix (Fin n) (Fin n) ℝ) (M ε tol otol B : ℝ) (v : Vec n) (deg : ℕ) (orth : ℤ) (alpha beta : Buf ℝ)
    (Q : Buf (Vec n)) : Prop where
  kernels : LKernelsOk K A M ε tol B
  okernels : OKernelsOk K M ε B
  bound : ∀ x, nrm (A *ᵥ x) ≤ M * nrm x
  M0 : 0 ≤ M
  eps0 : 0 ≤ ε
  eps1 : ε ≤ 1 / 100
  tol0 : 0 < tol
  otol0 : 0 ≤ otol
  otol1 : otol ≤ 1 / 2
  start : 2 * tol ≤ nrm v
  startB : nrm v ≤ B
  deg1 : 1 ≤ deg
  orth1 : 1 ≤ orth
  orthD : (deg : ℤ) ≤ orth + 1
  degE : 300 * deg * orth.toNat * ε ≤ 1
  degB : 32 * (deg + 1) * M ≤ B
  aLen : deg ≤ alpha.len
  bLen : deg + 1 ≤ beta.len
  qLen : deg ≤ Q.len
  qZero : ∀ m, Q.get m = 0

variable {tol otol : ℝ} {v : Vec n} {deg : ℕ} {orth : ℤ} {alpha beta : Buf ℝ} {Q : Buf (Vec n)}

/-- The operations with the passes absorbed. -/
def fullK (K : LKernels n) (otol : ℝ) (orth : ℤ) (v : Vec n) (alpha beta : Buf ℝ) (Q : Buf (Vec n)) : LKernels n :=
  absorb K (orthTot K otol orth) v alpha beta Q

/-- The recursion with passes. -/
def fullSeq (K : LKernels n) (otol : ℝ) (orth : ℤ) (v : Vec n) (alpha beta : Buf ℝ) (Q : Buf (Vec n)) (j : ℕ) : FlTriple n :=
  flSeq (fullK K otol orth v alpha beta Q) v (flPrev K v Q.len) j

theorem full_a (g : FlTriple n) (j : ℕ) : g.a (fullK K otol orth v alpha beta Q) j = g.a K j := rfl

theorem full_w (g : FlTriple n) (j : ℕ) : g.w (fullK K otol orth v alpha beta Q) j =
    orthTot K otol orth j (flState K (orthTot K otol orth) v alpha beta Q j) (g.w K j) := rfl

/-- The columns read by the pass in iteration `j`. -/
theorem Spec.FullInput.cols (h : FullInput K A M ε tol otol B v deg orth alpha beta Q) (j : ℕ) (hj : j < deg) :
    (flState K (orthTot K otol orth) v alpha beta Q j).Q.len = Q.len ∧
    (∀ m ≤ j, (flState K (orthTot K otol orth) v alpha beta Q j).Q.get m = (fullSeq K otol orth v alpha beta Q m).q) ∧
    (∀ m, j < m → m < Q.len → (flState K (orthTot K otol orth) v alpha beta Q j).Q.get m = 0) ∧
    ∀ w, reorthFl K j otol orth w (flState K (orthTot K otol orth) v alpha beta Q j).Q (flState K (orthTot K otol orth) v alpha beta Q j).pos.2.1 =
      orthLoopFl K j otol (flState K (orthTot K otol orth) v alpha beta Q j).Q (-1) orth.toNat (j : ℤ) w := by
  have hl := h.qLen
  have ho := h.orth1
  have hI := flState_inv (K := K) (v := v) (alpha0 := alpha) (beta0 := beta) (Q0 := Q) (orthTot K otol orth) (by omega) j (by omega)
  refine ⟨hI.Q_len, fun m hm => ?_, fun m hm hml => ?_, fun w => ?_⟩
  · have := hI.Qcol m hm (by omega)
    rwa [Nat.mod_eq_of_lt (by omega)] at this
  · rcases hI.Q_gt m hm hml with h1 | h1
    · rw [h1, h.qZero]
    · exact h1
  · unfold reorthFl
    rw [if_pos (by omega), hI.pos2, hI.Q_len, cmod_eq _ _ (by omega), Int.emod_emod_of_dvd _ dvd_rfl, Int.emod_eq_of_lt (by omega) (by omega)]

/-- What is known at the start of iteration `j`. -/
structure FullGood (M ε ρ : ℝ) (j : ℕ) (g : FlTriple n) : Prop where
  q : |nrm g.q - 1| ≤ 5 * ε
  p : nrm g.p ≤ 1 + 5 * ε
  b0 : 0 ≤ g.b
  b1 : g.b ≤ M * j * (1 + ρ) ^ j

theorem FullGood.b_le {ρ : ℝ} {j k : ℕ} {g : FlTriple n} (h : FullGood M ε ρ j g) (h0 : 0 ≤ ρ) (hM : 0 ≤ M) (hk : 2 * k * ρ ≤ 1) (hj : j ≤ k) : g.b ≤ 2 * j * M := by
  have hjk : (j : ℝ) ≤ k := by exact_mod_cast hj
  have hje : (j : ℝ) * ρ ≤ 1 / 2 := by nlinarith
  have := Spec.pow_one_add_le (u := ρ) h0 j hje
  refine h.b1.trans ?_
  have h2 : (1 + ρ) ^ j ≤ 2 := by linarith
  have h3 : 0 ≤ M * j := by positivity
  nlinarith

/-- The norm after the pass. -/
theorem Spec.FullInput.w_le (h : FullInput K A M ε tol otol B v deg orth alpha beta Q) (j : ℕ) (hj : j < deg)
    (hq : ∀ m ≤ j, |nrm (fullSeq K otol orth v alpha beta Q m).q - 1| ≤ 5 * ε) (hp : nrm (fullSeq K otol orth v alpha beta Q j).p ≤ 1 + 5 * ε)
    (hb0 : 0 ≤ (fullSeq K otol orth v alpha beta Q j).b) (hb : (fullSeq K otol orth v alpha beta Q j).b ≤ 2 * j * M) :
    nrm ((fullSeq K otol orth v alpha beta Q j).w (fullK K otol orth v alpha beta Q) j) ≤
      (1 + 124 * (orth.toNat * ε)) * (M + (fullSeq K otol orth v alpha beta Q j).b) := by
  obtain ⟨c1, c2, c3, c4⟩ := h.cols j hj
  rw [full_w]
  set s := flState K (orthTot K otol orth) v alpha beta Q j with hs
  set g := fullSeq K otol orth v alpha beta Q j with hg
  set T : ℝ := (orth.toNat : ℝ) with hT
  have T1 : 1 ≤ T := by
    have := h.orth1
    rw [hT]
    exact_mod_cast (by omega : 1 ≤ orth.toNat)
  have hM := h.M0
  have h0 := h.eps0
  have h1 := h.eps1
  have d1 : (1 : ℝ) ≤ deg := by exact_mod_cast h.deg1
  have jd : (j : ℝ) + 1 ≤ deg := by exact_mod_cast hj
  have jM : ((j : ℝ) + 1) * M ≤ deg * M := mul_le_mul_of_nonneg_right jd hM
  have Te : 0 ≤ T * ε := by positivity
  have hTe : 300 * (T * ε) ≤ 1 := by
    have := h.degE
    have h3 : T * ε ≤ deg * (T * ε) := le_mul_of_one_le_left Te d1
    linarith
  have eT : ε ≤ T * ε := le_mul_of_one_le_left h0 T1
  have dB := h.degB
  obtain ⟨-, -, s3, -⟩ := fl_step h.kernels h.bound h0 h1 hM g j (hq j le_rfl) hp hb0 (by linarith)
  set m := M + g.b with hm
  have hm0 : 0 ≤ m := by linarith
  have s3' : nrm (g.w K j) ≤ 1.15 * m := s3.trans (mul_le_mul_of_nonneg_right (by linarith) hm0)
  have em : ε * m ≤ 1 / 300 * m := mul_le_mul_of_nonneg_right (by linarith) hm0
  have Tem : T * ε * m ≤ 1 / 300 * m := mul_le_mul_of_nonneg_right (by linarith) hm0
  have Tem2 : ε * m ≤ T * ε * m := mul_le_mul_of_nonneg_right eT hm0
  obtain ⟨v', r1, r2⟩ := orth_pass_norm h.kernels h.okernels h0 h1 hM j s.Q (N := 4.3 * m) (by linarith) (by linarith) h.otol0 h.otol1 (fun i hi => by
    rw [c1] at hi
    rcases Nat.lt_or_ge j i with hji | hji
    · exact Or.inl (c3 i hji hi)
    · exact Or.inr (by rw [c2 i hji]; exact hq i hji)) orth.toNat (j : ℤ) (g.w K j) (by omega) (by rw [c1]; have := h.qLen; omega)
    (by linarith)
  have e : orthTot K otol orth j s (g.w K j) = v' := by
    unfold orthTot
    rw [c4, r1]
  rw [e]
  rw [← hT] at r2
  have : 0 ≤ T * ε * m := mul_nonneg Te hm0
  linarith

/-- Bounds for the coefficients that hold in any case. -/
theorem Spec.FullInput.good (h : FullInput K A M ε tol otol B v deg orth alpha beta Q) (J : ℕ) (hJ : J < deg)
    (hb : ∀ i < J, tol ≤ (fullSeq K otol orth v alpha beta Q (i + 1)).b) :
    ∀ j ≤ J, FullGood M ε (130 * (orth.toNat * ε)) j (fullSeq K otol orth v alpha beta Q j) ∧
      nrm ((fullSeq K otol orth v alpha beta Q j).w (fullK K otol orth v alpha beta Q) j) ≤
        (1 + 124 * (orth.toNat * ε)) * (M + (fullSeq K otol orth v alpha beta Q j).b) := by
  have hM := h.M0
  have h0 := h.eps0
  have h1 := h.eps1
  have T1 : (1 : ℝ) ≤ orth.toNat := by
    have := h.orth1
    exact_mod_cast (by omega : 1 ≤ orth.toNat)
  have Te : 0 ≤ (orth.toNat : ℝ) * ε := by positivity
  have d1 : (1 : ℝ) ≤ deg := by exact_mod_cast h.deg1
  have hTe : 300 * (orth.toNat * ε) ≤ 1 := by
    have := h.degE
    have h3 : orth.toNat * ε ≤ deg * (orth.toNat * ε) := le_mul_of_one_le_left Te d1
    linarith
  have eT : ε ≤ orth.toNat * ε := le_mul_of_one_le_left h0 T1
  have hk : 2 * (deg : ℝ) * (130 * (orth.toNat * ε)) ≤ 1 := by
    have := h.degE
    have h3 : 0 ≤ deg * (orth.toNat * ε) := by positivity
    linarith
  obtain ⟨st1, -⟩ := fl_start h.kernels h0 h1 h.tol0 v h.start h.startB
  have hp0 : nrm (flPrev K v Q.len) ≤ 1 + 5 * ε := by
    unfold flPrev
    split_ifs
    · linarith [(abs_le.1 st1).2]
    · rw [nrm_zero]; linarith
  intro j
  induction j using Nat.strong_induction_on with
  | _ j ih =>
    intro hj
    have hgood : FullGood M ε (130 * (orth.toNat * ε)) j (fullSeq K otol orth v alpha beta Q j) := by
      cases j with
      | zero =>
        refine ⟨st1, hp0, le_rfl, ?_⟩
        show (0 : ℝ) ≤ _
        simp
      | succ j =>
        obtain ⟨g, hw⟩ := ih j (by omega) (by omega)
        set t := fullSeq K otol orth v alpha beta Q j with ht
        set w := t.w (fullK K otol orth v alpha beta Q) j with hwd
        have hbl := g.b_le (by positivity) hM hk (by omega)
        have jd : (j : ℝ) + 1 ≤ deg := by exact_mod_cast (by omega : j + 1 ≤ deg)
        have jM : ((j : ℝ) + 1) * M ≤ deg * M := mul_le_mul_of_nonneg_right jd hM
        have hm0 : 0 ≤ M + t.b := by linarith [g.b0]
        have hwB : nrm w ≤ B := by
          refine hw.trans ?_
          have := mul_le_mul_of_nonneg_right (by linarith : 1 + 124 * (orth.toNat * ε) ≤ 2) hm0
          linarith [h.degB]
        have hbj : tol ≤ K.norm (j + 1) w := hb j (by omega)
        obtain ⟨t1, -, t3, -, -⟩ := fl_scale h.kernels h0 h1 h.tol0 (j + 1) (j + 1) w hwB hbj
        refine ⟨t1, ?_, h.tol0.le.trans hbj, ?_⟩
        · show nrm t.q ≤ _
          linarith [(abs_le.1 g.q).2]
        · show K.norm (j + 1) w ≤ _
          set r := 1 + 130 * (orth.toNat * ε) with hr
          have hr1 : 1 ≤ r := by linarith
          have c1 : (1 + 2.1 * ε) * (1 + 124 * (orth.toNat * ε)) ≤ r := by
            have : ε * (orth.toNat * ε) ≤ ε * (1 / 300) := mul_le_mul_of_nonneg_left (by linarith) h0
            linarith
          have c2 : K.norm (j + 1) w ≤ r * (M + t.b) := by
            refine t3.trans ?_
            have c3 := mul_le_mul_of_nonneg_left hw (by linarith : 0 ≤ 1 + 2.1 * ε)
            refine c3.trans ?_
            rw [← mul_assoc]
            exact mul_le_mul_of_nonneg_right c1 hm0
          refine c2.trans ?_
          have c4 : M ≤ M * r ^ j := le_mul_of_one_le_right hM (one_le_pow₀ hr1)
          have hb1 := g.b1
          rw [pow_succ]
          push_cast
          calc r * (M + t.b) ≤ r * (M * r ^ j + M * j * r ^ j) := mul_le_mul_of_nonneg_left (by linarith) (by linarith)
            _ = M * (j + 1) * (r ^ j * r) := by ring
    refine ⟨hgood, h.w_le j (by omega) (fun m hm => ?_) hgood.p hgood.b0 (hgood.b_le (by positivity) hM hk (by omega))⟩
    rcases Nat.lt_or_ge m j with hmj | hmj
    · exact (ih m hmj (by omega)).1.q
    · obtain rfl : m = j := by omega
      exact hgood.q

/-- The data of the iterations. -/
theorem Spec.FullInput.data (h : FullInput K A M ε tol otol B v deg orth alpha beta Q) (J : ℕ) (hJ : J < deg)
    (hb : ∀ i < J, tol ≤ (fullSeq K otol orth v alpha beta Q (i + 1)).b) (S : ℝ) (hMS : M ≤ S) (hSB : 14 * S ≤ B)
    (hS : ∀ j ≤ J, |(fullSeq K otol orth v alpha beta Q j).a K j| ≤ S ∧ (fullSeq K otol orth v alpha beta Q j).b ≤ S) :
    OrthData A ε S otol orth.toNat J (fun j => (fullSeq K otol orth v alpha beta Q j).a K j) (fun j => (fullSeq K otol orth v alpha beta Q j).b)
      (fun j => (fullSeq K otol orth v alpha beta Q j).q) (fun j => (fullSeq K otol orth v alpha beta Q j).w K j)
      (fun j => (fullSeq K otol orth v alpha beta Q j).w (fullK K otol orth v alpha beta Q) j) := by
  have hM := h.M0
  have h0 := h.eps0
  have h1 := h.eps1
  have good := h.good J hJ hb
  have hS0 : 0 ≤ S := hM.trans hMS
  have eS : 0 ≤ ε * S := mul_nonneg h0 hS0
  have T1 : (1 : ℝ) ≤ orth.toNat := by
    have := h.orth1
    exact_mod_cast (by omega : 1 ≤ orth.toNat)
  have Te : 0 ≤ (orth.toNat : ℝ) * ε := by positivity
  have d1 : (1 : ℝ) ≤ deg := by exact_mod_cast h.deg1
  have hTe : 300 * (orth.toNat * ε) ≤ 1 := by
    have := h.degE
    have h3 : orth.toNat * ε ≤ deg * (orth.toNat * ε) := le_mul_of_one_le_left Te d1
    linarith
  have key : ∀ x c : ℝ, x ≤ c * S → ε * x ≤ c * (ε * S) := by
    intro x c hx
    have := mul_le_mul_of_nonneg_left hx h0
    linarith
  have st := fun j (hj : j ≤ J) => fl_step h.kernels h.bound h0 h1 hM (fullSeq K otol orth v alpha beta Q j) j (good j hj).1.q (good j hj).1.p (good j hj).1.b0
    (by linarith [(hS j hj).2])
  have prev : ∀ j, (fullSeq K otol orth v alpha beta Q j).b • (fullSeq K otol orth v alpha beta Q j).p =
      (fullSeq K otol orth v alpha beta Q j).b • (fullSeq K otol orth v alpha beta Q (j - 1)).q := by
    intro j
    cases j with
    | zero =>
      show (0 : ℝ) • _ = (0 : ℝ) • _
      rw [zero_smul, zero_smul]
    | succ j => rfl
  refine ⟨rfl, fun j hj => (good j hj).1.b0, fun j hj => (hS j hj).2, fun j hj => (hS j hj).1, fun j hj => (good j hj).1.q, fun j hj => ?_, fun j hj => ?_,
    fun j hj => ?_, fun j hj δ G P hδ hG ho hP hPG => ?_⟩
  · have := (st j hj).1
    rw [prev j] at this
    refine this.trans (key _ _ ?_)
    linarith [hS j hj]
  · refine (st j hj).2.1.trans (key _ _ ?_)
    have := (hS j hj).1
    linarith [(hS j hj).2]
  · have hw := (good j (by omega)).2
    have hbj : tol ≤ K.norm (j + 1) ((fullSeq K otol orth v alpha beta Q j).w (fullK K otol orth v alpha beta Q) j) := hb j hj
    have hm0 : 0 ≤ M + (fullSeq K otol orth v alpha beta Q j).b := by linarith [(good j (by omega)).1.b0]
    have hwB : nrm ((fullSeq K otol orth v alpha beta Q j).w (fullK K otol orth v alpha beta Q) j) ≤ B := by
      refine hw.trans ?_
      have := mul_le_mul_of_nonneg_right (by linarith : 1 + 124 * (orth.toNat * ε) ≤ 2) hm0
      linarith [(hS j (by omega)).2]
    obtain ⟨-, t2, -, -, -⟩ := fl_scale h.kernels h0 h1 h.tol0 (j + 1) (j + 1) _ hwB hbj
    have hb2 : K.norm (j + 1) ((fullSeq K otol orth v alpha beta Q j).w (fullK K otol orth v alpha beta Q) j) ≤ S := (hS (j + 1) (by omega)).2
    refine le_trans t2 ?_
    have := mul_le_mul_of_nonneg_left hb2 h0
    linarith
  · obtain ⟨c1, c2, c3, c4⟩ := h.cols j (by omega)
    set s := flState K (orthTot K otol orth) v alpha beta Q j with hs
    have hlen := h.qLen
    have hP0 : 0 ≤ P := (abs_nonneg _).trans (hP j le_rfl)
    have col : ∀ m < Q.len, (∃ h : m ≤ j, s.Q.get m = (fullSeq K otol orth v alpha beta Q m).q) ∨ s.Q.get m = 0 := fun m hm => by
      rcases Nat.lt_or_ge j m with hjm | hjm
      · exact Or.inr (c3 m hjm hm)
      · exact Or.inl ⟨hjm, c2 m hjm⟩
    have hw0 : nrm ((fullSeq K otol orth v alpha beta Q j).w K j) ≤ 2.3 * S := by
      refine (st j hj).2.2.1.trans ?_
      have hb' := (hS j hj).2
      have := mul_le_mul (by linarith : 1 + 15 * ε ≤ 1.15) (by linarith : M + (fullSeq K otol orth v alpha beta Q j).b ≤ 2 * S)
        (by linarith [(good j hj).1.b0]) (by norm_num)
      linarith
    have TeS : (orth.toNat : ℝ) * ε * S ≤ 1 / 300 * S := mul_le_mul_of_nonneg_right (by linarith) hS0
    have e40 : 40 * (ε * (7 * S)) = 280 * (ε * S) := by ring
    have e20 : 20 * (ε * (7 * S)) = 140 * (ε * S) := by ring
    have e3 : 3 * (ε * (7 * S)) = 21 * (ε * S) := by ring
    have hpass := orth_pass h.kernels h.okernels h0 h1 hM j s.Q (N := 7 * S) (otol := otol) (δ := δ) (G := G) (by linarith) hG (by linarith) h.otol0 h.otol1 hδ
      (fun m hm => by
        rcases col m (c1 ▸ hm) with ⟨hmj, e⟩ | e
        · right; rw [e]; exact (good m (by omega)).1.q
        · exact Or.inl e)
      (fun m hm m' hm' hne => by
        rcases col m (c1 ▸ hm) with ⟨hmj, e⟩ | e
        · rcases col m' (c1 ▸ hm') with ⟨hmj', e'⟩ | e'
          · rw [e, e']; exact ho m hmj m' hmj' hne
          · rw [e', dotProduct_zero, abs_zero]; exact hδ
        · rw [e, zero_dotProduct, abs_zero]; exact hδ)
      orth.toNat j ((fullSeq K otol orth v alpha beta Q j).w K j) P (by rw [c1]; omega)
      (fun m hm => by
        rcases col m (c1 ▸ hm) with ⟨hmj, e⟩ | e
        · rw [e]; exact hP m hmj
        · rw [e, zero_dotProduct, abs_zero]; exact hP0)
      (by rw [e40, e20]; exact hPG) (by linarith)
    rw [e40, e3] at hpass
    obtain ⟨v', r1, -, -, r4, r5, r6⟩ := hpass
    have e : orthTot K otol orth j s ((fullSeq K otol orth v alpha beta Q j).w K j) = v' := by
      unfold orthTot
      rw [c4, r1]
    simp only [full_w]
    rw [← hs, e]
    refine ⟨fun i hi hiT => ?_, fun x ξ hξ hx => r5 x ξ hξ fun m hm => ?_, r6⟩
    · have := r4 i hi hiT
      rwa [c2 i hi] at this
    · rcases col m (c1 ▸ hm) with ⟨hmj, e⟩ | e
      · rw [e]; exact hx m hmj
      · rw [e, dotProduct_zero, abs_zero]; exact hξ

end Primate
