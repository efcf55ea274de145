import Verif.Spec.SlqFl
import Verif.Props.LanczosFlat
import Verif.Props.QuadFl

/-! One column of `quad` in floating point arithmetic, with the arrays in any state. -/

noncomputable section

namespace Primate

open Matrix Polynomial Spec

variable {n : ℕ}

theorem lanczosFlLoop_len (K : LKernels n) (deg : ℤ) (tol otol : ℝ) (orth : ℤ) : ∀ (rem j : ℕ) (s t : LState n), lanczosFlLoop K deg tol otol orth rem j s = .ok t →
    t.alpha.len = s.alpha.len ∧ t.beta.len = s.beta.len ∧ t.Q.len = s.Q.len := by
  intro rem
  induction rem with
  | zero =>
    intro j s t h
    simp only [lanczosFlLoop, Except.ok.injEq] at h
    rw [← h]
    exact ⟨rfl, rfl, rfl⟩
  | succ rem ih =>
    intro j s t h
    unfold lanczosFlLoop at h
    rcases h1 : s.Q.read s.pos.2.1 with er | qc
    · simp [h1, bind, Except.bind] at h
    rcases h2 : s.beta.read j with er | bj
    · simp [h1, h2, bind, Except.bind] at h
    rcases h3 : s.Q.read s.pos.1 with er | qp
    · simp [h1, h2, h3, bind, Except.bind] at h
    simp only [h1, h2, h3, bind, Except.bind] at h
    generalize K.dot (j, 0) qc (K.axpy (j, 0) (K.matvec j qc) bj qp) = a at h
    generalize K.axpy (j, 1) (K.axpy (j, 0) (K.matvec j qc) bj qp) a qc = v1 at h
    rcases h4 : s.alpha.write j a with er | alpha
    · simp [h4] at h
    simp only [h4] at h
    rcases h5 : reorthFl K j otol orth v1 s.Q s.pos.2.1 with er | v2
    · simp [h5] at h
    simp only [h5] at h
    rcases h6 : s.beta.write (j + 1) (K.norm (j + 1) v2) with er | beta
    · simp [h6] at h
    simp only [h6] at h
    have l1 := Buf.write_len h4
    have l2 := Buf.write_len h6
    split_ifs at h with hs
    · simp only [Except.ok.injEq] at h
      rw [← h]
      exact ⟨l1, l2, rfl⟩
    · rcases h7 : s.Q.write s.pos.2.2 (K.scale (j + 1) v2 (K.norm (j + 1) v2)) with er | Q
      · simp [h7] at h
      simp only [h7] at h
      have l3 := Buf.write_len h7
      obtain ⟨g1, g2, g3⟩ := ih _ _ _ h
      exact ⟨g1.trans l1, g2.trans l2, g3.trans l3⟩

theorem lanczosFl_len {K : LKernels n} {v : Vec n} {deg : ℤ} {tol otol : ℝ} {orth : ℤ} {alpha beta : Buf ℝ} {Q : Buf (Vec n)} {t : LState n}
    (h : lanczosFl K v deg tol otol orth alpha beta Q = .ok t) : t.alpha.len = alpha.len ∧ t.beta.len = beta.len ∧ t.Q.len = Q.len := by
  unfold lanczosFl at h
  rcases h1 : Q.write (Q.len - 1) 0 with er | Q1
  · simp [h1, bind, Except.bind] at h
  simp only [h1, bind, Except.bind] at h
  rcases h2 : Q1.write 0 (normalizedFl K v) with er | Q2
  · simp [h2] at h
  simp only [h2] at h
  rcases h3 : beta.write 0 0 with er | beta1
  · simp [h3] at h
  simp only [h3] at h
  obtain ⟨g1, g2, g3⟩ := lanczosFlLoop_len _ _ _ _ _ _ _ _ _ h
  exact ⟨g1, g2.trans (Buf.write_len h3), g3.trans ((Buf.write_len h2).trans (Buf.write_len h1))⟩

theorem formOk_iff {deg : ℕ} {tol c d : ℝ} {M : MFFl n} :
    FormOk deg tol c d M ↔ ∃ e : ℕ → ℝ, (∀ j, 1 ≤ j → j < deg → |M.beta.get j - e j| ≤ tol) ∧ FormIn M.alpha.get e deg c d := by
  unfold FormOk FormIn
  refine exists_congr fun e => and_congr_right fun _ => ⟨fun h y => ?_, fun h x => ?_⟩
  · have := h fun i : Fin deg => y i
    rwa [sum_sq_fin, tform_eq] at this
  · have hx : x = fun i : Fin deg => (fun i : ℕ => if h : i < deg then x ⟨i, h⟩ else 0) i := by
      funext i
      simp
    have := h fun i : ℕ => if h : i < deg then x ⟨i, h⟩ else 0
    rwa [← tform_eq, ← sum_sq_fin, ← hx] at this

/-- The part of the matrix that is left from earlier calls. -/
theorem Spec.FormOk.rest {deg k : ℕ} {tol c d a b D : ℝ} {M : MFFl n} (h : FormOk deg tol c d M) (h0 : 0 ≤ tol) (ha : a + D ≤ c - 2 * tol) (hb : d + 2 * tol ≤ b - D) :
    RestOk k deg M.alpha M.beta a b D := by
  obtain ⟨e, h1, h2⟩ := formOk_iff.1 h
  refine Or.inr fun x _ => ?_
  have hx : x = fun i : Fin deg => (fun i : ℕ => if h : i < deg then x ⟨i, h⟩ else 0) i := by
    funext i
    simp
  set y : ℕ → ℝ := fun i : ℕ => if h : i < deg then x ⟨i, h⟩ else 0
  have h3 := abs_le.1 (tform_pert (α := M.alpha.get) h0 h1 y)
  have h4 := h2 y
  rw [hx, sum_sq_fin]
  have e1 : (fun i : Fin deg => y i) ⬝ᵥ (jacobi deg M.alpha.get (fun i => M.beta.get (i + 1)) *ᵥ fun i : Fin deg => y i) = tform M.alpha.get M.beta.get deg y := tform_eq _ _ _ _
  rw [e1]
  have hs : 0 ≤ ∑ i ∈ Finset.range deg, y i ^ 2 := Finset.sum_nonneg fun _ _ => sq_nonneg _
  have m1 := mul_le_mul_of_nonneg_right ha hs
  have m2 := mul_le_mul_of_nonneg_right hb hs
  constructor <;> linarith [h3.1, h3.2, h4.1, h4.2]

/-- The matrix after a call. -/
theorem Spec.FormOk.next {deg k : ℕ} {tol c d : ℝ} {M M' : MFFl n} (h : FormOk deg tol c d M) (h0 : 0 ≤ tol) (hk : 0 < k) (hkd : k ≤ deg)
    (hb : k < deg → |M'.beta.get k| ≤ tol) (ha1 : ∀ j, k ≤ j → M'.alpha.get j = M.alpha.get j) (hb1 : ∀ j, k < j → M'.beta.get j = M.beta.get j)
    (hf : FormIn M'.alpha.get M'.beta.get k c d) : FormOk deg tol c d M' := by
  obtain ⟨e, h1, h2⟩ := formOk_iff.1 h
  refine formOk_iff.2 ⟨fun j => if j < k then M'.beta.get j else if j = k then 0 else e j, fun j hj1 hj2 => ?_, ?_⟩
  · simp only
    split_ifs with c1 c2
    · rw [sub_self, abs_zero]; exact h0
    · rw [c2, sub_zero]; exact hb (by omega)
    · rw [hb1 j (by omega)]; exact h1 j hj1 hj2
  · set e' : ℕ → ℝ := fun j => if j < k then M'.beta.get j else if j = k then 0 else e j with he'
    have hf' : FormIn M'.alpha.get e' k c d := by
      intro y
      have : tform M'.alpha.get e' k y = tform M'.alpha.get M'.beta.get k y := tform_congr y (fun _ _ => Or.inl rfl) fun i hi => Or.inl (by simp [he', hi])
      rw [this]
      exact hf y
    rcases Nat.lt_or_ge k deg with hlt | hge
    · have hz : |e' k| ≤ 0 := by simp [he']
      have := FormIn.join hk hlt hz hf' fun y => ?_
      · rwa [sub_zero, add_zero] at this
      · have e1 : tform M'.alpha.get e' deg (tailFrom k y) = tform M.alpha.get e deg (tailFrom k y) := by
          refine tform_congr _ (fun i _ => ?_) (fun i _ => ?_)
          · rcases Nat.lt_or_ge i k with hi | hi
            · exact Or.inr (if_pos hi)
            · exact Or.inl (ha1 i hi)
          · rcases Nat.lt_or_ge i k with hi | hi
            · exact Or.inr (if_pos hi)
            · exact Or.inl (by simp [he', show ¬ i + 1 < k by omega, show ¬ i + 1 = k by omega])
        rw [e1]
        exact h2 (tailFrom k y)
    · obtain rfl : k = deg := le_antisymm hkd hge
      exact hf'

variable {K : SlqKernels n} {c : MFCfg} {A : Matrix (Fin n) (Fin n) ℝ} {M ε B ω δ L H S lo hi a b : ℝ}

theorem Spec.SlqInput.flInput (h : SlqInput K c A M ε B ω δ L H S lo hi a b) {G : MFFl n} (hG : ArraysOk c.deg S G) (t j : ℕ) {v : Vec n} (hv : 2 * c.tol ≤ nrm v)
    (hvB : nrm v ≤ B) : FlInput (K.lan t j) A M ε c.tol B v c.deg c.orth G.alpha G.beta G.Q := by
  have := h.deg2
  have := hG.qLen
  exact ⟨h.lan t j, h.bound, h.M0, h.eps0, h.eps1, h.tol0, hv, hvB, by omega, h.degE, h.degB, h.noOrth, hG.aLen, hG.bLen, by omega, by omega⟩

/-- One column, whatever the arrays contain. -/
theorem Spec.SlqInput.column (h : SlqInput K c A M ε B ω δ L H S lo hi a b) {lam : Fin n → ℝ} {U : Matrix (Fin n) (Fin n) ℝ} (hU : Eigen A lam U)
    (hlam : ∀ i, lo ≤ lam i ∧ lam i ≤ hi) {κ : ℕ} (hκ : κ ≤ c.deg) {G : MFFl n} (hG : SlqState c κ ε S lo hi G) (t j : ℕ) {v : Vec n} (hv : 2 * c.tol ≤ nrm v)
    (hvB : nrm v ≤ B) (g : ℝ[X]) {Φ η : ℝ} (hg : g.natDegree + 2 ≤ 2 * κ) (hΦ : ∀ x, a ≤ x → x ≤ b → |c.f x| ≤ Φ)
    (hη : ∀ x, a ≤ x → x ≤ b → |c.f x - g.eval x| ≤ η) (hR : QRange L H S Φ (nrm v)) :
    ∃ (s : LState n) (y : ℝ), quadColFl (K.lan t j) (K.quad t j) c.f v c.deg c.tol c.otol c.orth G.alpha G.beta G.Q = .ok (s, y) ∧
      ((∀ i, 1 ≤ i → i < κ → c.tol ≤ s.beta.get i) → SlqState c κ ε S lo hi (⟨s.alpha, s.beta, s.Q⟩ : MFFl n) ∧
        |y - v ⬝ᵥ (matFun lam U c.f *ᵥ v)| ≤ nrm v ^ 2 * flQuadErr c.deg ε S ω δ c.tol a b Φ η ∧
        ∃ p q, y = (K.quad t j).mul p q ∧ |p * q| ≤ H) := by
  have hI := h.flInput hG.arrays t j hv hvB
  obtain ⟨s, k, q, h1, h2, h3, h4, h5, h6, h7, h8, h9, h10, f1, f2, -⟩ := hI.run' c.otol
  have hd := h.deg2
  refine ⟨s, _, by unfold quadColFl; rw [h1]; rfl, fun hsteps => ?_⟩
  have t0 := h.tol0
  have e0 := h.eps0
  have S0 : 0 ≤ S := t0.le.trans h.Stol
  have kr : (k : ℝ) ≤ c.deg := by exact_mod_cast h3
  have k1 : (1 : ℝ) ≤ k := by exact_mod_cast h2
  have hlow : -c.tol ≤ s.beta.get k := by linarith [mul_le_mul_of_nonneg_right h.eps1 t0.le]
  have hkκ : κ ≤ k := by
    by_contra hc
    rcases h4 with h4 | h4
    · exact absurd (hsteps k h2 (by omega)) (not_le.2 h4)
    · omega
  have hMS : M ≤ S := by
    have := mul_le_mul_of_nonneg_right (k1.trans kr) h.M0
    linarith [h.SM, h.M0]
  have hkM : 4 * k * M ≤ S := by
    have := mul_le_mul_of_nonneg_right kr h.M0
    linarith [h.SM]
  have hbk : k < c.deg → |s.beta.get k| ≤ c.tol := by
    intro hlt
    rcases h4 with h4 | h4
    · exact abs_le.2 ⟨hlow, h4.le⟩
    · omega
  have hS : ∀ j < c.deg, |s.alpha.get j| ≤ S ∧ |s.beta.get j| ≤ S := by
    intro j hj
    constructor
    · rcases Nat.lt_or_ge j k with hjk | hjk
      · exact (h9 j hjk).2.1.trans hkM
      · rw [f1 j hjk]; exact (hG.arrays.coef j hj).1
    · rcases lt_trichotomy j k with hjk | hjk | hjk
      · rw [abs_of_nonneg (h9 j hjk).1]; exact (h9 j hjk).2.2.trans hkM
      · subst hjk; exact (hbk hj).trans h.Stol
      · rw [f2 j hjk]; exact (hG.arrays.coef j hj).2
  have core := hI.qCore h2 h3 h4 h7 h8 (fun j hj => (h9 j hj).1) h10 f1 f2 hMS hS
  have k3 : (k : ℝ) ^ 3 ≤ (c.deg : ℝ) ^ 3 := pow_le_pow_left₀ (by linarith) kr 3
  have hE : 400 * (k : ℝ) ^ 3 * ε * S ≤ 400 * (c.deg : ℝ) ^ 3 * ε * S := by
    have := mul_le_mul_of_nonneg_right k3 (mul_nonneg e0 S0)
    linarith
  have hδS : 0 ≤ δ * S := mul_nonneg h.del0 S0
  have hD : backward k c.deg δ S c.tol ≤ 2 * c.tol + δ * S := by
    unfold backward
    split_ifs <;> linarith
  have hD0 : 0 ≤ backward k c.deg δ S c.tol := by
    unfold backward
    split_ifs <;> linarith
  have halo := h.alo
  have hbhi := h.bhi
  refine ⟨⟨?_, ?_⟩, ?_⟩
  · obtain ⟨l1, l2, l3⟩ := lanczosFl_len h1
    exact ⟨by rw [show (⟨s.alpha, s.beta, s.Q⟩ : MFFl n).alpha.len = _ from l1]; exact hG.arrays.aLen,
      by rw [show (⟨s.alpha, s.beta, s.Q⟩ : MFFl n).beta.len = _ from l2]; exact hG.arrays.bLen,
      by rw [show (⟨s.alpha, s.beta, s.Q⟩ : MFFl n).Q.len = _ from l3]; exact hG.arrays.qLen, hS⟩
  · refine hG.form.imp_right fun hF => ?_
    obtain ⟨th', Y', hY', hth'⟩ := core.setup hU hlam
    exact hF.next t0.le h2 h3 hbk f1 f2 (formIn_of_eigen hY' fun j => ⟨by linarith [(hth' j).1], by linarith [(hth' j).2]⟩)
  · have hrest : RestOk k c.deg G.alpha G.beta a b (backward k c.deg δ S c.tol) := by
      rcases hG.form with hF | hF
      · exact Or.inl (by omega)
      · exact hF.rest t0.le (by linarith) (by linarith)
    obtain ⟨hp, this⟩ := core.quad h.symm (h.quad t j) h.om0 h.om1 h.del0 hU hlam c.f h.ab (by linarith) (by linarith) hrest g (by omega) hΦ hη hR
    refine ⟨?_, _, _, rfl, hp.trans hR.fn2hi⟩
    refine this.trans (mul_le_mul_of_nonneg_left ?_ (sq_nonneg _))
    unfold flQuadErr
    have hba : 0 < b - a := sub_pos.2 h.ab
    have hΦ0 : 0 ≤ Φ := (abs_nonneg _).trans (hΦ a le_rfl h.ab.le)
    have hη0 : 0 ≤ η := (abs_nonneg _).trans (hη a le_rfl h.ab.le)
    have hεS : 0 ≤ ε * S := mul_nonneg e0 S0
    have g1 : 496 * (k : ℝ) ^ 3 * (ε * S) / (b - a) ≤ 496 * (c.deg : ℝ) ^ 3 * (ε * S) / (b - a) := by gcongr
    have g2 : 4 * (k : ℝ) * (33 * ε + 496 * k ^ 3 * (ε * S) / (b - a)) ≤ 4 * c.deg * (33 * ε + 496 * c.deg ^ 3 * (ε * S) / (b - a)) :=
      mul_le_mul (by linarith) (by linarith) (by positivity) (by positivity)
    have g3 : 32 * (k : ℝ) ^ 3 * backward k c.deg δ S c.tol / (b - a) ≤ 32 * (c.deg : ℝ) ^ 3 * (2 * c.tol + δ * S) / (b - a) := by gcongr
    have := mul_le_mul_of_nonneg_left (add_le_add g2 g3) (add_nonneg hΦ0 hη0)
    linarith

end Primate
