import Verif.Lemmas.MatFun

/-! `MatrixFunction` on symmetric matrices. -/

noncomputable section

namespace Primate

open Matrix

variable {n : ℕ}

/-! ## What calls preserve -/

theorem native_mf (M : MF n) (hM : M.WF) (eps : ℝ) (x : Vec n) (Q : Buf (Vec n)) (hQ : Q.len = M.deg) :
    ∃ s, lanczosNative M.A eps x M.deg M.rtol M.orth M.alpha M.beta Q = .ok s ∧ s.alpha.len = M.alpha.len ∧
      s.beta.len = M.beta.len ∧ s.Q.len = M.deg ∧ s.beta.get 0 = 0 := by
  obtain ⟨s, h1, h2, h3, h4, -, -, h7⟩ := lanczosNative_safe M.A eps x M.deg M.rtol M.orth M.alpha M.beta Q
    (by rw [hM.alpha_len]; omega) (by rw [hM.beta_len]) (by rw [hQ]; exact hM.dpos)
    (by rw [hQ]; have := hM.dpos; omega)
  exact ⟨s, h1, h2, h3, by rw [h4, hQ], h7⟩

theorem MF.WF.upd {M : MF n} (hM : M.WF) {s : LState n} (ha : s.alpha.len = M.alpha.len)
    (hb : s.beta.len = M.beta.len) (hQ : s.Q.len = M.deg) (nodes weights : ℕ → ℝ) :
    ({ M with alpha := s.alpha, beta := s.beta, Q := s.Q, nodes := nodes, weights := weights } : MF n).WF :=
  ⟨hM.npos, hM.dpos, hM.dle, by show s.alpha.len = _; rw [ha, hM.alpha_len], by show s.beta.len = _; rw [hb, hM.beta_len], hQ⟩

theorem quadCol_preserves (K : TriKernels) (eps : ℝ) (fuel : ℕ) (M M' : MF n) (hM : M.WF) (x : Vec n) (y : Option ℝ)
    (h : M.quadCol K eps fuel x = some (.ok (M', y))) : M.Same M' ∧ M'.WF := by
  obtain ⟨s, hs, ha, hb, hQ, -⟩ := native_mf M hM eps x M.Q hM.Q_len
  unfold MF.quadCol at h
  simp only [hs] at h
  split at h
  · cases h
  · cases h
  · simp only [Option.some.injEq, Except.ok.injEq, Prod.mk.injEq] at h
    obtain ⟨rfl, -⟩ := h
    exact ⟨⟨rfl, rfl, rfl, rfl, rfl⟩, hM.upd ha hb hQ M.nodes M.weights⟩
  · simp only [Option.some.injEq, Except.ok.injEq, Prod.mk.injEq] at h
    obtain ⟨rfl, -⟩ := h
    exact ⟨⟨rfl, rfl, rfl, rfl, rfl⟩, hM.upd ha hb hQ _ _⟩

theorem matvec_preserves (K : TriKernels) (eps : ℝ) (fuel : ℕ) (M M' : MF n) (hM : M.WF) (x : Vec n)
    (y : Option (Vec n)) (h : M.matvec K eps fuel x = some (.ok (M', y))) : M.Same M' ∧ M'.WF := by
  obtain ⟨s, hs, ha, hb, hQ, -⟩ := native_mf M hM eps x M.zeroQ hM.Q_len
  unfold MF.matvec at h
  simp only [hs] at h
  split at h
  · cases h
  · cases h
  · simp only [Option.some.injEq, Except.ok.injEq, Prod.mk.injEq] at h
    obtain ⟨rfl, -⟩ := h
    exact ⟨⟨rfl, rfl, rfl, rfl, rfl⟩, hM.upd ha hb hQ M.nodes M.weights⟩
  · simp only [Option.some.injEq, Except.ok.injEq, Prod.mk.injEq] at h
    obtain ⟨rfl, -⟩ := h
    exact ⟨⟨rfl, rfl, rfl, rfl, rfl⟩, hM.upd ha hb hQ M.nodes M.weights⟩

theorem MF.Same.trans {M M' M'' : MF n} (h : M.Same M') (h' : M'.Same M'') : M.Same M'' :=
  ⟨h'.A.trans h.A, h'.f.trans h.f, h'.deg.trans h.deg, h'.orth.trans h.orth, h'.rtol.trans h.rtol⟩

theorem MF.Same.refl (M : MF n) : M.Same M := ⟨rfl, rfl, rfl, rfl, rfl⟩

theorem quad_preserves (K : TriKernels) (eps : ℝ) (fuel : ℕ) (xs : List (Vec n)) : ∀ (M M' : MF n) (_ : M.WF)
    (ys : List (Option ℝ)) (_ : M.quad K eps fuel xs = some (.ok (M', ys))), M.Same M' ∧ M'.WF := by
  induction xs with
  | nil =>
    intro M M' hM ys h
    unfold MF.quad at h
    cases h
    exact ⟨.refl M, hM⟩
  | cons x xs ih =>
    intro M M' hM ys h
    unfold MF.quad at h
    split at h
    · cases h
    · cases h
    · rename_i M1 y1 h1
      split at h
      · cases h
      · cases h
      · rename_i M2 ys2 h2
        simp only [Option.some.injEq, Except.ok.injEq, Prod.mk.injEq] at h
        obtain ⟨rfl, -⟩ := h
        obtain ⟨s1, w1⟩ := quadCol_preserves K eps fuel M M1 hM x y1 h1
        obtain ⟨s2, w2⟩ := ih M1 _ w1 ys2 h2
        exact ⟨s1.trans s2, w2⟩

theorem init_wf (A : Vec n → Vec n) (f : ℝ → ℝ) (deg orth : ℤ) (M : MF n) (hn : 0 < n)
    (h : MF.init A f deg orth = .ok M) : M.WF ∧ M.A = A ∧ M.f = f ∧ M.deg = (min deg (n : ℤ)).toNat ∧ M.rtol = 1e-8 ∧
      M.orth = (if orth < 0 ∨ orth > (min deg (n : ℤ)) then min deg (n : ℤ) else orth) := by
  unfold MF.init at h
  split_ifs at h with hd
  simp only [Except.ok.injEq] at h
  subst h
  refine ⟨⟨hn, ?_, ?_, rfl, rfl, rfl⟩, rfl, rfl, rfl, rfl, ?_⟩
  · show 0 < (min deg (n : ℤ)).toNat
    omega
  · show (min deg (n : ℤ)).toNat ≤ n
    omega
  · show (if orth < 0 ∨ orth > ((min deg (n : ℤ)).toNat : ℤ) then ((min deg (n : ℤ)).toNat : ℤ) else orth) = _
    rw [Int.toNat_of_nonneg (by omega)]

/-! ## Symmetric matrices -/

theorem clean_stop (B : Matrix (Fin n) (Fin n) ℝ) (x : Vec n) (deg J : ℕ)
    (tol : ℝ) (htol : 0 < tol) (hJ1 : ∀ i < J, tol ≤ lzb B.mulVec x (i + 1))
    (hJ2 : lzb B.mulVec x (J + 1) < tol ∨ J + 1 = deg) (hJ : J < deg) (alpha0 beta0 : Buf ℝ) (Q0 : Buf (Vec n)) (s : LState n)
    (hF : LFinal B.mulVec x alpha0 beta0 Q0 J s) (hc : Spec.CleanStop tol deg s.beta.get) :
    J + 1 = deg ∨ lzb B.mulVec x (J + 1) = 0 := by
  by_cases hd : J + 1 = deg
  · exact Or.inl hd
  · right
    have hlt : lzb B.mulVec x (J + 1) < tol := by tauto
    obtain ⟨l, hl1, hl2, hl3⟩ := hc (J + 1) (by omega) (by omega) (by rw [hF.beta_le _ le_rfl]; exact hlt)
    rw [hF.beta_le l hl2] at hl3
    by_cases hlJ : l = J + 1
    · rw [← hlJ]; exact hl3
    · exfalso
      have := hJ1 (l - 1) (by omega)
      rw [Nat.sub_add_cancel hl1, hl3] at this
      exact absurd this (not_le.mpr htol)

/-- The end of a run as a Krylov relation. -/
theorem kdata_of_clean (B : Matrix (Fin n) (Fin n) ℝ) (hB : B.IsSymm) (x : Vec n) (hx : x ≠ 0) (deg J : ℕ)
    (tol : ℝ) (htol : 0 < tol) (hJ : J < deg) (hJ1 : ∀ i < J, tol ≤ lzb B.mulVec x (i + 1))
    (alpha0 beta0 : Buf ℝ) (Q0 : Buf (Vec n)) (s : LState n)
    (hF : LFinal B.mulVec x alpha0 beta0 Q0 J s) (hc : J + 1 = deg ∨ lzb B.mulVec x (J + 1) = 0) :
    KData B (normalized x) (qcols B.mulVec x J deg) (triMat deg s.alpha.get s.beta.get)
      (if J + 1 = deg then lzb B.mulVec x deg • lzq B.mulVec x deg else 0) :=
  kdata_of_final B hB x hx deg J _ _ hJ (fun i hi => (lt_of_lt_of_le htol (hJ1 i hi)).ne') hF.alpha_le hF.beta_le hc

/-- The number of steps is determined by the data. -/
theorem steps_unique (b : ℕ → ℝ) (deg J J' : ℕ) (tol : ℝ) (hJ : J < deg) (hJ' : J' < deg)
    (h1 : ∀ i < J, tol ≤ b (i + 1)) (h1' : ∀ i < J', tol ≤ b (i + 1)) (h2 : b (J + 1) < tol ∨ J + 1 = deg)
    (h2' : b (J' + 1) < tol ∨ J' + 1 = deg) : J = J' := by
  rcases lt_trichotomy J J' with h | h | h
  · rcases h2 with h2 | h2
    · exact absurd (h1' J h) (not_le.mpr h2)
    · omega
  · exact h
  · rcases h2' with h2' | h2'
    · exact absurd (h1 J' h) (not_le.mpr h2')
    · omega

theorem tol_pos (hn : 0 < n) {rtol : ℝ} (hr : 0 < rtol) : 0 < Real.sqrt n * rtol := by
  have : 0 < Real.sqrt n := Real.sqrt_pos.mpr (by exact_mod_cast hn)
  positivity

/-- `quad` on one column for a symmetric matrix, when no stale column is read. -/
theorem quadCol_run (K : TriKernels) (hK : EighOk K) (eps : ℝ) (heps : 0 ≤ eps) (fuel : ℕ) (M : MF n) (hM : M.WF)
    (B : Matrix (Fin n) (Fin n) ℝ) (hB : B.IsSymm) (hA : M.A = B.mulVec) (hr : 0 < M.rtol) (hf : FreshQ M.orth M.Q)
    (x : Vec n) :
    ∃ (J : ℕ) (s : LState n) (theta : Fin M.deg → ℝ) (Y : Matrix (Fin M.deg) (Fin M.deg) ℝ), J < M.deg ∧
      (∀ i < J, Real.sqrt n * M.rtol ≤ lzb B.mulVec x (i + 1)) ∧
      (lzb B.mulVec x (J + 1) < Real.sqrt n * M.rtol ∨ J + 1 = M.deg) ∧
      LFinal B.mulVec x M.alpha M.beta M.Q J s ∧
      IsEigh (triMat M.deg s.alpha.get s.beta.get) theta Y ∧
      M.quadCol K eps fuel x = some (.ok
        ({ M with alpha := s.alpha, beta := s.beta, Q := s.Q, nodes := ofFin theta, weights := ofFin (gwWeights Y) },
          some ((∑ a, M.f (theta a) * Y ⟨0, hM.dpos⟩ a ^ 2) * nrm x ^ 2))) := by
  obtain ⟨J, s, hJ, hJ1, hJ2, hs, hF⟩ := lanczosNative_run M.A (hA ▸ SelfAdj.mulVec hB) eps heps x M.deg hM.dpos M.rtol hr
    hM.npos M.orth M.alpha M.beta M.Q hf (by rw [hM.alpha_len]; omega) (by rw [hM.beta_len]) (by rw [hM.Q_len]; exact hM.dpos)
    (by rw [hM.Q_len]; have := hM.dpos; omega)
  obtain ⟨theta, Y, hY, hq⟩ := quadCol_of_native K hK eps fuel M hM x s hs hF.alpha_len hF.beta_len
    (by rw [hF.beta_le 0 (Nat.zero_le _), lzb_zero])
  rw [hA] at hJ1 hJ2 hF
  exact ⟨J, s, theta, Y, hJ, hJ1, hJ2, hF, hY, hq⟩

theorem zeroQ_fresh (M : MF n) (hM : M.WF) (l : ℕ) : M.zeroQ.get l = 0 := by
  unfold MF.zeroQ
  simp only [hM.Q_len]
  rw [if_pos (by omega)]

/-- `matvec` for a symmetric matrix. -/
theorem matvec_run (K : TriKernels) (hK : EighOk K) (eps : ℝ) (heps : 0 ≤ eps) (fuel : ℕ) (M : MF n) (hM : M.WF)
    (B : Matrix (Fin n) (Fin n) ℝ) (hB : B.IsSymm) (hA : M.A = B.mulVec) (hr : 0 < M.rtol) (x : Vec n) :
    ∃ (J : ℕ) (s : LState n) (theta : Fin M.deg → ℝ) (Y : Matrix (Fin M.deg) (Fin M.deg) ℝ), J < M.deg ∧
      (∀ i < J, Real.sqrt n * M.rtol ≤ lzb B.mulVec x (i + 1)) ∧
      (lzb B.mulVec x (J + 1) < Real.sqrt n * M.rtol ∨ J + 1 = M.deg) ∧
      LFinal B.mulVec x M.alpha M.beta M.zeroQ J s ∧
      IsEigh (triMat M.deg s.alpha.get s.beta.get) theta Y ∧
      M.matvec K eps fuel x = some (.ok ({ M with alpha := s.alpha, beta := s.beta, Q := s.Q },
        some (nrm x • (qcols B.mulVec x J M.deg *ᵥ
          fun i => ∑ a, Y i a * (M.f (theta a) * Y ⟨0, hM.dpos⟩ a))))) := by
  have hQl : M.zeroQ.len = M.deg := hM.Q_len
  obtain ⟨J, s, hJ, hJ1, hJ2, hs, hF⟩ := lanczosNative_run M.A (hA ▸ SelfAdj.mulVec hB) eps heps x M.deg hM.dpos M.rtol hr
    hM.npos M.orth M.alpha M.beta M.zeroQ (Or.inr fun l _ _ => zeroQ_fresh M hM l) (by rw [hM.alpha_len]; omega)
    (by rw [hM.beta_len]) (by rw [hQl]; exact hM.dpos) (by rw [hQl]; have := hM.dpos; omega)
  obtain ⟨theta, Y, hY, hq⟩ := matvec_of_native K hK eps fuel M hM x s hs
  rw [hA] at hJ1 hJ2 hF
  refine ⟨J, s, theta, Y, hJ, hJ1, hJ2, hF, hY, ?_⟩
  rw [hq]
  congr 4
  funext i
  rw [Pi.smul_apply]
  simp only [Matrix.mulVec, dotProduct, smul_eq_mul]
  rw [Finset.mul_sum]
  refine Finset.sum_congr rfl fun l _ => ?_
  have hcol : s.Q.get l = (qcols B.mulVec x J M.deg).col l := by
    rw [qcols_col]
    split_ifs with hl
    · have := hF.Qcol l hl (by rw [hQl]; omega)
      rwa [hQl, Nat.mod_eq_of_lt l.2] at this
    · rw [hF.Qrest l (by omega) (by rw [hQl]; exact l.2), zeroQ_fresh M hM]
      split_ifs <;> rfl
  rw [hcol]
  show nrm x * qcols B.mulVec x J M.deg i l * _ = _
  ring

/-- Scaling of quadratic forms. -/
theorem quadForm_normalized (N : Matrix (Fin n) (Fin n) ℝ) (x : Vec n) :
    Spec.quadForm N (normalized x) * nrm x ^ 2 = Spec.quadForm N x := by
  unfold Spec.quadForm
  conv_rhs => rw [normalized_smul x, mulVec_smul, dotProduct_smul, smul_dotProduct]
  simp only [smul_eq_mul]
  ring

theorem mulVec_normalized (N : Matrix (Fin n) (Fin n) ℝ) (x : Vec n) :
    nrm x • (N *ᵥ normalized x) = N *ᵥ x := by
  rw [← mulVec_smul, ← normalized_smul]

/-! ## Numerical range -/

section hull

variable {k : ℕ} {B : Matrix (Fin n) (Fin n) ℝ} {lam : Fin n → ℝ} {U : Matrix (Fin n) (Fin n) ℝ}

theorem IsEigh.quad_sum (_ : IsEigh B lam U) (f : ℝ → ℝ) (u : Vec n) :
    u ⬝ᵥ (Spec.matFun lam U f *ᵥ u) = ∑ a, f (lam a) * (Uᵀ *ᵥ u) a ^ 2 := by
  unfold Spec.matFun
  rw [← mulVec_mulVec, ← mulVec_mulVec, dotProduct_mulVec, ← mulVec_transpose]
  show ∑ a, (Uᵀ *ᵥ u) a * _ = _
  refine Finset.sum_congr rfl fun a _ => ?_
  rw [mulVec_diagonal]
  show _ * (f (lam a) * _) = _
  ring

theorem IsEigh.norm_sum (h : IsEigh B lam U) (u : Vec n) : ∑ a, (Uᵀ *ᵥ u) a ^ 2 = u ⬝ᵥ u := by
  have h1 : (Uᵀ *ᵥ u) ⬝ᵥ (Uᵀ *ᵥ u) = u ⬝ᵥ u := by
    rw [dotProduct_mulVec, vecMul_transpose, mulVec_mulVec, h.mul_transpose, one_mulVec]
  rw [← h1]
  exact Finset.sum_congr rfl fun a _ => by ring

theorem IsEigh.matFun_id (h : IsEigh B lam U) : Spec.matFun lam U (fun x => x) = B := by
  have := h.matFun_poly Polynomial.X
  simpa using this

/-- Rayleigh quotients of unit vectors lie between the extreme eigenvalues. -/
theorem IsEigh.rayleigh (h : IsEigh B lam U) (u : Vec n) (hu : u ⬝ᵥ u = 1) :
    (∃ a, lam a ≤ u ⬝ᵥ (B *ᵥ u)) ∧ ∃ b, u ⬝ᵥ (B *ᵥ u) ≤ lam b := by
  have hs := h.norm_sum u
  rw [hu] at hs
  have hq : u ⬝ᵥ (B *ᵥ u) = ∑ a, lam a * (Uᵀ *ᵥ u) a ^ 2 := by
    conv_lhs => rw [← h.matFun_id]
    exact h.quad_sum _ u
  constructor
  · by_contra hc
    push Not at hc
    have h1 : ∑ a, (u ⬝ᵥ (B *ᵥ u)) * (Uᵀ *ᵥ u) a ^ 2 = u ⬝ᵥ (B *ᵥ u) := by rw [← Finset.mul_sum, hs, mul_one]
    have h2 : ∑ a, (lam a - u ⬝ᵥ (B *ᵥ u)) * (Uᵀ *ᵥ u) a ^ 2 = 0 := by
      simp only [sub_mul, Finset.sum_sub_distrib]
      rw [h1, ← hq, sub_self]
    have h3 := (Finset.sum_eq_zero_iff_of_nonneg (fun a _ => mul_nonneg (sub_nonneg.mpr (hc a).le) (sq_nonneg _))).mp h2
    have h4 : ∑ a, (Uᵀ *ᵥ u) a ^ 2 = 0 := Finset.sum_eq_zero fun a ha => by
      rcases mul_eq_zero.mp (h3 a ha) with h | h
      · exact absurd h (sub_pos.mpr (hc a)).ne'
      · exact h
    rw [hs] at h4
    exact one_ne_zero h4
  · by_contra hc
    push Not at hc
    have h1 : ∑ a, (u ⬝ᵥ (B *ᵥ u)) * (Uᵀ *ᵥ u) a ^ 2 = u ⬝ᵥ (B *ᵥ u) := by rw [← Finset.mul_sum, hs, mul_one]
    have h2 : ∑ a, (u ⬝ᵥ (B *ᵥ u) - lam a) * (Uᵀ *ᵥ u) a ^ 2 = 0 := by
      simp only [sub_mul, Finset.sum_sub_distrib]
      rw [h1, ← hq, sub_self]
    have h3 := (Finset.sum_eq_zero_iff_of_nonneg (fun a _ => mul_nonneg (sub_nonneg.mpr (hc a).le) (sq_nonneg _))).mp h2
    have h4 : ∑ a, (Uᵀ *ᵥ u) a ^ 2 = 0 := Finset.sum_eq_zero fun a ha => by
      rcases mul_eq_zero.mp (h3 a ha) with h | h
      · exact absurd h (sub_pos.mpr (hc a)).ne'
      · exact h
    rw [hs] at h4
    exact one_ne_zero h4

theorem IsEigh.unit_col (h : IsEigh B lam U) (a : Fin n) : U.col a ⬝ᵥ U.col a = 1 := by
  have := congrFun (congrFun h.1 a) a
  rw [Matrix.mul_apply, Matrix.one_apply_eq] at this
  exact this

theorem IsEigh.col_eq (h : IsEigh B lam U) (a : Fin n) : B *ᵥ U.col a = lam a • U.col a := by
  funext i
  have := congrFun (congrFun h.2 i) a
  rw [Matrix.mul_apply, Matrix.mul_diagonal, mul_comm] at this
  exact this

/-- Ritz values of an orthonormal basis. -/
theorem KData.ritz {q0 r : Vec n} {Q : Matrix (Fin n) (Fin k) ℝ} {T : Matrix (Fin k) (Fin k) ℝ}
    {theta : Fin k → ℝ} {Y : Matrix (Fin k) (Fin k) ℝ} (h : KData B q0 Q T r) (hU : IsEigh B lam U)
    (hY : IsEigh T theta Y) (hQ : Qᵀ * Q = 1) (hr : ∀ j, (fun i => Q i j) ⬝ᵥ r = 0) (a : Fin k) :
    (∃ b, lam b ≤ theta a) ∧ ∃ c, theta a ≤ lam c := by
  have hQr : Qᵀ *ᵥ r = 0 := funext fun j => hr j
  have hu : (Q *ᵥ Y.col a) ⬝ᵥ (Q *ᵥ Y.col a) = 1 := by
    rw [dotProduct_mulVec, ← mulVec_transpose, mulVec_mulVec, hQ, one_mulVec, hY.unit_col]
  have hq : (Q *ᵥ Y.col a) ⬝ᵥ (B *ᵥ (Q *ᵥ Y.col a)) = theta a := by
    rw [h.rel, dotProduct_add, dotProduct_smul, dotProduct_mulVec, ← mulVec_transpose, mulVec_mulVec, hQ, one_mulVec,
      hY.col_eq, dotProduct_smul, hY.unit_col]
    rw [dotProduct_comm (Q *ᵥ Y.col a) r, dotProduct_mulVec, ← mulVec_transpose, hQr, zero_dotProduct]
    simp
  have := hU.rayleigh _ hu
  rwa [hq] at this

theorem IsEigh.matFun_norm (h : IsEigh B lam U) (g : ℝ → ℝ) (eps : ℝ) (hg : ∀ a, |g (lam a)| ≤ eps) (x : Vec n) :
    (Spec.matFun lam U g *ᵥ x) ⬝ᵥ (Spec.matFun lam U g *ᵥ x) ≤ eps ^ 2 * (x ⬝ᵥ x) := by
  have e1 : (Spec.matFun lam U g *ᵥ x) ⬝ᵥ (Spec.matFun lam U g *ᵥ x) =
      ∑ a, (g (lam a) * (Uᵀ *ᵥ x) a) ^ 2 := by
    unfold Spec.matFun
    rw [← mulVec_mulVec, ← mulVec_mulVec, dotProduct_mulVec, ← mulVec_transpose, mulVec_mulVec, h.1, one_mulVec]
    show ∑ a, _ * _ = _
    refine Finset.sum_congr rfl fun a _ => ?_
    rw [mulVec_diagonal]
    show (g (lam a) * _) * (g (lam a) * _) = _
    ring
  rw [e1, ← h.norm_sum x, Finset.mul_sum]
  refine Finset.sum_le_sum fun a _ => ?_
  rw [mul_pow]
  refine mul_le_mul_of_nonneg_right ?_ (sq_nonneg _)
  exact sq_le_sq' (abs_le.mp (hg a)).1 (abs_le.mp (hg a)).2

end hull

theorem sum_sq_add_le (u v : Vec n) : ∑ i, (u i - v i) ^ 2 ≤ 2 * (u ⬝ᵥ u) + 2 * (v ⬝ᵥ v) := by
  simp only [dotProduct, Finset.mul_sum]
  rw [← Finset.sum_add_distrib]
  exact Finset.sum_le_sum fun i _ => by nlinarith [sq_nonneg (u i + v i)]

end Primate
