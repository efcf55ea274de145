import Verif.Lemmas.LanczosApi

/-!
# C38 (lanczos), C39, C40, C41
-/

noncomputable section

namespace Primate

open Matrix

variable {n : ℕ}

/-! ## C38: no access outside the buffers -/

/-- C38 (native code): for every operator, starting vector, tolerance and number of projections, with `deg <= len(alpha)`,
`deg + 1 <= len(beta)` and two columns (one suffices for `deg <= 1`), no access is outside a buffer; the entries of `alpha`
from `deg` on and of `beta` after `deg` are left alone. -/
theorem C38_native_in_bounds (A : Vec n → Vec n) (eps : ℝ) (v : Vec n) (deg : ℕ) (rtol : ℝ) (orth : ℤ)
    (alpha beta : Buf ℝ) (Q : Buf (Vec n)) (ha : deg ≤ alpha.len) (hb : deg + 1 ≤ beta.len)
    (hQ1 : 1 ≤ Q.len) (hQ2 : deg ≤ 1 ∨ 2 ≤ Q.len) :
    ∃ t, lanczosNative A eps v deg rtol orth alpha beta Q = .ok t ∧ t.alpha.len = alpha.len ∧
      t.beta.len = beta.len ∧ t.Q.len = Q.len ∧ (∀ i, deg ≤ i → t.alpha.get i = alpha.get i) ∧
      (∀ i, deg < i → t.beta.get i = beta.get i) ∧ t.beta.get 0 = 0 :=
  lanczosNative_safe A eps v deg rtol orth alpha beta Q ha hb hQ1 hQ2

/-- C38 (API): `lanczos` succeeds exactly when the degree is positive and the buffers that are passed have the sizes
asserted; otherwise it raises AssertionError.  In particular the native code never leaves its buffers. -/
theorem C38_lanczos_ok_iff (eps : ℝ) (a : LanczosArgs n) (k : ℤ)
    (hk : k = match a.deg with | none => (n : ℤ) | some d => min d n) :
    ((∃ r, lanczos eps a = .ok r) ↔ 0 < k ∧ (∀ b, a.alpha = some b → (b.len : ℤ) = k + 1) ∧
      (∀ b, a.beta = some b → (b.len : ℤ) = k + 1) ∧
      ∀ Q, a.Q = some Q → (Q.len : ℤ) = if a.return_basis then k else
        min k (max (if 0 ≤ a.orth ∧ a.orth ≤ k then a.orth else k) 2)) ∧
    ((¬ ∃ r, lanczos eps a = .ok r) → lanczos eps a = .error .assertion) := by
  have hdeg : lanczosDeg n a.deg = k := by rw [hk]; rfl
  have hncv : a.ncv = if a.return_basis then k else
        min k (max (if 0 ≤ a.orth ∧ a.orth ≤ k then a.orth else k) 2) := by
    unfold LanczosArgs.ncv lanczosNcv npClip LanczosArgs.orthE lanczosOrth
    rw [hdeg]
    split_ifs <;> first | rfl | omega
  by_cases hpos : 0 < k
  · have hb := ncv_bounds a (by rw [hdeg]; exact hpos)
    rw [hdeg] at hb
    have ea : (a.alphaB.len : ℤ) = k + 1 ↔ ∀ b, a.alpha = some b → (b.len : ℤ) = k + 1 := by
      unfold LanczosArgs.alphaB
      cases h : a.alpha with
      | none =>
        simp only [Option.getD_none, hdeg, reduceCtorEq, false_implies, implies_true, iff_true]
        show (((k + 1).toNat : ℕ) : ℤ) = _
        omega
      | some b => simp
    have eb : (a.betaB.len : ℤ) = k + 1 ↔ ∀ b, a.beta = some b → (b.len : ℤ) = k + 1 := by
      unfold LanczosArgs.betaB
      cases h : a.beta with
      | none =>
        simp only [Option.getD_none, hdeg, reduceCtorEq, false_implies, implies_true, iff_true]
        show (((k + 1).toNat : ℕ) : ℤ) = _
        omega
      | some b => simp
    have eQ : (a.QB.len : ℤ) = a.ncv ↔ ∀ b, a.Q = some b → (b.len : ℤ) = a.ncv := by
      unfold LanczosArgs.QB
      cases h : a.Q with
      | none =>
        simp only [Option.getD_none, reduceCtorEq, false_implies, implies_true, iff_true]
        show ((a.ncv.toNat : ℕ) : ℤ) = _
        omega
      | some b => simp
    rw [← hncv, ← ea, ← eb, ← eQ]
    by_cases hall : (a.alphaB.len : ℤ) = k + 1 ∧ (a.betaB.len : ℤ) = k + 1 ∧ (a.QB.len : ℤ) = a.ncv
    · have hok := lanczos_ok eps a (by rw [hdeg]; exact hpos) (by rw [hdeg]; exact hall.1)
        (by rw [hdeg]; exact hall.2.1) hall.2.2
      rw [hdeg] at hok
      obtain ⟨t, ht, -⟩ := lanczosNative_safe a.A eps a.v0 k.toNat a.rtol a.orthE a.alphaB a.betaB a.QB
        (by omega) (by omega) (by omega) (by omega)
      rw [Int.toNat_of_nonneg hpos.le] at ht
      rw [ht] at hok
      exact ⟨⟨fun _ => ⟨hpos, hall⟩, fun _ => ⟨_, hok⟩⟩, fun h => absurd ⟨_, hok⟩ h⟩
    · have herr : lanczos eps a = .error .assertion := lanczos_error eps a (by rw [hdeg]; tauto)
      refine ⟨⟨fun ⟨r, hr⟩ => ?_, fun h => absurd h.2 hall⟩, fun _ => herr⟩
      rw [herr] at hr
      cases hr
  · have herr : lanczos eps a = .error .assertion := lanczos_error eps a (by rw [hdeg]; left; omega)
    refine ⟨⟨fun ⟨r, hr⟩ => ?_, fun h => absurd h.1 hpos⟩, fun _ => herr⟩
    rw [herr] at hr
    cases hr

/-- C38: for deg >= 2 a single column is not enough; the assertion on the shape of `Q` is needed. -/
theorem C38_one_column_overruns :
    lanczosNative (n := 2) (fun x => ![x 1, x 0]) 0 ![1, 0] 2 (1 / 2) 0 (Buf.zeros 3) (Buf.zeros 3) (Buf.zeros 1) =
      .error .index := by
  have hn : normalized (![1, 0] : Vec 2) = ![1, 0] := by
    unfold normalized nrm
    have : (![1, 0] : Vec 2) ⬝ᵥ ![1, 0] = 1 := by simp [dotProduct]
    rw [this, if_pos one_pos, Real.sqrt_one]
    funext i
    simp
  have hs : Real.sqrt ((2 : ℕ) : ℝ) * (1 / 2) < 1 := by
    have h : Real.sqrt ((2 : ℕ) : ℝ) < 2 := by
      rw [Real.sqrt_lt' (by norm_num)]
      norm_num
    generalize Real.sqrt ((2 : ℕ) : ℝ) = x at *
    linarith
  have hv : (![(![1, 0] : Vec 2) 1, (![1, 0] : Vec 2) 0] : Vec 2) = ![0, 1] := by
    funext i; fin_cases i <;> simp
  have hd : (![1, 0] : Vec 2) ⬝ᵥ ![0, 1] = 0 := by simp [dotProduct]
  have hnn : nrm (![0, 1] : Vec 2) = 1 := by
    unfold nrm
    have : (![0, 1] : Vec 2) ⬝ᵥ ![0, 1] = 1 := by simp [dotProduct]
    rw [this, Real.sqrt_one]
  unfold lanczosNative
  simp only [Buf.zeros, Buf.write, bind, Except.bind]
  simp only [hn, Nat.cast_one, sub_self, le_refl, zero_lt_one, and_self, if_true, Int.toNat_zero,
    Function.update_idem]
  rw [if_pos (by norm_num)]
  simp only [show ((2 : ℤ).toNat) = 2 from rfl]
  unfold lanczosLoop
  simp only [Buf.read, Buf.write, bind, Except.bind, Nat.cast_one, le_refl, zero_lt_one, and_self, if_true,
    Int.toNat_zero, Function.update_self, Nat.cast_zero]
  rw [if_pos (by norm_num)]
  simp only [hv, hd, zero_smul, sub_zero]
  rw [if_pos (by norm_num)]
  simp only [reorth, lt_irrefl, if_false, hnn]
  rw [if_pos (by norm_num)]
  simp only
  rw [if_neg (by push Not; exact ⟨hs.le, by norm_num⟩), if_neg (by norm_num)]

/-- The hypotheses of `C38_native_in_bounds` are satisfiable. -/
example : ∃ t, lanczosNative (n := 2) (fun x => ![x 1, x 0]) 0 ![1, 0] (2 : ℕ) (1 / 2) 7 (Buf.zeros 3) (Buf.zeros 3)
    (Buf.zeros 2) = .ok t :=
  (C38_native_in_bounds _ _ _ 2 _ _ _ _ _ (by decide) (by decide) (by decide) (by decide)).imp fun _ h => h.1

/-! ## C39: the tridiagonal relation -/

/-- `lanczos` with default buffers, in full: `m` completed steps. -/
theorem C39_steps (M : Matrix (Fin n) (Fin n) ℝ) (hM : M.IsSymm) (eps : ℝ) (heps : 0 ≤ eps) (a : LanczosArgs n)
    (hA : a.A = M.mulVec) (hv : a.v0 ≠ 0) (hr : 0 < a.rtol) (h1 : a.alpha = none) (h2 : a.beta = none)
    (h3 : a.Q = none) (al be : List ℝ) (Q : Buf (Vec n))
    (h : lanczos eps a = .ok (.arrays al be, some Q)) :
    be.length + 1 = al.length ∧ Q.len = al.length ∧ ∃ m, 1 ≤ m ∧ m ≤ al.length ∧
      -- the off-diagonal entries of the completed steps
      (∀ i, i + 1 < m → Real.sqrt n * a.rtol ≤ be.getD i 0) ∧
      -- stopping early means a small residual, of norm `be[m-1]`
      (m < al.length → be.getD (m - 1) 0 < Real.sqrt n * a.rtol) ∧
      (m < al.length → ∃ r : Vec n, M *ᵥ Q.get (m - 1) = r + al.getD (m - 1) 0 • Q.get (m - 1) +
        (if m = 1 then 0 else be.getD (m - 2) 0 • Q.get (m - 2)) ∧ nrm r = be.getD (m - 1) 0 ∧
        ∀ i < m, Q.get i ⬝ᵥ r = 0) ∧
      -- orthonormal columns, the first along v0
      (∀ i < m, ∀ j < m, Q.get i ⬝ᵥ Q.get j = if i = j then 1 else 0) ∧
      nrm a.v0 • Q.get 0 = a.v0 ∧
      -- Qᵀ A Q = T
      (∀ i j : Fin al.length, (i : ℕ) < m → (j : ℕ) < m →
        Q.get i ⬝ᵥ (M *ᵥ Q.get j) = Spec.tridiagonal al be i j) ∧
      -- Krylov spaces
      (∀ j < m, Submodule.span ℝ (Q.get '' {i | i ≤ j}) = Spec.krylov M a.v0 j) ∧
      -- nothing is written after the last step
      ∀ j, m ≤ j → j < al.length → Q.get j = 0 ∧ al.getD j 0 = 0 ∧ be.getD j 0 = 0 := by
  have hsa : SelfAdj a.A := by rw [hA]; exact SelfAdj.mulVec hM
  have hd : 0 < lanczosDeg n a.deg := by
    by_contra hneg
    rw [lanczos_error eps a (Or.inl (not_lt.mp hneg))] at h
    cases h
  obtain ⟨J, s, hJ, hJ1, hJ2, hF, hs⟩ := lanczos_run eps heps a hsa hr hd h1 h2 h3
  rw [h] at hs
  obtain ⟨k, hk⟩ : ∃ k, k = (lanczosDeg n a.deg).toNat := ⟨_, rfl⟩
  rw [← hk] at hJ hJ2 hF
  have hfmt := Except.ok.inj hs
  have hsp : a.sparse_mat = false := by
    cases hsm : a.sparse_mat with
    | false => rfl
    | true =>
      exfalso
      unfold lanczosFmt at hfmt
      simp [hsm] at hfmt
  have hrb : a.return_basis = true := by
    cases hrb : a.return_basis with
    | true => rfl
    | false =>
      exfalso
      unfold lanczosFmt at hfmt
      simp [hrb, hsp] at hfmt
  unfold lanczosFmt at hfmt
  simp only [hsp, hrb, if_true, Bool.false_eq_true, if_false, ← hk, Prod.mk.injEq, Option.some.injEq,
    TriOut.arrays.injEq] at hfmt
  obtain ⟨⟨hal, hbe⟩, rfl⟩ := hfmt
  have hncv : a.ncv = k := by
    unfold LanczosArgs.ncv lanczosNcv
    rw [hrb, if_pos rfl]
    omega
  have hncv' : a.ncv.toNat = k := by omega
  rw [hncv'] at hF
  have hlen : al.length = k := by rw [hal]; simp
  have hblen : be.length = k - 1 := by rw [hbe]; simp
  have hag : ∀ i, al.getD i 0 = if i < k then s.alpha.get i else 0 := by
    intro i
    rw [hal]
    split_ifs with hi
    · rw [List.getD_eq_getElem?_getD, List.getElem?_map, List.getElem?_range hi]; rfl
    · rw [List.getD_eq_getElem?_getD, List.getElem?_eq_none (by simpa using hi)]; rfl
  have hbg : ∀ i, be.getD i 0 = if i + 1 < k then s.beta.get (i + 1) else 0 := by
    intro i
    rw [hbe]
    split_ifs with hi
    · rw [List.getD_eq_getElem?_getD, List.getElem?_map, List.getElem?_range (by omega)]; rfl
    · rw [List.getD_eq_getElem?_getD, List.getElem?_eq_none (by simp; omega)]; rfl
  have htol : 0 < Real.sqrt n * a.rtol := by
    have hn : 0 < n := by
      by_contra hn0
      have : n = 0 := by omega
      subst this
      exact hv (funext fun i => i.elim0)
    have : 0 < Real.sqrt n := Real.sqrt_pos.mpr (by exact_mod_cast hn)
    positivity
  rw [hA] at hJ1 hJ2 hF hsa
  have hb0 : ∀ i < J, lzb M.mulVec a.v0 (i + 1) ≠ 0 := fun i hi => (lt_of_lt_of_le htol (hJ1 i hi)).ne'
  have horth := lz_orthonormal M.mulVec a.v0 hsa hv J hb0
  have hQ : ∀ i ≤ J, s.Q.get i = lzq M.mulVec a.v0 i := by
    intro i hi
    have := hF.Qcol i hi (by show J < i + k; omega)
    rwa [show (Buf.zeros k : Buf (Vec n)).len = k from rfl, Nat.mod_eq_of_lt (by omega)] at this
  have hspan : ∀ j ≤ J, Submodule.span ℝ (s.Q.get '' {i | i ≤ j}) = Spec.krylov M a.v0 j := by
    intro j hj
    rw [← krylov_normalized M a.v0 hv, ← lz_krylov M a.v0 j fun i hi => hb0 i (by omega)]
    congr 1
    apply Set.image_congr
    intro i hi
    exact hQ i (le_trans hi hj)
  refine ⟨by omega, by rw [hF.Q_len, hlen]; rfl, J + 1, by omega, by omega, ?_, ?_, ?_, ?_, ?_, ?_, ?_, ?_⟩
  · intro i hi
    rw [hbg, if_pos (by omega), hF.beta_le _ (by omega)]
    exact hJ1 i (by omega)
  · intro hlt
    rw [hbg, if_pos (by omega), hF.beta_le _ (by omega)]
    rcases hJ2 with h' | h'
    · exact h'
    · omega
  · intro hlt
    refine ⟨lzr M.mulVec a.v0 J, ?_, ?_, ?_⟩
    · rw [Nat.add_sub_cancel, hQ J le_rfl, hag, if_pos (by omega), hF.alpha_le J le_rfl]
      show M.mulVec (lzq M.mulVec a.v0 J) = _
      rw [lz_rec M.mulVec a.v0 J, ← lzr_eq]
      have e : (if J + 1 = 1 then (0 : Vec n) else be.getD (J + 1 - 2) 0 • s.Q.get (J + 1 - 2)) =
          lzb M.mulVec a.v0 J • lzp M.mulVec a.v0 J := by
        cases J with
        | zero => rw [if_pos rfl, lzb_zero, zero_smul]
        | succ J =>
          rw [if_neg (by omega), show J + 1 + 1 - 2 = J by omega, hbg, if_pos (by omega),
            hF.beta_le _ (by omega), hQ J (by omega), lzp_succ]
      rw [e]
      abel
    · rw [Nat.add_sub_cancel, hbg, if_pos (by omega), hF.beta_le _ (by omega)]
      rfl
    · intro i hi
      rw [hQ i (by omega), dotProduct_comm]
      exact lzr_orth M.mulVec a.v0 hsa J hb0 i (by omega)
  · intro i hi j hj
    rw [hQ i (by omega), hQ j (by omega)]
    exact horth i j (by omega) (by omega)
  · rw [hQ 0 (by omega), lzq_zero]
    exact (normalized_smul a.v0).symm
  · intro i j hi hj
    rw [hQ i (by omega), hQ j (by omega)]
    show lzq M.mulVec a.v0 i ⬝ᵥ M.mulVec (lzq M.mulVec a.v0 j) = _
    rw [lz_rec M.mulVec a.v0 j, dotProduct_add, dotProduct_add, dotProduct_smul, dotProduct_smul, dotProduct_smul,
      horth i j (by omega) (by omega)]
    have e1 : lzb M.mulVec a.v0 (j + 1) • (lzq M.mulVec a.v0 i ⬝ᵥ lzq M.mulVec a.v0 (j + 1)) =
        if (i : ℕ) = j + 1 then lzb M.mulVec a.v0 (j + 1) else 0 := by
      rcases Nat.lt_or_ge (j : ℕ) J with hjJ | hjJ
      · rw [horth i (j + 1) (by omega) (by omega)]
        split_ifs <;> simp
      · obtain hjJ : (j : ℕ) = J := by omega
        rw [if_neg (by omega), ← dotProduct_smul, ← lzr_eq, dotProduct_comm]
        rw [hjJ]
        exact lzr_orth M.mulVec a.v0 hsa J hb0 i (by omega)
    have e2 : lzb M.mulVec a.v0 j • (lzq M.mulVec a.v0 i ⬝ᵥ lzp M.mulVec a.v0 j) =
        if (i : ℕ) + 1 = j then lzb M.mulVec a.v0 j else 0 := by
      rcases Nat.eq_zero_or_pos (j : ℕ) with hj0 | hj0
      · rw [hj0, lzb_zero, zero_smul, if_neg (by omega)]
      · obtain ⟨j', hj'⟩ : ∃ j', (j : ℕ) = j' + 1 := ⟨j - 1, by omega⟩
        rw [hj', lzp_succ, horth i j' (by omega) (by omega)]
        by_cases hij : (i : ℕ) = j'
        · rw [if_pos hij, if_pos (by omega), smul_eq_mul, mul_one]
        · rw [if_neg hij, if_neg (by omega), smul_zero]
    rw [e1, e2]
    unfold Spec.tridiagonal
    simp only [Matrix.of_apply, Fin.ext_iff]
    by_cases hij : (i : ℕ) = j
    · rw [if_pos hij, if_pos hij, if_neg (by omega), if_neg (by omega), hag, if_pos (by omega), hij,
        hF.alpha_le _ (by omega)]
      simp
    · rw [if_neg hij, if_neg hij, smul_zero, add_zero]
      by_cases hij1 : (i : ℕ) + 1 = j
      · rw [if_pos hij1, if_pos hij1, if_neg (by omega), hbg, if_pos (by omega), hF.beta_le _ (by omega), hij1, add_zero]
      · rw [if_neg hij1, if_neg hij1, zero_add]
        by_cases hij2 : (j : ℕ) + 1 = i
        · rw [if_pos hij2.symm, if_pos hij2, hbg, if_pos (by omega), hF.beta_le _ (by omega)]
        · rw [if_neg (fun e => hij2 e.symm), if_neg hij2]
  · intro j hj
    exact hspan j (by omega)
  · intro j hj1 hj2
    refine ⟨?_, ?_, ?_⟩
    · rw [hF.Qrest j (by omega) (by show j < k; omega)]
      split_ifs <;> rfl
    · rw [hag, if_pos (by omega), hF.alpha_gt j (by omega)]
      rfl
    · rw [hbg]
      split_ifs
      · rw [hF.beta_gt _ (by omega)]; rfl
      · rfl

/-- C39: if all off-diagonal entries returned reach the tolerance, the basis is orthonormal, starts with `v0/|v0|`, spans
the Krylov space, and `Qᵀ A Q` is the tridiagonal matrix that is returned. -/
theorem C39_lanczos_tridiagonal (M : Matrix (Fin n) (Fin n) ℝ) (hM : M.IsSymm) (eps : ℝ) (heps : 0 ≤ eps)
    (a : LanczosArgs n) (hA : a.A = M.mulVec) (hv : a.v0 ≠ 0) (hr : 0 < a.rtol) (h1 : a.alpha = none)
    (h2 : a.beta = none) (h3 : a.Q = none) (al be : List ℝ) (Q : Buf (Vec n))
    (h : lanczos eps a = .ok (.arrays al be, some Q)) (hb : ∀ x ∈ be, Real.sqrt n * a.rtol ≤ x) :
    let Qm : Matrix (Fin n) (Fin al.length) ℝ := Matrix.of fun i j => Q.get j i
    be.length + 1 = al.length ∧ Q.len = al.length ∧ (∀ x ∈ be, 0 < x) ∧ Qmᵀ * Qm = 1 ∧
      Qmᵀ * M * Qm = Spec.tridiagonal al be ∧ nrm a.v0 • Q.get 0 = a.v0 ∧
      ∀ j < al.length, Submodule.span ℝ (Q.get '' {i | i ≤ j}) = Spec.krylov M a.v0 j := by
  intro Qm
  obtain ⟨g1, g2, m, hm1, hm2, g3, g4, -, g5, g6, g7, g8, -⟩ :=
    C39_steps M hM eps heps a hA hv hr h1 h2 h3 al be Q h
  have hm : m = al.length := by
    by_contra hne
    have hlt := g4 (by omega)
    rw [List.getD_eq_getElem?_getD, List.getElem?_eq_getElem (by omega : m - 1 < be.length), Option.getD_some] at hlt
    exact absurd (hb _ (List.getElem_mem _)) (not_le.mpr hlt)
  have hn : 0 < n := by
    by_contra hn0
    have : n = 0 := by omega
    subst this
    exact hv (funext fun i => i.elim0)
  have htol : 0 < Real.sqrt n * a.rtol := by
    have : 0 < Real.sqrt n := Real.sqrt_pos.mpr (by exact_mod_cast hn)
    positivity
  refine ⟨g1, g2, fun x hx => lt_of_lt_of_le htol (hb x hx), ?_, ?_, g6, fun j hj => g8 j (by omega)⟩
  · ext i j
    rw [Matrix.mul_apply, Matrix.one_apply]
    have := g5 i (by omega) j (by omega)
    simp only [Fin.ext_iff]
    exact this
  · ext i j
    rw [Matrix.mul_assoc, ← g7 i j (by omega) (by omega)]
    rfl

/-- Two steps complete for the exchange matrix started at a unit vector. -/
example : ∃ al be Q, lanczos (n := 2) 0 ⟨(!![0, 1; 1, 0] : Matrix (Fin 2) (Fin 2) ℝ).mulVec, ![1, 0], none, 1 / 100, -1,
    false, true, none, none, none⟩ = .ok (.arrays al be, some Q) ∧ al.length = 2 ∧ be = [1] ∧
    ∀ x ∈ be, Real.sqrt (2 : ℕ) * (1 / 100) ≤ x := by
  have hsym : (!![0, 1; 1, 0] : Matrix (Fin 2) (Fin 2) ℝ).IsSymm := by
    ext i j; fin_cases i <;> fin_cases j <;> rfl
  have hs2 : Real.sqrt ((2 : ℕ) : ℝ) * (1 / 100) < 1 := by
    have h : Real.sqrt ((2 : ℕ) : ℝ) < 2 := by
      rw [Real.sqrt_lt' (by norm_num)]
      norm_num
    generalize Real.sqrt ((2 : ℕ) : ℝ) = x at *
    linarith
  obtain ⟨J, s, hJ, hJ1, hJ2, hF, hs⟩ := lanczos_run (n := 2) 0 le_rfl ⟨(!![0, 1; 1, 0] : Matrix (Fin 2) (Fin 2) ℝ).mulVec,
    ![1, 0], none, 1 / 100, -1, false, true, none, none, none⟩ (SelfAdj.mulVec hsym) (by norm_num)
    (by show (0 : ℤ) < (2 : ℕ); norm_num) rfl rfl rfl
  have hb : lzb (!![0, 1; 1, 0] : Matrix (Fin 2) (Fin 2) ℝ).mulVec ![1, 0] 1 = 1 := by
    have hn : normalized (![1, 0] : Vec 2) = ![1, 0] := by
      unfold normalized nrm
      have : (![1, 0] : Vec 2) ⬝ᵥ ![1, 0] = 1 := by simp [dotProduct]
      rw [this, if_pos one_pos, Real.sqrt_one]
      funext i
      simp
    have hw : lzw (!![0, 1; 1, 0] : Matrix (Fin 2) (Fin 2) ℝ).mulVec ![1, 0] 0 = ![0, 1] := by
      rw [lzw, lzq_zero, hn, lzb_zero, zero_smul, sub_zero]
      funext i; fin_cases i <;> simp [mulVec, dotProduct, Fin.sum_univ_two]
    have hrr : lzr (!![0, 1; 1, 0] : Matrix (Fin 2) (Fin 2) ℝ).mulVec ![1, 0] 0 = ![0, 1] := by
      rw [lzr, lza, hw, lzq_zero, hn]
      have : (![1, 0] : Vec 2) ⬝ᵥ ![0, 1] = 0 := by simp [dotProduct]
      rw [this, zero_smul, sub_zero]
    rw [lzb_succ, hrr]
    unfold nrm
    have : (![0, 1] : Vec 2) ⬝ᵥ ![0, 1] = 1 := by simp [dotProduct]
    rw [this, Real.sqrt_one]
  have hbe : s.beta.get 1 = 1 := by
    rw [hF.beta_le 1 (by omega)]
    exact hb
  refine ⟨_, _, _, hs, by simp [lanczosDeg], by simp [lanczosDeg, hbe], ?_⟩
  intro x hx
  have : x = 1 := by simpa [lanczosDeg, hbe] using hx
  rw [this]
  exact hs2.le

/-! ## C40: the coefficients do not depend on orth or on the number of stored vectors -/

/-- C40: with default buffers the coefficients depend only on the operator, the starting vector, the degree and the
tolerance; not on `orth`, `return_basis`, the number of stored vectors or the machine epsilon. -/
theorem C40_orth_independent (eps eps' : ℝ) (heps : 0 ≤ eps) (heps' : 0 ≤ eps') (M : Matrix (Fin n) (Fin n) ℝ)
    (hM : M.IsSymm) (a a' : LanczosArgs n) (hA : a.A = M.mulVec) (hA' : a'.A = M.mulVec) (hv : a'.v0 = a.v0)
    (hd : a'.deg = a.deg) (hr : a'.rtol = a.rtol) (hrt : 0 < a.rtol) (hsp : a'.sparse_mat = a.sparse_mat)
    (h1 : a.alpha = none) (h2 : a.beta = none) (h3 : a.Q = none)
    (h1' : a'.alpha = none) (h2' : a'.beta = none) (h3' : a'.Q = none) :
    (lanczos eps a).map Prod.fst = (lanczos eps' a').map Prod.fst := by
  by_cases hdeg : 0 < lanczosDeg n a.deg
  · have hsa : SelfAdj M.mulVec := SelfAdj.mulVec hM
    obtain ⟨J, s, hJ, hJ1, hJ2, hF, hs⟩ := lanczos_run eps heps a (hA ▸ hsa) hrt hdeg h1 h2 h3
    obtain ⟨J', s', hJ', hJ1', hJ2', hF', hs'⟩ := lanczos_run eps' heps' a' (hA' ▸ hsa) (hr ▸ hrt) (hd ▸ hdeg) h1' h2' h3'
    rw [hd] at hJ'
    rw [hA', hv, hr] at hJ1'
    rw [hA', hv, hr, hd] at hJ2'
    rw [hA', hv, hd] at hF'
    rw [hA] at hJ1 hJ2 hF
    have hJJ : J = J' := by
      rcases lt_trichotomy J J' with hlt | heq | hgt
      · exfalso
        rcases hJ2 with hx | hx
        · exact absurd (hJ1' J hlt) (not_le.mpr hx)
        · omega
      · exact heq
      · exfalso
        rcases hJ2' with hx | hx
        · exact absurd (hJ1 J' hgt) (not_le.mpr hx)
        · omega
    subst hJJ
    have ha : s.alpha.get = s'.alpha.get := by
      funext i
      by_cases hi : i ≤ J
      · rw [hF.alpha_le i hi, hF'.alpha_le i hi]
      · rw [hF.alpha_gt i (by omega), hF'.alpha_gt i (by omega)]
    have hb : s.beta.get = s'.beta.get := by
      funext i
      by_cases hi : i ≤ J + 1
      · rw [hF.beta_le i hi, hF'.beta_le i hi]
      · rw [hF.beta_gt i (by omega), hF'.beta_gt i (by omega)]
    have hbl : s.beta = s'.beta := by
      have hl : s.beta.len = s'.beta.len := by rw [hF.beta_len, hF'.beta_len]
      cases hsb : s.beta with
      | mk l g =>
        cases hsb' : s'.beta with
        | mk l' g' =>
          rw [hsb, hsb'] at hb hl
          cases hb
          cases hl
          rfl
    have hal : s.alpha = s'.alpha := by
      have hl : s.alpha.len = s'.alpha.len := by rw [hF.alpha_len, hF'.alpha_len]
      cases hsb : s.alpha with
      | mk l g =>
        cases hsb' : s'.alpha with
        | mk l' g' =>
          rw [hsb, hsb'] at ha hl
          cases ha
          cases hl
          rfl
    rw [hs, hs']
    show Except.ok (lanczosFmt a s).1 = Except.ok (lanczosFmt a' s').1
    congr 1
    unfold lanczosFmt
    rw [hsp, hd, hal, hbl]
    cases a.sparse_mat <;> rfl
  · rw [lanczos_error eps a (Or.inl (not_lt.mp hdeg)), lanczos_error eps' a' (Or.inl (by rw [hd]; exact not_lt.mp hdeg))]

/-- The hypotheses of `C40_orth_independent` hold for different `orth` and `return_basis`. -/
example (M : Matrix (Fin 3) (Fin 3) ℝ) (hM : M.IsSymm) (v : Vec 3) :
    (lanczos 0 ⟨M.mulVec, v, none, 1 / 100, -1, false, true, none, none, none⟩).map Prod.fst =
      (lanczos 0 ⟨M.mulVec, v, none, 1 / 100, 0, false, false, none, none, none⟩).map Prod.fst :=
  C40_orth_independent 0 0 le_rfl le_rfl M hM _ _ rfl rfl rfl rfl rfl (by norm_num) rfl rfl rfl rfl rfl rfl rfl

/-! ## C41: output formats -/

/-- C41: for every operator, the arrays have `min(deg, n)` and one fewer entries, and the sparse matrix returned for the
same arguments is the symmetric tridiagonal matrix with these entries. -/
theorem C41_formats (eps : ℝ) (a : LanczosArgs n) (al be : List ℝ) (B : Option (Buf (Vec n)))
    (h : lanczos eps { a with sparse_mat := false } = .ok (.arrays al be, B)) :
    (al.length : ℤ) = (match a.deg with | none => (n : ℤ) | some d => min d n) ∧ be.length + 1 = al.length ∧
      (B.isSome ↔ a.return_basis = true) ∧
      ∃ T : ℕ → ℕ → ℝ, lanczos eps { a with sparse_mat := true } = .ok (.sparse al.length T, B) ∧
        ∀ i j : Fin al.length, T i j = Spec.tridiagonal al be i j := by
  have hex : ∃ r, lanczos eps { a with sparse_mat := false } = .ok r := ⟨_, h⟩
  rw [(C38_lanczos_ok_iff eps { a with sparse_mat := false } _ rfl).1] at hex
  obtain ⟨hpos, hex1, hex2, hex3⟩ := hex
  have hpos' : 0 < lanczosDeg n a.deg := hpos
  by_cases hl : (a.alphaB.len : ℤ) = lanczosDeg n a.deg + 1 ∧ (a.betaB.len : ℤ) = lanczosDeg n a.deg + 1 ∧
      (a.QB.len : ℤ) = a.ncv
  · have e1 := lanczos_ok eps { a with sparse_mat := false } hpos' hl.1 hl.2.1 hl.2.2
    have e2 := lanczos_ok eps { a with sparse_mat := true } hpos' hl.1 hl.2.1 hl.2.2
    rw [h] at e1
    have e1 : Except.ok (TriOut.arrays al be, B) = (lanczosNative a.A eps a.v0 (lanczosDeg n a.deg) a.rtol a.orthE a.alphaB
      a.betaB a.QB).map (lanczosFmt { a with sparse_mat := false }) := e1
    have e2 : lanczos eps { a with sparse_mat := true } = (lanczosNative a.A eps a.v0 (lanczosDeg n a.deg) a.rtol a.orthE
      a.alphaB a.betaB a.QB).map (lanczosFmt { a with sparse_mat := true }) := e2
    obtain ⟨k, hk⟩ : ∃ k : ℕ, lanczosDeg n a.deg = k := ⟨_, (Int.toNat_of_nonneg hpos'.le).symm⟩
    obtain ⟨s, hs, -, hbl, -⟩ := lanczosNative_safe a.A eps a.v0 k a.rtol a.orthE a.alphaB a.betaB a.QB
      (by omega) (by omega) (by have := (ncv_bounds a hpos').1; omega) (by have := (ncv_bounds a hpos').2.2; omega)
    rw [hk] at e1 e2
    rw [hs] at e1 e2
    have e1 : Except.ok (TriOut.arrays al be, B) = Except.ok (lanczosFmt { a with sparse_mat := false } s) := e1
    have e2 : lanczos eps { a with sparse_mat := true } = Except.ok (lanczosFmt { a with sparse_mat := true } s) := e2
    have e1 := Except.ok.inj e1
    unfold lanczosFmt at e1 e2
    simp only [Bool.false_eq_true, if_false, if_true, hk, Int.toNat_natCast, Prod.mk.injEq, TriOut.arrays.injEq] at e1 e2
    obtain ⟨⟨rfl, rfl⟩, rfl⟩ := e1
    have hlen : ((List.range k).map s.alpha.get).length = k := by simp
    have hag : ∀ i, i < k → ((List.range k).map s.alpha.get).getD i 0 = s.alpha.get i := by
      intro i hi
      rw [List.getD_eq_getElem?_getD, List.getElem?_map, List.getElem?_range hi]; rfl
    have hbg : ∀ i, i + 1 < k → ((List.range (k - 1)).map fun i => s.beta.get (i + 1)).getD i 0 = s.beta.get (i + 1) := by
      intro i hi
      rw [List.getD_eq_getElem?_getD, List.getElem?_map, List.getElem?_range (by omega)]; rfl
    refine ⟨?_, by simp; omega, ?_, ?_⟩
    · rw [hlen, ← hk]; rfl
    · cases a.return_basis <;> simp
    · refine ⟨spdiags3 (rollLeft s.beta) s.alpha s.beta, ?_, ?_⟩
      · rw [hlen]; exact e2
      · intro i j
        have hi : (i : ℕ) < k := by have := i.2; simpa using this
        have hj : (j : ℕ) < k := by have := j.2; simpa using this
        have hblen : s.beta.len = k + 1 := by omega
        unfold spdiags3 rollLeft Spec.tridiagonal
        simp only [Matrix.of_apply, Fin.ext_iff, hblen]
        by_cases hij : (i : ℕ) = j
        · rw [if_neg (by omega), if_pos hij, if_neg (by omega), if_pos hij, hag _ hi, hij]; simp
        · rw [if_neg hij, if_neg hij, add_zero]
          by_cases hij1 : (i : ℕ) + 1 = j
          · rw [if_neg (by omega), if_pos (by omega), if_pos hij1, hbg _ (by omega), hij1, zero_add]
          · rw [if_neg hij1, if_neg (by omega : ¬ ((j : ℕ) : ℤ) = (i : ℕ) + 1), add_zero]
            by_cases hij2 : (j : ℕ) + 1 = i
            · rw [if_pos (by omega), if_pos hij2, hbg _ (by omega), Nat.mod_eq_of_lt (by omega)]
            · rw [if_neg (by omega), if_neg hij2]
  · exfalso
    have := lanczos_error eps { a with sparse_mat := false } (by
      right
      by_contra hcon
      apply hl
      push Not at hcon
      exact hcon)
    rw [this] at h
    cases h

/-- C41: a degree that is not positive raises AssertionError. -/
theorem C41_nonpositive_degree (eps : ℝ) (a : LanczosArgs n) (d : ℤ) (hd : a.deg = some d) (h : d ≤ 0) :
    lanczos eps a = .error .assertion := by
  apply lanczos_error
  left
  rw [hd]
  show min d (n : ℤ) ≤ 0
  omega

/-- C41: the caller's starting vector, and every other array of the caller, keeps its contents. -/
theorem C41_caller_arrays (eps : ℝ) (a : LanczosArgs n) (heap heap' : ℕ → Vec n) (loc fresh : ℕ)
    (r : TriOut × Option (Buf (Vec n))) (h : lanczosHeap eps a heap loc fresh = .ok (r, heap')) :
    lanczos eps { a with v0 := heap loc } = .ok r ∧ ∀ l, l ≠ fresh → heap' l = heap l := by
  unfold lanczosHeap at h
  simp only [Function.update_self] at h
  cases hl : lanczos eps { a with v0 := heap loc } with
  | error e => rw [hl] at h; cases h
  | ok r' =>
    rw [hl] at h
    simp only at h
    split at h
    · cases h
    · simp only [Except.ok.injEq, Prod.mk.injEq] at h
      obtain ⟨rfl, rfl⟩ := h
      refine ⟨rfl, fun l hlne => ?_⟩
      rw [Function.update_of_ne hlne, Function.update_of_ne hlne]

/-- `C41_formats` applies whenever the degree is positive. -/
example (M : Matrix (Fin 3) (Fin 3) ℝ) (v : Vec 3) :
    ∃ al be B, lanczos 0 ⟨M.mulVec, v, some 2, 1 / 100, -1, false, true, none, none, none⟩ = .ok (.arrays al be, B) := by
  obtain ⟨⟨r, B⟩, hr⟩ := (C38_lanczos_ok_iff 0 ⟨M.mulVec, v, some 2, 1 / 100, -1, false, true, none, none, none⟩ 2
    (by norm_num)).1.mpr ⟨by norm_num, by simp, by simp, by simp⟩
  obtain ⟨al, be, B', h⟩ := lanczos_arrays _ _ rfl _ hr
  exact ⟨al, be, B', h ▸ hr⟩

end Primate
