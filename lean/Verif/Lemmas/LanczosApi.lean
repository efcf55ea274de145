import Verif.Lemmas.LanczosMat
import Verif.Spec.Lanczos

/-! Lemmas on `lanczos`. -/

noncomputable section

namespace Primate

open Matrix

variable {n : ℕ}

/-- The native recurrence performs no access outside its buffers, whatever the operator and the values. -/
theorem lanczosNative_safe (A : Vec n → Vec n) (eps : ℝ) (v : Vec n) (deg : ℕ) (rtol : ℝ) (orth : ℤ)
    (alpha beta : Buf ℝ) (Q : Buf (Vec n)) (ha : deg ≤ alpha.len) (hb : deg + 1 ≤ beta.len)
    (hQ1 : 1 ≤ Q.len) (hQ2 : deg ≤ 1 ∨ 2 ≤ Q.len) :
    ∃ t, lanczosNative A eps v deg rtol orth alpha beta Q = .ok t ∧ t.alpha.len = alpha.len ∧
      t.beta.len = beta.len ∧ t.Q.len = Q.len ∧ (∀ i, deg ≤ i → t.alpha.get i = alpha.get i) ∧
      (∀ i, deg < i → t.beta.get i = beta.get i) ∧ t.beta.get 0 = 0 := by
  unfold lanczosNative
  have w1 := Q.write_ok' ((Q.len : ℤ) - 1) 0 (by omega) (by omega)
  have w2 := Buf.write_ok (⟨Q.len, Function.update Q.get ((Q.len : ℤ) - 1).toNat 0⟩ : Buf (Vec n)) 0 (normalized v)
    (by show 0 < Q.len; omega)
  have w3 := beta.write_ok 0 0 (by omega)
  rw [Nat.cast_zero] at w2 w3
  simp only [w1, w2, w3, bind, Except.bind, Int.toNat_natCast]
  obtain ⟨t, ht, hT⟩ := lanczosLoop_safe A deg (Real.sqrt n * rtol) eps orth deg 0
    ⟨v, alpha, ⟨beta.len, Function.update beta.get 0 0⟩, ⟨Q.len, Function.update (Function.update Q.get
      ((Q.len : ℤ) - 1).toNat 0) 0 (normalized v)⟩, (Q.len : ℤ) - 1, 0, 1⟩ (by omega) ha hb hQ1 hQ2
    (by show (0 : ℤ) ≤ (Q.len : ℤ) - 1; omega) (by show (Q.len : ℤ) - 1 < (Q.len : ℤ); omega) le_rfl
    (by show (0 : ℤ) < (Q.len : ℤ); omega)
    (fun h2 => ⟨by norm_num, by
      have h2' : 2 ≤ Q.len := h2
      show (1 : ℤ) < (Q.len : ℤ)
      omega⟩)
  refine ⟨t, ht, hT.alpha_len, hT.beta_len, hT.Q_len, hT.alpha_out, fun i hi => ?_, ?_⟩
  · rw [hT.beta_out i hi]
    exact Function.update_of_ne (by omega) _ _
  · rw [hT.beta_zero]
    exact Function.update_self (0 : ℕ) (0 : ℝ) beta.get

/-- The parts of the result of `lanczos`, from the final state. -/
def lanczosFmt (a : LanczosArgs n) (s : LState n) : TriOut × Option (Buf (Vec n)) :=
  let deg := lanczosDeg n a.deg
  let basis := if a.return_basis then some s.Q else none
  if a.sparse_mat then (.sparse deg.toNat (spdiags3 (rollLeft s.beta) s.alpha s.beta), basis)
  else (.arrays ((List.range deg.toNat).map s.alpha.get)
    ((List.range (deg.toNat - 1)).map fun i => s.beta.get (i + 1)), basis)

/-- The buffers used by `lanczos`. -/
def LanczosArgs.alphaB (a : LanczosArgs n) : Buf ℝ := a.alpha.getD (Buf.zeros (lanczosDeg n a.deg + 1).toNat)
def LanczosArgs.betaB (a : LanczosArgs n) : Buf ℝ := a.beta.getD (Buf.zeros (lanczosDeg n a.deg + 1).toNat)
def LanczosArgs.orthE (a : LanczosArgs n) : ℤ := lanczosOrth (lanczosDeg n a.deg) a.orth
def LanczosArgs.ncv (a : LanczosArgs n) : ℤ := lanczosNcv (lanczosDeg n a.deg) a.orthE a.return_basis
def LanczosArgs.QB (a : LanczosArgs n) : Buf (Vec n) := a.Q.getD (Buf.zeros a.ncv.toNat)

theorem lanczos_eq (eps : ℝ) (a : LanczosArgs n) : lanczos eps a =
    if lanczosDeg n a.deg ≤ 0 then .error .assertion
    else if (a.alphaB.len : ℤ) ≠ lanczosDeg n a.deg + 1 then .error .assertion
    else if (a.betaB.len : ℤ) ≠ lanczosDeg n a.deg + 1 then .error .assertion
    else if (a.QB.len : ℤ) ≠ a.ncv then .error .assertion
    else (lanczosNative a.A eps a.v0 (lanczosDeg n a.deg) a.rtol a.orthE a.alphaB a.betaB a.QB).map
      (lanczosFmt a) := by
  have h : (match lanczosNative a.A eps a.v0 (lanczosDeg n a.deg) a.rtol a.orthE a.alphaB a.betaB a.QB with
      | .error e => .error e
      | .ok s =>
        let basis := if a.return_basis then some s.Q else none
        if a.sparse_mat then
          Except.ok (TriOut.sparse (lanczosDeg n a.deg).toNat (spdiags3 (rollLeft s.beta) s.alpha s.beta), basis)
        else
          .ok (.arrays ((List.range (lanczosDeg n a.deg).toNat).map s.alpha.get)
            ((List.range ((lanczosDeg n a.deg).toNat - 1)).map fun i => s.beta.get (i + 1)), basis)) =
      (lanczosNative a.A eps a.v0 (lanczosDeg n a.deg) a.rtol a.orthE a.alphaB a.betaB a.QB).map
        (lanczosFmt a) := by
    cases lanczosNative a.A eps a.v0 (lanczosDeg n a.deg) a.rtol a.orthE a.alphaB a.betaB a.QB with
    | error e => rfl
    | ok s =>
      show _ = Except.ok (lanczosFmt a s)
      unfold lanczosFmt
      cases a.sparse_mat <;> rfl
  rw [← h]
  rfl

theorem lanczos_error (eps : ℝ) (a : LanczosArgs n) (h : lanczosDeg n a.deg ≤ 0 ∨
    (a.alphaB.len : ℤ) ≠ lanczosDeg n a.deg + 1 ∨ (a.betaB.len : ℤ) ≠ lanczosDeg n a.deg + 1 ∨
    (a.QB.len : ℤ) ≠ a.ncv) : lanczos eps a = .error .assertion := by
  rw [lanczos_eq]
  split_ifs with h1 h2 h3 h4
  · rfl
  · rfl
  · rfl
  · rfl
  · tauto

theorem lanczos_ok (eps : ℝ) (a : LanczosArgs n) (h1 : 0 < lanczosDeg n a.deg)
    (h2 : (a.alphaB.len : ℤ) = lanczosDeg n a.deg + 1) (h3 : (a.betaB.len : ℤ) = lanczosDeg n a.deg + 1)
    (h4 : (a.QB.len : ℤ) = a.ncv) :
    lanczos eps a = (lanczosNative a.A eps a.v0 (lanczosDeg n a.deg) a.rtol a.orthE a.alphaB a.betaB a.QB).map
      (lanczosFmt a) := by
  rw [lanczos_eq, if_neg (not_le.mpr h1), if_neg (not_not.mpr h2), if_neg (not_not.mpr h3), if_neg (not_not.mpr h4)]

theorem lanczos_arrays (eps : ℝ) (a : LanczosArgs n) (hs : a.sparse_mat = false) (r : TriOut × Option (Buf (Vec n)))
    (h : lanczos eps a = .ok r) : ∃ al be B, r = (.arrays al be, B) := by
  rw [lanczos_eq] at h
  split_ifs at h
  generalize lanczosNative a.A eps a.v0 (lanczosDeg n a.deg) a.rtol a.orthE a.alphaB a.betaB a.QB = q at h
  cases q with
  | error e => cases h
  | ok s =>
    have h := Except.ok.inj h
    unfold lanczosFmt at h
    simp only [hs, Bool.false_eq_true, if_false] at h
    exact ⟨_, _, _, h.symm⟩

theorem ncv_bounds (a : LanczosArgs n) (h1 : 0 < lanczosDeg n a.deg) :
    1 ≤ a.ncv ∧ a.ncv ≤ lanczosDeg n a.deg ∧ (lanczosDeg n a.deg ≤ 1 ∨ 2 ≤ a.ncv) := by
  unfold LanczosArgs.ncv lanczosNcv npClip
  split_ifs
  · omega
  · omega

/-- The default buffers are fresh. -/
theorem lanczos_run (eps : ℝ) (heps : 0 ≤ eps) (a : LanczosArgs n) (hA : SelfAdj a.A) (hr : 0 < a.rtol)
    (hd : 0 < lanczosDeg n a.deg) (h1 : a.alpha = none) (h2 : a.beta = none) (h3 : a.Q = none) :
    ∃ J s, J < (lanczosDeg n a.deg).toNat ∧ (∀ i < J, Real.sqrt n * a.rtol ≤ lzb a.A a.v0 (i + 1)) ∧
      (lzb a.A a.v0 (J + 1) < Real.sqrt n * a.rtol ∨ J + 1 = (lanczosDeg n a.deg).toNat) ∧
      LFinal a.A a.v0 (Buf.zeros ((lanczosDeg n a.deg).toNat + 1)) (Buf.zeros ((lanczosDeg n a.deg).toNat + 1))
        (Buf.zeros a.ncv.toNat) J s ∧ lanczos eps a = .ok (lanczosFmt a s) := by
  have hn : 0 < n := by
    unfold lanczosDeg at hd
    cases hdd : a.deg <;> rw [hdd] at hd <;> simp only at hd <;> omega
  have ea : a.alphaB = Buf.zeros ((lanczosDeg n a.deg).toNat + 1) := by
    unfold LanczosArgs.alphaB
    rw [h1, Option.getD_none]
    congr 1
    omega
  have eb : a.betaB = Buf.zeros ((lanczosDeg n a.deg).toNat + 1) := by
    unfold LanczosArgs.betaB
    rw [h2, Option.getD_none]
    congr 1
    omega
  have eQ : a.QB = Buf.zeros a.ncv.toNat := by
    unfold LanczosArgs.QB
    rw [h3, Option.getD_none]
  obtain ⟨hc1, hc2, hc3⟩ := ncv_bounds a hd
  have ezr : ∀ k, (Buf.zeros k : Buf ℝ).len = k := fun _ => rfl
  have ezv : ∀ k, (Buf.zeros k : Buf (Vec n)).len = k := fun _ => rfl
  have hok := lanczos_ok eps a hd (by rw [ea, ezr]; push_cast; omega) (by rw [eb, ezr]; push_cast; omega)
    (by rw [eQ, ezv]; omega)
  obtain ⟨J, s, hJ, hJ1, hJ2, hJ3, hJ4⟩ := lanczosNative_run a.A hA eps heps a.v0 (lanczosDeg n a.deg).toNat (by omega)
    a.rtol hr hn a.orthE (Buf.zeros ((lanczosDeg n a.deg).toNat + 1)) (Buf.zeros ((lanczosDeg n a.deg).toNat + 1))
    (Buf.zeros a.ncv.toNat) (Or.inr fun l _ _ => rfl) (by rw [ezr]; omega) (by rw [ezr])
    (by rw [ezv]; omega) (by rw [ezv]; omega)
  refine ⟨J, s, hJ, hJ1, hJ2, hJ4, ?_⟩
  rw [hok, ea, eb, eQ]
  rw [Int.toNat_of_nonneg hd.le] at hJ3
  rw [hJ3]
  rfl

/-- The Lanczos vectors span the Krylov spaces. -/
theorem lz_krylov (M : Matrix (Fin n) (Fin n) ℝ) (v : Vec n) (j : ℕ) (hb : ∀ i < j, lzb M.mulVec v (i + 1) ≠ 0) :
    Submodule.span ℝ ((fun i => lzq M.mulVec v i) '' {i | i ≤ j}) = Spec.krylov M (normalized v) j := by
  have hmono : ∀ (g : ℕ → Vec n) (a b : ℕ), a ≤ b →
      Submodule.span ℝ (g '' {i | i ≤ a}) ≤ Submodule.span ℝ (g '' {i | i ≤ b}) := fun g a b hab =>
    Submodule.span_mono (Set.image_mono fun i hi => le_trans hi hab)
  have hmem : ∀ (g : ℕ → Vec n) (a b : ℕ), a ≤ b → g a ∈ Submodule.span ℝ (g '' {i | i ≤ b}) := fun g a b hab =>
    Submodule.subset_span ⟨a, hab, rfl⟩
  induction j with
  | zero =>
    unfold Spec.krylov
    have : {i : ℕ | i ≤ 0} = {0} := by ext i; simp
    rw [this, Set.image_singleton, Set.image_singleton, pow_zero, one_mulVec, lzq_zero]
  | succ j ih =>
    have ih := ih fun i hi => hb i (by omega)
    -- images under M
    have hMK : ∀ x ∈ Spec.krylov M (normalized v) j, M *ᵥ x ∈ Spec.krylov M (normalized v) (j + 1) := by
      intro x hx
      induction hx using Submodule.span_induction with
      | mem x hx =>
        obtain ⟨i, hi, rfl⟩ := hx
        have := hmem (fun i => (M ^ i) *ᵥ normalized v) (i + 1) (j + 1) (by have : i ≤ j := hi; omega)
        simp only [pow_succ', ← mulVec_mulVec] at this
        simpa only [pow_succ', ← mulVec_mulVec, Spec.krylov] using this
      | zero => rw [mulVec_zero]; exact Submodule.zero_mem _
      | add x y _ _ hx hy => rw [mulVec_add]; exact Submodule.add_mem _ hx hy
      | smul c x _ hx => rw [mulVec_smul]; exact Submodule.smul_mem _ c hx
    have hp : ∀ i ≤ j, lzp M.mulVec v i ∈ Submodule.span ℝ ((fun i => lzq M.mulVec v i) '' {i | i ≤ j}) := by
      intro i hi
      cases i with
      | zero => rw [lzp_zero]; exact Submodule.zero_mem _
      | succ i => rw [lzp_succ]; exact hmem _ i j (by omega)
    have hMq : ∀ x ∈ Submodule.span ℝ ((fun i => lzq M.mulVec v i) '' {i | i ≤ j}),
        M *ᵥ x ∈ Submodule.span ℝ ((fun i => lzq M.mulVec v i) '' {i | i ≤ j + 1}) := by
      intro x hx
      induction hx using Submodule.span_induction with
      | mem x hx =>
        obtain ⟨i, hi, rfl⟩ := hx
        have hi : i ≤ j := hi
        show M.mulVec (lzq M.mulVec v i) ∈ _
        rw [lz_rec M.mulVec v i]
        refine Submodule.add_mem _ (Submodule.add_mem _ ?_ ?_) ?_
        · exact Submodule.smul_mem _ _ (hmono _ j (j + 1) (by omega) (hp i hi))
        · exact Submodule.smul_mem _ _ (hmem _ i (j + 1) (by omega))
        · exact Submodule.smul_mem _ _ (hmem _ (i + 1) (j + 1) (by omega))
      | zero => rw [mulVec_zero]; exact Submodule.zero_mem _
      | add x y _ _ hx hy => rw [mulVec_add]; exact Submodule.add_mem _ hx hy
      | smul c x _ hx => rw [mulVec_smul]; exact Submodule.smul_mem _ c hx
    apply le_antisymm
    · rw [Submodule.span_le]
      rintro x ⟨i, hi, rfl⟩
      rcases Nat.lt_or_ge i (j + 1) with hij | hij
      · have : lzq M.mulVec v i ∈ Spec.krylov M (normalized v) j := by
          rw [← ih]
          exact hmem _ i j (by omega)
        exact hmono _ j (j + 1) (by omega) this
      · obtain rfl : i = j + 1 := by have : i ≤ j + 1 := hi; omega
        have h1 : M *ᵥ lzq M.mulVec v j ∈ Spec.krylov M (normalized v) (j + 1) := by
          apply hMK
          rw [← ih]
          exact hmem _ j j le_rfl
        have h2 : lzr M.mulVec v j ∈ Spec.krylov M (normalized v) (j + 1) := by
          unfold lzr lzw
          have hle : Spec.krylov M (normalized v) j ≤ Spec.krylov M (normalized v) (j + 1) :=
            hmono _ j (j + 1) (by omega)
          refine Submodule.sub_mem _ (Submodule.sub_mem _ h1 ?_) ?_
          · refine Submodule.smul_mem _ _ (hle ?_)
            rw [← ih]
            exact hp j le_rfl
          · refine Submodule.smul_mem _ _ (hle ?_)
            rw [← ih]
            exact hmem _ j j le_rfl
        show lzq M.mulVec v (j + 1) ∈ _
        rw [lzq_succ]
        exact Submodule.smul_mem _ _ h2
    · unfold Spec.krylov
      rw [Submodule.span_le]
      rintro x ⟨i, hi, rfl⟩
      rcases Nat.lt_or_ge i (j + 1) with hij | hij
      · have : (M ^ i) *ᵥ normalized v ∈ Spec.krylov M (normalized v) j := hmem _ i j (by omega)
        rw [← ih] at this
        exact hmono _ j (j + 1) (by omega) this
      · obtain rfl : i = j + 1 := by have : i ≤ j + 1 := hi; omega
        show (M ^ (j + 1)) *ᵥ normalized v ∈ _
        rw [pow_succ', ← mulVec_mulVec]
        apply hMq
        rw [ih]
        exact hmem _ j j le_rfl

theorem krylov_normalized (M : Matrix (Fin n) (Fin n) ℝ) (v : Vec n) (hv : v ≠ 0) (j : ℕ) :
    Spec.krylov M (normalized v) j = Spec.krylov M v j := by
  have hn : nrm v ≠ 0 := fun h => hv (nrm_eq_zero h)
  apply le_antisymm
  · refine Submodule.span_le.mpr ?_
    rintro x ⟨i, hi, rfl⟩
    have h1 : normalized v = (nrm v)⁻¹ • v := by
      have := congrArg (fun x => (nrm v)⁻¹ • x) (normalized_smul v)
      simp only [smul_smul, inv_mul_cancel₀ hn, one_smul] at this
      exact this.symm
    show (M ^ i) *ᵥ normalized v ∈ _
    rw [h1, mulVec_smul]
    exact Submodule.smul_mem _ _ (Submodule.subset_span ⟨i, hi, rfl⟩)
  · refine Submodule.span_le.mpr ?_
    rintro x ⟨i, hi, rfl⟩
    show (M ^ i) *ᵥ v ∈ _
    have h1 : (M ^ i) *ᵥ v = nrm v • ((M ^ i) *ᵥ normalized v) := by
      rw [← mulVec_smul, ← normalized_smul v]
    rw [h1]
    exact Submodule.smul_mem _ _ (Submodule.subset_span ⟨i, hi, rfl⟩)

end Primate
