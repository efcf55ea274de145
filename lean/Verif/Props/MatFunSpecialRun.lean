import Verif.Props.MatFunSpecial

/-!
# C155: multiples of the identity, `hutch`, and the inverse after an early stop
-/

noncomputable section

namespace Primate

open Matrix Spec

variable {n : ℕ}

/-! ## Multiples of the identity: every history, every `orth` -/

theorem orthLoop_zero (tol : ℝ) (U : Buf (Vec n)) (diff : ℤ) (c : ℕ) : ∀ i : ℤ, 0 ≤ i → i < U.len → orthLoop tol U diff c i 0 = .ok (0 : Vec n) := by
  induction c with
  | zero => exact fun _ _ _ => rfl
  | succ c ih =>
    intro i h0 h1
    have hpos : (0 : ℤ) < U.len := by omega
    unfold orthLoop
    simp only [U.read_ok' i h0 h1, bind, Except.bind, zero_dotProduct, zero_div, zero_smul, sub_zero, ite_self]
    refine ih _ ?_ ?_
    · rw [cmod_eq _ _ hpos]; exact Int.emod_nonneg _ (by omega)
    · rw [cmod_eq _ _ hpos]; exact Int.emod_lt_of_pos _ hpos

theorem reorth_zero (eps : ℝ) (orth : ℤ) (Q : Buf (Vec n)) (hQ : 0 < Q.len) (c : ℤ) : reorth eps orth 0 Q c = .ok (0 : Vec n) := by
  have hpos : (0 : ℤ) < Q.len := by omega
  unfold reorth orthVector
  split_ifs
  all_goals first
    | rfl
    | exact orthLoop_zero _ _ _ _ _ (by rw [cmod_eq _ _ hpos]; exact Int.emod_nonneg _ (by omega)) (by rw [cmod_eq _ _ hpos]; exact Int.emod_lt_of_pos _ hpos)

/-- The native code on `c I` stops after the first step, whatever the buffers hold. -/
theorem native_scalar (c eps : ℝ) (x : Vec n) (deg : ℕ) (hd : 0 < deg) (rtol : ℝ) (hr : 0 < rtol) (hn : 0 < n) (orth : ℤ) (alpha beta : Buf ℝ) (Q : Buf (Vec n))
    (ha : deg ≤ alpha.len) (hb : deg + 1 ≤ beta.len) (hQ : 0 < Q.len) :
    ∃ s, lanczosNative (fun v => c • v) eps x deg rtol orth alpha beta Q = .ok s ∧ s.alpha.len = alpha.len ∧ s.beta.len = beta.len ∧
      s.alpha.get 0 = normalized x ⬝ᵥ (c • normalized x) ∧ (x ≠ 0 → s.alpha.get 0 = c) ∧ (∀ i, 0 < i → s.alpha.get i = alpha.get i) ∧ s.beta.get 0 = 0 ∧ s.beta.get 1 = 0 ∧
      ∀ i, 1 < i → s.beta.get i = beta.get i := by
  obtain ⟨q, hq⟩ : ∃ q, q = normalized x := ⟨_, rfl⟩
  have hqq : x ≠ 0 → q ⬝ᵥ q = 1 := fun hx => by rw [hq]; exact normalized_unit hx
  have hv : c • q - (q ⬝ᵥ (c • q)) • q = 0 := by
    by_cases hx : x = 0
    · have : q = 0 := by
        rw [hq, hx]
        unfold normalized
        rw [zero_dotProduct, if_neg (lt_irrefl 0)]
      rw [this, smul_zero, smul_zero, sub_zero]
    · rw [dotProduct_smul, hqq hx, smul_eq_mul, mul_one, sub_self]
  have htol : (0 : ℝ) < Real.sqrt n * rtol := tol_pos hn hr
  obtain ⟨L, gq⟩ := Q
  obtain ⟨la, ga⟩ := alpha
  obtain ⟨lb, gb⟩ := beta
  simp only at ha hb hQ
  have w1 : Buf.write (⟨L, gq⟩ : Buf (Vec n)) ((L : ℤ) - 1) 0 = .ok ⟨L, Function.update gq (L - 1) 0⟩ := by
    rw [Buf.write_ok' _ _ _ (by omega) (by show _ < (L : ℤ); omega), show ((L : ℤ) - 1).toNat = L - 1 by omega]
  have w2 : Buf.write (⟨L, Function.update gq (L - 1) 0⟩ : Buf (Vec n)) 0 q = .ok ⟨L, Function.update (Function.update gq (L - 1) 0) 0 q⟩ := by
    rw [Buf.write_ok' _ _ _ (by omega) (by show _ < (L : ℤ); omega)]
    rfl
  have w3 : Buf.write (⟨lb, gb⟩ : Buf ℝ) 0 0 = .ok ⟨lb, Function.update gb 0 0⟩ := by
    rw [Buf.write_ok' _ _ _ (by omega) (by show _ < (lb : ℤ); omega)]
    rfl
  obtain ⟨deg, rfl⟩ : ∃ k, deg = k + 1 := ⟨deg - 1, by omega⟩
  unfold lanczosNative
  simp only [← hq, bind, Except.bind, w1, w2, w3, Int.toNat_natCast]
  unfold lanczosLoop
  obtain ⟨Qb, hQb⟩ : ∃ Qb : Buf (Vec n), Qb = ⟨L, Function.update (Function.update gq (L - 1) 0) 0 q⟩ := ⟨_, rfl⟩
  have r1 : Qb.read 0 = .ok q := by
    rw [hQb, Buf.read_ok' _ _ (by omega) (by show _ < (L : ℤ); omega)]
    simp
  obtain ⟨p, r3⟩ : ∃ p, Qb.read ((L : ℤ) - 1) = .ok p := by
    rw [hQb, Buf.read_ok' _ _ (by omega) (by show _ < (L : ℤ); omega)]
    exact ⟨_, rfl⟩
  have r2 : Buf.read (⟨lb, Function.update gb 0 0⟩ : Buf ℝ) ((0 : ℕ) : ℤ) = .ok 0 := by
    rw [Buf.read_ok _ _ (by show 0 < lb; omega)]
    simp
  have w4 : Buf.write (⟨la, ga⟩ : Buf ℝ) ((0 : ℕ) : ℤ) (q ⬝ᵥ (c • q)) = .ok ⟨la, Function.update ga 0 (q ⬝ᵥ (c • q))⟩ :=
    Buf.write_ok _ _ _ (by show 0 < la; omega)
  have w5 : Buf.write (⟨lb, Function.update gb 0 0⟩ : Buf ℝ) (((0 : ℕ) : ℤ) + 1) 0 = .ok ⟨lb, Function.update (Function.update gb 0 0) 1 0⟩ := by
    have := Buf.write_ok (⟨lb, Function.update gb 0 0⟩ : Buf ℝ) 1 0 (by show 1 < lb; omega)
    exact this
  rw [← hQb]
  have hre := reorth_zero eps orth Qb (by rw [hQb]; exact hQ) 0
  simp only [bind, Except.bind, r1, r2, r3, zero_smul, sub_zero, w4, hv, hre, nrm_zero, w5]
  rw [if_pos (Or.inl htol)]
  refine ⟨_, rfl, rfl, rfl, ?_, fun hx => ?_, fun i hi => ?_, ?_, ?_, fun i hi => ?_⟩
  · simp
  · simp only [Function.update_self]
    rw [dotProduct_smul, hqq hx, smul_eq_mul, mul_one]
  · exact Function.update_of_ne (by omega) _ _
  · show Function.update (Function.update gb 0 0) 1 0 0 = (0 : ℝ)
    rw [Function.update_of_ne (by omega), Function.update_self]
  · show Function.update (Function.update gb 0 0) 1 0 1 = (0 : ℝ)
    rw [Function.update_self]
  · show Function.update (Function.update gb 0 0) 1 0 i = gb i
    rw [Function.update_of_ne (by omega), Function.update_of_ne (by omega)]

/-- Only the first diagonal entry was ever written. -/
def Clean (M : MF n) : Prop := (∀ i, 0 < i → M.alpha.get i = 0) ∧ ∀ i, 1 < i → M.beta.get i = 0

theorem clean_quadCol {K : TriKernels} {eps c : ℝ} {fuel : ℕ} {M M' : MF n} (hM : M.WF) (hA : M.A = fun v => c • v) (hr : 0 < M.rtol) (hc : Clean M) {x : Vec n} {y : Option ℝ}
    (h : M.quadCol K eps fuel x = some (.ok (M', y))) : Clean M' := by
  obtain ⟨s, hs, -, -, -, -, h5, -, -, h8⟩ := native_scalar c eps x M.deg hM.dpos M.rtol hr hM.npos M.orth M.alpha M.beta M.Q (by rw [hM.alpha_len]; omega)
    (by rw [hM.beta_len]) (by rw [hM.Q_len]; exact hM.dpos)
  unfold MF.quadCol at h
  rw [hA] at h
  simp only [hs] at h
  have key : Clean { M with alpha := s.alpha, beta := s.beta, Q := s.Q } := ⟨fun i hi => (h5 i hi).trans (hc.1 i hi), fun i hi => (h8 i hi).trans (hc.2 i hi)⟩
  split at h
  · cases h
  · cases h
  · cases h
    exact key
  · cases h
    exact key

theorem clean_quad {K : TriKernels} {eps c : ℝ} {fuel : ℕ} (xs : List (Vec n)) : ∀ {M M' : MF n} (_ : M.WF) (_ : M.A = fun v => c • v) (_ : 0 < M.rtol) (_ : Clean M)
    {ys : List (Option ℝ)} (_ : M.quad K eps fuel xs = some (.ok (M', ys))), Clean M' := by
  induction xs with
  | nil =>
    intro M M' _ _ _ hc ys h
    unfold MF.quad at h
    cases h
    exact hc
  | cons x xs ih =>
    intro M M' hM hA hr hc ys h
    unfold MF.quad at h
    split at h
    · cases h
    · cases h
    · rename_i M1 y1 h1
      split at h
      · cases h
      · cases h
      · rename_i M2 ys2 h2
        simp only [Option.some.injEq, Except.ok.injEq, Prod.mk.injEq] at h
        obtain ⟨rfl, -⟩ := h
        obtain ⟨s1, w1⟩ := quadCol_preserves K eps fuel M M1 hM x y1 h1
        exact ih w1 (s1.A.trans hA) (by rw [s1.rtol]; exact hr) (clean_quadCol hM hA hr hc h1) h2

theorem clean_matvec {K : TriKernels} {eps c : ℝ} {fuel : ℕ} {M M' : MF n} (hM : M.WF) (hA : M.A = fun v => c • v) (hr : 0 < M.rtol) (hc : Clean M) {x : Vec n} {y : Option (Vec n)}
    (h : M.matvec K eps fuel x = some (.ok (M', y))) : Clean M' := by
  obtain ⟨s, hs, -, -, -, -, h5, -, -, h8⟩ := native_scalar c eps x M.deg hM.dpos M.rtol hr hM.npos M.orth M.alpha M.beta M.zeroQ (by rw [hM.alpha_len]; omega)
    (by rw [hM.beta_len]) (by show 0 < M.Q.len; rw [hM.Q_len]; exact hM.dpos)
  unfold MF.matvec at h
  rw [hA] at h
  simp only [hs] at h
  have key : Clean { M with alpha := s.alpha, beta := s.beta, Q := s.Q } := ⟨fun i hi => (h5 i hi).trans (hc.1 i hi), fun i hi => (h8 i hi).trans (hc.2 i hi)⟩
  split at h
  · cases h
  · cases h
  · cases h
    exact key
  · cases h
    exact key

theorem clean_reach {K : TriKernels} {eps c : ℝ} {fuel : ℕ} {f : ℝ → ℝ} {deg orth : ℤ} (hn : 0 < n) {M0 M : MF n} (h0 : MF.init (fun v => c • v) f deg orth = .ok M0)
    (h : MF.Reach K eps fuel M0 M) : Clean M := by
  induction h with
  | refl =>
    unfold MF.init at h0
    split_ifs at h0
    cases h0
    exact ⟨fun _ _ => rfl, fun _ _ => rfl⟩
  | quad xs ys hR hq ih =>
    obtain ⟨w, hA, hf, hd, ho', hr⟩ := reached K eps fuel _ _ deg orth hn _ _ h0 hR
    exact clean_quad xs w hA (by rw [hr]; norm_num) ih hq
  | matvec x y hR hq ih =>
    obtain ⟨w, hA, hf, hd, ho', hr⟩ := reached K eps fuel _ _ deg orth hn _ _ h0 hR
    exact clean_matvec w hA (by rw [hr]; norm_num) ih hq

/-- **C155** (multiples of the identity).  For `A = c I` with `c > 0` and at least two rows, after any history of calls and for every `orth`, `quad(x)` is NaN for every function that is not finite at
zero (`np.log`, `fun="inv"`), although `f(A) = f(c) I` is finite. -/
theorem C155_scalar (K : TriKernels) (hK : EighOk K) (eps : ℝ) (fuel : ℕ) (c : ℝ) (hc : 0 < c) (f : ℝ → ℝ) (g : ℝ → Fl) (hg : ¬ Spec.Finite (g 0)) (deg orth : ℤ)
    (hn : 2 ≤ n) {M0 M : MF n} (h0 : MF.init (fun v => c • v) f deg orth = .ok M0) (h : MF.Reach K eps fuel M0 M) (x : Vec n) (hx : x ≠ 0) :
    ∃ M', M.quadColS K eps fuel g x = some (.ok (M', .nan)) := by
  have hn0 : 0 < n := by omega
  obtain ⟨w, hA, hf, hd, ho', hr⟩ := reached K eps fuel _ _ deg orth hn0 _ _ h0 h
  have hcl := clean_reach hn0 h0 h
  have hd2 : 2 ≤ M.deg := by
    rw [hd]
    obtain ⟨-, -, -, a3, -⟩ := init_wf _ _ deg orth M0 hn0 h0
    unfold MF.init at h0
    split_ifs at h0
    rw [a3]
    omega
  obtain ⟨s, hs, h1, h2, h3, h4, h5, h6, h7, h8⟩ := native_scalar c eps x M.deg w.dpos M.rtol (by rw [hr]; norm_num) hn0 M.orth M.alpha M.beta M.Q (by rw [w.alpha_len]; omega)
    (by rw [w.beta_len]) (by rw [w.Q_len]; exact w.dpos)
  obtain ⟨theta, Y, hY, hq⟩ := quadCol_of_native K hK eps fuel M w x s (by rw [hA]; exact hs) h1 h2 h6
  have hmul : (c • (1 : Matrix (Fin n) (Fin n) ℝ)).mulVec = fun v => c • v := by
    funext v
    rw [smul_mulVec, one_mulVec]
  have hq1 : normalized x ⬝ᵥ normalized x = 1 := normalized_unit hx
  have hw : lzw (c • (1 : Matrix (Fin n) (Fin n) ℝ)).mulVec x 0 = c • normalized x := by
    rw [lzw, lzq_zero, lzb_zero, zero_smul, sub_zero, hmul]
  have ha : lza (c • (1 : Matrix (Fin n) (Fin n) ℝ)).mulVec x 0 = c := by
    rw [lza, lzq_zero, hw, dotProduct_smul, hq1, smul_eq_mul, mul_one]
  have hb1 : lzb (c • (1 : Matrix (Fin n) (Fin n) ℝ)).mulVec x 1 = 0 := by
    rw [lzb_succ, lzr, hw, ha, lzq_zero, sub_self, nrm_zero]
  have hfr : FreshRun (c • (1 : Matrix (Fin n) (Fin n) ℝ)) x M.deg 0 s.alpha.get s.beta.get theta Y := by
    refine ⟨?_, hx, by omega, fun i hi => by omega, fun i hi => ?_, fun i hi _ => ?_, fun i hi => ?_, fun i hi _ => ?_, hY⟩
    · unfold Matrix.IsSymm
      rw [transpose_smul, transpose_one]
    · obtain rfl : i = 0 := by omega
      rw [h4 hx, ha]
    · rw [h5 i hi, hcl.1 i hi]
    · obtain rfl | rfl : i = 0 ∨ i = 1 := by omega
      · rw [h6, lzb_zero]
      · rw [h7, hb1]
    · rw [h8 i (by omega), hcl.2 i (by omega)]
  obtain ⟨a, ha0⟩ := hfr.zero_node (by omega) (.inl h7)
  have hwt := hfr.zero_weight (fun u hu => by
    rw [smul_mulVec, one_mulVec, dotProduct_smul, smul_eq_mul]
    exact mul_pos hc (lt_of_le_of_ne (dot_self_nonneg u) fun h => hu (dot_self_eq_zero h.symm))) ha0 ⟨0, w.dpos⟩ le_rfl
  have hnan := quadValue_nan (g := g) (m := M.deg) (theta := ofFin theta) (tau := ofFin (gwWeights Y)) (nrm x ^ 2) (a := a) a.2 (.inr (by
    rw [ofFin, dif_pos a.2, ofFin, dif_pos a.2]
    refine ⟨?_, ?_⟩
    · show ¬ Spec.Finite (g (theta a))
      rw [ha0]
      exact hg
    · show Y _ a ^ 2 = 0
      rw [hwt]
      norm_num))
  have := quadColS_of g hq
  simp only [hnan] at this
  exact ⟨_, this⟩

/-- A `MatrixFunction` as an operator of `hutch`. -/
def mfOperand (K : TriKernels) (eps : ℝ) (fuel : ℕ) (g : ℝ → Fl) (M : MF n) : SOperand n where
  apply := fun v => match M.matvecS K eps fuel g v with
    | some (.ok (_, y)) => y
    | _ => fun _ => .nan
  quad := some fun v => match M.quadColS K eps fuel g v with
    | some (.ok (_, y)) => y
    | _ => .nan

/-- **C155** (`hutch`).  The log-determinant of `c I` by `hutch(MatrixFunction(A, fun=np.log))` never returns under a tolerance, confidence or knee criterion, and is NaN under a sample bound that
takes more than one batch.  (The value of `quad` does not depend on the state of the object: `C155_scalar`.) -/
theorem C155_hutch (K : TriKernels) (hK : EighOk K) (eps : ℝ) (mfuel : ℕ) (c : ℝ) (hc : 0 < c) (f : ℝ → ℝ) (g : ℝ → Fl) (hg : ¬ Spec.Finite (g 0)) (deg orth : ℤ)
    (hn : 2 ≤ n) {M0 M : MF n} (h0 : MF.init (fun v => c • v) f deg orth = .ok M0) (h : MF.Reach K eps mfuel M0 M) (pdf : Pdf n) (hpdf : ∀ history b j, pdf history b j ≠ 0)
    {batch : ℕ} (hb : batch ≠ 0) {crit : SCrit} (hcr : Accuracy crit) (batched record : Bool) :
    (∀ fuel, hutchS (mfOperand K eps mfuel g M) batch pdf crit batched record fuel = none) ∧
    ∀ (k : ℕ) (fuel : ℕ), (if batched then batch else 1) < k → k < fuel →
      hutchS (mfOperand K eps mfuel g M) batch pdf (.or (.count k) crit) batched record fuel = some (.ok .nan) := by
  have hq : ∀ history b j, ¬ Spec.Finite ((mfOperand K eps mfuel g M).quadForm (pdf history b j)) := by
    intro history b j
    obtain ⟨M', h1⟩ := C155_scalar K hK eps mfuel c hc f g hg deg orth hn h0 h _ (hpdf history b j)
    show ¬ Spec.Finite (match M.quadColS K eps mfuel g (pdf history b j) with
      | some (.ok (_, y)) => y
      | _ => .nan)
    rw [h1]
    exact Fl.finite_nan
  refine ⟨C153_diverges _ (by omega) pdf hb hcr batched record hq, fun k fuel hk hfu => ?_⟩
  obtain ⟨x, h1, -, h3⟩ := C153_count (mfOperand K eps mfuel g M) (by omega) pdf hb hcr (k := k) (by omega) batched record hq hfu
  rw [h1, h3 hk]

/-! ## The inverse -/

/-- **C155** (`fun="inv"`, wrong values).  Let `A` be positive definite and the degree 2.  If the iteration stops after the first step at a residual that is not zero, `quad(x)` is zero; the exact
`xᵀ A⁻¹ x` is positive. -/
theorem C155_inv_wrong (K : TriKernels) (hK : EighOk K) (eps : ℝ) (heps : 0 ≤ eps) (fuel : ℕ) (B : Matrix (Fin n) (Fin n) ℝ) (hB : B.IsSymm)
    (hp : ∀ u : Vec n, u ≠ 0 → 0 < quadForm B u) (kw : String → Option ℝ) (g : ℝ → Fl) (hg : paramCallable (.str "inv") kw = .ok g) (deg orth : ℤ) (hn : 0 < n) {M0 : MF n}
    (h0 : MF.init B.mulVec (fun t => 1 / t) deg orth = .ok M0) (hdeg : M0.deg = 2) (x : Vec n) (hx : x ≠ 0) :
    ∃ M' y, M0.quadColS K eps fuel g x = some (.ok (M', y)) ∧ (0 < M'.beta.get 1 → M'.beta.get 1 < Real.sqrt n * 1e-8 → y = .fin 0) := by
  have hg1 : ∀ t, t ≠ 0 → g t = .fin (1 / t) := by
    intro t ht
    simp [paramCallable, BUILTIN_MATRIX_FUNCTIONS] at hg
    rw [← hg]
    simp [Fl.divFin, ht]
  obtain ⟨w, a1, a2, a3, a4, a5⟩ := init_wf _ _ deg orth M0 hn h0
  obtain ⟨hm, J, theta, Y, M', y, r, h, h1, h2, h3, h4, h5, h6, h7⟩ := run_quad K hK eps heps fuel B hB _ g deg orth hn h0 x hx
  refine ⟨M', y, h3, fun hb hb' => ?_⟩
  have hl := h.lt
  have hJ : J = 0 := by
    by_contra hc
    exact absurd (h1 1 le_rfl (by omega)) (not_le.2 hb')
  subst hJ
  have hne := h.ne_node hp (by omega) hb.ne'
  have hrow : ∀ a, Y ⟨0, hm⟩ a ^ 2 / theta a = Y ⟨0, hm⟩ a * Y ⟨1, by omega⟩ a / M'.beta.get 1 := by
    intro a
    have e1 := congrFun (h.eigh.col_eq a) ⟨1, by omega⟩
    have e2 : (triMat M0.deg M'.alpha.get M'.beta.get *ᵥ Y.col a) ⟨1, by omega⟩ = M'.beta.get 1 * Y ⟨0, hm⟩ a := by
      have e3 := tri_unit (m := M0.deg) (k := 0) (e := M'.beta.get) (by omega) (h.ha0 1 (by omega) (by omega)) (fun hk => by omega)
      have e4 : (triMat M0.deg M'.alpha.get M'.beta.get *ᵥ Y.col a) ⟨1, by omega⟩ = (Pi.single ⟨1, by omega⟩ 1 : Vec M0.deg) ⬝ᵥ (triMat M0.deg M'.alpha.get M'.beta.get *ᵥ Y.col a) := by
        rw [single_dotProduct, one_mul]
      rw [e4, dotProduct_mulVec, ← mulVec_transpose, (triMat_symm _ _ _).eq]
      erw [e3]
      rw [single_dotProduct]
      rfl
    rw [e2, Pi.smul_apply, smul_eq_mul, Matrix.col_apply] at e1
    rw [div_eq_div_iff (hne a) hb.ne']
    linear_combination Y ⟨0, hm⟩ a * e1
  have hsum : ∑ a, 1 / theta a * Y ⟨0, hm⟩ a ^ 2 = 0 := by
    have e1 : ∑ a, 1 / theta a * Y ⟨0, hm⟩ a ^ 2 = (Y * Yᵀ) ⟨0, hm⟩ ⟨1, by omega⟩ / M'.beta.get 1 := by
      rw [Matrix.mul_apply, Finset.sum_div]
      exact Finset.sum_congr rfl fun a _ => by rw [Matrix.transpose_apply, ← hrow a]; ring
    rw [e1, h.eigh.mul_transpose, Matrix.one_apply_ne (by simp), zero_div]
  rw [h6 fun a => hg1 _ (hne a), h7, hsum, zero_mul]

/-- A matrix near the identity. -/
def EI2 : Matrix (Fin 2) (Fin 2) ℝ := !![1, 1e-8; 1e-8, 1]

theorem EI2_symm : EI2.IsSymm := by
  ext i j
  fin_cases i <;> fin_cases j <;> rfl

theorem EI2_pos (u : Vec 2) (hu : u ≠ 0) : 0 < quadForm EI2 u := by
  have hform : quadForm EI2 u = u 0 ^ 2 + 2 * 1e-8 * u 0 * u 1 + u 1 ^ 2 := by
    simp [quadForm, EI2, mulVec, dotProduct, Fin.sum_univ_two]
    ring
  rw [hform]
  by_contra hc
  push Not at hc
  refine hu ?_
  have e0 : u 0 ^ 2 ≤ 0 := by nlinarith [sq_nonneg (u 0 + u 1), sq_nonneg (u 0 - u 1), sq_nonneg (u 1)]
  have e1 : u 1 ^ 2 ≤ 0 := by nlinarith [sq_nonneg (u 0 + u 1), sq_nonneg (u 0 - u 1), sq_nonneg (u 0)]
  have f0 : u 0 = 0 := by nlinarith [sq_nonneg (u 0)]
  have f1 : u 1 = 0 := by nlinarith [sq_nonneg (u 1)]
  funext i
  fin_cases i
  · exact f0
  · exact f1

theorem e1_ne : (![1, 0] : Vec 2) ≠ 0 := fun hc => by
  have := congrFun hc 0
  simp at this

theorem EI2_b1 : lzb EI2.mulVec ![1, 0] 1 = 1e-8 := by
  have u1 : (![1, 0] : Vec 2) ⬝ᵥ ![1, 0] = 1 := by simp [dotProduct, Fin.sum_univ_two]
  have hE : EI2 *ᵥ ![1, 0] = ![1, 1e-8] := by
    funext i
    fin_cases i <;> simp [EI2, mulVec, dotProduct, Fin.sum_univ_two]
  have hw : lzw EI2.mulVec ![1, 0] 0 = ![1, 1e-8] := by
    rw [lzw, lzq_zero, normalized_of_unit u1, hE, lzb_zero, zero_smul, sub_zero]
  have ha : lza EI2.mulVec ![1, 0] 0 = 1 := by
    rw [lza, lzq_zero, normalized_of_unit u1, hw]
    simp [dotProduct, Fin.sum_univ_two]
  rw [lzb_succ, lzr, hw, ha, lzq_zero, normalized_of_unit u1]
  unfold nrm
  rw [show (![1, 1e-8] - (1 : ℝ) • ![1, 0] : Vec 2) ⬝ᵥ (![1, 1e-8] - (1 : ℝ) • ![1, 0]) = 1e-8 ^ 2 by
    simp [dotProduct, Fin.sum_univ_two]
    norm_num]
  exact Real.sqrt_sq (by norm_num)

theorem EI2_tol : (1e-8 : ℝ) < Real.sqrt ((2 : ℕ) : ℝ) * 1e-8 := by
  have hs : (1 : ℝ) < Real.sqrt ((2 : ℕ) : ℝ) := by
    rw [Real.lt_sqrt (by norm_num)]
    norm_num
  have : (0 : ℝ) < 1e-8 := by norm_num
  exact lt_mul_of_one_lt_left this hs

/-- The off-diagonal entry after a call on a new object. -/
theorem EI2_beta (K : TriKernels) (hK : EighOk K) {eps : ℝ} (heps : 0 ≤ eps) {fuel : ℕ} {orth : ℤ} {f : ℝ → ℝ} {g : ℝ → Fl} {M0 M' : MF 2} {y : Fl}
    (h0 : MF.init EI2.mulVec f 2 orth = .ok M0) (h1 : M0.quadColS K eps fuel g ![1, 0] = some (.ok (M', y))) : M'.beta.get 1 = 1e-8 := by
  obtain ⟨hm, J, theta, Y, M1, y1, r, h, -, -, h3, -, -, -, -⟩ := run_quad K hK eps heps fuel EI2 EI2_symm f g 2 orth (by norm_num) h0 ![1, 0] e1_ne
  rw [h1] at h3
  cases h3
  rw [h.hb 1 (by omega), EI2_b1]

/-- **C155, the inverse after an early stop is wrong.**  For `A = [[1, 1e-8], [1e-8, 1]]`, which is positive definite, `MatrixFunction(A, fun="inv", deg=2).quad(e₁)` is zero, but `e₁ᵀ A⁻¹ e₁ ≥ 1`. -/
theorem C155_counterexample (K : TriKernels) (hK : EighOk K) (eps : ℝ) (heps : 0 ≤ eps) (fuel : ℕ) (orth : ℤ) (kw : String → Option ℝ) :
    EI2.IsSymm ∧ (∀ u : Vec 2, u ≠ 0 → 0 < quadForm EI2 u) ∧ (∀ C, EI2 * C = 1 → 1 ≤ quadForm C ![1, 0]) ∧
    ∃ g M0 M', paramCallable (.str "inv") kw = .ok g ∧ MF.init EI2.mulVec (fun t => 1 / t) 2 orth = .ok M0 ∧ M0.quadColS K eps fuel g ![1, 0] = some (.ok (M', .fin 0)) := by
  refine ⟨EI2_symm, EI2_pos, fun C hC => ?_, ?_⟩
  · have c0 := congrFun (congrFun hC 0) 0
    have c1 := congrFun (congrFun hC 1) 0
    simp [EI2, Matrix.mul_apply, Fin.sum_univ_two] at c0 c1
    have : quadForm C ![1, 0] = C 0 0 := by simp [quadForm, mulVec, dotProduct, Fin.sum_univ_two]
    rw [this]
    nlinarith
  · obtain ⟨M0, h0⟩ : ∃ M0, MF.init EI2.mulVec (fun t => 1 / t) 2 orth = .ok M0 := ⟨_, if_neg (by norm_num)⟩
    have hd : M0.deg = 2 := (init_wf _ _ _ _ M0 (by norm_num) h0).2.2.2.1
    obtain ⟨g, hg⟩ : ∃ g, paramCallable (.str "inv") kw = .ok g := ⟨_, by simp [paramCallable, BUILTIN_MATRIX_FUNCTIONS]; rfl⟩
    obtain ⟨M', y, h1, h2⟩ := C155_inv_wrong K hK eps heps fuel EI2 EI2_symm EI2_pos kw g hg 2 orth (by norm_num) h0 hd ![1, 0] e1_ne
    have hbeta := EI2_beta K hK heps h0 h1
    refine ⟨g, M0, M', hg, h0, ?_⟩
    rw [h1, h2 (by rw [hbeta]; norm_num) (by rw [hbeta]; exact EI2_tol)]

/-! ## Examples -/

/-- `np.log`. -/
def npLog (t : ℝ) : Fl := open Classical in if 0 < t then .fin (Real.log t) else if t = 0 then .ninf else .nan

theorem npLog_like : LogLike npLog Real.log where
  pos := fun t ht => if_pos ht
  zero := by simp [npLog]
  neg := fun t ht => by
    unfold npLog
    rw [if_neg (by linarith), if_neg ht.ne]

/-- `hutch(MatrixFunction(2 * np.eye(3), fun=np.log), converge="confidence")` does not return. -/
example (K : TriKernels) (hK : EighOk K) (c : ConfCrit) : ∃ M0 : MF 3, MF.init (fun v => (2 : ℝ) • v) Real.log 20 3 = .ok M0 ∧
    ∀ fuel, hutchS (mfOperand K 0 0 npLog M0) 32 (fun _ _ _ _ => 1) (.conf c) true false fuel = none := by
  obtain ⟨M0, h0⟩ : ∃ M0 : MF 3, MF.init (fun v => (2 : ℝ) • v) Real.log 20 3 = .ok M0 := ⟨_, if_neg (by norm_num)⟩
  exact ⟨M0, h0, (C155_hutch K hK 0 0 2 (by norm_num) _ npLog npLog_like.zero 20 3 (by norm_num) h0 (.refl M0) _ (fun _ _ _ hc => by
    have := congrFun hc 0
    simp at this) (by norm_num) (.conf c) true false).1⟩

/-- The conditions of `C155_log` hold for `A = [[1, 1e-8], [1e-8, 1]]`; the iteration stops early from `e₁`, and the value is NaN. -/
example (K : TriKernels) (hK : EighOk K) : ∃ M0 M', MF.init EI2.mulVec Real.log 2 3 = .ok M0 ∧ M0.quadColS K 0 0 npLog ![1, 0] = some (.ok (M', .nan)) := by
  obtain ⟨M0, h0⟩ : ∃ M0, MF.init EI2.mulVec Real.log 2 3 = .ok M0 := ⟨_, if_neg (by norm_num)⟩
  have hd : M0.deg = 2 := (init_wf _ _ _ _ M0 (by norm_num) h0).2.2.2.1
  obtain ⟨⟨M', y, r, h1, -, h2, -⟩, -⟩ := C155_log K hK 0 le_rfl 0 EI2 EI2_symm EI2_pos Real.log npLog npLog_like 2 3 (by norm_num) h0 ![1, 0] e1_ne
  refine ⟨M0, M', h0, ?_⟩
  rw [h1, h2 ⟨1, le_rfl, by omega, by rw [EI2_beta K hK le_rfl h0 h1]; exact EI2_tol⟩]

/-- The same for `fun="sqrt"`. -/
example (K : TriKernels) (hK : EighOk K) : ∃ g M0 M', paramCallable (.str "sqrt") (fun _ => none) = .ok g ∧ MF.init EI2.mulVec Real.sqrt 2 3 = .ok M0 ∧
    M0.quadColS K 0 0 g ![1, 0] = some (.ok (M', .nan)) := by
  obtain ⟨M0, h0⟩ : ∃ M0, MF.init EI2.mulVec Real.sqrt 2 3 = .ok M0 := ⟨_, if_neg (by norm_num)⟩
  have hd : M0.deg = 2 := (init_wf _ _ _ _ M0 (by norm_num) h0).2.2.2.1
  obtain ⟨g, hg⟩ : ∃ g, paramCallable (.str "sqrt") (fun _ => none) = .ok g := ⟨_, by simp [paramCallable, BUILTIN_MATRIX_FUNCTIONS]; rfl⟩
  obtain ⟨⟨M', y, r, h1, -, h2, -⟩, -⟩ := C155_sqrt K hK 0 le_rfl 0 EI2 EI2_symm (fun u => by
    by_cases hu : u = 0
    · rw [hu, quadForm, zero_dotProduct]
    · exact (EI2_pos u hu).le) (fun _ => none) g hg 2 3 (by norm_num) h0 ![1, 0] e1_ne
  have hb := EI2_beta K hK le_rfl h0 h1
  refine ⟨g, M0, M', hg, h0, ?_⟩
  rw [h1, h2 ⟨1, le_rfl, by omega, by rw [hb]; norm_num, by rw [hb]; exact EI2_tol⟩]

end Primate
