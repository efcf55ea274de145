import Verif.Props.MatrixFunction
import Verif.Lemmas.LanczosSign

/-!
# Call histories and scaling of `MatrixFunction` (C47, C48, C49, C83)
-/

noncomputable section

namespace Primate

open Matrix

variable {n : ℕ}

/-! ## C47, C48: call histories -/

theorem eigh_unique_cast {m m' : ℕ} (hm : m' = m) {d e : ℕ → ℝ} {w : Fin m → ℝ} {V : Matrix (Fin m) (Fin m) ℝ}
    {w' : Fin m' → ℝ} {V' : Matrix (Fin m') (Fin m') ℝ} (h : IsEigh (triMat m d e) w V) (h' : IsEigh (triMat m' d e) w' V')
    (h0 : 0 < m) (h0' : 0 < m') (f : ℝ → ℝ) (A : Vec n → Vec n) (x : Vec n) (J : ℕ) :
    (∑ a, f (w a) * V ⟨0, h0⟩ a ^ 2 = ∑ a, f (w' a) * V' ⟨0, h0'⟩ a ^ 2) ∧
      (qcols A x J m *ᵥ fun i => ∑ a, V i a * (f (w a) * V ⟨0, h0⟩ a)) =
        qcols A x J m' *ᵥ fun i => ∑ a, V' i a * (f (w' a) * V' ⟨0, h0'⟩ a) := by
  subst hm
  have e1 := IsEigh.matFun_zero_zero (w := w) (V := V) h0 f
  have e2 := IsEigh.matFun_zero_zero (w := w') (V := V') h0 f
  have e3 := IsEigh.matFun_single (w := w) (V := V) h0 f
  have e4 := IsEigh.matFun_single (w := w') (V := V') h0 f
  rw [matFun_unique h h' f] at e1 e3
  exact ⟨e1.symm.trans e2, congrArg (fun g => qcols A x J m' *ᵥ g) (funext fun i => (e3 i).symm.trans (e4 i))⟩

/-- **C47**, partial.  When at most two vectors are re-orthogonalised against (`orth ≤ 2`), the value of `quad(x)` does not
depend on earlier calls of `quad` or of the matrix-vector product, unless the iteration stops at a residual that is small but not
zero.  Missing: `orth ≥ 3`, which includes the default, for which it is false (`C47_counterexample`). -/
theorem C47_quad_history_partial (K : TriKernels) (hK : EighOk K) (eps : ℝ) (heps : 0 ≤ eps) (fuel : ℕ)
    (B : Matrix (Fin n) (Fin n) ℝ) (hB : B.IsSymm) (f : ℝ → ℝ) (deg orth : ℤ) (hn : 0 < n) (M0 M1 M2 : MF n)
    (h0 : MF.init B.mulVec f deg orth = .ok M0) (ho : M0.orth ≤ 2) (h1 : MF.Reach K eps fuel M0 M1)
    (h2 : MF.Reach K eps fuel M0 M2) (x : Vec n) :
    ∃ M1' M2' y1 y2, M1.quadCol K eps fuel x = some (.ok (M1', some y1)) ∧
      M2.quadCol K eps fuel x = some (.ok (M2', some y2)) ∧
      (Spec.CleanStop (Real.sqrt n * 1e-8) M0.deg M1'.beta.get → y1 = y2) := by
  obtain ⟨w1, a1, f1, d1, o1, r1⟩ := reached K eps fuel _ _ deg orth hn M0 M1 h0 h1
  obtain ⟨w2, a2, f2, d2, o2, r2⟩ := reached K eps fuel _ _ deg orth hn M0 M2 h0 h2
  obtain ⟨J, s, theta, Y, hJ, hJ1, hJ2, hF, hY, hq⟩ := quadCol_run K hK eps heps fuel M1 w1 B hB a1
    (by rw [r1]; norm_num) (Or.inl (by rw [o1]; exact ho)) x
  obtain ⟨J', s', theta', Y', hJ', hJ1', hJ2', hF', hY', hq'⟩ := quadCol_run K hK eps heps fuel M2 w2 B hB a2
    (by rw [r2]; norm_num) (Or.inl (by rw [o2]; exact ho)) x
  refine ⟨_, _, _, _, hq, hq', fun hc => ?_⟩
  by_cases hx : x = 0
  · subst hx
    rw [nrm_zero]
    ring
  have htol : 0 < Real.sqrt n * (1e-8 : ℝ) := tol_pos hn (by norm_num)
  rw [r1] at hJ1 hJ2
  rw [r2] at hJ1' hJ2'
  have hd : M2.deg = M1.deg := d2.trans d1.symm
  obtain rfl : J' = J := steps_unique _ M1.deg J' J _ (hd ▸ hJ') hJ hJ1' hJ1 (hd ▸ hJ2') hJ2
  rw [← d1] at hc
  have hc' := clean_stop B x M1.deg J' _ htol hJ1 hJ2 hJ _ _ _ s hF hc
  have k1 := kdata_of_clean B hB x hx M1.deg J' _ htol hJ hJ1 _ _ _ s hF hc'
  have k2 := kdata_of_clean B hB x hx M2.deg J' _ htol hJ' hJ1' _ _ _ s' hF' (by rw [hd]; exact hc')
  obtain ⟨lam, U, hU⟩ := exists_isEigh B hB
  congr 1
  by_cases hfull : J' + 1 = M1.deg
  · have hT : triMat M2.deg s'.alpha.get s'.beta.get = triMat M2.deg s.alpha.get s.beta.get :=
      triMat_congr (fun i hi => by rw [hF'.alpha_le i (by omega), hF.alpha_le i (by omega)])
        (fun i h0 hi => by rw [hF'.beta_le i (by omega), hF.beta_le i (by omega)])
    rw [hT] at hY'
    rw [f1, f2]
    exact (eigh_unique_cast hd hY hY' w1.dpos w2.dpos f B.mulVec x J').1
  · have z1 : (if J' + 1 = M1.deg then lzb B.mulVec x M1.deg • lzq B.mulVec x M1.deg else 0) = 0 := if_neg hfull
    have z2 : (if J' + 1 = M2.deg then lzb B.mulVec x M2.deg • lzq B.mulVec x M2.deg else 0) = 0 :=
      if_neg (by rw [hd]; exact hfull)
    rw [k1.quad_exact hB hU hY z1, k2.quad_exact hB hU hY' z2, f1, f2]

/-- **C48.**  The value of `M @ x` does not depend on earlier calls of `quad` or of the matrix-vector product, for every
`orth`, unless the iteration stops at a residual that is small but not zero. -/
theorem C48_matvec_history (K : TriKernels) (hK : EighOk K) (eps : ℝ) (heps : 0 ≤ eps) (fuel : ℕ)
    (B : Matrix (Fin n) (Fin n) ℝ) (hB : B.IsSymm) (f : ℝ → ℝ) (deg orth : ℤ) (hn : 0 < n) (M0 M1 M2 : MF n)
    (h0 : MF.init B.mulVec f deg orth = .ok M0) (h1 : MF.Reach K eps fuel M0 M1)
    (h2 : MF.Reach K eps fuel M0 M2) (x : Vec n) :
    ∃ M1' M2' y1 y2, M1.matvec K eps fuel x = some (.ok (M1', some y1)) ∧
      M2.matvec K eps fuel x = some (.ok (M2', some y2)) ∧
      (Spec.CleanStop (Real.sqrt n * 1e-8) M0.deg M1'.beta.get → y1 = y2) := by
  obtain ⟨w1, a1, f1, d1, o1, r1⟩ := reached K eps fuel _ _ deg orth hn M0 M1 h0 h1
  obtain ⟨w2, a2, f2, d2, o2, r2⟩ := reached K eps fuel _ _ deg orth hn M0 M2 h0 h2
  obtain ⟨J, s, theta, Y, hJ, hJ1, hJ2, hF, hY, hq⟩ := matvec_run K hK eps heps fuel M1 w1 B hB a1
    (by rw [r1]; norm_num) x
  obtain ⟨J', s', theta', Y', hJ', hJ1', hJ2', hF', hY', hq'⟩ := matvec_run K hK eps heps fuel M2 w2 B hB a2
    (by rw [r2]; norm_num) x
  refine ⟨_, _, _, _, hq, hq', fun hc => ?_⟩
  by_cases hx : x = 0
  · subst hx
    rw [nrm_zero, zero_smul, zero_smul]
  have htol : 0 < Real.sqrt n * (1e-8 : ℝ) := tol_pos hn (by norm_num)
  rw [r1] at hJ1 hJ2
  rw [r2] at hJ1' hJ2'
  have hd : M2.deg = M1.deg := d2.trans d1.symm
  obtain rfl : J' = J := steps_unique _ M1.deg J' J _ (hd ▸ hJ') hJ hJ1' hJ1 (hd ▸ hJ2') hJ2
  rw [← d1] at hc
  have hc' := clean_stop B x M1.deg J' _ htol hJ1 hJ2 hJ _ _ _ s hF hc
  have k1 := kdata_of_clean B hB x hx M1.deg J' _ htol hJ hJ1 _ _ _ s hF hc'
  have k2 := kdata_of_clean B hB x hx M2.deg J' _ htol hJ' hJ1' _ _ _ s' hF' (by rw [hd]; exact hc')
  obtain ⟨lam, U, hU⟩ := exists_isEigh B hB
  congr 1
  by_cases hfull : J' + 1 = M1.deg
  · have hT : triMat M2.deg s'.alpha.get s'.beta.get = triMat M2.deg s.alpha.get s.beta.get :=
      triMat_congr (fun i hi => by rw [hF'.alpha_le i (by omega), hF.alpha_le i (by omega)])
        (fun i h0 hi => by rw [hF'.beta_le i (by omega), hF.beta_le i (by omega)])
    rw [hT] at hY'
    rw [f1, f2]
    exact (eigh_unique_cast hd hY hY' w1.dpos w2.dpos f B.mulVec x J').2
  · have z1 : (if J' + 1 = M1.deg then lzb B.mulVec x M1.deg • lzq B.mulVec x M1.deg else 0) = 0 := if_neg hfull
    have z2 : (if J' + 1 = M2.deg then lzb B.mulVec x M2.deg • lzq B.mulVec x M2.deg else 0) = 0 :=
      if_neg (by rw [hd]; exact hfull)
    rw [k1.matvec_exact hU hY z1, k2.matvec_exact hU hY' z2, f1, f2]

/-! ## C49, C83: scaling -/

/-- **C49** (homogeneity).  In every state of every object with an odd (in particular: linear) operator, and with any
tridiagonal solver, `quad(c x)` for `c ≠ 0` raises exactly when `quad(x)` does, and is `c² quad(x)`. -/
theorem C49_quad_homogeneous (K : TriKernels) (eps : ℝ) (fuel : ℕ) (M : MF n) (hA : ∀ v, M.A (-v) = -M.A v) (c : ℝ)
    (hc : c ≠ 0) (x : Vec n) :
    (M.quadCol K eps fuel (c • x)).map (Except.map Prod.snd) =
      (M.quadCol K eps fuel x).map (Except.map fun r => r.2.map fun y => c ^ 2 * y) := by
  have hs := lanczosNative_scale M.A hA eps c hc x M.deg M.rtol M.orth M.alpha M.beta M.Q
  unfold MF.quadCol
  generalize lanczosNative M.A eps x M.deg M.rtol M.orth M.alpha M.beta M.Q = o at *
  generalize lanczosNative M.A eps (c • x) M.deg M.rtol M.orth M.alpha M.beta M.Q = o' at *
  rcases hs with ⟨ha, hb, -⟩ | _
  · simp only [ha, hb]
    split
    · rfl
    · rfl
    · rfl
    · simp only [Option.map_some, Except.map]
      congr 3
      rw [nrm_smul, mul_pow, sq_abs]
      ring
  · rfl

/-- **C49** (zero).  In every state reached from a constructed object, `quad(0) = 0`. -/
theorem C49_quad_zero (K : TriKernels) (hK : EighOk K) (eps : ℝ) (fuel : ℕ) (A : Vec n → Vec n) (f : ℝ → ℝ)
    (deg orth : ℤ) (hn : 0 < n) (M0 M : MF n) (h0 : MF.init A f deg orth = .ok M0) (h : MF.Reach K eps fuel M0 M) :
    ∃ M', M.quadCol K eps fuel 0 = some (.ok (M', some 0)) := by
  obtain ⟨w, -⟩ := reached K eps fuel A f deg orth hn M0 M h0 h
  obtain ⟨s, hs, ha, hb, hQ, hb0⟩ := native_mf M w eps 0 M.Q w.Q_len
  obtain ⟨theta, Y, -, hq⟩ := quadCol_of_native K hK eps fuel M w 0 s hs ha hb hb0
  rw [nrm_zero, zero_pow two_ne_zero, mul_zero] at hq
  exact ⟨_, hq⟩

/-- **C49** (columns).  `quad` of a matrix is `quad` of each column in order, each call starting in the state left by
the one before. -/
theorem C49_quad_columns (K : TriKernels) (eps : ℝ) (fuel : ℕ) (M : MF n) (x : Vec n) (xs : List (Vec n)) (M'' : MF n)
    (ys : List (Option ℝ)) :
    M.quad K eps fuel (x :: xs) = some (.ok (M'', ys)) ↔
      ∃ M' y ys', M.quad K eps fuel [x] = some (.ok (M', [y])) ∧ M'.quad K eps fuel xs = some (.ok (M'', ys')) ∧
        ys = y :: ys' := by
  have hx : ∀ M' y, M.quad K eps fuel [x] = some (.ok (M', [y])) ↔ M.quadCol K eps fuel x = some (.ok (M', y)) := by
    intro M' y
    unfold MF.quad
    unfold MF.quad
    split
    · rename_i h; simp [h]
    · rename_i h; simp [h]
    · rename_i h; simp [h]
  simp only [hx]
  conv_lhs => unfold MF.quad
  constructor
  · intro h
    split at h
    · cases h
    · cases h
    · rename_i M' y h1
      split at h
      · cases h
      · cases h
      · rename_i M2 ys2 h2
        simp only [Option.some.injEq, Except.ok.injEq, Prod.mk.injEq] at h
        obtain ⟨rfl, rfl⟩ := h
        exact ⟨M', y, ys2, h1, h2, rfl⟩
  · rintro ⟨M', y, ys', h1, h2, rfl⟩
    simp only [h1, h2]

theorem quadWork_eq (K : TriKernels) (eps : ℝ) (fuel : ℕ) (xs : List (Vec n)) : ∀ M : MF n,
    (M.quadWork K eps fuel xs).map (Except.map fun r => (r.1, r.2.1)) = M.quad K eps fuel xs := by
  induction xs with
  | nil => intro M; rfl
  | cons x xs ih =>
    intro M
    unfold MF.quadWork MF.quad
    rcases hs : lanczosNative M.A eps x M.deg M.rtol M.orth M.alpha M.beta M.Q with e | s
    · have : M.quadCol K eps fuel x = some (.error e) := by
        unfold MF.quadCol
        simp only [hs]
      simp only [this]
      rfl
    · simp only
      rcases M.quadCol K eps fuel x with _ | _ | ⟨M', y⟩
      · rfl
      · rfl
      · simp only
        rw [← ih M']
        rcases M'.quadWork K eps fuel xs with _ | _ | ⟨M2, ys, ws⟩ <;> rfl

/-- **C49** (caller's array).  `quad` called with an array returns the values for the columns of that array and
leaves it unchanged, although the native code overwrites the vectors it is given. -/
theorem C49_quad_caller_array (K : TriKernels) (eps : ℝ) (fuel : ℕ) (M : MF n) (heap : ℕ → List (Vec n)) (loc fresh : ℕ)
    (hfresh : fresh ≠ loc) :
    (M.quadHeap K eps fuel heap loc fresh).map (Except.map fun r => (r.1, r.2.1)) = M.quad K eps fuel (heap loc) ∧
      ∀ M' ys heap', M.quadHeap K eps fuel heap loc fresh = some (.ok (M', ys, heap')) →
        heap' loc = heap loc ∧ ∀ l, l ≠ fresh → heap' l = heap l := by
  refine ⟨?_, fun M' ys heap' h => ?_⟩
  rotate_left
  · suffices ∀ l, l ≠ fresh → heap' l = heap l from ⟨this loc hfresh.symm, this⟩
    intro l hl
    unfold MF.quadHeap at h
    simp only [Function.update_self] at h
    rcases hw : M.quadWork K eps fuel (heap loc) with _ | _ | ⟨M2, ys2, ws⟩
    · rw [hw] at h; cases h
    · rw [hw] at h; cases h
    · rw [hw] at h
      simp only [Option.some.injEq, Except.ok.injEq, Prod.mk.injEq] at h
      obtain ⟨-, -, rfl⟩ := h
      rw [Function.update_of_ne hl, Function.update_of_ne hl]
  unfold MF.quadHeap
  simp only [Function.update_self]
  rw [← quadWork_eq]
  rcases M.quadWork K eps fuel (heap loc) with _ | _ | ⟨M2, ys, ws⟩ <;> rfl

/-- **C83.**  The matrix-vector product is homogeneous: in every state and for any tridiagonal solver, `M @ (c x)` for
`c ≠ 0` raises exactly when `M @ x` does, and is `c (M @ x)`. -/
theorem C83_matvec_homogeneous (K : TriKernels) (eps : ℝ) (fuel : ℕ) (M : MF n) (hdeg : M.Q.len ≤ M.deg)
    (hA : ∀ v, M.A (-v) = -M.A v) (c : ℝ) (hc : c ≠ 0) (x : Vec n) :
    (M.matvec K eps fuel (c • x)).map (Except.map Prod.snd) =
      (M.matvec K eps fuel x).map (Except.map fun r => r.2.map fun y => c • y) := by
  have hs := lanczosNative_scale M.A hA eps c hc x M.deg M.rtol M.orth M.alpha M.beta M.zeroQ
  have hz : ∀ l, M.zeroQ.get l = 0 := by
    intro l
    unfold MF.zeroQ
    show (if _ then _ else _) = _
    rw [if_pos (by omega)]
  unfold MF.matvec
  generalize lanczosNative M.A eps x M.deg M.rtol M.orth M.alpha M.beta M.zeroQ = o at *
  generalize lanczosNative M.A eps (c • x) M.deg M.rtol M.orth M.alpha M.beta M.zeroQ = o' at *
  rcases hs with @⟨s, s', ha, hb, -, hq⟩ | _
  · obtain ⟨v', al', be', Q', pos'⟩ := s'
    simp only at ha hb hq
    subst ha hb
    simp only
    rcases eighTridiag K ⟨M.deg, s.alpha.get⟩ ⟨M.deg - 1, fun i => s.beta.get (i + 1)⟩ "auto" 30 fuel with
      _ | _ | _ | ⟨theta, Y⟩
    · rfl
    · rfl
    · rfl
    · simp only [Option.map_some, Except.map]
      congr 3
      funext i
      rw [Pi.smul_apply, smul_eq_mul, Finset.mul_sum]
      refine Finset.sum_congr rfl fun l _ => ?_
      have := congrFun (hq hz l) i
      simp only [Pi.smul_apply, smul_eq_mul] at this
      rw [nrm_smul, mul_comm |c|, mul_assoc (nrm x) |c|, this]
      ring
  · rfl

end Primate
