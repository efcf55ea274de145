import Verif.Props.MatrixFunctionHistory

/-!
# Counterexamples and concrete cases for `MatrixFunction`
-/

noncomputable section

namespace Primate

open Matrix

/-- The assumptions on the tridiagonal solvers can be met. -/
theorem exists_eighOk : ∃ K : TriKernels, EighOk K ∧ EigvalshOk K := by
  have h : ∀ (k : ℕ) (d : Fin k → ℝ) (e : Fin (k - 1) → ℝ), ∃ w V,
      IsEigh (triMat k (ofFin d) fun i => ofFin e (i - 1)) w V := fun k d e => exists_isEigh _ (triMat_symm _ _ _)
  choose w V hV using h
  exact ⟨⟨fun k d e => .ok (w k d e, V k d e), fun k d e => .ok (w k d e), fun _ _ => false⟩,
    fun k d e _ => ⟨_, _, rfl, hV k d e⟩, fun k d e _ => ⟨_, rfl, _, hV k d e⟩⟩

/-- Adjacency matrix of the path with three vertices. -/
def P3 : Matrix (Fin 3) (Fin 3) ℝ := !![0, 1, 0; 1, 0, 1; 0, 1, 0]

theorem P3_symm : P3.IsSymm := by
  ext i j; fin_cases i <;> fin_cases j <;> rfl

theorem P3_e1 : P3 *ᵥ ![1, 0, 0] = ![0, 1, 0] := by
  funext i; fin_cases i <;> simp [P3, mulVec, dotProduct, Fin.sum_univ_three]

theorem P3_e2 : P3 *ᵥ ![0, 1, 0] = ![1, 0, 1] := by
  funext i; fin_cases i <;> simp [P3, mulVec, dotProduct, Fin.sum_univ_three]

theorem P3_e3 : P3 *ᵥ ![0, 0, 1] = ![0, 1, 0] := by
  funext i; fin_cases i <;> simp [P3, mulVec, dotProduct, Fin.sum_univ_three]

theorem nrm_of_unit {n : ℕ} {v : Vec n} (h : v ⬝ᵥ v = 1) : nrm v = 1 := by
  rw [nrm, h, Real.sqrt_one]

theorem normalized_of_unit {n : ℕ} {v : Vec n} (h : v ⬝ᵥ v = 1) : normalized v = v := by
  unfold normalized
  rw [if_pos (by rw [h]; exact one_pos), nrm_of_unit h]
  funext i
  exact div_one _

theorem sqrt3_lt : Real.sqrt ((3 : ℕ) : ℝ) < 2 := by
  rw [Real.sqrt_lt' (by norm_num)]
  norm_num

theorem sqrt3_pos : 0 < Real.sqrt ((3 : ℕ) : ℝ) := Real.sqrt_pos.mpr (by norm_num)

/-- A run that finds the vector `e2`, left behind by an earlier run, in the second column. -/
theorem p3_stale (eps : ℝ) (h0 : 0 ≤ eps) (h1 : eps ≤ 1 / 8) (alpha beta : Buf ℝ) (Q : Buf (Vec 3)) (ha : alpha.len = 4)
    (hb : beta.len = 4) (hQ : Q.len = 3) (hQ1 : Q.get 1 = ![0, 1, 0]) :
    ∃ s, lanczosNative P3.mulVec eps ![0, 0, 1] (3 : ℕ) 1e-8 3 alpha beta Q = .ok s ∧ s.alpha.get 0 = 0 ∧
      s.beta.get 1 = 0 := by
  obtain ⟨la, ga⟩ := alpha
  obtain ⟨lb, gb⟩ := beta
  obtain ⟨lq, gq⟩ := Q
  simp only at ha hb hQ hQ1
  subst ha hb hQ
  have hs := sqrt3_lt
  have hs' := sqrt3_pos
  have ht0 : 0 ≤ 2 * eps * Real.sqrt ((3 : ℕ) : ℝ) := by positivity
  have ht1 : 2 * eps * Real.sqrt ((3 : ℕ) : ℝ) < 1 := by nlinarith
  have hunit : (![0, 0, 1] : Vec 3) ⬝ᵥ ![0, 0, 1] = 1 := by simp [dotProduct, Fin.sum_univ_three]
  have hunit2 : (![0, 1, 0] : Vec 3) ⬝ᵥ ![0, 1, 0] = 1 := by simp [dotProduct, Fin.sum_univ_three]
  have hdot : (![0, 1, 0] : Vec 3) ⬝ᵥ ![0, 0, 1] = 0 := by simp [dotProduct, Fin.sum_univ_three]
  have hdot' : (![0, 0, 1] : Vec 3) ⬝ᵥ ![0, 1, 0] = 0 := by simp [dotProduct, Fin.sum_univ_three]
  have hQ2 : orthLoop (2 * eps * Real.sqrt ((3 : ℕ) : ℝ))
      ⟨3, Function.update (Function.update gq 2 0) 0 ![0, 0, 1]⟩ (-1) 3 0 ![0, 1, 0] = .ok (0 : Vec 3) := by
    generalize 2 * eps * Real.sqrt ((3 : ℕ) : ℝ) = t at *
    have c1 : cmod (0 + -1) ((3 : ℕ) : ℤ) = 2 := by decide
    have c2 : cmod (2 + -1) ((3 : ℕ) : ℤ) = 1 := by decide
    simp only [orthLoop, Buf.read, bind, Except.bind, c1, c2]
    simp [hdot, hunit, hunit2, hQ1, not_lt.mpr ht0, ht1]
  have hre : reorth eps 3 (![0, 1, 0] : Vec 3) ⟨3, Function.update (Function.update gq 2 0) 0 ![0, 0, 1]⟩ 0 = .ok 0 := by
    have c0 : cmod 0 ((3 : ℕ) : ℤ) = 0 := by decide
    unfold reorth orthVector
    rw [if_pos (by decide), if_pos rfl, c0]
    exact hQ2
  have htol : (0 : ℝ) < Real.sqrt ((3 : ℕ) : ℝ) * 1e-8 := by positivity
  have w1 : Buf.write (⟨3, gq⟩ : Buf (Vec 3)) (((3 : ℕ) : ℤ) - 1) 0 = .ok ⟨3, Function.update gq 2 0⟩ := rfl
  have w2 : Buf.write (⟨3, Function.update gq 2 0⟩ : Buf (Vec 3)) 0 ![0, 0, 1] =
    .ok ⟨3, Function.update (Function.update gq 2 0) 0 ![0, 0, 1]⟩ := rfl
  have w3 : Buf.write (⟨4, gb⟩ : Buf ℝ) 0 0 = .ok ⟨4, Function.update gb 0 0⟩ := rfl
  have r1 : Buf.read (⟨3, Function.update (Function.update gq 2 0) 0 ![0, 0, 1]⟩ : Buf (Vec 3)) 0 = .ok ![0, 0, 1] := rfl
  have r2 : Buf.read (⟨4, Function.update gb 0 0⟩ : Buf ℝ) ((0 : ℕ) : ℤ) = .ok 0 := rfl
  have r3 : Buf.read (⟨3, Function.update (Function.update gq 2 0) 0 ![0, 0, 1]⟩ : Buf (Vec 3)) (((3 : ℕ) : ℤ) - 1) =
    .ok 0 := rfl
  have w4 : Buf.write (⟨4, ga⟩ : Buf ℝ) ((0 : ℕ) : ℤ) 0 = .ok ⟨4, Function.update ga 0 0⟩ := rfl
  have w5 : Buf.write (⟨4, Function.update gb 0 0⟩ : Buf ℝ) (((0 : ℕ) : ℤ) + 1) 0 =
    .ok ⟨4, Function.update (Function.update gb 0 0) 1 0⟩ := rfl
  have e3 : ((3 : ℕ) : ℤ).toNat = 3 := rfl
  unfold lanczosNative
  simp only [normalized_of_unit hunit, bind, Except.bind, w1, w2, w3, e3]
  unfold lanczosLoop
  simp only [bind, Except.bind, r1, r2, r3, P3_e3, zero_smul, sub_zero, hdot', w4, hre, nrm_zero, w5]
  rw [if_pos (Or.inl htol)]
  exact ⟨_, rfl, rfl, rfl⟩

theorem sq_rule {m : ℕ} (hm : m = 3) (d e : ℕ → ℝ) (theta : Fin m → ℝ) (Y : Matrix (Fin m) (Fin m) ℝ)
    (h : IsEigh (triMat m d e) theta Y) (h0 : 0 < m) :
    ∑ a, theta a ^ 2 * Y ⟨0, h0⟩ a ^ 2 = d 0 ^ 2 + e 1 ^ 2 := by
  subst hm
  have e1 := IsEigh.matFun_zero_zero (w := theta) (V := Y) h0 (fun x => x ^ 2)
  have e2 := h.matFun_poly (Polynomial.X ^ 2)
  simp only [Polynomial.eval_pow, Polynomial.eval_X, map_pow, Polynomial.aeval_X] at e2
  rw [e2] at e1
  rw [← e1]
  simp [pow_two, mulVec, dotProduct, Matrix.mul_apply, Fin.sum_univ_three, triMat]

/-- **C47 is false of the code.**  For the path with three vertices and `f(x) = x²` an object with the default `deg = 20` and
`orth = 3` returns `quad(e3) = 1`, the right value, when it is new, and `quad(e3) = 0` after `quad(e1)`: the second
column of `Q` still holds `e2` and is projected out. -/
theorem C47_counterexample (K : TriKernels) (hK : EighOk K) (eps : ℝ) (h0 : 0 ≤ eps) (h1 : eps ≤ 1 / 8) (fuel : ℕ) :
    ∃ M0 M1 M2 M3, MF.init P3.mulVec (fun x => x ^ 2) 20 3 = .ok M0 ∧
      M0.quad K eps fuel [![1, 0, 0]] = some (.ok (M1, [some 1])) ∧
      M0.quad K eps fuel [![0, 0, 1]] = some (.ok (M2, [some 1])) ∧
      M1.quad K eps fuel [![0, 0, 1]] = some (.ok (M3, [some 0])) ∧
      (![0, 0, 1] : Vec 3) ⬝ᵥ (P3 *ᵥ (P3 *ᵥ ![0, 0, 1])) = 1 := by
  have hinit : ∃ M0, MF.init P3.mulVec (fun x => x ^ 2) 20 3 = .ok M0 ∧ M0.orth = 3 := by
    refine ⟨_, if_neg (by norm_num), ?_⟩
    show (if (3 : ℤ) < 0 ∨ (3 : ℤ) > (((min 20 ((3 : ℕ) : ℤ)).toNat : ℕ) : ℤ) then (((min 20 ((3 : ℕ) : ℤ)).toNat : ℕ) : ℤ) else (3 : ℤ)) = 3
    rfl
  obtain ⟨M0, hM0, ho⟩ := hinit
  obtain ⟨w, a1, a2, a3, a4, -⟩ := init_wf _ _ _ _ M0 (by norm_num) hM0
  have hd : M0.deg = 3 := a3
  have hone : ∀ (M M' : MF 3) (x : Vec 3) (y : ℝ), M.quadCol K eps fuel x = some (.ok (M', some y)) →
      M.quad K eps fuel [x] = some (.ok (M', [some y])) := by
    intro M M' x y h
    unfold MF.quad
    simp only [h]
    rfl
  have u1 : (![1, 0, 0] : Vec 3) ⬝ᵥ ![1, 0, 0] = 1 := by simp [dotProduct, Fin.sum_univ_three]
  have u2 : (![0, 1, 0] : Vec 3) ⬝ᵥ ![0, 1, 0] = 1 := by simp [dotProduct, Fin.sum_univ_three]
  have u3 : (![0, 0, 1] : Vec 3) ⬝ᵥ ![0, 0, 1] = 1 := by simp [dotProduct, Fin.sum_univ_three]
  have u12 : (![1, 0, 0] : Vec 3) ⬝ᵥ ![0, 1, 0] = 0 := by simp [dotProduct, Fin.sum_univ_three]
  have u32 : (![0, 0, 1] : Vec 3) ⬝ᵥ ![0, 1, 0] = 0 := by simp [dotProduct, Fin.sum_univ_three]
  have hfresh : FreshQ M0.orth M0.Q := fresh_reached K eps fuel _ _ _ _ (by norm_num) M0 M0 hM0 (.refl M0) (Or.inl rfl)
  have hr0 : 0 < M0.rtol := by rw [a4]; norm_num
  have htol : Real.sqrt ((3 : ℕ) : ℝ) * (1e-8 : ℝ) < 1 := by
    have := sqrt3_lt
    generalize Real.sqrt ((3 : ℕ) : ℝ) = t at *
    norm_num
    linarith
  -- the first step from e1 and from e3
  have s1 : lza P3.mulVec ![1, 0, 0] 0 = 0 ∧ lzr P3.mulVec ![1, 0, 0] 0 = ![0, 1, 0] := by
    have hw : lzw P3.mulVec ![1, 0, 0] 0 = ![0, 1, 0] := by
      rw [lzw, lzq_zero, normalized_of_unit u1, P3_e1, lzb_zero, zero_smul, sub_zero]
    have ha : lza P3.mulVec ![1, 0, 0] 0 = 0 := by rw [lza, lzq_zero, normalized_of_unit u1, hw, u12]
    exact ⟨ha, by rw [lzr, hw, ha, zero_smul, sub_zero]⟩
  have s3 : lza P3.mulVec ![0, 0, 1] 0 = 0 ∧ lzr P3.mulVec ![0, 0, 1] 0 = ![0, 1, 0] := by
    have hw : lzw P3.mulVec ![0, 0, 1] 0 = ![0, 1, 0] := by
      rw [lzw, lzq_zero, normalized_of_unit u3, P3_e3, lzb_zero, zero_smul, sub_zero]
    have ha : lza P3.mulVec ![0, 0, 1] 0 = 0 := by rw [lza, lzq_zero, normalized_of_unit u3, hw, u32]
    exact ⟨ha, by rw [lzr, hw, ha, zero_smul, sub_zero]⟩
  have b1 : lzb P3.mulVec ![1, 0, 0] 1 = 1 := by rw [lzb_succ, s1.2, nrm_of_unit u2]
  have b3 : lzb P3.mulVec ![0, 0, 1] 1 = 1 := by rw [lzb_succ, s3.2, nrm_of_unit u2]
  have q1 : lzq P3.mulVec ![1, 0, 0] 1 = ![0, 1, 0] := by rw [lzq_succ, b1, s1.2, inv_one, one_smul]
  -- the call on e1
  obtain ⟨J, s, theta, Y, hJ, hJ1, hJ2, hF, hY, hq⟩ := quadCol_run K hK eps h0 fuel M0 w P3 P3_symm a1 hr0 hfresh ![1, 0, 0]
  have hJpos : 1 ≤ J := by
    by_contra hc
    obtain rfl : J = 0 := by omega
    rcases hJ2 with h | h
    · rw [a4, b1] at h
      exact absurd htol (not_lt.mpr h.le)
    · omega
  have hQ1 : s.Q.get 1 = ![0, 1, 0] := by
    have := hF.Qcol 1 hJpos (by rw [w.Q_len]; omega)
    rwa [w.Q_len, hd, q1] at this
  obtain ⟨M1, hM1⟩ : ∃ M1 : MF 3, M1 = { M0 with alpha := s.alpha, beta := s.beta, Q := s.Q, nodes := ofFin theta, weights := ofFin (gwWeights Y) } := ⟨_, rfl⟩
  rw [← hM1] at hq
  have wM1 : M1.WF := (quadCol_preserves K eps fuel M0 M1 w _ _ hq).2
  have v1 : (∑ a, M0.f (theta a) * Y ⟨0, w.dpos⟩ a ^ 2) * nrm (![1, 0, 0] : Vec 3) ^ 2 = 1 := by
    rw [a2, sq_rule hd _ _ theta Y hY, nrm_of_unit u1, hF.alpha_le 0 (Nat.zero_le _), hF.beta_le 1 (by omega), s1.1, b1]
    norm_num
  rw [v1] at hq
  -- the call on e3 in the new object
  obtain ⟨J', s', theta', Y', hJ', hJ1', hJ2', hF', hY', hq'⟩ := quadCol_run K hK eps h0 fuel M0 w P3 P3_symm a1 hr0 hfresh ![0, 0, 1]
  have v' : (∑ a, M0.f (theta' a) * Y' ⟨0, w.dpos⟩ a ^ 2) * nrm (![0, 0, 1] : Vec 3) ^ 2 = 1 := by
    rw [a2, sq_rule hd _ _ theta' Y' hY', nrm_of_unit u3, hF'.alpha_le 0 (Nat.zero_le _), hF'.beta_le 1 (by omega), s3.1, b3]
    norm_num
  rw [v'] at hq'
  -- the call on e3 in the used object
  obtain ⟨s2, hs2, g1, g2⟩ := p3_stale eps h0 h1 M1.alpha M1.beta M1.Q (by rw [wM1.alpha_len, hM1]; simp [hd])
    (by rw [wM1.beta_len, hM1]; simp [hd]) (by rw [wM1.Q_len, hM1]; exact hd) (by rw [hM1]; exact hQ1)
  have hs2' : lanczosNative M1.A eps ![0, 0, 1] M1.deg M1.rtol M1.orth M1.alpha M1.beta M1.Q = .ok s2 := by
    rw [← hs2, hM1]
    simp only [a1, a4, ho, hd]
  obtain ⟨s2', hs2'', l1, l2, -, l4⟩ := native_mf M1 wM1 eps ![0, 0, 1] M1.Q wM1.Q_len
  obtain rfl : s2' = s2 := by rw [hs2'] at hs2''; exact (Except.ok.inj hs2'').symm
  obtain ⟨theta3, Y3, hY3, hq3⟩ := quadCol_of_native K hK eps fuel M1 wM1 ![0, 0, 1] s2' hs2' l1 l2 l4
  have hd1 : M1.deg = 3 := by rw [hM1]; exact hd
  have f1 : M1.f = fun x => x ^ 2 := by rw [hM1]; exact a2
  have v3 : (∑ a, M1.f (theta3 a) * Y3 ⟨0, wM1.dpos⟩ a ^ 2) * nrm (![0, 0, 1] : Vec 3) ^ 2 = 0 := by
    rw [f1, sq_rule hd1 _ _ theta3 Y3 hY3, g1, g2]
    norm_num
  rw [v3] at hq3
  refine ⟨M0, M1, _, _, hM0, hone _ _ _ _ hq, hone _ _ _ _ hq', hone _ _ _ _ hq3, ?_⟩
  rw [P3_e3, P3_e2]
  simp [dotProduct, Fin.sum_univ_three]

/-! ## Concrete cases

`S2 = [[0, 1], [1, 0]]` with eigenvalues `1, -1`, starting vector `e1`, degree 2. -/

def S2 : Matrix (Fin 2) (Fin 2) ℝ := !![0, 1; 1, 0]

theorem S2_symm : S2.IsSymm := by
  ext i j; fin_cases i <;> fin_cases j <;> rfl

theorem S2_eigen : Spec.Eigen S2 ![1, -1] !![Real.sqrt 2 / 2, Real.sqrt 2 / 2; Real.sqrt 2 / 2, -(Real.sqrt 2 / 2)] := by
  have h : Real.sqrt 2 * Real.sqrt 2 = 2 := Real.mul_self_sqrt (by norm_num)
  have h2 : Real.sqrt 2 / 2 * (Real.sqrt 2 / 2) = 1 / 2 := by nlinarith
  constructor
  · ext i j
    fin_cases i <;> fin_cases j <;> simp [Matrix.mul_apply, Fin.sum_univ_two, h2] <;> norm_num
  · intro j
    funext i
    fin_cases i <;> fin_cases j <;> simp [S2, mulVec, dotProduct, Fin.sum_univ_two]

theorem S2_b1 : lzb S2.mulVec ![1, 0] 1 = 1 := by
  have u1 : (![1, 0] : Vec 2) ⬝ᵥ ![1, 0] = 1 := by simp [dotProduct, Fin.sum_univ_two]
  have u2 : (![0, 1] : Vec 2) ⬝ᵥ ![0, 1] = 1 := by simp [dotProduct, Fin.sum_univ_two]
  have u12 : (![1, 0] : Vec 2) ⬝ᵥ ![0, 1] = 0 := by simp [dotProduct, Fin.sum_univ_two]
  have hS : S2 *ᵥ ![1, 0] = ![0, 1] := by
    funext i; fin_cases i <;> simp [S2, mulVec, dotProduct, Fin.sum_univ_two]
  have hw : lzw S2.mulVec ![1, 0] 0 = ![0, 1] := by
    rw [lzw, lzq_zero, normalized_of_unit u1, hS, lzb_zero, zero_smul, sub_zero]
  have ha : lza S2.mulVec ![1, 0] 0 = 0 := by rw [lza, lzq_zero, normalized_of_unit u1, hw, u12]
  rw [lzb_succ, lzr, hw, ha, zero_smul, sub_zero, nrm_of_unit u2]

theorem S2_init (f : ℝ → ℝ) (orth : ℤ) : ∃ M0, MF.init S2.mulVec f 2 orth = .ok M0 ∧ M0.deg = 2 ∧
    (0 ≤ orth → orth ≤ 2 → M0.orth = orth) := by
  refine ⟨_, if_neg (by norm_num), rfl, fun h1 h2 => ?_⟩
  show (if orth < 0 ∨ orth > (((min 2 ((2 : ℕ) : ℤ)).toNat : ℕ) : ℤ) then (((min 2 ((2 : ℕ) : ℤ)).toNat : ℕ) : ℤ) else orth) = orth
  rw [if_neg]
  push Not
  exact ⟨h1, by simpa using h2⟩

theorem S2_tol : Real.sqrt ((2 : ℕ) : ℝ) * (1e-8 : ℝ) < 1 := by
  have h : Real.sqrt ((2 : ℕ) : ℝ) < 2 := by
    rw [Real.sqrt_lt' (by norm_num)]
    norm_num
  generalize Real.sqrt ((2 : ℕ) : ℝ) = t at *
  norm_num
  linarith

/-- The hypothesis on the way the iteration stops is met in this case. -/
theorem S2_clean (K : TriKernels) (hK : EighOk K) (fuel : ℕ) (f : ℝ → ℝ) (orth : ℤ) (M0 : MF 2)
    (h0 : MF.init S2.mulVec f 2 orth = .ok M0) :
    (∀ M' y, M0.quadCol K 0 fuel ![1, 0] = some (.ok (M', some y)) →
      Spec.CleanStop (Real.sqrt (2 : ℕ) * 1e-8) M0.deg M'.beta.get) ∧
    (∀ M' y, M0.matvec K 0 fuel ![1, 0] = some (.ok (M', some y)) →
      Spec.CleanStop (Real.sqrt (2 : ℕ) * 1e-8) M0.deg M'.beta.get) := by
  obtain ⟨w, a1, a2, a3, a4, -⟩ := init_wf _ _ _ _ M0 (by norm_num) h0
  have hd : M0.deg = 2 := a3
  have hfresh := fresh_reached K 0 fuel _ _ _ _ (by norm_num) M0 M0 h0 (.refl M0) (Or.inl rfl)
  have key : ∀ (J : ℕ) (s : LState 2) (al be : Buf ℝ) (Q : Buf (Vec 2)), LFinal S2.mulVec ![1, 0] al be Q J s →
      Spec.CleanStop (Real.sqrt (2 : ℕ) * 1e-8) M0.deg s.beta.get := by
    intro J s al be Q hF i hi1 hi2 hi3
    obtain rfl : i = 1 := by omega
    rw [hF.beta_le 1 (by omega), S2_b1] at hi3
    exact absurd S2_tol (not_lt.mpr hi3.le)
  constructor
  · intro M' y h
    obtain ⟨J, s, theta, Y, -, -, -, hF, -, hq⟩ := quadCol_run K hK 0 le_rfl fuel M0 w S2 S2_symm a1
      (by rw [a4]; norm_num) hfresh ![1, 0]
    rw [h] at hq
    simp only [Option.some.injEq, Except.ok.injEq, Prod.mk.injEq] at hq
    rw [hq.1]
    exact key J s _ _ _ hF
  · intro M' y h
    obtain ⟨J, s, theta, Y, -, -, -, hF, -, hq⟩ := matvec_run K hK 0 le_rfl fuel M0 w S2 S2_symm a1
      (by rw [a4]; norm_num) ![1, 0]
    rw [h] at hq
    simp only [Option.some.injEq, Except.ok.injEq, Prod.mk.injEq] at hq
    rw [hq.1]
    exact key J s _ _ _ hF

/-- `C44` on a cubic. -/
example (K : TriKernels) (hK : EighOk K) (fuel : ℕ) : ∃ M0 M' y,
    MF.init S2.mulVec (fun t => (Polynomial.X ^ 3 + 2 : Polynomial ℝ).eval t) 2 (-1) = .ok M0 ∧
    M0.quadCol K 0 fuel ![1, 0] = some (.ok (M', some y)) ∧ y = 2 := by
  obtain ⟨M0, h0, -⟩ := S2_init (fun t => (Polynomial.X ^ 3 + 2 : Polynomial ℝ).eval t) (-1)
  have hp : (Polynomial.X ^ 3 + 2 : Polynomial ℝ).natDegree ≤ 3 := by compute_degree
  obtain ⟨M', y, h1, h2⟩ := C44_quad_exact_poly K hK 0 le_rfl fuel S2 S2_symm _ _ S2_eigen _ 2 (-1) (by norm_num) M0 M0 h0
    (.refl M0) (Or.inl rfl) (by omega) ![1, 0]
  refine ⟨M0, M', y, h0, h1, ?_⟩
  rw [h2 ((S2_clean K hK fuel _ _ M0 h0).1 M' y h1)]
  have h : Real.sqrt 2 * Real.sqrt 2 = 2 := Real.mul_self_sqrt (by norm_num)
  rw [Spec.quadForm, IsEigh.quad_sum (isEigh_iff_eigen.mpr S2_eigen)]
  simp [Fin.sum_univ_two, mulVec, dotProduct]
  nlinarith

/-- `C45` and `C46` for the matrix-vector product with an arbitrary function. -/
example (K : TriKernels) (hK : EighOk K) (fuel : ℕ) (f : ℝ → ℝ) : ∃ M0 M' y, MF.init S2.mulVec f 2 (-1) = .ok M0 ∧
    M0.matvec K 0 fuel ![1, 0] = some (.ok (M', some y)) ∧ y 0 = (f 1 + f (-1)) / 2 ∧ y 1 = (f 1 - f (-1)) / 2 := by
  obtain ⟨M0, h0, -⟩ := S2_init f (-1)
  obtain ⟨M', y, h1, h2⟩ := C46_matvec_exact_partial K hK 0 le_rfl fuel S2 S2_symm _ _ S2_eigen f 2 (-1) (by norm_num) M0 M0 h0
    (.refl M0) ![1, 0]
  have h : Real.sqrt 2 * Real.sqrt 2 = 2 := Real.mul_self_sqrt (by norm_num)
  refine ⟨M0, M', y, h0, h1, ?_⟩
  rw [h2 ((S2_clean K hK fuel _ _ M0 h0).2 M' y h1) (Or.inl (by norm_num)), IsEigh.matFun_mulVec, IsEigh.matFun_mulVec]
  simp [Fin.sum_univ_two]
  constructor
  · linear_combination (f 1 / 4 + f (-1) / 4) * h
  · linear_combination (f 1 / 4 - f (-1) / 4) * h

/-- `C46` for `quad`, with an arbitrary function. -/
example (K : TriKernels) (hK : EighOk K) (fuel : ℕ) (f : ℝ → ℝ) : ∃ M0 M' y, MF.init S2.mulVec f 2 1 = .ok M0 ∧
    M0.quadCol K 0 fuel ![1, 0] = some (.ok (M', some y)) ∧ y = (f 1 + f (-1)) / 2 := by
  obtain ⟨M0, h0, -⟩ := S2_init f 1
  obtain ⟨M', y, h1, h2⟩ := C46_quad_exact_partial K hK 0 le_rfl fuel S2 S2_symm _ _ S2_eigen f 2 1 (by norm_num) M0 M0 h0
    (.refl M0) (Or.inl rfl) ![1, 0]
  have h : Real.sqrt 2 * Real.sqrt 2 = 2 := Real.mul_self_sqrt (by norm_num)
  refine ⟨M0, M', y, h0, h1, ?_⟩
  rw [h2 ((S2_clean K hK fuel _ _ M0 h0).1 M' y h1) (Or.inl (by norm_num)), Spec.quadForm,
    IsEigh.quad_sum (isEigh_iff_eigen.mpr S2_eigen)]
  simp [Fin.sum_univ_two, mulVec, dotProduct]
  linear_combination (f 1 / 4 + f (-1) / 4) * h

/-- `C47` and `C48` after other calls: a state reached by `quad` on two vectors exists. -/
example (K : TriKernels) (hK : EighOk K) (fuel : ℕ) (f : ℝ → ℝ) (u v : Vec 2) : ∃ M0 M1 ys,
    MF.init S2.mulVec f 2 1 = .ok M0 ∧ M0.orth ≤ 2 ∧ M0.quad K 0 fuel [u, v] = some (.ok (M1, ys)) ∧
    MF.Reach K 0 fuel M0 M1 := by
  obtain ⟨M0, h0, -, ho⟩ := S2_init f 1
  have q : ∀ M : MF 2, MF.Reach K 0 fuel M0 M → ∀ x, ∃ M' y, M.quadCol K 0 fuel x = some (.ok (M', some y)) := by
    intro M hM x
    obtain ⟨M', -, y, -, h, -⟩ := C47_quad_history_partial K hK 0 le_rfl fuel S2 S2_symm f 2 1 (by norm_num) M0 M M0 h0
      (by rw [ho] <;> norm_num) hM (.refl M0) x
    exact ⟨M', y, h⟩
  obtain ⟨M1, y1, h1⟩ := q M0 (.refl M0) u
  have hr1 : M0.quad K 0 fuel [u] = some (.ok (M1, [some y1])) := by
    unfold MF.quad
    simp only [h1]
    rfl
  obtain ⟨M2, y2, h2⟩ := q M1 (.quad _ _ (.refl M0) hr1) v
  have hr2 : M1.quad K 0 fuel [v] = some (.ok (M2, [some y2])) := by
    unfold MF.quad
    simp only [h2]
    rfl
  have hr := (C49_quad_columns K 0 fuel M0 u [v] M2 _).mpr ⟨M1, _, _, hr1, hr2, rfl⟩
  exact ⟨M0, M2, _, h0, by rw [ho] <;> norm_num, hr, .quad _ _ (.refl M0) hr⟩

end Primate
