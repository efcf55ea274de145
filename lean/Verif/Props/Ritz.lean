import Verif.Lemmas.Ritz
import Mathlib.LinearAlgebra.Matrix.Charpoly.Basic
import Mathlib.Algebra.Polynomial.Roots

/-!
# Rayleigh-Ritz values (C42) and the evaluation points of a matrix function (C81)

`EighOk K`, `EigvalshOk K`: the tridiagonal solvers of SciPy succeed and return the eigenvalues (and orthonormal
eigenvectors).
-/

noncomputable section

namespace Primate

open Matrix Polynomial

variable {n : ℕ}

theorem IsEigh.roots {m : ℕ} {B : Matrix (Fin m) (Fin m) ℝ} {w : Fin m → ℝ} {V : Matrix (Fin m) (Fin m) ℝ}
    (h : IsEigh B w V) : B.charpoly.roots = Multiset.map w Finset.univ.val := by
  have h1 : B = V * (diagonal w * Vᵀ) := by
    rw [← Matrix.mul_assoc, ← h.2, Matrix.mul_assoc, h.mul_transpose, Matrix.mul_one]
  have h2 : B.charpoly = (diagonal w).charpoly := by
    rw [h1, charpoly_mul_comm, Matrix.mul_assoc, h.1, Matrix.mul_one]
  rw [h2, charpoly_diagonal]
  have h3 : ∏ i, (X - C (w i)) = (Multiset.map (fun a => X - C a) (Multiset.map w Finset.univ.val)).prod := by
    rw [Multiset.map_map]
    rfl
  rw [h3, roots_multiset_prod_X_sub_C]

/-- The calls made by `rayleigh_ritz`. -/
theorem ritz_run (K : TriKernels) (hK : EighOk K) (hK' : EigvalshOk K) (eps : ℝ) (heps : 0 ≤ eps) (fuel : ℕ)
    (a : LanczosArgs n) (hA : SelfAdj a.A) (hr : 0 < a.rtol) (h1 : a.alpha = none) (h2 : a.beta = none) (h3 : a.Q = none)
    (hn : 0 < n) (deg : Option ℤ) (hdeg : 0 < lanczosDeg n deg) (vec : Bool) :
    ∃ (J : ℕ) (s : LState n) (out : RitzOut n) (Y : Matrix (Fin out.k) (Fin out.k) ℝ),
      rayleighRitz K eps fuel a deg vec = some (.ok (some out)) ∧ (out.k : ℤ) = ritzDeg n deg ∧ J < out.k ∧
      (∀ i < J, Real.sqrt n * a.rtol ≤ lzb a.A a.v0 (i + 1)) ∧
      (lzb a.A a.v0 (J + 1) < Real.sqrt n * a.rtol ∨ J + 1 = out.k) ∧
      (∃ ncv : ℕ, (a.return_basis = true → ncv = out.k) ∧
        LFinal a.A a.v0 (Buf.zeros (out.k + 1)) (Buf.zeros (out.k + 1)) (Buf.zeros ncv) J s) ∧
      IsEigh (triMat out.k s.alpha.get s.beta.get) out.values Y ∧
      out.vectors = (if vec then some Y else none) ∧
      out.basis = (if a.return_basis then some s.Q else none) ∧
      ∃ B, lanczos eps { a with deg := some (ritzDeg n deg), sparse_mat := false } =
        .ok (.arrays ((List.range out.k).map s.alpha.get) ((List.range (out.k - 1)).map fun i => s.beta.get (i + 1)), B) := by
  have hrd : 0 < ritzDeg n deg ∧ ritzDeg n deg ≤ n := by
    unfold ritzDeg npClip
    omega
  obtain ⟨a', ha'⟩ : ∃ a' : LanczosArgs n, a' = { a with deg := some (ritzDeg n deg), sparse_mat := false } := ⟨_, rfl⟩
  have hda : lanczosDeg n a'.deg = ritzDeg n deg := by
    rw [ha']
    show min _ _ = _
    omega
  obtain ⟨J, s, hJ, hJ1, hJ2, hF, hs⟩ := lanczos_run eps heps a' (by rw [ha']; exact hA) (by rw [ha']; exact hr)
    (by omega) (by rw [ha']; exact h1) (by rw [ha']; exact h2) (by rw [ha']; exact h3)
  obtain ⟨k, hk⟩ : ∃ k : ℕ, k = (lanczosDeg n a'.deg).toNat := ⟨_, rfl⟩
  rw [← hk] at hJ hJ2 hF
  have hA' : a'.A = a.A := by rw [ha']
  have hv' : a'.v0 = a.v0 := by rw [ha']
  have hr' : a'.rtol = a.rtol := by rw [ha']
  have hb' : a'.return_basis = a.return_basis := by rw [ha']
  have hsp : a'.sparse_mat = false := by rw [ha']
  rw [hA', hv'] at hJ1 hJ2 hF
  rw [hr'] at hJ1 hJ2
  have hkr : (k : ℤ) = ritzDeg n deg := by omega
  have hfmt : lanczosFmt a' s = (.arrays ((List.range k).map s.alpha.get)
      ((List.range (k - 1)).map fun i => s.beta.get (i + 1)), if a.return_basis then some s.Q else none) := by
    unfold lanczosFmt
    simp only [hsp, Bool.false_eq_true, if_false, ← hk, hb']
  rw [hfmt, ha'] at hs
  obtain ⟨al, hal⟩ : ∃ al, al = (List.range k).map s.alpha.get := ⟨_, rfl⟩
  obtain ⟨be, hbe⟩ : ∃ be, be = (List.range (k - 1)).map fun i => s.beta.get (i + 1) := ⟨_, rfl⟩
  rw [← hal, ← hbe] at hs
  have hlen : al.length = k := by rw [hal]; simp
  have hblen : be.length = k - 1 := by rw [hbe]; simp
  obtain ⟨d, hd⟩ : ∃ d : Buf ℝ, d = ⟨al.length, fun i => al.getD i 0⟩ := ⟨_, rfl⟩
  obtain ⟨e, he⟩ : ∃ e : Buf ℝ, e = ⟨be.length, fun i => be.getD i 0⟩ := ⟨_, rfl⟩
  have hdl : d.len = k := by rw [hd]; exact hlen
  have hel : e.len + 1 = k := by rw [he]; show be.length + 1 = k; omega
  have hin : Spec.QuadInput d e := ⟨by omega, Or.inl (by omega)⟩
  obtain ⟨p1, p2, p3⟩ := padE_off d e hin
  have hpe : padE d (padE d e) = padE d e := padE_of_len p1
  have htri : ∀ m, m = k → triMat m d.get (padE d e).get = triMat m s.alpha.get s.beta.get := by
    rintro m rfl
    refine triMat_congr (fun i hi => ?_) fun i hi1 hi2 => ?_
    · rw [hd]
      show al.getD i 0 = _
      rw [hal, List.getD_eq_getElem?_getD, List.getElem?_map, List.getElem?_range hi]
      rfl
    · obtain ⟨j, rfl⟩ : ∃ j, i = j + 1 := ⟨i - 1, by omega⟩
      rw [p3, Spec.offDiag, if_neg (by omega), he]
      show be.getD j 0 = _
      rw [hbe, List.getD_eq_getElem?_getD, List.getElem?_map, List.getElem?_range (by omega)]
      rfl
  have hncv : ∃ ncv : ℕ, (a.return_basis = true → ncv = k) ∧
      LFinal a.A a.v0 (Buf.zeros (k + 1)) (Buf.zeros (k + 1)) (Buf.zeros ncv) J s := by
    refine ⟨a'.ncv.toNat, fun hb => ?_, hF⟩
    have : a'.ncv = lanczosDeg n a'.deg := by
      unfold LanczosArgs.ncv lanczosNcv
      rw [hb', hb, if_pos rfl]
    omega
  have hunf : rayleighRitz K eps fuel a deg vec = if vec then
        match eighTridiag K d e "auto" 30 fuel with
        | none => none
        | some (.error er) => some (.error er)
        | some (.ok none) => some (.ok none)
        | some (.ok (some (rw, Y))) => some (.ok (some ⟨d.len, rw, some Y, if a.return_basis then some s.Q else none⟩))
      else
        match eigvalshTridiag K d e "auto" 30 fuel with
        | none => none
        | some (.error er) => some (.error er)
        | some (.ok none) => some (.ok none)
        | some (.ok (some rw)) => some (.ok (some ⟨d.len, rw, none, if a.return_basis then some s.Q else none⟩)) := by
    subst hd
    subst he
    unfold rayleighRitz
    rw [if_neg (by omega), hs]
    rfl
  cases vec with
  | true =>
    obtain ⟨w, V, g1, -, g2⟩ := eighTridiag_ok K hK d e (by omega) (Or.inl (by omega)) 30 fuel
    rw [htri _ hdl] at g2
    refine ⟨J, s, ⟨d.len, w, some V, if a.return_basis then some s.Q else none⟩, V, ?_, by simp only; omega,
      by simp only; omega, hJ1, by simp only; rw [hdl]; exact hJ2, by simp only; rw [hdl]; exact hncv, g2, rfl, rfl, ?_⟩
    · rw [hunf, if_pos rfl, g1]
    · exact ⟨_, by simp only; rw [hdl, ← hal, ← hbe]; exact hs⟩
  | false =>
    obtain ⟨w, V, g2, g1⟩ := eigvalsh_rule K hK' d e hin 30 fuel
    have g1' : eigvalshTridiag K d e "auto" 30 fuel = some (.ok (some w)) := by
      rw [← g1]
      unfold eigvalshTridiag
      have c1 : ¬ (d.len ≠ e.len + 1 ∧ d.len ≠ e.len) := by omega
      have c2 : ¬ (d.len ≠ (padE d e).len + 1 ∧ d.len ≠ (padE d e).len) := by omega
      simp only [if_neg c1, if_neg c2, hpe]
    rw [htri _ hdl] at g2
    refine ⟨J, s, ⟨d.len, w, none, if a.return_basis then some s.Q else none⟩, V, ?_, by simp only; omega,
      by simp only; omega, hJ1, by simp only; rw [hdl]; exact hJ2, by simp only; rw [hdl]; exact hncv, g2, rfl, rfl, ?_⟩
    · rw [hunf, if_neg (by simp), g1']
    · exact ⟨_, by simp only; rw [hdl, ← hal, ← hbe]; exact hs⟩


/-- **C42.**  Ritz values lie in the hull of the spectrum and of zero, up to the tolerance.  (The statement without the
zero is false, see `C42_counterexample`: after an early stop the remaining diagonal entries are zeros.) -/
theorem C42_ritz_bounds_partial (K : TriKernels) (hK : EighOk K) (hK' : EigvalshOk K) (eps : ℝ) (heps : 0 ≤ eps) (fuel : ℕ)
    (M : Matrix (Fin n) (Fin n) ℝ) (hM : M.IsSymm) (lam : Fin n → ℝ) (U : Matrix (Fin n) (Fin n) ℝ)
    (hU : Spec.Eigen M lam U) (a : LanczosArgs n) (hA : a.A = M.mulVec) (hv : a.v0 ≠ 0) (hr : 0 < a.rtol)
    (h1 : a.alpha = none) (h2 : a.beta = none) (h3 : a.Q = none) (deg : Option ℤ) (hdeg : 0 < lanczosDeg n deg)
    (vec : Bool) (lo hi : ℝ) (hlo : ∀ i, lo ≤ lam i) (hhi : ∀ i, lam i ≤ hi) :
    ∃ out, rayleighRitz K eps fuel a deg vec = some (.ok (some out)) ∧ (out.k : ℤ) = ritzDeg n deg ∧
      (∀ i, min lo 0 - Real.sqrt n * a.rtol ≤ out.values i ∧ out.values i ≤ max hi 0 + Real.sqrt n * a.rtol) ∧
      -- without an early stop
      (∀ al be B, lanczos eps { a with deg := some (ritzDeg n deg), sparse_mat := false } = .ok (.arrays al be, B) →
        (∀ b ∈ be, Real.sqrt n * a.rtol ≤ b) → ∀ i, lo ≤ out.values i ∧ out.values i ≤ hi) := by
  have hn : 0 < n := by
    by_contra hn0
    have : n = 0 := by omega
    subst this
    exact hv (funext fun i => i.elim0)
  obtain ⟨J, s, out, Y, g1, g2, g3, g4, g5, ⟨ncv, -, hF⟩, g7, -, -, B0, hl⟩ := ritz_run K hK hK' eps heps fuel a
    (hA ▸ SelfAdj.mulVec hM) hr h1 h2 h3 hn deg hdeg vec
  rw [hA] at g4 g5 hF
  have htol := tol_pos hn hr
  have key := fun i => ritz_bounds M hM (isEigh_iff_eigen.mpr hU) a.v0 hv out.k J _ htol g3 g4 g5 s.alpha.get s.beta.get
    hF.alpha_le (fun j hj _ => (hF.alpha_gt j hj).trans rfl) hF.beta_le (fun j hj _ => (hF.beta_gt j hj).trans rfl) g7 i
    lo hi hlo hhi
  refine ⟨out, g1, g2, fun i => (key i).1, ?_⟩
  intro al be B hl' hbe i
  rw [hl] at hl'
  simp only [Except.ok.injEq, Prod.mk.injEq, TriOut.arrays.injEq] at hl'
  obtain ⟨⟨-, rfl⟩, -⟩ := hl'
  refine (key i).2 ?_
  by_contra hJk
  have : lzb M.mulVec a.v0 (J + 1) < Real.sqrt n * a.rtol := by tauto
  rw [← hF.beta_le (J + 1) le_rfl] at this
  refine absurd (hbe (s.beta.get (J + 1)) ?_) (not_le.mpr this)
  exact List.mem_map.mpr ⟨J, List.mem_range.mpr (by omega), rfl⟩

/-- **C42**, full degree.  If the iteration completes `n` steps, the Ritz values are the eigenvalues, with multiplicities,
and the Lanczos basis times the returned eigenvectors of the tridiagonal matrix are orthonormal eigenvectors. -/
theorem C42_ritz_full_partial (K : TriKernels) (hK : EighOk K) (hK' : EigvalshOk K) (eps : ℝ) (heps : 0 ≤ eps) (fuel : ℕ)
    (M : Matrix (Fin n) (Fin n) ℝ) (hM : M.IsSymm) (lam : Fin n → ℝ) (U : Matrix (Fin n) (Fin n) ℝ)
    (hU : Spec.Eigen M lam U) (a : LanczosArgs n) (hA : a.A = M.mulVec) (hv : a.v0 ≠ 0) (hr : 0 < a.rtol)
    (h1 : a.alpha = none) (h2 : a.beta = none) (h3 : a.Q = none) (deg : Option ℤ) (hdeg : lanczosDeg n deg = n)
    (vec : Bool) (al be : List ℝ) (B : Option (Buf (Vec n)))
    (hl : lanczos eps { a with deg := some (ritzDeg n deg), sparse_mat := false } = .ok (.arrays al be, B))
    (hbe : ∀ b ∈ be, Real.sqrt n * a.rtol ≤ b) :
    ∃ out, rayleighRitz K eps fuel a deg vec = some (.ok (some out)) ∧ out.k = n ∧
      Multiset.map out.values Finset.univ.val = Multiset.map lam Finset.univ.val ∧
      (vec = true → ∃ Y, out.vectors = some Y ∧ (a.return_basis = true → ∃ Q, out.basis = some Q ∧ Q.len = out.k ∧
        (∀ i j, (∑ l, Y l i • Q.get l) ⬝ᵥ (∑ l, Y l j • Q.get l) = if i = j then 1 else 0) ∧
        ∀ j, M *ᵥ (∑ l, Y l j • Q.get l) = out.values j • ∑ l, Y l j • Q.get l)) := by
  have hn : 0 < n := by
    by_contra hn0
    have : n = 0 := by omega
    subst this
    exact hv (funext fun i => i.elim0)
  obtain ⟨J, s, out, Y, g1, g2, g3, g4, g5, ⟨ncv, hncv, hF⟩, g7, g8, g9, B0, hl0⟩ := ritz_run K hK hK' eps heps fuel a
    (hA ▸ SelfAdj.mulVec hM) hr h1 h2 h3 hn deg (by omega) vec
  rw [hA] at g4 g5 hF
  have htol := tol_pos hn hr
  have hkn : out.k = n := by
    unfold ritzDeg npClip at g2
    omega
  rw [hl0] at hl
  simp only [Except.ok.injEq, Prod.mk.injEq, TriOut.arrays.injEq] at hl
  obtain ⟨⟨-, rfl⟩, -⟩ := hl
  have hJk : J + 1 = out.k := by
    by_contra hJk
    have : lzb M.mulVec a.v0 (J + 1) < Real.sqrt n * a.rtol := by tauto
    rw [← hF.beta_le (J + 1) le_rfl] at this
    refine absurd (hbe (s.beta.get (J + 1)) ?_) (not_le.mpr this)
    exact List.mem_map.mpr ⟨J, List.mem_range.mpr (by omega), rfl⟩
  have hb0 : ∀ i < J, lzb M.mulVec a.v0 (i + 1) ≠ 0 := fun i hi => (lt_of_lt_of_le htol (g4 i hi)).ne'
  have hd := kdata_of_final M hM a.v0 hv out.k J s.alpha.get s.beta.get g3 hb0 hF.alpha_le hF.beta_le (Or.inl hJk)
  rw [if_pos hJk] at hd
  obtain ⟨hQ, hrr⟩ := qcols_orth M hM a.v0 hv J hb0
  have hQcol : ∀ l (hl : l < out.k), a.return_basis = true → s.Q.get l = (qcols M.mulVec a.v0 J out.k).col ⟨l, hl⟩ := by
    intro l hlk hb
    rw [qcols_col, if_pos (by simp only; omega)]
    have := hF.Qcol l (by omega) (by show J < l + ncv; rw [hncv hb]; omega)
    rwa [show (Buf.zeros ncv : Buf (Vec n)).len = ncv from rfl, hncv hb, Nat.mod_eq_of_lt hlk] at this
  obtain ⟨k, values, vectors, basis⟩ := out
  simp only at Y g2 g3 g4 g5 hF g7 g8 g9 hkn hJk hd hQcol hncv
  subst hkn
  subst hJk
  obtain ⟨Q, hQe⟩ : ∃ Q, Q = qcols M.mulVec a.v0 J (J + 1) := ⟨_, rfl⟩
  rw [← hQe] at hQ hrr hd hQcol
  have hQQ : Q * Qᵀ = 1 := mul_eq_one_comm.mp hQ
  have hr0 : lzb M.mulVec a.v0 (J + 1) • lzq M.mulVec a.v0 (J + 1) = 0 := by
    have : Qᵀ *ᵥ (lzb M.mulVec a.v0 (J + 1) • lzq M.mulVec a.v0 (J + 1)) = 0 := funext fun j => hrr j
    have h2 : Q *ᵥ (Qᵀ *ᵥ (lzb M.mulVec a.v0 (J + 1) • lzq M.mulVec a.v0 (J + 1))) = 0 := by rw [this, mulVec_zero]
    rwa [mulVec_mulVec, hQQ, one_mulVec] at h2
  have hMQ : ∀ y : Vec (J + 1), M *ᵥ (Q *ᵥ y) = Q *ᵥ (triMat (J + 1) s.alpha.get s.beta.get *ᵥ y) := by
    intro y
    rw [hr0] at hd
    have := hd.rel y
    rwa [smul_zero, add_zero] at this
  have hE : IsEigh M values (Q * Y) := by
    rw [isEigh_iff_eigen]
    refine ⟨?_, fun j => ?_⟩
    · rw [transpose_mul, Matrix.mul_assoc, ← Matrix.mul_assoc Qᵀ, hQ, Matrix.one_mul, g7.1]
    · have hc : (fun i => (Q * Y) i j) = Q *ᵥ Y.col j := by
        funext i
        rfl
      rw [hc, hMQ, g7.col_eq, mulVec_smul]
  refine ⟨_, g1, rfl, ?_, fun hvec => ?_⟩
  · have e1 := hE.roots
    rw [(isEigh_iff_eigen.mpr hU).roots] at e1
    exact e1.symm
  · rw [hvec, if_pos rfl] at g8
    refine ⟨Y, g8, fun hb => ?_⟩
    rw [hb, if_pos rfl] at g9
    have hsum : ∀ j, ∑ l : Fin (J + 1), Y l j • s.Q.get l = fun i => (Q * Y) i j := by
      intro j
      have : (fun i => (Q * Y) i j) = Q *ᵥ Y.col j := rfl
      rw [this, mulVec_cols]
      exact Finset.sum_congr rfl fun l _ => by rw [hQcol l l.2 hb]; rfl
    refine ⟨s.Q, g9, by rw [hF.Q_len]; exact hncv hb, fun i j => ?_, fun j => ?_⟩
    · rw [hsum, hsum]
      have := congrFun (congrFun hE.1 i) j
      rw [Matrix.mul_apply, Matrix.one_apply] at this
      exact this
    · rw [hsum]
      exact hE.col_eq j


/-! ## After an early stop -/

theorem IsEigh.zero_eigenvalue {m : ℕ} {B : Matrix (Fin m) (Fin m) ℝ} {w : Fin m → ℝ} {V : Matrix (Fin m) (Fin m) ℝ}
    (h : IsEigh B w V) (x : Vec m) (hx : x ≠ 0) (hB : B *ᵥ x = 0) : ∃ a, w a = 0 := by
  by_contra hc
  push Not at hc
  have h1 : B = V * diagonal w * Vᵀ := by rw [← h.2, Matrix.mul_assoc, h.mul_transpose, Matrix.mul_one]
  have h2 : diagonal w *ᵥ (Vᵀ *ᵥ x) = 0 := by
    have : Vᵀ *ᵥ (B *ᵥ x) = 0 := by rw [hB, mulVec_zero]
    rwa [h1, Matrix.mul_assoc, ← mulVec_mulVec, mulVec_mulVec (M := Vᵀ), h.1, one_mulVec, ← mulVec_mulVec] at this
  have h3 : Vᵀ *ᵥ x = 0 := by
    funext a
    have := congrFun h2 a
    rw [mulVec_diagonal] at this
    exact (mul_eq_zero.mp this).resolve_left (hc a)
  apply hx
  have : V *ᵥ (Vᵀ *ᵥ x) = 0 := by rw [h3, mulVec_zero]
  rwa [mulVec_mulVec, h.mul_transpose, one_mulVec] at this

/-- `2 I`, of size 2. -/
def D2 : Matrix (Fin 2) (Fin 2) ℝ := diagonal fun _ => 2

theorem D2_symm : D2.IsSymm := isSymm_diagonal _

theorem D2_eigen : Spec.Eigen D2 (fun _ => 2) 1 := by
  refine ⟨by simp, fun j => ?_⟩
  funext i
  rw [D2, mulVec_diagonal]
  rfl

theorem D2_steps (J : ℕ) (tol : ℝ) (htol : 0 < tol) (h : ∀ i < J, tol ≤ lzb D2.mulVec ![1, 0] (i + 1)) :
    J = 0 ∧ lza D2.mulVec ![1, 0] 0 = 2 ∧ lzb D2.mulVec ![1, 0] 1 = 0 := by
  have u1 : (![1, 0] : Vec 2) ⬝ᵥ ![1, 0] = 1 := by simp [dotProduct, Fin.sum_univ_two]
  have hD : D2 *ᵥ ![1, 0] = (2 : ℝ) • ![1, 0] := by
    funext i; fin_cases i <;> simp [D2, mulVec_diagonal]
  have hw : lzw D2.mulVec ![1, 0] 0 = (2 : ℝ) • ![1, 0] := by
    rw [lzw, lzq_zero, normalized_of_unit u1, hD, lzb_zero, zero_smul, sub_zero]
  have ha : lza D2.mulVec ![1, 0] 0 = 2 := by
    rw [lza, lzq_zero, normalized_of_unit u1, hw, dotProduct_smul, u1]
    norm_num
  have hb : lzb D2.mulVec ![1, 0] 1 = 0 := by
    rw [lzb_succ, lzr, hw, ha, lzq_zero, normalized_of_unit u1, sub_self, nrm_zero]
  refine ⟨?_, ha, hb⟩
  by_contra hJ
  have := h 0 (by omega)
  rw [hb] at this
  exact absurd htol (not_lt.mpr this)

/-- **C42 is false of the code.**  For `A = 2 I` (the only eigenvalue is 2) and `v0 = e1`, the call
`rayleigh_ritz(A, deg=2)` returns the value 0: the iteration stops after one step and the rest of the tridiagonal matrix is
left at zero. -/
theorem C42_counterexample (K : TriKernels) (hK : EighOk K) (hK' : EigvalshOk K) (fuel : ℕ) (vec : Bool) :
    Spec.Eigen D2 (fun _ => 2) 1 ∧
    ∃ out, rayleighRitz K 0 fuel ⟨D2.mulVec, ![1, 0], none, 1e-8, 0, false, false, none, none, none⟩ (some 2) vec =
      some (.ok (some out)) ∧ out.k = 2 ∧ ∃ i, out.values i = 0 := by
  refine ⟨D2_eigen, ?_⟩
  obtain ⟨J, s, out, Y, g1, g2, g3, g4, g5, ⟨ncv, -, hF⟩, g7, -⟩ := ritz_run K hK hK' 0 le_rfl fuel
    ⟨D2.mulVec, ![1, 0], none, 1e-8, 0, false, false, none, none, none⟩ (SelfAdj.mulVec D2_symm) (by norm_num) rfl rfl rfl
    (by norm_num) (some 2) (by show (0 : ℤ) < min 2 ((2 : ℕ) : ℤ); norm_num) vec
  obtain ⟨rfl, -, hb⟩ := D2_steps J _ (tol_pos (by norm_num) (by norm_num)) g4
  have hk : out.k = 2 := by
    have : ritzDeg 2 (some 2) = 2 := rfl
    omega
  refine ⟨out, g1, hk, g7.zero_eigenvalue (fun i => if (i : ℕ) = 1 then 1 else 0) ?_ ?_⟩
  · intro hc
    have := congrFun hc ⟨1, by omega⟩
    simp at this
  · funext i
    show ∑ j, triMat out.k s.alpha.get s.beta.get i j * (if (j : ℕ) = 1 then 1 else 0) = 0
    refine Finset.sum_eq_zero fun j _ => ?_
    by_cases hj : (j : ℕ) = 1
    · rw [if_pos hj, mul_one, triMat]
      simp only [Matrix.of_apply]
      split_ifs with h1 h2 h3
      · rw [h1, hj, hF.alpha_gt 1 (by omega)]
        rfl
      · rw [hj, hF.beta_le 1 le_rfl]
        exact hb
      · omega
      · rfl
    · rw [if_neg hj, mul_zero]

/-- `C42` without an early stop: `S2 = [[0, 1], [1, 0]]` from `e1`. -/
example (K : TriKernels) (hK : EighOk K) (hK' : EigvalshOk K) (fuel : ℕ) : ∃ out : RitzOut 2,
    rayleighRitz K 0 fuel ⟨S2.mulVec, ![1, 0], none, 1e-8, 0, false, true, none, none, none⟩ none true =
      some (.ok (some out)) ∧ Multiset.map out.values Finset.univ.val = {1, -1} := by
  obtain ⟨J, s, out, Y, -, g2, g3, g4, g5, ⟨ncv, -, hF⟩, g7, -, -, B0, hl⟩ := ritz_run K hK hK' 0 le_rfl fuel
    ⟨S2.mulVec, ![1, 0], none, 1e-8, 0, false, true, none, none, none⟩ (SelfAdj.mulVec S2_symm) (by norm_num) rfl rfl rfl
    (by norm_num) none (by show (0 : ℤ) < ((2 : ℕ) : ℤ); norm_num) true
  have hk : out.k = 2 := by
    have : ritzDeg 2 none = 2 := rfl
    omega
  obtain ⟨out', h1, h2, h3, -⟩ := C42_ritz_full_partial K hK hK' 0 le_rfl fuel S2 S2_symm _ _ S2_eigen
    ⟨S2.mulVec, ![1, 0], none, 1e-8, 0, false, true, none, none, none⟩ rfl (by
      intro hc
      have := congrFun hc 0
      simp at this) (by norm_num) rfl rfl rfl none rfl true _ _ B0 hl (by
      intro b hb
      rw [hk] at hb
      obtain ⟨i, hi, rfl⟩ := List.mem_map.mp hb
      obtain rfl : i = 0 := by simpa using hi
      rw [hF.beta_le 1 (by omega)]
      have := S2_b1
      simp only
      rw [this]
      exact S2_tol.le)
  refine ⟨out', h1, ?_⟩
  rw [h3]
  rfl

/-! ## C81: where the function is evaluated -/

/-- **C81.**  Without an early stop, `quad` evaluates the function only between the extreme eigenvalues. -/
theorem C81_nodes_in_hull_partial (K : TriKernels) (hK : EighOk K) (eps : ℝ) (heps : 0 ≤ eps) (fuel : ℕ)
    (B : Matrix (Fin n) (Fin n) ℝ) (hB : B.IsSymm) (lam : Fin n → ℝ) (U : Matrix (Fin n) (Fin n) ℝ)
    (hU : Spec.Eigen B lam U) (f : ℝ → ℝ) (deg orth : ℤ) (hn : 0 < n) (M0 M : MF n)
    (h0 : MF.init B.mulVec f deg orth = .ok M0) (h : MF.Reach K eps fuel M0 M)
    (hist : M = M0 ∨ M0.orth ≤ 2) (x : Vec n) (hx : x ≠ 0) (lo hi : ℝ) (hlo : ∀ i, lo ≤ lam i) (hhi : ∀ i, lam i ≤ hi) :
    ∃ M' y, M.quadCol K eps fuel x = some (.ok (M', some y)) ∧
      y = (∑ i ∈ Finset.range M0.deg, f (M'.nodes i) * M'.weights i) * nrm x ^ 2 ∧
      ((∀ i, 1 ≤ i → i < M0.deg → Real.sqrt n * 1e-8 ≤ M'.beta.get i) →
        ∀ i < M0.deg, lo ≤ M'.nodes i ∧ M'.nodes i ≤ hi) := by
  obtain ⟨w, hA, hf, hd, ho, hr⟩ := reached K eps fuel _ _ deg orth hn M0 M h0 h
  obtain ⟨J, s, theta, Y, hJ, hJ1, hJ2, hF, hY, hq⟩ := quadCol_run K hK eps heps fuel M w B hB hA (by rw [hr]; norm_num)
    (fresh_reached K eps fuel _ _ deg orth hn M0 M h0 h hist) x
  refine ⟨_, _, hq, ?_, fun hb i hi => ?_⟩
  · rw [← hd, sum_ofFin (fun a b => f a * b), hf]
    rfl
  · rw [hr] at hJ1 hJ2
    rw [← hd] at hb hi
    have hJk : J + 1 = M.deg := by
      by_contra hJk
      have h1 : lzb B.mulVec x (J + 1) < Real.sqrt n * 1e-8 := by tauto
      rw [← hF.beta_le (J + 1) le_rfl] at h1
      exact absurd (hb (J + 1) (by omega) (by omega)) (not_le.mpr h1)
    have := (ritz_bounds B hB (isEigh_iff_eigen.mpr hU) x hx M.deg J _ (tol_pos hn (by norm_num)) hJ hJ1 hJ2 s.alpha.get
      s.beta.get hF.alpha_le (fun j hj hj' => by omega) hF.beta_le (fun j hj hj' => by omega) hY ⟨i, hi⟩ lo _ hlo hhi).2 hJk
    show lo ≤ ofFin theta i ∧ ofFin theta i ≤ _
    rw [ofFin, dif_pos hi]
    exact this

/-- **C81 is false of the code.**  For `A = 2 I` a new object of degree 2 evaluates the function at 0. -/
theorem C81_counterexample (K : TriKernels) (hK : EighOk K) (fuel : ℕ) (f : ℝ → ℝ) (orth : ℤ) :
    Spec.Eigen D2 (fun _ => 2) 1 ∧ ∃ M0 M' y, MF.init D2.mulVec f 2 orth = .ok M0 ∧ M0.deg = 2 ∧
      M0.quadCol K 0 fuel ![1, 0] = some (.ok (M', some y)) ∧
      y = ∑ i ∈ Finset.range 2, f (M'.nodes i) * M'.weights i ∧ ∃ i < 2, M'.nodes i = 0 := by
  refine ⟨D2_eigen, ?_⟩
  obtain ⟨M0, h0⟩ : ∃ M0, MF.init D2.mulVec f 2 orth = .ok M0 := ⟨_, if_neg (by norm_num)⟩
  obtain ⟨w, a1, a2, a3, a4, a5⟩ := init_wf _ _ _ _ M0 (by norm_num) h0
  have hd : M0.deg = 2 := a3
  have hfresh := fresh_reached K 0 fuel _ _ _ _ (by norm_num) M0 M0 h0 (.refl M0) (Or.inl rfl)
  obtain ⟨J, s, theta, Y, hJ, hJ1, hJ2, hF, hY, hq⟩ := quadCol_run K hK 0 le_rfl fuel M0 w D2 D2_symm a1
    (by rw [a4]; norm_num) hfresh ![1, 0]
  obtain ⟨rfl, -, hb⟩ := D2_steps J _ (tol_pos (by norm_num) (by rw [a4]; norm_num)) hJ1
  have u1 : (![1, 0] : Vec 2) ⬝ᵥ ![1, 0] = 1 := by simp [dotProduct, Fin.sum_univ_two]
  have hal : s.alpha.get 1 = 0 := by
    rw [hF.alpha_gt 1 (by omega)]
    unfold MF.init at h0
    rw [if_neg (by norm_num)] at h0
    rw [← Except.ok.inj h0]
    rfl
  have hz : ∃ a, theta a = 0 := by
    refine hY.zero_eigenvalue (fun i => if (i : ℕ) = 1 then 1 else 0) ?_ ?_
    · intro hc
      have := congrFun hc ⟨1, by omega⟩
      simp at this
    · funext i
      show ∑ j, triMat M0.deg s.alpha.get s.beta.get i j * (if (j : ℕ) = 1 then 1 else 0) = 0
      refine Finset.sum_eq_zero fun j _ => ?_
      by_cases hj : (j : ℕ) = 1
      · rw [if_pos hj, mul_one, triMat]
        simp only [Matrix.of_apply]
        split_ifs with h1 h2 h3
        · rw [h1, hj, hal]
        · rw [hj, hF.beta_le 1 le_rfl]
          exact hb
        · omega
        · rfl
      · rw [if_neg hj, mul_zero]
  obtain ⟨a, ha⟩ := hz
  refine ⟨M0, _, _, h0, hd, hq, ?_, a, by omega, ?_⟩
  · rw [nrm_of_unit u1, a2]
    have := sum_ofFin (fun a b => f a * b) theta (gwWeights Y)
    have h2 : ∑ i ∈ Finset.range 2, f (ofFin theta i) * ofFin (gwWeights Y) i =
        ∑ i ∈ Finset.range M0.deg, f (ofFin theta i) * ofFin (gwWeights Y) i := Finset.sum_congr (by rw [hd]) fun _ _ => rfl
    show _ = ∑ i ∈ Finset.range 2, f (ofFin theta i) * ofFin (gwWeights Y) i
    rw [h2, this, one_pow, mul_one]
    rfl
  · show ofFin theta a = 0
    rw [ofFin, dif_pos a.2]
    exact ha

/-- `C81` without an early stop. -/
example (K : TriKernels) (hK : EighOk K) (fuel : ℕ) (f : ℝ → ℝ) : ∃ M0 M' y, MF.init S2.mulVec f 2 1 = .ok M0 ∧
    M0.quadCol K 0 fuel ![1, 0] = some (.ok (M', some y)) ∧ ∀ i < 2, -1 ≤ M'.nodes i ∧ M'.nodes i ≤ 1 := by
  obtain ⟨M0, h0, hd, -⟩ := S2_init f 1
  obtain ⟨M', y, h1, -, h2⟩ := C81_nodes_in_hull_partial K hK 0 le_rfl fuel S2 S2_symm _ _ S2_eigen f 2 1 (by norm_num) M0 M0
    h0 (.refl M0) (Or.inl rfl) ![1, 0] (by
      intro hc
      have := congrFun hc 0
      simp at this) (-1) 1 (by intro i; fin_cases i <;> simp) (by intro i; fin_cases i <;> simp)
  refine ⟨M0, M', y, h0, h1, ?_⟩
  rw [hd] at h2
  refine h2 fun i hi1 hi2 => ?_
  obtain rfl : i = 1 := by omega
  by_contra hc
  obtain ⟨w, a1, a2, a3, a4, a5⟩ := init_wf _ _ _ _ M0 (by norm_num) h0
  obtain ⟨J, s, theta, Y, -, -, -, hF, -, hq⟩ := quadCol_run K hK 0 le_rfl fuel M0 w S2 S2_symm a1 (by rw [a4]; norm_num)
    (fresh_reached K 0 fuel _ _ _ _ (by norm_num) M0 M0 h0 (.refl M0) (Or.inl rfl)) ![1, 0]
  rw [h1] at hq
  simp only [Option.some.injEq, Except.ok.injEq, Prod.mk.injEq] at hq
  rw [hq.1] at hc
  simp only at hc
  rw [hF.beta_le 1 (by omega), S2_b1] at hc
  exact hc S2_tol.le

end Primate
