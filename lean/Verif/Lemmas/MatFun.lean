import Verif.Lemmas.LanczosApi
import Verif.Model.MatrixFunction
import Mathlib.Analysis.Matrix.Spectrum

/-! Eigendecompositions, quadrature and `MatrixFunction`. -/

noncomputable section

namespace Primate

open Matrix Polynomial

/-- Symmetric matrices have eigendecompositions. -/
theorem exists_isEigh {k : ℕ} (B : Matrix (Fin k) (Fin k) ℝ) (hB : B.IsSymm) : ∃ w V, IsEigh B w V := by
  have hH : B.IsHermitian := by
    show Bᴴ = B
    rw [conjTranspose_eq_transpose_of_trivial, hB.eq]
  refine ⟨hH.eigenvalues, (hH.eigenvectorUnitary : Matrix (Fin k) (Fin k) ℝ), ?_, ?_⟩
  · have := Unitary.coe_star_mul_self hH.eigenvectorUnitary
    rwa [star_eq_conjTranspose, conjTranspose_eq_transpose_of_trivial] at this
  · ext i j
    have h1 := congrFun (hH.mulVec_eigenvectorBasis j) i
    rw [Matrix.mul_apply, Matrix.mul_diagonal]
    rw [Pi.smul_apply, smul_eq_mul] at h1
    rw [mul_comm]
    exact h1

theorem isEigh_iff_eigen {k : ℕ} {B : Matrix (Fin k) (Fin k) ℝ} {w : Fin k → ℝ} {V : Matrix (Fin k) (Fin k) ℝ} :
    IsEigh B w V ↔ Spec.Eigen B w V := by
  constructor
  · rintro ⟨h1, h2⟩
    refine ⟨h1, fun j => funext fun i => ?_⟩
    have := congrFun (congrFun h2 i) j
    rw [Matrix.mul_apply, Matrix.mul_diagonal, mul_comm (V i j)] at this
    exact this
  · rintro ⟨h1, h2⟩
    refine ⟨h1, ?_⟩
    ext i j
    rw [Matrix.mul_apply, Matrix.mul_diagonal, mul_comm (V i j)]
    exact congrFun (h2 j) i

namespace IsEigh

variable {m : ℕ} {B : Matrix (Fin m) (Fin m) ℝ} {w : Fin m → ℝ} {V : Matrix (Fin m) (Fin m) ℝ}

theorem matFun_poly (h : IsEigh B w V) (p : ℝ[X]) : Spec.matFun w V (fun x => p.eval x) = aeval B p := by
  unfold Spec.matFun
  rw [← h.aeval_mul, Matrix.mul_assoc, h.mul_transpose, Matrix.mul_one]

/-- The spectral formula for functions. -/
theorem matFun_mulVec (f : ℝ → ℝ) (x : Vec m) (i : Fin m) :
    (Spec.matFun w V f *ᵥ x) i = ∑ a, V i a * (f (w a) * ∑ l, V l a * x l) := by
  unfold Spec.matFun
  rw [← mulVec_mulVec, ← mulVec_mulVec]
  show ∑ a, V i a * _ = _
  refine Finset.sum_congr rfl fun a _ => ?_
  rw [mulVec_diagonal]
  rfl

/-- `(f(B))_{00}` is the Gauss rule. -/
theorem matFun_zero_zero (hm : 0 < m) (f : ℝ → ℝ) :
    (Spec.matFun w V f *ᵥ (Pi.single ⟨0, hm⟩ 1 : Vec m)) ⟨0, hm⟩ = ∑ a, f (w a) * V ⟨0, hm⟩ a ^ 2 := by
  rw [matFun_mulVec]
  refine Finset.sum_congr rfl fun a _ => ?_
  rw [Finset.sum_eq_single (⟨0, hm⟩ : Fin m)]
  · rw [Pi.single_eq_same]; ring
  · intro b _ hb; rw [Pi.single_eq_of_ne hb, mul_zero]
  · intro h; exact absurd (Finset.mem_univ _) h

theorem matFun_single (hm : 0 < m) (f : ℝ → ℝ) (i : Fin m) :
    (Spec.matFun w V f *ᵥ (Pi.single ⟨0, hm⟩ 1 : Vec m)) i = ∑ a, V i a * (f (w a) * V ⟨0, hm⟩ a) := by
  rw [matFun_mulVec]
  refine Finset.sum_congr rfl fun a _ => ?_
  rw [Finset.sum_eq_single (⟨0, hm⟩ : Fin m)]
  · rw [Pi.single_eq_same, mul_one]
  · intro b _ hb; rw [Pi.single_eq_of_ne hb, mul_zero]
  · intro h; exact absurd (Finset.mem_univ _) h

theorem matFun_congr {f g : ℝ → ℝ} (h : ∀ a, f (w a) = g (w a)) : Spec.matFun w V f = Spec.matFun w V g := by
  unfold Spec.matFun
  congr 3
  funext a
  exact h a

end IsEigh

/-- `f(A)` does not depend on the eigendecomposition. -/
theorem matFun_unique {m : ℕ} {B : Matrix (Fin m) (Fin m) ℝ} {w w' : Fin m → ℝ} {V V' : Matrix (Fin m) (Fin m) ℝ}
    (h : IsEigh B w V) (h' : IsEigh B w' V') (f : ℝ → ℝ) : Spec.matFun w V f = Spec.matFun w' V' f := by
  obtain ⟨p, hp⟩ := exists_interp (Finset.univ.image w ∪ Finset.univ.image w') f
  have e1 : Spec.matFun w V f = Spec.matFun w V (fun x => p.eval x) := by
    refine IsEigh.matFun_congr (w := w) (V := V) (f := f) (g := fun x => p.eval x) fun a => ?_
    exact (hp _ (Finset.mem_union_left _ (Finset.mem_image_of_mem _ (Finset.mem_univ a)))).symm
  have e2 : Spec.matFun w' V' f = Spec.matFun w' V' (fun x => p.eval x) := by
    refine IsEigh.matFun_congr (w := w') (V := V') (f := f) (g := fun x => p.eval x) fun a => ?_
    exact (hp _ (Finset.mem_union_right _ (Finset.mem_image_of_mem _ (Finset.mem_univ a)))).symm
  rw [e1, e2, h.matFun_poly, h'.matFun_poly]

variable {n k : ℕ}

namespace KData

variable {A : Matrix (Fin n) (Fin n) ℝ} {q0 : Vec n} {Q : Matrix (Fin n) (Fin k) ℝ}
  {T : Matrix (Fin k) (Fin k) ℝ} {r : Vec n} {lam : Fin n → ℝ} {U : Matrix (Fin n) (Fin n) ℝ}
  {theta : Fin k → ℝ} {Y : Matrix (Fin k) (Fin k) ℝ}

/-- A polynomial agreeing with `f` on both spectra. -/
theorem interp (lam : Fin n → ℝ) (theta : Fin k → ℝ) (f : ℝ → ℝ) :
    ∃ p : ℝ[X], (∀ a, f (lam a) = p.eval (lam a)) ∧ ∀ a, f (theta a) = p.eval (theta a) := by
  obtain ⟨p, hp⟩ := exists_interp (Finset.univ.image lam ∪ Finset.univ.image theta) f
  exact ⟨p, fun a => (hp _ (Finset.mem_union_left _ (Finset.mem_image_of_mem _ (Finset.mem_univ a)))).symm,
    fun a => (hp _ (Finset.mem_union_right _ (Finset.mem_image_of_mem _ (Finset.mem_univ a)))).symm⟩

/-- Quadratic forms of polynomials. -/
theorem quad_poly_eq (h : KData A q0 Q T r) (hA : A.IsSymm) (hU : IsEigh A lam U) (hY : IsEigh T theta Y)
    (p : ℝ[X]) (hp : p.natDegree < 2 * k ∨ r = 0) :
    ∑ a, p.eval (theta a) * Y ⟨0, h.kpos⟩ a ^ 2 = Spec.quadForm (Spec.matFun lam U fun x => p.eval x) q0 := by
  rw [← IsEigh.matFun_zero_zero (w := theta) (V := Y) h.kpos (fun x => p.eval x), hY.matFun_poly, hU.matFun_poly, Spec.quadForm, h.quad_poly hA p hp]

theorem quad_exact (h : KData A q0 Q T r) (hA : A.IsSymm) (hU : IsEigh A lam U) (hY : IsEigh T theta Y)
    (hr : r = 0) (f : ℝ → ℝ) :
    ∑ a, f (theta a) * Y ⟨0, h.kpos⟩ a ^ 2 = Spec.quadForm (Spec.matFun lam U f) q0 := by
  obtain ⟨p, hp1, hp2⟩ := interp lam theta f
  rw [IsEigh.matFun_congr (w := lam) (V := U) (f := f) (g := fun x => p.eval x) hp1,
    ← h.quad_poly_eq hA hU hY p (Or.inr hr)]
  exact Finset.sum_congr rfl fun a _ => by rw [hp2]

theorem matvec_poly_eq (h : KData A q0 Q T r) (hU : IsEigh A lam U) (hY : IsEigh T theta Y)
    (p : ℝ[X]) (hp : p.natDegree < k ∨ r = 0) :
    Q *ᵥ (fun i => ∑ a, Y i a * (p.eval (theta a) * Y ⟨0, h.kpos⟩ a)) =
      (Spec.matFun lam U fun x => p.eval x) *ᵥ q0 := by
  rw [hU.matFun_poly, h.poly p hp]
  congr 1
  funext i
  rw [← hY.matFun_poly, IsEigh.matFun_single h.kpos]

theorem matvec_exact (h : KData A q0 Q T r) (hU : IsEigh A lam U) (hY : IsEigh T theta Y)
    (hr : r = 0) (f : ℝ → ℝ) :
    Q *ᵥ (fun i => ∑ a, Y i a * (f (theta a) * Y ⟨0, h.kpos⟩ a)) = (Spec.matFun lam U f) *ᵥ q0 := by
  obtain ⟨p, hp1, hp2⟩ := interp lam theta f
  rw [IsEigh.matFun_congr (w := lam) (V := U) (f := f) (g := fun x => p.eval x) hp1,
    ← h.matvec_poly_eq hU hY p (Or.inr hr)]
  congr 1
  funext i
  exact Finset.sum_congr rfl fun a _ => by rw [hp2]

/-- At the full dimension the residual vanishes. -/
theorem full (h : KData A q0 Q T r) (hk : k = n) : r = 0 := by
  subst hk
  rcases h.exact with hr | ⟨hQ, hr⟩
  · exact hr
  · have h1 : Q * Qᵀ = 1 := mul_eq_one_comm.mp hQ
    have h2 : Qᵀ *ᵥ r = 0 := funext fun j => hr j
    have h3 := congrArg (fun x => Q *ᵥ x) h2
    simp only [mulVec_mulVec, h1, one_mulVec, mulVec_zero] at h3
    exact h3

end KData

/-! ## The kernels -/

/-- What is assumed of `scipy.linalg.eigh_tridiagonal`: it succeeds and returns an eigendecomposition. -/
def EighOk (K : TriKernels) : Prop := ∀ (k : ℕ) (d : Fin k → ℝ) (e : Fin (k - 1) → ℝ), 0 < k →
  ∃ w V, K.eigh k d e = .ok (w, V) ∧ IsEigh (triMat k (ofFin d) fun i => ofFin e (i - 1)) w V

/-- What is assumed of `scipy.linalg.eigvalsh_tridiagonal`. -/
def EigvalshOk (K : TriKernels) : Prop := ∀ (k : ℕ) (d : Fin k → ℝ) (e : Fin (k - 1) → ℝ), 0 < k →
  ∃ w, K.eigvalsh k d e = .ok w ∧ ∃ V, IsEigh (triMat k (ofFin d) fun i => ofFin e (i - 1)) w V

theorem padE_len (d e : Buf ℝ) (h : d.len = e.len + 1 ∨ d.len = e.len) : (padE d e).len = d.len := by
  unfold padE
  split_ifs with h'
  · show e.len + 1 = d.len
    omega
  · omega

theorem eighTridiag_ok (K : TriKernels) (hK : EighOk K) (d e : Buf ℝ) (hd : 0 < d.len)
    (h : d.len = e.len + 1 ∨ d.len = e.len) (m fuel : ℕ) :
    ∃ w V, eighTridiag K d e "auto" m fuel = some (.ok (some (w, V))) ∧
      K.eigh d.len (fun i => d.get i) (fun i => (padE d e).get (i + 1)) = .ok (w, V) ∧
      IsEigh (triMat d.len d.get (padE d e).get) w V := by
  obtain ⟨w, V, h1, h2⟩ := hK d.len (fun i => d.get i) (fun i => (padE d e).get (i + 1)) hd
  refine ⟨w, V, ?_, h1, ?_⟩
  · unfold eighTridiag eighTridiagCore
    rw [if_neg (by simp), if_neg (by omega), if_neg (by decide), if_neg (by decide)]
    simp only [TriKernels.scipyEigh, if_neg (show d.len ≠ 0 by omega), h1]
  · rw [triMat_congr (d' := d.get) (e' := (padE d e).get)] at h2
    · exact h2
    · intro i hi; unfold ofFin; rw [dif_pos hi]
    · intro i hi1 hi2; unfold ofFin; rw [dif_pos (by omega)]
      simp only
      congr 1
      omega

/-- A `MatrixFunction` whose buffers have the sizes allocated by the constructor. -/
structure MF.WF (M : MF n) : Prop where
  npos : 0 < n
  dpos : 0 < M.deg
  dle : M.deg ≤ n
  alpha_len : M.alpha.len = M.deg + 1
  beta_len : M.beta.len = M.deg + 1
  Q_len : M.Q.len = M.deg

/-- The attributes that do not change. -/
structure MF.Same (M M' : MF n) : Prop where
  A : M'.A = M.A
  f : M'.f = M.f
  deg : M'.deg = M.deg
  orth : M'.orth = M.orth
  rtol : M'.rtol = M.rtol

theorem cast_eigh {d e : ℕ → ℝ} {k m : ℕ} (hkm : k = m) (w : Fin k → ℝ) (V : Matrix (Fin k) (Fin k) ℝ)
    (h : IsEigh (triMat k d e) w V) : ∃ (w' : Fin m → ℝ) (V' : Matrix (Fin m) (Fin m) ℝ),
      IsEigh (triMat m d e) w' V' ∧ ofFin w' = ofFin w ∧ ofFin (gwWeights V') = ofFin (gwWeights V) := by
  subst hkm
  exact ⟨w, V, h, rfl, rfl⟩

theorem sum_ofFin {k : ℕ} (g : ℝ → ℝ → ℝ) (x y : Fin k → ℝ) :
    ∑ i ∈ Finset.range k, g (ofFin x i) (ofFin y i) = ∑ a, g (x a) (y a) := by
  rw [← Fin.sum_univ_eq_sum_range fun i => g (ofFin x i) (ofFin y i)]
  refine Finset.sum_congr rfl fun a _ => ?_
  unfold ofFin
  simp

/-- `quad` on one column, from what the recurrence leaves behind. -/
theorem quadCol_of_native (K : TriKernels) (hK : EighOk K) (eps : ℝ) (fuel : ℕ) (M : MF n) (hM : M.WF) (x : Vec n)
    (s : LState n) (hs : lanczosNative M.A eps x M.deg M.rtol M.orth M.alpha M.beta M.Q = .ok s)
    (ha : s.alpha.len = M.alpha.len) (hb : s.beta.len = M.beta.len) (hb0 : s.beta.get 0 = 0) :
    ∃ (theta : Fin M.deg → ℝ) (Y : Matrix (Fin M.deg) (Fin M.deg) ℝ),
      IsEigh (triMat M.deg s.alpha.get s.beta.get) theta Y ∧
      M.quadCol K eps fuel x = some (.ok
        ({ M with alpha := s.alpha, beta := s.beta, Q := s.Q, nodes := ofFin theta, weights := ofFin (gwWeights Y) },
        some ((∑ a, M.f (theta a) * Y ⟨0, hM.dpos⟩ a ^ 2) * nrm x ^ 2))) := by
  have hal : s.alpha.len = M.deg + 1 := by rw [ha, hM.alpha_len]
  have hbl : s.beta.len = M.deg + 1 := by rw [hb, hM.beta_len]
  have hpad : padE s.alpha s.beta = s.beta := by
    unfold padE
    rw [if_neg (by rw [hal, hbl]; omega)]
  have hlt : (s.alpha.take M.deg).len = M.deg := by show min M.deg s.alpha.len = _; rw [hal]; omega
  have hle : (s.beta.take M.deg).len = M.deg := by show min M.deg s.beta.len = _; rw [hbl]; omega
  have hpad2 : padE (s.alpha.take M.deg) (s.beta.take M.deg) = s.beta.take M.deg := by
    unfold padE
    rw [if_neg (by rw [hlt, hle]; omega)]
  obtain ⟨w, V, h1, -, h2⟩ := eighTridiag_ok K hK (s.alpha.take M.deg) (s.beta.take M.deg)
    (by rw [hlt]; exact hM.dpos) (Or.inr (by rw [hlt, hle])) 30 fuel
  rw [hpad2] at h2
  obtain ⟨theta, Y, hY, e1, e2⟩ := cast_eigh hlt w V h2
  refine ⟨theta, Y, hY, ?_⟩
  have hquad : quadrature K s.alpha s.beta (some M.deg) "gw" (some M.deg) (some M.deg) "auto" 30 fuel =
      some (.ok ⟨(s.alpha.take M.deg).len, some (ofFin theta, ofFin (gwWeights Y))⟩) := by
    unfold quadrature
    simp only [hpad, hal, hbl, hb0, abs_zero]
    rw [if_neg (by simp), if_neg (by omega), if_neg (by norm_num)]
    have hmin : min M.deg (M.deg + 1) = M.deg := by omega
    rw [hmin]
    unfold quadRule
    rw [if_pos (Or.inl rfl), h1]
    simp only [e1, e2, hlt]
    rw [if_neg (by simp), if_neg (by simp)]
  unfold MF.quadCol
  simp only [hs, hquad]
  congr 4
  rw [sum_ofFin (fun a b => M.f a * b)]
  rfl

/-- `matvec`, from what the recurrence leaves behind. -/
theorem matvec_of_native (K : TriKernels) (hK : EighOk K) (eps : ℝ) (fuel : ℕ) (M : MF n) (hM : M.WF) (x : Vec n)
    (s : LState n) (hs : lanczosNative M.A eps x M.deg M.rtol M.orth M.alpha M.beta M.zeroQ = .ok s) :
    ∃ (theta : Fin M.deg → ℝ) (Y : Matrix (Fin M.deg) (Fin M.deg) ℝ),
      IsEigh (triMat M.deg s.alpha.get s.beta.get) theta Y ∧
      M.matvec K eps fuel x = some (.ok ({ M with alpha := s.alpha, beta := s.beta, Q := s.Q },
        some fun i => ∑ l : Fin M.deg, nrm x * s.Q.get l i * ∑ a, Y l a * (M.f (theta a) * Y ⟨0, hM.dpos⟩ a))) := by
  have hd := hM.dpos
  obtain ⟨w, V, h1, -, h2⟩ := eighTridiag_ok K hK ⟨M.deg, s.alpha.get⟩ ⟨M.deg - 1, fun i => s.beta.get (i + 1)⟩
    hd (Or.inl (by show M.deg = M.deg - 1 + 1; omega)) 30 fuel
  refine ⟨w, V, ?_, ?_⟩
  · rw [triMat_congr (d' := s.alpha.get) (e' := s.beta.get)] at h2
    · exact h2
    · intro i _; rfl
    · intro i hi1 hi2
      unfold padE
      rw [if_pos (by simp only; omega)]
      simp only
      rw [if_neg (by omega), Nat.sub_add_cancel hi1]
  · unfold MF.matvec
    simp only [hs, h1]

end Primate
