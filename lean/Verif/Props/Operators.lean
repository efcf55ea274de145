import Verif.Model.Operators
import Verif.Spec.Lanczos
import Verif.Lemmas.MatFun

/-!
# C67, C68, C69: `normalize_unit`, validation, construction of `MatrixFunction`
-/

noncomputable section

namespace Primate

open Matrix

variable {n : ℕ}

/-! ## C67 -/

/-- C67: for a symmetric matrix with eigenvalues `lam` and eigenvectors `U`, and `alpha = lam i₀` an eigenvalue of largest magnitude, not zero,
the returned operator is the product with a symmetric matrix with the same eigenvectors, whose eigenvalues are in `[0, 1]`, equal to one
exactly where `lam i = alpha`. -/
theorem C67_spectrum (A : Matrix (Fin n) (Fin n) ℝ) (hA : A.IsSymm) (lam : Fin n → ℝ) (U : Matrix (Fin n) (Fin n) ℝ)
    (hU : Spec.Eigen A lam U) (i₀ : Fin n) (hmax : ∀ i, |lam i| ≤ |lam i₀|) (h0 : lam i₀ ≠ 0) (hn : 2 ≤ n) (interval : ℝ × ℝ) :
    ∃ (B : Matrix (Fin n) (Fin n) ℝ) (mu : Fin n → ℝ), normalizeUnit A.mulVec (lam i₀) interval = .ok B.mulVec ∧ B.IsSymm ∧
      Spec.Eigen B mu U ∧ (∀ i, 0 ≤ mu i ∧ mu i ≤ 1) ∧ (∀ i, mu i = 1 ↔ lam i = lam i₀) := by
  have h2 : (2 * lam i₀) ≠ 0 := mul_ne_zero two_ne_zero h0
  refine ⟨(1 / (2 * lam i₀)) • (A + lam i₀ • 1), fun i => (lam i + lam i₀) / (2 * lam i₀), ?_, ?_, ⟨hU.orthonormal, ?_⟩, ?_, ?_⟩
  · unfold normalizeUnit
    rw [if_neg (by omega), if_neg h2]
    congr 1
    funext x
    rw [smul_mulVec, add_mulVec, smul_mulVec, one_mulVec]
  · show (_ : Matrix _ _ ℝ)ᵀ = _
    rw [transpose_smul, transpose_add, transpose_smul, transpose_one, hA.eq]
  · intro j
    rw [smul_mulVec, add_mulVec, smul_mulVec, one_mulVec, hU.eigen j, ← add_smul, smul_smul]
    congr 1
    field_simp
  · intro i
    have hi := abs_le.1 (hmax i)
    rcases lt_or_gt_of_ne h0 with h | h
    · rw [abs_of_neg h] at hi
      refine ⟨div_nonneg_of_nonpos (by linarith) (by linarith), ?_⟩
      rw [div_le_one_of_neg (by linarith)]
      linarith
    · rw [abs_of_pos h] at hi
      refine ⟨div_nonneg (by linarith) (by linarith), ?_⟩
      rw [div_le_one (by linarith)]
      linarith
  · intro i
    rw [div_eq_one_iff_eq h2]
    constructor <;> intro h <;> linarith

/-- C67: the argument `interval` has no effect. -/
theorem C67_interval (A : Vec n → Vec n) (alpha : ℝ) (I J : ℝ × ℝ) : normalizeUnit A alpha I = normalizeUnit A alpha J := rfl

/-- C67, error cases: the zero operator raises ZeroDivisionError, a `1 × 1` operator TypeError. -/
theorem C67_errors (A : Vec n → Vec n) (alpha : ℝ) (I : ℝ × ℝ) :
    (n ≤ 1 → normalizeUnit A alpha I = .error .type) ∧ (2 ≤ n → alpha = 0 → normalizeUnit A alpha I = .error .zeroDivision) := by
  refine ⟨fun h => if_pos h, ?_⟩
  rintro h rfl
  unfold normalizeUnit
  rw [if_neg (by omega), if_pos (mul_zero 2)]

/-- The hypotheses of `C67_spectrum` hold for `diag(1, -3)`, where `alpha = -3`. -/
example : Spec.Eigen (Matrix.diagonal ![1, -3] : Matrix (Fin 2) (Fin 2) ℝ) ![1, -3] 1 ∧ (Matrix.diagonal ![1, -3] : Matrix (Fin 2) (Fin 2) ℝ).IsSymm ∧
    (∀ i, |(![1, -3] : Fin 2 → ℝ) i| ≤ |(![1, -3] : Fin 2 → ℝ) 1|) ∧ (![1, -3] : Fin 2 → ℝ) 1 ≠ 0 := by
  refine ⟨⟨by simp, fun j => ?_⟩, Matrix.diagonal_transpose _, ?_, by norm_num⟩
  · funext i
    rw [mulVec_diagonal]
    rw [Pi.smul_apply, smul_eq_mul, Matrix.one_apply]
    split_ifs with h
    · rw [h]
    · rw [mul_zero, mul_zero]
  · intro i
    fin_cases i <;> norm_num

/-! ## C68 -/

/-- An object with a product and a square shape, apart from a third or higher dimension. -/
def Spec.Square (A : PyObj) : Prop :=
  (A.hasMatmulOp = true ∨ A.hasMatmul = true ∨ A.hasDot = true ∨ A.hasMatvec = true) ∧
  ∃ m rest, A.shape = some (m :: m :: rest)

theorem hasProduct_iff (A : PyObj) :
    A.hasProduct = true ↔ (A.hasMatmulOp = true ∨ A.hasMatmul = true ∨ A.hasDot = true ∨ A.hasMatvec = true) := by
  unfold PyObj.hasProduct
  simp [Bool.or_eq_true, or_assoc]

/-- C68: `is_linear_op` returns `True` exactly for objects with a product whose first two dimensions agree. -/
theorem C68_linear_true (A : PyObj) : isLinearOp A = .ok true ↔ Spec.Square A := by
  unfold isLinearOp Spec.Square PyObj.shapeAt
  rw [← hasProduct_iff]
  rcases hs : A.shape with _ | s
  · simp
  · rcases s with _ | ⟨a, s⟩
    · simp
    · rcases s with _ | ⟨b, s⟩
      · simp
      · simp only [List.getElem?_cons_zero, List.getElem?_cons_succ, List.length_cons, Option.some.injEq, List.cons.injEq, Except.ok.injEq,
          Bool.and_eq_true, decide_eq_true_eq]
        constructor
        · rintro ⟨⟨h, -⟩, rfl⟩
          exact ⟨h, a, s, rfl, rfl, rfl⟩
        · rintro ⟨h, m, r, rfl, rfl, -⟩
          exact ⟨⟨h, by omega⟩, rfl⟩

/-- C68, what is false of the claim: instead of returning `False` the check raises AttributeError for every object without a shape, and
IndexError for every object with fewer than two dimensions. -/
theorem C68_linear_raises (A : PyObj) :
    (A.shape = none → isLinearOp A = .error .attribute) ∧
    (∀ s, A.shape = some s → s.length < 2 → isLinearOp A = .error .index) ∧
    (∀ a b r, A.shape = some (a :: b :: r) → ¬ Spec.Square A → isLinearOp A = .ok false) := by
  refine ⟨fun h => ?_, fun s h hl => ?_, fun a b r h hS => ?_⟩
  · unfold isLinearOp PyObj.shapeAt
    rw [h]
  · unfold isLinearOp PyObj.shapeAt
    rw [h]
    rcases s with _ | ⟨a, s⟩
    · rfl
    · rcases s with _ | ⟨b, s⟩
      · rfl
      · simp at hl
  · rcases hx : isLinearOp A with er | c
    · unfold isLinearOp PyObj.shapeAt at hx
      rw [h] at hx
      cases hx
    · cases c
      · rfl
      · exact absurd ((C68_linear_true A).1 hx) hS

/-- The dtype that `is_valid_operator` looks at is 32- or 64-bit floating point and equals `d`. -/
def Spec.FloatDtype (A : PyObj) (d : DtypeAttr) : Prop :=
  (A.dtype = some d ∨ A.dtype = none ∧ A.prodDtype = .ok d) ∧ (d = .float32 ∨ d = .float64)

/-- C68: `is_valid_operator` returns a dtype exactly for square float32 / float64 operators. -/
theorem C68_valid_iff (A : PyObj) (d : DtypeAttr) :
    isValidOperator A = .ok d ↔ Spec.Square A ∧ Spec.FloatDtype A d := by
  unfold isValidOperator Spec.Square Spec.FloatDtype
  rw [← hasProduct_iff]
  rcases hp : A.hasProduct with _ | _
  · simp
  · rcases hs : A.shape with _ | s
    · simp
    · rcases s with _ | ⟨a, s⟩
      · simp
      · rcases s with _ | ⟨b, s⟩
        · simp
        · rcases hd : A.dtype with _ | t
          · rcases hq : A.prodDtype with er | t
            · by_cases hab : a = b <;> simp [hab]
            · by_cases hab : a = b <;> cases t <;> cases d <;> simp [hab, DtypeAttr.isFloat] <;> omega
          · by_cases hab : a = b <;> cases t <;> cases d <;> simp [hab, DtypeAttr.isFloat] <;> omega

/-- C68: every object without a product or a square shape, and every square object of another dtype, raises AssertionError. -/
theorem C68_valid_rejects (A : PyObj) :
    (¬ Spec.Square A → isValidOperator A = .error .assertion) ∧
    (Spec.Square A → A.dtype = some .otherDtype → isValidOperator A = .error .assertion) := by
  unfold isValidOperator Spec.Square
  rw [← hasProduct_iff]
  rcases hp : A.hasProduct with _ | _
  · simp
  · rcases hs : A.shape with _ | s
    · simp
    · rcases s with _ | ⟨a, s⟩
      · simp
      · rcases s with _ | ⟨b, s⟩
        · simp
        · constructor
          · intro h
            have hab : a ≠ b := fun hab => h ⟨rfl, a, s, by rw [hab]⟩
            simp [hab]
          · rintro ⟨-, m, r, h⟩ hd
            simp only [Option.some.injEq, List.cons.injEq] at h
            obtain ⟨rfl, rfl, -⟩ := h
            simp [hd, DtypeAttr.isFloat]

/-- C68, what is false of the claim: if the attribute `dtype` is no NumPy dtype (the scalar class `np.float64`, or `None`), the exception is
AttributeError. -/
theorem C68_valid_attribute_error (A : PyObj) (h : Spec.Square A) (hd : A.dtype = some .notDtype) :
    isValidOperator A = .error .attribute := by
  obtain ⟨hp, m, r, hs⟩ := h
  unfold isValidOperator
  rw [(hasProduct_iff A).2 hp, hs, hd]
  simp [DtypeAttr.isFloat]

/-- A `4 × 4` float64 array; a list (product missing, no shape); a vector. -/
example : (isLinearOp ⟨true, false, true, false, some [4, 4], some .float64, .ok .float64⟩ = .ok true) ∧
    (isLinearOp ⟨false, false, false, false, none, none, .error .type⟩ = .error .attribute) ∧
    (isLinearOp ⟨true, false, true, false, some [4], some .float64, .ok .float64⟩ = .error .index) ∧
    (isValidOperator ⟨true, false, true, false, some [4, 4], some .float64, .ok .float64⟩ = .ok .float64) ∧
    (isValidOperator ⟨true, false, true, false, some [4, 4], some .otherDtype, .ok .float64⟩ = .error .assertion) := by
  refine ⟨rfl, rfl, rfl, rfl, rfl⟩

/-! ## C69 -/

/-- The object is accepted by the check of the constructor, with `m` rows. -/
def Spec.OpOfSize (A : PyObj) (m : ℕ) : Prop :=
  (A.hasMatmulOp = true ∨ A.hasMatmul = true ∨ A.hasDot = true ∨ A.hasMatvec = true) ∧ ∃ rest, A.shape = some (m :: m :: rest)

theorem construct_eq (A : PyObj) (m : ℕ) (hA : Spec.OpOfSize A m) (fun_ : MFFun) (deg orth : ℤ) (kw : String → Option ℝ) :
    mfConstruct A fun_ deg orth kw = if ¬ deg ≥ 2 then .error .assertion else
      match fun_.resolve kw with
      | .error er => .error er
      | .ok g => match checkFun m m g with
        | .error er => .error er
        | .ok f =>
          .ok ⟨f, (min deg (m : ℤ)).toNat, (min deg (m : ℤ)).toNat + 1, (min deg (m : ℤ)).toNat + 1, (min deg (m : ℤ)).toNat,
            (min deg (m : ℤ)).toNat, m, (min deg (m : ℤ)).toNat,
            if orth < 0 ∨ orth > (min deg (m : ℤ)).toNat then (min deg (m : ℤ)).toNat else orth, 1e-8⟩ := by
  obtain ⟨hp, r, hs⟩ := hA
  have h1 := (C68_linear_true A).2 ⟨hp, m, r, hs⟩
  unfold mfConstruct PyObj.shapeAt
  rw [h1, hs]
  rfl

/-- C69: a degree below two is rejected with AssertionError, whatever the other arguments. -/
theorem C69_degree_rejected (A : PyObj) (m : ℕ) (hA : Spec.OpOfSize A m) (fun_ : MFFun) (deg orth : ℤ) (kw : String → Option ℝ)
    (hd : deg < 2) : mfConstruct A fun_ deg orth kw = .error .assertion := by
  rw [construct_eq A m hA, if_pos (by omega)]

/-- C69: what the constructor sets up if it succeeds: the degree is `min(deg, n)`, the buffers have matching sizes, and `orth` outside
`0..degree` means full reorthogonalisation. -/
theorem C69_attributes (A : PyObj) (m : ℕ) (hA : Spec.OpOfSize A m) (fun_ : MFFun) (deg orth : ℤ) (kw : String → Option ℝ) (M : MFAttrs)
    (h : mfConstruct A fun_ deg orth kw = .ok M) :
    2 ≤ deg ∧ (M.deg : ℤ) = min deg m ∧ M.alphaLen = M.deg + 1 ∧ M.betaLen = M.deg + 1 ∧ M.nodesLen = M.deg ∧ M.weightsLen = M.deg ∧
    M.qRows = m ∧ M.qCols = M.deg ∧ (0 ≤ M.orth ∧ M.orth ≤ M.deg) ∧ (0 ≤ orth → orth ≤ M.deg → M.orth = orth) ∧
    ((orth < 0 ∨ (M.deg : ℤ) < orth) → M.orth = M.deg) ∧ M.rtol = 1e-8 := by
  rw [construct_eq A m hA] at h
  by_cases hd : deg ≥ 2
  · rw [if_neg (not_not.2 hd)] at h
    have hk : (((min deg (m : ℤ)).toNat : ℕ) : ℤ) = min deg m := Int.toNat_of_nonneg (by omega)
    split at h
    · cases h
    · split at h
      · cases h
      · obtain rfl := (Except.ok.inj h).symm
        refine ⟨hd, hk, rfl, rfl, rfl, rfl, rfl, rfl, ?_, ?_, ?_, rfl⟩
        · simp only
          split_ifs <;> omega
        · intro h1 h2
          simp only at h2 ⊢
          rw [if_neg (by omega)]
        · intro h1
          simp only at h1 ⊢
          rw [if_pos (by omega)]
  · rw [if_pos hd] at h
    cases h

/-- C69: when the constructor succeeds for a callable, and what is raised otherwise. -/
theorem C69_callable (A : PyObj) (m : ℕ) (hA : Spec.OpOfSize A m) (o : ℕ → CallOut) (f : ℝ → Fl) (deg orth : ℤ)
    (kw : String → Option ℝ) (hd : 2 ≤ deg) :
    (∀ sh d, o m = .array (sh ++ [d]) → d = m → ∃ M, mfConstruct A (.callable o f) deg orth kw = .ok M ∧ M.f = f) ∧
    (∀ sh d, o m = .array (sh ++ [d]) → d ≠ m → mfConstruct A (.callable o f) deg orth kw = .error .assertion) ∧
    (o m = .notArray → mfConstruct A (.callable o f) deg orth kw = .error .assertion) ∧
    (o m = .array [] → mfConstruct A (.callable o f) deg orth kw = .error .index) ∧
    (∀ er, o m = .raises er → mfConstruct A (.callable o f) deg orth kw = .error er) := by
  rw [construct_eq A m hA, if_neg (not_not.2 hd)]
  simp only [MFFun.resolve, checkFun]
  refine ⟨?_, ?_, ?_, ?_, ?_⟩
  · rintro sh d h rfl
    rw [h]
    simp
  · rintro sh d h hdm
    rw [h]
    simp [hdm]
  · intro h; rw [h]
  · intro h; rw [h]; rfl
  · intro er h; rw [h]

/-- C69: an object that is not callable is rejected, a missing function is the identity, and a name is looked up by `param_callable` with the
keyword arguments given; keyword arguments have no effect in the other cases. -/
theorem C69_function (A : PyObj) (m : ℕ) (hA : Spec.OpOfSize A m) (deg orth : ℤ) (kw : String → Option ℝ) (hd : 2 ≤ deg) :
    mfConstruct A .other deg orth kw = .error .assertion ∧
    (∃ M, mfConstruct A .none deg orth kw = .ok M ∧ M.f = Fl.fin) ∧
    (∀ s er, paramCallable (.str s) kw = .error er → mfConstruct A (.str s) deg orth kw = .error er) ∧
    (∀ s f, paramCallable (.str s) kw = .ok f → ∃ M, mfConstruct A (.str s) deg orth kw = .ok M ∧ M.f = f) ∧
    (∀ g kw', (∀ s, g ≠ .str s) → mfConstruct A g deg orth kw = mfConstruct A g deg orth kw') := by
  refine ⟨?_, ?_, ?_, ?_, ?_⟩
  · rw [construct_eq A m hA, if_neg (not_not.2 hd)]
    rfl
  · rw [construct_eq A m hA, if_neg (not_not.2 hd)]
    simp [MFFun.resolve, checkFun]
  · intro s er h
    rw [construct_eq A m hA, if_neg (not_not.2 hd)]
    simp [MFFun.resolve, h]
  · intro s f h
    rw [construct_eq A m hA, if_neg (not_not.2 hd)]
    simp [MFFun.resolve, h, checkFun]
  · intro g kw' hg
    cases g with
    | str s => exact absurd rfl (hg s)
    | none => rfl
    | callable o f => rfl
    | other => rfl

/-- The reduced constructor `MF.init` of the other theorems agrees with the full one. -/
theorem C69_init (A : PyObj) (m : ℕ) (hA : Spec.OpOfSize A m) (a : Vec m → Vec m) (f : ℝ → ℝ) (deg orth : ℤ) (kw : String → Option ℝ) :
    (∀ M, MF.init a f deg orth = .ok M → ∃ M', mfConstruct A (.callable (fun k => .array [k]) fun x => .fin (f x)) deg orth kw = .ok M' ∧
      M'.deg = M.deg ∧ M'.alphaLen = M.alpha.len ∧ M'.betaLen = M.beta.len ∧ M'.qCols = M.Q.len ∧ M'.orth = M.orth ∧ M'.rtol = M.rtol ∧
      ∀ x, M'.f x = .fin (M.f x)) ∧
    (∀ er, MF.init a f deg orth = .error er ↔ mfConstruct A (.callable (fun k => .array [k]) fun x => .fin (f x)) deg orth kw = .error er) := by
  rw [construct_eq A m hA]
  unfold MF.init
  by_cases hd : deg < 2
  · rw [if_pos hd, if_pos (by omega)]
    refine ⟨fun M h => (by cases h), fun er => ?_⟩
    constructor <;> intro h <;> (obtain rfl := (Except.error.inj h).symm; rfl)
  · rw [if_neg hd, if_neg (by omega)]
    simp only [MFFun.resolve, checkFun, List.getLast?_singleton, if_true]
    refine ⟨?_, fun er => ?_⟩
    · intro M h
      obtain rfl := (Except.ok.inj h).symm
      exact ⟨_, rfl, rfl, rfl, rfl, rfl, rfl, rfl, fun _ => rfl⟩
    · constructor <;> intro h <;> cases h

/-- The hypotheses: a `5 × 5` array, and a function acting entry by entry. -/
example : Spec.OpOfSize ⟨true, false, true, false, some [5, 5], some .float64, .ok .float64⟩ 5 ∧
    ∃ M, mfConstruct ⟨true, false, true, false, some [5, 5], some .float64, .ok .float64⟩
      (.callable (fun k => .array [k]) fun x => .fin (x ^ 2)) 20 3 (fun _ => none) = .ok M ∧ M.deg = 5 ∧ M.orth = 3 := by
  have hA : Spec.OpOfSize ⟨true, false, true, false, some [5, 5], some .float64, .ok .float64⟩ 5 := ⟨Or.inl rfl, [], rfl⟩
  obtain ⟨M, hM, -⟩ := (C69_callable _ 5 hA (fun k => .array [k]) (fun x => .fin (x ^ 2)) 20 3 (fun _ => none) (by norm_num)).1
    [] 5 rfl rfl
  obtain ⟨-, h1, -, -, -, -, -, -, -, h2, -, -⟩ := C69_attributes _ 5 hA _ _ _ _ M hM
  have h3 : M.deg = 5 := by norm_num at h1; exact_mod_cast h1
  exact ⟨hA, M, hM, h3, h2 (by norm_num) (by rw [h3]; norm_num)⟩

end Primate
