import Verif.Props.MatrixFunctionWitness

/-!
# Gauss quadrature (C43, C50, C51, C52)

`EighOk K`, `EigvalshOk K`: the tridiagonal solvers of SciPy succeed and return the eigenvalues (and orthonormal
eigenvectors).
-/

noncomputable section

namespace Primate

open Matrix Polynomial

/-- The off-diagonal entries meant by the argument `e` of the solvers for a diagonal `d`: with `len(d)` entries the first
one is a placeholder. -/
def Spec.offDiag (d e : Buf ℝ) : ℕ → ℝ := fun i => if e.len = d.len then e.get (i + 1) else e.get i

/-- Acceptable inputs of `quadrature`. -/
def Spec.QuadInput (d e : Buf ℝ) : Prop :=
  0 < d.len ∧ (e.len + 1 = d.len ∨ (e.len = d.len ∧ |e.get 0| ≤ 1e-8))

theorem triMat_jacobi (k : ℕ) (d e : ℕ → ℝ) : triMat k d e = Spec.jacobi k d fun i => e (i + 1) := by
  ext i j
  unfold triMat Spec.jacobi
  simp only [Matrix.of_apply]
  by_cases h : i = j
  · rw [if_pos h, if_pos h]
  · rw [if_neg h, if_neg h]
    by_cases h1 : (i : ℕ) + 1 = j
    · rw [if_pos h1, if_pos h1, h1]
    · rw [if_neg h1, if_neg h1]
      by_cases h2 : (j : ℕ) + 1 = i
      · rw [if_pos h2, if_pos h2, h2]
      · rw [if_neg h2, if_neg h2]

theorem padE_off (d e : Buf ℝ) (h : Spec.QuadInput d e) : (padE d e).len = d.len ∧ |(padE d e).get 0| ≤ 1e-8 ∧
    ∀ i, (padE d e).get (i + 1) = Spec.offDiag d e i := by
  obtain ⟨hd, h | ⟨h, h0⟩⟩ := h
  · unfold padE
    rw [if_pos (by omega)]
    refine ⟨h, by norm_num, fun i => ?_⟩
    show (if i + 1 = 0 then 0 else e.get (i + 1 - 1)) = _
    rw [if_neg (by omega), Spec.offDiag, if_neg (by omega)]
    rfl
  · unfold padE
    rw [if_neg (by omega)]
    exact ⟨h, h0, fun i => by rw [Spec.offDiag, if_pos h]⟩

theorem padE_of_len {d x : Buf ℝ} (h : x.len = d.len) : padE d x = x := by
  unfold padE
  rw [if_neg]
  omega

/-- The effective degree. -/
theorem quadrature_eq (K : TriKernels) (d e : Buf ℝ) (h : Spec.QuadInput d e) (deg : Option ℕ) (quad : String)
    (nodes weights : Option ℕ) (method : String) (maxiter fuel : ℕ) :
    quadrature K d e deg quad nodes weights method maxiter fuel =
      match quadRule K d (padE d e) (min (deg.getD d.len) d.len) quad method maxiter fuel with
      | none => none
      | some (.error er) => some (.error er)
      | some (.ok res) =>
        match nodes, weights with
        | some ln, some lw =>
          if ln ≠ min (deg.getD d.len) d.len ∨ lw ≠ min (deg.getD d.len) d.len then some (.error .assertion)
          else if res.len ≠ min (deg.getD d.len) d.len then some (.error .value)
          else some (.ok res)
        | _, _ => some (.ok res) := by
  obtain ⟨h1, h2, -⟩ := padE_off d e h
  unfold quadrature
  rw [if_neg (by rw [h1]; simp), if_neg h.1.ne', if_neg (not_not.mpr h2)]
  cases deg
  · simp only [Option.getD_none, min_self]
    rfl
  · rfl

theorem gw_rule (K : TriKernels) (hK : EighOk K) (d e : Buf ℝ) (h : Spec.QuadInput d e) (k : ℕ) (hk : 0 < k)
    (hkd : k ≤ d.len) (quad : String) (hq : quad = "gw" ∨ quad = "golub_welsch") (m fuel : ℕ) :
    ∃ (theta : Fin k → ℝ) (Y : Matrix (Fin k) (Fin k) ℝ), IsEigh (Spec.jacobi k d.get (Spec.offDiag d e)) theta Y ∧
      quadRule K d (padE d e) k quad "auto" m fuel = some (.ok ⟨k, some (ofFin theta, ofFin (gwWeights Y))⟩) := by
  obtain ⟨p1, p2, p3⟩ := padE_off d e h
  have l1 : (d.take k).len = k := by show min k d.len = k; omega
  have l2 : ((padE d e).take k).len = k := by show min k (padE d e).len = k; omega
  have hpad : padE (d.take k) ((padE d e).take k) = (padE d e).take k := padE_of_len (l2.trans l1.symm)
  obtain ⟨w, V, g1, -, g2⟩ := eighTridiag_ok K hK (d.take k) ((padE d e).take k) (by omega) (Or.inr (by omega)) m fuel
  rw [hpad] at g2
  obtain ⟨theta, Y, hY, e1, e2⟩ := cast_eigh l1 w V g2
  have hj : triMat k (d.take k).get ((padE d e).take k).get = Spec.jacobi k d.get (Spec.offDiag d e) := by
    rw [triMat_jacobi]
    congr 1
    funext i
    exact p3 i
  rw [hj] at hY
  refine ⟨theta, Y, hY, ?_⟩
  unfold quadRule
  rw [if_pos hq, g1]
  simp only [e1, e2, l1]

/-- **C43.**  The Golub-Welsch rule of degree `k = min(deg, n)` has `k` non-negative weights with sum one, and integrates
every polynomial `p` to the entry `(1, 1)` of `p(J)`, `J` being the leading `k x k` block of the Jacobi matrix. -/
theorem C43_golub_welsch (K : TriKernels) (hK : EighOk K) (d e : Buf ℝ) (h : Spec.QuadInput d e) (deg : Option ℕ)
    (hdeg : deg ≠ some 0) (quad : String) (hq : quad = "gw" ∨ quad = "golub_welsch") (m fuel k : ℕ)
    (hk : k = min (deg.getD d.len) d.len) :
    ∃ (hk0 : 0 < k) (nodes weights : ℕ → ℝ),
      quadrature K d e deg quad none none "auto" m fuel = some (.ok ⟨k, some (nodes, weights)⟩) ∧
      (∀ i, 0 ≤ weights i) ∧ ∑ i ∈ Finset.range k, weights i = 1 ∧
      ∀ p : ℝ[X], ∑ i ∈ Finset.range k, p.eval (nodes i) * weights i =
        (aeval (Spec.jacobi k d.get (Spec.offDiag d e)) p) ⟨0, hk0⟩ ⟨0, hk0⟩ := by
  have hk0 : 0 < k := by
    have hd := h.1
    cases deg with
    | none => rw [hk]; simpa using hd
    | some j =>
      have : j ≠ 0 := fun hj => hdeg (by rw [hj])
      rw [hk]
      show 0 < min j d.len
      omega
  obtain ⟨theta, Y, hY, hr⟩ := gw_rule K hK d e h k hk0 (by omega) quad hq m fuel
  have hpoly : ∀ p : ℝ[X], ∑ i ∈ Finset.range k, p.eval (ofFin theta i) * ofFin (gwWeights Y) i =
      (aeval (Spec.jacobi k d.get (Spec.offDiag d e)) p) ⟨0, hk0⟩ ⟨0, hk0⟩ := by
    intro p
    rw [sum_ofFin (fun a b => p.eval a * b)]
    have e1 := IsEigh.matFun_zero_zero (w := theta) (V := Y) hk0 (fun x => p.eval x)
    rw [hY.matFun_poly] at e1
    have e2 : ((aeval (Spec.jacobi k d.get (Spec.offDiag d e)) p) *ᵥ (Pi.single ⟨0, hk0⟩ 1 : Vec k)) ⟨0, hk0⟩ =
        (aeval (Spec.jacobi k d.get (Spec.offDiag d e)) p) ⟨0, hk0⟩ ⟨0, hk0⟩ := by
      rw [mulVec_single_one]
      rfl
    rw [← e2, e1]
    rfl
  refine ⟨hk0, ofFin theta, ofFin (gwWeights Y), ?_, fun i => ?_, ?_, hpoly⟩
  · rw [quadrature_eq K d e h, ← hk, hr]
  · unfold ofFin
    split_ifs
    · exact sq_nonneg _
    · exact le_rfl
  · have := hpoly 1
    simp only [eval_one, one_mul, map_one, Matrix.one_apply_eq] at this
    exact this

/-- `C43` for the Jacobi matrix `[[1, 2], [2, 3]]`, degree 2: the rule integrates `x²` to `1 + 4`. -/
example (K : TriKernels) (hK : EighOk K) (fuel : ℕ) : ∃ nodes weights : ℕ → ℝ,
    quadrature K ⟨2, fun i => 2 * i + 1⟩ ⟨1, fun _ => 2⟩ none "gw" none none "auto" 30 fuel =
      some (.ok ⟨2, some (nodes, weights)⟩) ∧
    ∑ i ∈ Finset.range 2, nodes i ^ 2 * weights i = 5 := by
  obtain ⟨h0, nodes, weights, h1, -, -, h4⟩ := C43_golub_welsch K hK ⟨2, fun i => 2 * i + 1⟩ ⟨1, fun _ => 2⟩
    ⟨by norm_num, Or.inl rfl⟩ none (by simp) "gw" (Or.inl rfl) 30 fuel 2 rfl
  refine ⟨nodes, weights, h1, ?_⟩
  have := h4 (X ^ 2)
  simp only [eval_pow, eval_X, map_pow, aeval_X] at this
  rw [this, pow_two, Matrix.mul_apply, Fin.sum_univ_two]
  norm_num [Spec.jacobi, Spec.offDiag]

/-! ## C50: the three-term recurrence -/

/-- The components of an eigenvector of a Jacobi matrix are determined by the first one through the three-term
recurrence. -/
theorem eigvec_recurrence {k : ℕ} (d e : ℕ → ℝ) (he : ∀ i, 1 ≤ i → i < k → e i ≠ 0) (x z0 : ℝ) (y : Vec k)
    (h : triMat k d e *ᵥ y = x • y) (hk : 0 < k) : ∀ j (hj : j < k), z0 * y ⟨j, hj⟩ = orthoPoly x z0 d e j * y ⟨0, hk⟩ := by
  have hrow : ∀ i : Fin k, (if 0 < (i : ℕ) then e i * ofFin y (i - 1) else 0) + d i * ofFin y i +
      (if (i : ℕ) + 1 < k then e (i + 1) * ofFin y (i + 1) else 0) = x * y i := by
    intro i
    have h1 := congrFun h i
    have h2 := triMat_col (n := 1) d e (fun l => fun _ => ofFin y l) i
    have h3 := congrFun h2 0
    rw [Finset.sum_apply] at h3
    have h4 : ∑ l : Fin k, (triMat k d e l i • (fun _ : Fin 1 => ofFin y (l : ℕ))) 0 = (triMat k d e *ᵥ y) i := by
      show _ = ∑ l, triMat k d e i l * y l
      refine Finset.sum_congr rfl fun l _ => ?_
      have hs : triMat k d e l i = triMat k d e i l := congrFun (congrFun (triMat_symm k d e) i) l
      show triMat k d e l i * ofFin y l = _
      rw [hs]
      congr 1
      unfold ofFin
      rw [dif_pos l.2]
    rw [h4, h1] at h3
    show _ = (x • y) i
    rw [h3]
    simp only [Pi.add_apply]
    congr 1
    · congr 1
      split_ifs <;> rfl
    · split_ifs <;> rfl
  have hof : ∀ j (hj : j < k), ofFin y j = y ⟨j, hj⟩ := fun j hj => dif_pos hj
  intro j
  induction j using Nat.strong_induction_on with
  | _ j ih =>
    intro hj
    match j, ih, hj with
    | 0, _, hj => rfl
    | 1, _, hj =>
      have := hrow ⟨0, hk⟩
      simp only [lt_irrefl, if_false, zero_add, hj, if_true] at this
      rw [hof 0 hk, hof 1 hj] at this
      have hne := he 1 le_rfl hj
      unfold orthoPoly
      field_simp
      linear_combination z0 * this
    | i + 2, ih, hj =>
      have h1 := hrow ⟨i + 1, by omega⟩
      simp only [Nat.zero_lt_succ, if_true, hj, Nat.add_sub_cancel] at h1
      rw [hof i (by omega), hof (i + 1) (by omega), hof (i + 1 + 1) hj] at h1
      have i1 := ih (i + 1) (by omega) (by omega)
      have i0 := ih i (by omega) (by omega)
      have hne := he (i + 2) (by omega) hj
      have hne1 := he (i + 1) (by omega) (by omega)
      unfold orthoPoly
      have hgoal : e (i + 2) * (z0 * y ⟨i + 2, hj⟩) = (x - d (i + 1)) * (orthoPoly x z0 d e (i + 1) * y ⟨0, hk⟩) -
          e (i + 1) * (orthoPoly x z0 d e i * y ⟨0, hk⟩) := by
        rw [← i1, ← i0]
        linear_combination z0 * h1
      field_simp
      linear_combination hgoal

theorem eigvec_weight {k : ℕ} (d e : ℕ → ℝ) (he : ∀ i, 1 ≤ i → i < k → e i ≠ 0) (theta : Fin k → ℝ)
    (Y : Matrix (Fin k) (Fin k) ℝ) (hY : IsEigh (triMat k d e) theta Y) (hk : 0 < k) (mu0 : ℝ) (hmu : 0 < mu0) (a : Fin k) :
    1 / (∑ j ∈ Finset.range k, orthoPoly (theta a) (1 / Real.sqrt mu0) d e j ^ 2) / mu0 = Y ⟨0, hk⟩ a ^ 2 ∧
      Y ⟨0, hk⟩ a ≠ 0 := by
  have hz0 : (1 / Real.sqrt mu0) ^ 2 = 1 / mu0 := by
    rw [div_pow, one_pow, Real.sq_sqrt hmu.le]
  have hz : 1 / Real.sqrt mu0 ≠ 0 := by
    have := Real.sqrt_pos.mpr hmu
    positivity
  have hrec := eigvec_recurrence d e he (theta a) (1 / Real.sqrt mu0) (Y.col a) (hY.col_eq a) hk
  have hunit := hY.unit_col a
  have hsum : (∑ j ∈ Finset.range k, orthoPoly (theta a) (1 / Real.sqrt mu0) d e j ^ 2) * Y ⟨0, hk⟩ a ^ 2 = 1 / mu0 := by
    have hone : (1 / Real.sqrt mu0) ^ 2 * (Y.col a ⬝ᵥ Y.col a) = 1 / mu0 := by rw [hunit, mul_one, hz0]
    rw [← hone]
    rw [← Fin.sum_univ_eq_sum_range fun j => orthoPoly (theta a) (1 / Real.sqrt mu0) d e j ^ 2, Finset.sum_mul]
    simp only [dotProduct, Finset.mul_sum]
    refine Finset.sum_congr rfl fun j _ => ?_
    have := hrec j j.2
    have h0 : (Y.col a) ⟨0, hk⟩ = Y ⟨0, hk⟩ a := rfl
    rw [h0] at this
    have h1 : (Y.col a) ⟨j, j.2⟩ = Y.col a j := rfl
    rw [h1] at this
    calc _ = (orthoPoly (theta a) (1 / Real.sqrt mu0) d e j * Y ⟨0, hk⟩ a) ^ 2 := by ring
      _ = (1 / Real.sqrt mu0 * Y.col a j) ^ 2 := by rw [this]
      _ = _ := by ring
  have hne : Y ⟨0, hk⟩ a ≠ 0 := by
    intro h0
    rw [h0] at hsum
    have : (0 : ℝ) < 1 / mu0 := by positivity
    rw [← hsum] at this
    norm_num at this
  refine ⟨?_, hne⟩
  have hS : (∑ j ∈ Finset.range k, orthoPoly (theta a) (1 / Real.sqrt mu0) d e j ^ 2) ≠ 0 := by
    intro h0
    rw [h0, zero_mul] at hsum
    have : (0 : ℝ) < 1 / mu0 := by positivity
    exact this.ne hsum
  field_simp
  field_simp at hsum
  linear_combination -hsum

theorem theta_ne_zero {k : ℕ} (d e : ℕ → ℝ) (he : ∀ i, 1 ≤ i → i < k → e i ≠ 0) (theta : Fin k → ℝ)
    (Y : Matrix (Fin k) (Fin k) ℝ) (hY : IsEigh (triMat k d e) theta Y) (hk : 2 ≤ k) : ∃ a, theta a ≠ 0 := by
  by_contra hc
  push Not at hc
  have h1 := hY.matFun_id
  have h2 : Spec.matFun theta Y (fun x => x) = 0 := by
    unfold Spec.matFun
    have : (diagonal fun i => theta i) = 0 := by
      ext i j
      by_cases hij : i = j
      · rw [hij, diagonal_apply_eq, hc]; rfl
      · rw [diagonal_apply_ne _ hij]; rfl
    rw [this, Matrix.mul_zero, Matrix.zero_mul]
  rw [h2] at h1
  have h3 := congrFun (congrFun h1 ⟨0, by omega⟩) ⟨1, by omega⟩
  have h4 : triMat k d e ⟨0, by omega⟩ ⟨1, by omega⟩ = e 1 := by
    unfold triMat
    simp
  rw [h4] at h3
  exact he 1 le_rfl (by omega) h3.symm

/-- **C50.**  For a Jacobi matrix with nonzero off-diagonal entries and its exact eigenvalues, the forward three-term
recurrence writes the squares of the first components of the normalised eigenvectors. -/
theorem C50_fttr_weights {n : ℕ} (hn : 2 ≤ n) (d e : ℕ → ℝ) (he : ∀ i, 1 ≤ i → i < n → e i ≠ 0) (theta : Fin n → ℝ)
    (Y : Matrix (Fin n) (Fin n) ℝ) (hY : Spec.Eigen (Spec.jacobi n d fun i => e (i + 1)) theta Y) (w : ℕ → ℝ) :
    ∃ w' : Buf ℝ, fttr ⟨n, ofFin theta⟩ ⟨n, d⟩ ⟨n, e⟩ n ⟨n, w⟩ = .ok (some w') ∧ w'.len = n ∧
      ∀ a : Fin n, w'.get a = Y ⟨0, by omega⟩ a ^ 2 := by
  rw [← triMat_jacobi, ← isEigh_iff_eigen] at hY
  obtain ⟨a0, ha0⟩ := theta_ne_zero d e he theta Y hY hn
  have hof : ∀ a : Fin n, ofFin theta a = theta a := fun a => dif_pos a.2
  have hmu : 0 < ∑ i ∈ Finset.range (min n n), |ofFin theta i| := by
    rw [min_self, ← Fin.sum_univ_eq_sum_range fun i => |ofFin theta i|]
    refine Finset.sum_pos' (fun i _ => abs_nonneg _) ⟨a0, Finset.mem_univ _, ?_⟩
    rw [hof]
    exact abs_pos.mpr ha0
  have hno : ¬ ((∑ i ∈ Finset.range (min n n), |ofFin theta i|) = 0 ∨ ∃ i, 1 ≤ i ∧ i < n ∧ e i = 0) := by
    rintro (h | ⟨i, h1, h2, h3⟩)
    · exact hmu.ne' h
    · exact he i h1 h2 h3
  have hrun : fttr ⟨n, ofFin theta⟩ ⟨n, d⟩ ⟨n, e⟩ n ⟨n, w⟩ = .ok (some ⟨n, fun i => if i < n then
      1 / (∑ j ∈ Finset.range n, orthoPoly (ofFin theta i)
        (1 / Real.sqrt (∑ i ∈ Finset.range (min n n), |ofFin theta i|)) d e j ^ 2) /
          (∑ i ∈ Finset.range (min n n), |ofFin theta i|) else w i⟩) := by
    unfold fttr
    simp only
    rw [if_neg (by omega), if_neg (by omega), if_neg hno]
  refine ⟨_, hrun, rfl, fun a => ?_⟩
  simp only [a.2, if_true, hof]
  exact (eigvec_weight d e he theta Y hY (by omega) _ hmu a).1

theorem eigvalsh_rule (K : TriKernels) (hK : EigvalshOk K) (d e : Buf ℝ) (h : Spec.QuadInput d e) (m fuel : ℕ) :
    ∃ (theta : Fin d.len → ℝ) (Y : Matrix (Fin d.len) (Fin d.len) ℝ),
      IsEigh (triMat d.len d.get (padE d e).get) theta Y ∧
      eigvalshTridiag K d (padE d e) "auto" m fuel = some (.ok (some theta)) := by
  obtain ⟨p1, p2, p3⟩ := padE_off d e h
  have hpad : padE d (padE d e) = padE d e := padE_of_len p1
  obtain ⟨w, h1, V, h2⟩ := hK d.len (fun i => d.get i) (fun i => (padE d e).get (i + 1)) h.1
  refine ⟨w, V, ?_, ?_⟩
  · rw [triMat_congr (d' := d.get) (e' := (padE d e).get)] at h2
    · exact h2
    · intro i hi; unfold ofFin; rw [dif_pos hi]
    · intro i hi1 hi2
      unfold ofFin
      rw [dif_pos (by omega)]
      show (padE d e).get (i - 1 + 1) = _
      congr 1
      omega
  · unfold eigvalshTridiag
    rw [if_neg (by simp), if_neg (by omega)]
    simp only [hpad]
    rw [if_neg (by decide), if_neg (by decide)]
    simp only [TriKernels.scipyEigvalsh, if_neg (show d.len ≠ 0 by have := h.1; omega), h1]

/-- What the method `fttr` returns for `k <= n`: `n` nodes, the first `k` weights are those of the `n`-point rule, the
others are zero. -/
theorem fttr_rule (K : TriKernels) (hK : EigvalshOk K) (d e : Buf ℝ) (h : Spec.QuadInput d e) (h2 : 2 ≤ d.len)
    (hoff : ∀ i, i + 1 < d.len → Spec.offDiag d e i ≠ 0) (k : ℕ) (hk0 : 0 < k) (hk : k ≤ d.len) (m fuel : ℕ) :
    ∃ (theta : Fin d.len → ℝ) (Y : Matrix (Fin d.len) (Fin d.len) ℝ),
      IsEigh (Spec.jacobi d.len d.get (Spec.offDiag d e)) theta Y ∧ (∀ a, Y ⟨0, by omega⟩ a ≠ 0) ∧
      ((∑ i ∈ Finset.range k, |ofFin theta i| = 0 ∧
          quadRule K d (padE d e) k "fttr" "auto" m fuel = some (.ok ⟨d.len, none⟩)) ∨
        ∃ tau : ℕ → ℝ, 0 < ∑ i ∈ Finset.range k, |ofFin theta i| ∧
          quadRule K d (padE d e) k "fttr" "auto" m fuel = some (.ok ⟨d.len, some (ofFin theta, tau)⟩) ∧
          ∀ a : Fin d.len, tau a = if (a : ℕ) < k then Y ⟨0, by omega⟩ a ^ 2 else 0) := by
  obtain ⟨p1, p2, p3⟩ := padE_off d e h
  obtain ⟨theta, Y, hY, hr⟩ := eigvalsh_rule K hK d e h m fuel
  have he : ∀ i, 1 ≤ i → i < d.len → (padE d e).get i ≠ 0 := by
    intro i h1 h2
    have := p3 (i - 1)
    rw [Nat.sub_add_cancel h1] at this
    rw [this]
    exact hoff _ (by omega)
  have hj : triMat d.len d.get (padE d e).get = Spec.jacobi d.len d.get (Spec.offDiag d e) := by
    rw [triMat_jacobi]
    congr 1
    funext i
    exact p3 i
  have hYj := hY
  rw [hj] at hYj
  have hof : ∀ a : Fin d.len, ofFin theta a = theta a := fun a => dif_pos a.2
  have hmin : min k d.len = k := by omega
  have hfin : ∀ i, 1 ≤ i → i < d.len → (padE d e).get i = 0 → False := fun i h1 h2 h3 => he i h1 h2 h3
  refine ⟨theta, Y, hYj, fun a => (eigvec_weight d.get _ he theta Y hY (by omega) 1 one_pos a).2, ?_⟩
  rcases eq_or_lt_of_le (Finset.sum_nonneg fun i (_ : i ∈ Finset.range k) => abs_nonneg (ofFin theta i)) with h0 | h0
  · refine Or.inl ⟨h0.symm, ?_⟩
    have hf : fttr ⟨d.len, ofFin theta⟩ d (padE d e) k (Buf.zeros d.len) = .ok none := by
      unfold fttr
      simp only
      rw [if_neg (by omega), if_neg (by show ¬ (_ ∨ _ ∨ d.len < k ∨ _); omega), if_pos (Or.inl (by rw [hmin]; exact h0.symm))]
    unfold quadRule
    rw [if_neg (by decide), if_pos rfl, hr]
    simp only [hf]
  · refine Or.inr ⟨fun i => if i < k then
      1 / (∑ j ∈ Finset.range d.len, orthoPoly (ofFin theta i)
        (1 / Real.sqrt (∑ i ∈ Finset.range k, |ofFin theta i|)) d.get (padE d e).get j ^ 2) /
          (∑ i ∈ Finset.range k, |ofFin theta i|) else 0, h0, ?_, fun a => ?_⟩
    · have hno : ¬ ((∑ i ∈ Finset.range k, |ofFin theta i|) = 0 ∨ ∃ i, 1 ≤ i ∧ i < d.len ∧ (padE d e).get i = 0) := by
        rintro (h | ⟨i, h1, h2, h3⟩)
        · exact h0.ne' h
        · exact he i h1 h2 h3
      have hf : fttr ⟨d.len, ofFin theta⟩ d (padE d e) k (Buf.zeros d.len) = .ok (some ⟨d.len, fun i => if i < k then
          1 / (∑ j ∈ Finset.range d.len, orthoPoly (ofFin theta i)
            (1 / Real.sqrt (∑ i ∈ Finset.range k, |ofFin theta i|)) d.get (padE d e).get j ^ 2) /
          (∑ i ∈ Finset.range k, |ofFin theta i|) else 0⟩) := by
        unfold fttr
        simp only
        rw [if_neg (by omega), if_neg (by show ¬ (_ ∨ _ ∨ d.len < k ∨ _); omega), if_neg (by rw [hmin]; exact hno)]
        simp only [hmin]
        rfl
      unfold quadRule
      rw [if_neg (by decide), if_pos rfl, hr]
      simp only [hf]
    · simp only [hof]
      split_ifs with hak
      · exact (eigvec_weight d.get _ he theta Y hY (by omega) _ h0 a).1
      · rfl

/-- **C50.**  Without a degree (or with a degree at least the size) the methods `fttr` and `gw` of `quadrature` integrate
every function to the same value. -/
theorem C50_fttr_agrees (K : TriKernels) (hK : EighOk K) (hK' : EigvalshOk K) (d e : Buf ℝ) (h : Spec.QuadInput d e)
    (h2 : 2 ≤ d.len) (hoff : ∀ i, i + 1 < d.len → Spec.offDiag d e i ≠ 0) (deg : Option ℕ)
    (hdeg : ∀ k, deg = some k → d.len ≤ k) (m fuel : ℕ) :
    ∃ xs ws ys vs : ℕ → ℝ,
      quadrature K d e deg "gw" none none "auto" m fuel = some (.ok ⟨d.len, some (xs, ws)⟩) ∧
      quadrature K d e deg "fttr" none none "auto" m fuel = some (.ok ⟨d.len, some (ys, vs)⟩) ∧
      ∀ f : ℝ → ℝ, ∑ i ∈ Finset.range d.len, f (ys i) * vs i = ∑ i ∈ Finset.range d.len, f (xs i) * ws i := by
  have hk : min (deg.getD d.len) d.len = d.len := by
    cases deg with
    | none => exact min_self _
    | some k =>
      have := hdeg k rfl
      show min k d.len = d.len
      omega
  obtain ⟨theta, Y, hY, hr⟩ := gw_rule K hK d e h d.len h.1 le_rfl "gw" (Or.inl rfl) m fuel
  obtain ⟨theta', Y', hY', hne, hr'⟩ := fttr_rule K hK' d e h h2 hoff d.len h.1 le_rfl m fuel
  rcases hr' with ⟨hz, -⟩ | ⟨tau, -, hr', htau⟩
  · exfalso
    obtain ⟨p1, p2, p3⟩ := padE_off d e h
    have hj : triMat d.len d.get (padE d e).get = Spec.jacobi d.len d.get (Spec.offDiag d e) := by
      rw [triMat_jacobi]
      congr 1
      funext i
      exact p3 i
    rw [← hj] at hY'
    obtain ⟨a, ha⟩ := theta_ne_zero d.get (padE d e).get (fun i h1 h2 => by
      have := p3 (i - 1)
      rw [Nat.sub_add_cancel h1] at this
      rw [this]
      exact hoff _ (by omega)) theta' Y' hY' h2
    have := (Finset.sum_eq_zero_iff_of_nonneg fun i _ => abs_nonneg _).mp hz a (Finset.mem_range.mpr a.2)
    rw [abs_eq_zero, ofFin, dif_pos a.2] at this
    exact ha this
  · refine ⟨ofFin theta, ofFin (gwWeights Y), ofFin theta', tau, ?_, ?_, fun f => ?_⟩
    · rw [quadrature_eq K d e h, hk, hr]
    · rw [quadrature_eq K d e h, hk, hr']
    · have e1 := IsEigh.matFun_zero_zero (w := theta) (V := Y) h.1 f
      have e2 := IsEigh.matFun_zero_zero (w := theta') (V := Y') h.1 f
      rw [matFun_unique hY hY' f] at e1
      rw [sum_ofFin (fun a b => f a * b)]
      refine Eq.trans ?_ (e2.symm.trans (e1.trans ?_))
      · rw [← Fin.sum_univ_eq_sum_range fun i => f (ofFin theta' i) * tau i]
        refine Finset.sum_congr rfl fun a _ => ?_
        rw [htau, if_pos a.2, ofFin, dif_pos a.2]
      · rfl

/-- **C51, what fails.**  For `0 < deg < n` and nonzero off-diagonal entries the method `fttr` never returns the rule of
degree `deg`: the arrays have `n` entries, and the weights are NaN or add up to less than one; with output arrays of the
documented size `deg` the call raises ValueError. -/
theorem C51_fttr_degree_ignored (K : TriKernels) (hK : EigvalshOk K) (d e : Buf ℝ) (h : Spec.QuadInput d e)
    (hoff : ∀ i, i + 1 < d.len → Spec.offDiag d e i ≠ 0) (k : ℕ) (hk0 : 0 < k) (hk : k < d.len) (m fuel : ℕ) :
    (∃ res : QuadRes, quadrature K d e (some k) "fttr" none none "auto" m fuel = some (.ok res) ∧ res.len = d.len ∧
      ∀ xs ws, res.val = some (xs, ws) → ∑ i ∈ Finset.range d.len, ws i < 1) ∧
    quadrature K d e (some k) "fttr" (some k) (some k) "auto" m fuel = some (.error .value) := by
  have hm : min ((some k).getD d.len) d.len = k := by
    show min k d.len = k
    omega
  obtain ⟨theta, Y, hY, hne, hr⟩ := fttr_rule K hK d e h (by omega) hoff k hk0 hk.le m fuel
  rw [quadrature_eq K d e h, quadrature_eq K d e h, hm]
  have hcopy : ∀ v, (match some (Except.ok (⟨d.len, v⟩ : QuadRes)) with
      | none => none
      | some (Except.error er) => some (Except.error er)
      | some (Except.ok res) =>
        match some k, some k with
        | some ln, some lw =>
          if ln ≠ k ∨ lw ≠ k then some (Except.error PyErr.assertion)
          else if res.len ≠ k then some (Except.error PyErr.value)
          else some (Except.ok res)
        | _, _ => some (Except.ok res)) = (some (Except.error PyErr.value) : Option (Py QuadRes)) := by
    intro v
    show (if k ≠ k ∨ k ≠ k then some (Except.error PyErr.assertion)
      else if d.len ≠ k then some (Except.error PyErr.value) else _) = _
    rw [if_neg (by simp), if_pos hk.ne']
  rcases hr with ⟨-, hr⟩ | ⟨tau, -, hr, htau⟩
  · rw [hr]
    exact ⟨⟨_, rfl, rfl, fun xs ws hx => by cases hx⟩, hcopy _⟩
  · rw [hr]
    refine ⟨⟨_, rfl, rfl, fun xs ws hx => ?_⟩, hcopy _⟩
    obtain ⟨-, rfl⟩ := Prod.mk.inj (Option.some.inj hx)
    have hrow : ∑ a, Y ⟨0, by omega⟩ a ^ 2 = 1 := by
      have := congrFun (congrFun hY.mul_transpose ⟨0, by omega⟩) ⟨0, by omega⟩
      rw [Matrix.mul_apply, Matrix.one_apply_eq] at this
      rw [← this]
      exact Finset.sum_congr rfl fun a _ => by rw [transpose_apply]; ring
    rw [← hrow, ← Fin.sum_univ_eq_sum_range]
    refine Finset.sum_lt_sum (fun a _ => ?_) ⟨⟨k, hk⟩, Finset.mem_univ _, ?_⟩
    · rw [htau]
      split_ifs
      · exact le_rfl
      · exact sq_nonneg _
    · rw [htau, if_neg (by simp)]
      exact lt_of_le_of_ne (sq_nonneg _) (Ne.symm (pow_ne_zero 2 (hne _)))

/-- **C51, what holds.**  With a degree of at least the size, `fttr` returns the Gauss rule of that size. -/
theorem C51_fttr_full_degree_partial (K : TriKernels) (hK : EigvalshOk K) (hK' : EighOk K) (d e : Buf ℝ)
    (h : Spec.QuadInput d e) (h2 : 2 ≤ d.len) (hoff : ∀ i, i + 1 < d.len → Spec.offDiag d e i ≠ 0) (deg : Option ℕ)
    (hdeg : ∀ k, deg = some k → d.len ≤ k) (m fuel : ℕ) :
    ∃ nodes weights : ℕ → ℝ,
      quadrature K d e deg "fttr" none none "auto" m fuel = some (.ok ⟨d.len, some (nodes, weights)⟩) ∧
      ∀ p : ℝ[X], ∑ i ∈ Finset.range d.len, p.eval (nodes i) * weights i =
        (aeval (Spec.jacobi d.len d.get (Spec.offDiag d e)) p) ⟨0, h.1⟩ ⟨0, h.1⟩ := by
  obtain ⟨xs, ws, ys, vs, g1, g2, g3⟩ := C50_fttr_agrees K hK' hK d e h h2 hoff deg hdeg m fuel
  refine ⟨ys, vs, g2, fun p => ?_⟩
  have hk : d.len = min (deg.getD d.len) d.len := by
    cases deg with
    | none => exact (min_self _).symm
    | some k =>
      have := hdeg k rfl
      show _ = min k d.len
      omega
  obtain ⟨hk0, nodes, weights, q1, -, -, q4⟩ := C43_golub_welsch K hK' d e h deg (by
    rintro rfl
    have := hdeg 0 rfl
    omega) "gw" (Or.inl rfl) m fuel d.len hk
  rw [q1] at g1
  simp only [Option.some.injEq, Except.ok.injEq, QuadRes.mk.injEq, true_and, Prod.mk.injEq] at g1
  rw [← q4 p, g3 (fun x => p.eval x), g1.1, g1.2]

/-- Sizes one: the recurrence writes outside its buffer. -/
theorem C50_fttr_size_one (theta d e w : ℕ → ℝ) : fttr ⟨1, theta⟩ ⟨1, d⟩ ⟨1, e⟩ 1 ⟨1, w⟩ = .error .index := by
  unfold fttr
  simp

/-- The Jacobi matrix `[[2, 1], [1, 2]]` (eigenvalues 1 and 3): all hypotheses of `C50` and `C51` hold, and the weights of
the method `fttr` with `deg = 1` sum to one half, whereas the rule of degree one is `f(2)`. -/
theorem C51_counterexample (K : TriKernels) (hK : EigvalshOk K) (hK' : EighOk K) (fuel : ℕ) :
    ∃ ws xs ys vs : ℕ → ℝ,
      quadrature K ⟨2, fun _ => 2⟩ ⟨1, fun _ => 1⟩ (some 1) "fttr" none none "auto" 30 fuel =
        some (.ok ⟨2, some (xs, ws)⟩) ∧ ∑ i ∈ Finset.range 2, ws i = 1 / 2 ∧
      quadrature K ⟨2, fun _ => 2⟩ ⟨1, fun _ => 1⟩ (some 1) "gw" none none "auto" 30 fuel =
        some (.ok ⟨1, some (ys, vs)⟩) ∧ ys 0 = 2 ∧ vs 0 = 1 := by
  have hin : Spec.QuadInput ⟨2, fun _ => 2⟩ ⟨1, fun _ => 1⟩ := ⟨by norm_num, Or.inl rfl⟩
  have hoff : ∀ i, i + 1 < 2 → Spec.offDiag ⟨2, fun _ => 2⟩ ⟨1, fun _ => 1⟩ i ≠ 0 := by
    intro i _
    simp [Spec.offDiag]
  obtain ⟨theta, Y, hY, hne, hr⟩ := fttr_rule K hK ⟨2, fun _ => 2⟩ ⟨1, fun _ => 1⟩ hin le_rfl hoff 1 one_pos (by simp) 30 fuel
  obtain ⟨hk0, ys, vs, q1, -, q3, q4⟩ := C43_golub_welsch K hK' ⟨2, fun _ => 2⟩ ⟨1, fun _ => 1⟩ hin (some 1) (by simp)
    "gw" (Or.inl rfl) 30 fuel 1 rfl
  have hv : vs 0 = 1 := by simpa using q3
  have hy : ys 0 = 2 := by
    have := q4 X
    simp only [eval_X, aeval_X, Finset.sum_range_one, hv, mul_one] at this
    rw [this]
    simp [Spec.jacobi]
  have hcol := hY.col_eq ⟨0, by norm_num⟩
  have c0 := congrFun hcol ⟨0, by norm_num⟩
  have c1 := congrFun hcol ⟨1, by norm_num⟩
  have hu := hY.unit_col ⟨0, by norm_num⟩
  simp only [Matrix.mulVec, dotProduct, Fin.sum_univ_two, Spec.jacobi, Spec.offDiag, Matrix.of_apply, Pi.smul_apply,
    smul_eq_mul] at c0 c1 hu
  have d0 : 2 * Y 0 0 + 1 * Y 1 0 = theta 0 * Y 0 0 := by simpa using c0
  have d1 : 1 * Y 0 0 + 2 * Y 1 0 = theta 0 * Y 1 0 := by simpa using c1
  have hu' : Y 0 0 * Y 0 0 + Y 1 0 * Y 1 0 = 1 := by simpa using hu
  have hx : Y 0 0 ≠ 0 := hne 0
  have ht : (theta 0 - 2) ^ 2 = 1 := by
    refine mul_right_cancel₀ hx ?_
    linear_combination -(theta 0 - 2) * d0 - d1
  have hy2 : Y 0 0 ^ 2 = 1 / 2 := by
    have : Y 1 0 = (theta 0 - 2) * Y 0 0 := by linear_combination d0
    rw [this] at hu'
    linear_combination hu' / 2 - Y 0 0 ^ 2 / 2 * ht
  have h0 : ofFin theta 0 = theta 0 := dif_pos (by norm_num)
  rcases hr with ⟨hz, -⟩ | ⟨tau, -, hr, htau⟩
  · exfalso
    rw [Finset.sum_range_one, h0, abs_eq_zero] at hz
    rw [hz] at ht
    norm_num at ht
  · refine ⟨tau, ofFin theta, ys, vs, ?_, ?_, q1, hy, hv⟩
    · rw [quadrature_eq K _ _ hin]
      show (match quadRule K _ _ 1 "fttr" "auto" 30 fuel with | none => _ | some (.error er) => _ | some (.ok res) => _) = _
      rw [hr]
    · have t0 := htau 0
      have t1 := htau 1
      have t0' : tau 0 = Y 0 0 ^ 2 := by simpa using t0
      have t1' : tau 1 = 0 := by simpa using t1
      rw [Finset.sum_range_succ, Finset.sum_range_one, t0', t1', hy2, add_zero]

/-! ## C52: inputs -/

/-- **C52.**  Off-diagonals of a length other than `n` and `n - 1`, and a leading entry that is not close to zero, raise
AssertionError; empty arrays raise IndexError. -/
theorem C52_rejects (K : TriKernels) (d e : Buf ℝ) (deg : Option ℕ) (quad : String) (nodes weights : Option ℕ)
    (method : String) (m fuel : ℕ) :
    (e.len ≠ d.len → e.len + 1 ≠ d.len →
      quadrature K d e deg quad nodes weights method m fuel = some (.error .assertion)) ∧
    (0 < d.len → e.len = d.len → 1e-8 < |e.get 0| →
      quadrature K d e deg quad nodes weights method m fuel = some (.error .assertion)) ∧
    (d.len = 0 → e.len = 0 → quadrature K d e deg quad nodes weights method m fuel = some (.error .index)) := by
  refine ⟨fun h1 h2 => ?_, fun h0 h1 h2 => ?_, fun h1 h2 => ?_⟩
  · have hp : padE d e = e := by
      unfold padE
      rw [if_neg (by omega)]
    unfold quadrature
    simp only [hp]
    rw [if_pos (Ne.symm h1)]
  · have hp : padE d e = e := padE_of_len h1
    unfold quadrature
    simp only [hp]
    rw [if_neg (by simp [h1]), if_neg h0.ne', if_pos (not_le.mpr h2)]
  · have hp : padE d e = e := padE_of_len (h2.trans h1.symm)
    unfold quadrature
    simp only [hp]
    rw [if_neg (by simp [h1, h2]), if_pos h1]

/-- **C52.**  An unknown method raises ValueError. -/
theorem C52_unknown_method (K : TriKernels) (d e : Buf ℝ) (h : Spec.QuadInput d e) (deg : Option ℕ) (quad : String)
    (hq : quad ∉ ["gw", "golub_welsch", "fttr"]) (nodes weights : Option ℕ) (method : String) (m fuel : ℕ) :
    quadrature K d e deg quad nodes weights method m fuel = some (.error .value) := by
  simp only [List.mem_cons, List.not_mem_nil, or_false, not_or] at hq
  rw [quadrature_eq K d e h]
  have : quadRule K d (padE d e) (min (deg.getD d.len) d.len) quad method m fuel = some (.error .value) := by
    unfold quadRule
    rw [if_neg (by tauto), if_neg (by tauto)]
  rw [this]

/-- **C52.**  Off-diagonals of length `n - 1` are padded with a leading zero. -/
theorem C52_padding (K : TriKernels) (d e : Buf ℝ) (h : e.len + 1 = d.len) (deg : Option ℕ) (quad : String)
    (nodes weights : Option ℕ) (method : String) (m fuel : ℕ) :
    quadrature K d e deg quad nodes weights method m fuel =
      quadrature K d ⟨e.len + 1, fun i => if i = 0 then 0 else e.get (i - 1)⟩ deg quad nodes weights method m fuel := by
  have h1 : padE d e = ⟨e.len + 1, fun i => if i = 0 then 0 else e.get (i - 1)⟩ := by
    unfold padE
    rw [if_pos (by omega)]
  have h2 : padE d ⟨e.len + 1, fun i => if i = 0 then 0 else e.get (i - 1)⟩ =
      ⟨e.len + 1, fun i => if i = 0 then 0 else e.get (i - 1)⟩ := padE_of_len h
  unfold quadrature
  simp only [h1, h2]

/-- **C52.**  The degree is clipped to the matrix size, which is also the default. -/
theorem C52_degree_clipped (K : TriKernels) (d e : Buf ℝ) (h : Spec.QuadInput d e) (k : ℕ) (hk : d.len ≤ k) (quad : String)
    (nodes weights : Option ℕ) (method : String) (m fuel : ℕ) :
    quadrature K d e (some k) quad nodes weights method m fuel =
      quadrature K d e none quad nodes weights method m fuel := by
  rw [quadrature_eq K d e h, quadrature_eq K d e h]
  have h1 : min ((some k).getD d.len) d.len = d.len := by
    show min k d.len = d.len
    omega
  have h2 : min ((none : Option ℕ).getD d.len) d.len = d.len := min_self _
  rw [h1, h2]

/-- **C52.**  Output arrays: when only one is given it is ignored; when both are given and the call succeeds, both have as
many entries as the rule returned, which is the rule returned without them; and the Golub-Welsch method does succeed
with output arrays of `min(deg, n)` entries. -/
theorem C52_outputs (K : TriKernels) (d e : Buf ℝ) (h : Spec.QuadInput d e) (deg : Option ℕ) (quad : String)
    (method : String) (m fuel : ℕ) :
    (∀ a, quadrature K d e deg quad (some a) none method m fuel = quadrature K d e deg quad none none method m fuel) ∧
    (∀ a, quadrature K d e deg quad none (some a) method m fuel = quadrature K d e deg quad none none method m fuel) ∧
    (∀ ln lw res, quadrature K d e deg quad (some ln) (some lw) method m fuel = some (.ok res) →
      quadrature K d e deg quad none none method m fuel = some (.ok res) ∧ res.len = ln ∧ res.len = lw) ∧
    (∀ ln lw res, quadrature K d e deg quad none none method m fuel = some (.ok res) →
      ln ≠ min (deg.getD d.len) d.len ∨ lw ≠ min (deg.getD d.len) d.len →
      quadrature K d e deg quad (some ln) (some lw) method m fuel = some (.error .assertion)) ∧
    (EighOk K → deg ≠ some 0 → quad = "gw" ∨ quad = "golub_welsch" → method = "auto" →
      quadrature K d e deg quad (some (min (deg.getD d.len) d.len)) (some (min (deg.getD d.len) d.len)) method m fuel =
        quadrature K d e deg quad none none method m fuel) := by
  simp only [quadrature_eq K d e h]
  rcases hr : quadRule K d (padE d e) (min (deg.getD d.len) d.len) quad method m fuel with _ | er | res
  · refine ⟨fun _ => trivial, fun _ => trivial, ?_, ?_, fun _ _ _ _ => rfl⟩
    · intro ln lw res hc; cases hc
    · intro ln lw res hc; cases hc
  · refine ⟨fun _ => trivial, fun _ => trivial, ?_, ?_, fun _ _ _ _ => rfl⟩
    · intro ln lw res hc; cases hc
    · intro ln lw res hc; cases hc
  · refine ⟨fun _ => trivial, fun _ => trivial, ?_, ?_, ?_⟩
    · intro ln lw res' hc
      simp only at hc ⊢
      split_ifs at hc with h1 h2
      · cases hc
      · cases hc
      · obtain rfl := Except.ok.inj (Option.some.inj hc)
        refine ⟨rfl, ?_, ?_⟩ <;> omega
    · intro ln lw res' hc h1
      simp only
      rw [if_pos h1]
    · intro hK hd hq hm
      subst hm
      have hk0 : 0 < min (deg.getD d.len) d.len := by
        have hd' := h.1
        cases deg with
        | none => rw [Option.getD_none]; omega
        | some j =>
          have : j ≠ 0 := fun hj => hd (by rw [hj])
          rw [Option.getD_some]
          omega
      obtain ⟨theta, Y, -, hg⟩ := gw_rule K hK d e h _ hk0 (min_le_right _ _) quad hq m fuel
      rw [hg] at hr
      obtain rfl := Except.ok.inj (Option.some.inj hr)
      simp only
      rw [if_neg (by simp), if_neg (by simp)]

/-- **C52.**  Degree zero raises ValueError with the Golub-Welsch method (SciPy rejects empty arrays). -/
theorem C52_degree_zero (K : TriKernels) (d e : Buf ℝ) (h : Spec.QuadInput d e) (quad : String)
    (hq : quad = "gw" ∨ quad = "golub_welsch") (nodes weights : Option ℕ) (method : String) (hm : method = "mrrr" ∨ method = "auto")
    (m fuel : ℕ) : quadrature K d e (some 0) quad nodes weights method m fuel = some (.error .value) := by
  rw [quadrature_eq K d e h]
  have h1 : eighTridiag K (d.take 0) ((padE d e).take 0) method m fuel = some (.error .value) := by
    rcases hm with rfl | rfl <;> simp [eighTridiag, eighTridiagCore, Buf.take, TriKernels.scipyEigh, Except.map]
  have : quadRule K d (padE d e) (min ((some 0).getD d.len) d.len) quad method m fuel = some (.error .value) := by
    show quadRule K d (padE d e) (min 0 d.len) quad method m fuel = _
    rw [Nat.zero_min]
    unfold quadRule
    rw [if_pos hq, h1]
  rw [this]

/-- **C52.**  A negative degree `-j` is not rejected.  With the Golub-Welsch method it gives the rule of degree `n - j` (as Python
slices do), which raises when `j` is at least `n`; with `fttr` all `n` nodes and the weights zero are returned.  With both output arrays
AssertionError is raised. -/
theorem C52_negative_degree (K : TriKernels) (d e : Buf ℝ) (h : Spec.QuadInput d e) (j : ℕ) (hj : 0 < j) (method : String)
    (m fuel : ℕ) :
    (∀ quad, quad = "gw" ∨ quad = "golub_welsch" →
      quadratureInt K d e (-(j : ℤ)) quad none none method m fuel = quadrature K d e (some (d.len - j)) quad none none method m fuel) ∧
    (∀ theta, eigvalshTridiag K d (padE d e) method m fuel = some (.ok (some theta)) → ∃ xs ws : ℕ → ℝ,
      quadratureInt K d e (-(j : ℤ)) "fttr" none none method m fuel = some (.ok ⟨d.len, some (xs, ws)⟩) ∧
      (∀ a : Fin d.len, xs a = theta a) ∧ ∀ i < d.len, ws i = 0) ∧
    (∀ quad ln lw res, quadratureInt K d e (-(j : ℤ)) quad none none method m fuel = some (.ok res) →
      quadratureInt K d e (-(j : ℤ)) quad (some ln) (some lw) method m fuel = some (.error .assertion)) := by
  obtain ⟨p1, p2, p3⟩ := padE_off d e h
  have hneg : ¬ (0 : ℤ) ≤ -(j : ℤ) := by omega
  have h0 : d.len ≠ 0 := by have := h.1; omega
  have hb : ¬ ¬ |(padE d e).get 0| ≤ 1e-8 := by rw [not_not]; assumption
  refine ⟨fun quad hq => ?_, fun theta ht => ?_, fun quad ln lw res hr => ?_⟩
  · rw [quadrature_eq K d e h]
    unfold quadratureInt
    have hf : quad ≠ "fttr" := by rcases hq with rfl | rfl <;> decide
    have hk : ((d.len : ℤ) + -(j : ℤ)).toNat = min ((some (d.len - j)).getD d.len) d.len := by
      show _ = min (d.len - j) d.len
      omega
    simp only [if_neg hneg, p1, ne_eq, not_true_eq_false, if_false, if_neg h0, if_neg hb, if_neg hf, hk]
    rfl
  · unfold quadratureInt
    simp only [if_neg hneg, p1, ne_eq, not_true_eq_false, if_false, if_neg h0, if_neg hb, if_true]
    have : quadRule K d (padE d e) 0 "fttr" method m fuel = some (.ok ⟨d.len, some (ofFin theta, fun _ => 0)⟩) := by
      unfold quadRule
      rw [if_neg (by decide), if_pos rfl, ht]
      simp only [fttr, if_true]
      rfl
    rw [this]
    exact ⟨_, _, rfl, fun a => by unfold ofFin; simp, fun _ _ => rfl⟩
  · unfold quadratureInt at hr ⊢
    simp only [if_neg hneg, p1, ne_eq, not_true_eq_false, if_false, if_neg h0, if_neg hb] at hr ⊢
    rcases hq : quadRule K d (padE d e) (if quad = "fttr" then 0 else ((d.len : ℤ) + -(j : ℤ)).toNat) quad method m fuel with _ | er | r
    · rw [hq] at hr; cases hr
    · rw [hq] at hr; cases hr
    · rfl

/-- **C52.**  Every integer degree: wrong lengths, a leading entry that is not close to zero and unknown methods raise, whatever the degree. -/
theorem C52_rejects_int (K : TriKernels) (d e : Buf ℝ) (deg : ℤ) (quad : String) (nodes weights : Option ℕ) (method : String) (m fuel : ℕ) :
    (e.len ≠ d.len → e.len + 1 ≠ d.len → quadratureInt K d e deg quad nodes weights method m fuel = some (.error .assertion)) ∧
    (0 < d.len → e.len = d.len → 1e-8 < |e.get 0| → quadratureInt K d e deg quad nodes weights method m fuel = some (.error .assertion)) ∧
    (d.len = 0 → e.len = 0 → quadratureInt K d e deg quad nodes weights method m fuel = some (.error .index)) ∧
    (Spec.QuadInput d e → quad ∉ ["gw", "golub_welsch", "fttr"] → quadratureInt K d e deg quad nodes weights method m fuel = some (.error .value)) := by
  by_cases hd : 0 ≤ deg
  · have e1 : quadratureInt K d e deg quad nodes weights method m fuel = quadrature K d e (some deg.toNat) quad nodes weights method m fuel := by
      unfold quadratureInt
      rw [if_pos hd]
    rw [e1]
    obtain ⟨h1, h2, h3⟩ := C52_rejects K d e (some deg.toNat) quad nodes weights method m fuel
    exact ⟨h1, h2, h3, fun h hq => C52_unknown_method K d e h _ quad hq nodes weights method m fuel⟩
  refine ⟨fun h1 h2 => ?_, fun h0 h1 h2 => ?_, fun h1 h2 => ?_, fun h hq => ?_⟩
  · have hp : padE d e = e := by
      unfold padE
      rw [if_neg (by omega)]
    unfold quadratureInt
    simp only [hp, if_neg hd]
    rw [if_pos (Ne.symm h1)]
  · have hp : padE d e = e := padE_of_len h1
    unfold quadratureInt
    simp only [hp, if_neg hd]
    rw [if_neg (by simp [h1]), if_neg h0.ne', if_pos (not_le.mpr h2)]
  · have hp : padE d e = e := padE_of_len (h2.trans h1.symm)
    unfold quadratureInt
    simp only [hp, if_neg hd]
    rw [if_neg (by simp [h1, h2]), if_pos h1]
  · simp only [List.mem_cons, List.not_mem_nil, or_false, not_or] at hq
    obtain ⟨p1, p2, p3⟩ := padE_off d e h
    have h0 : d.len ≠ 0 := by have := h.1; omega
    have hb : ¬ ¬ |(padE d e).get 0| ≤ 1e-8 := by rw [not_not]; assumption
    unfold quadratureInt
    simp only [if_neg hd, p1, ne_eq, not_true_eq_false, if_false, if_neg h0, if_neg hb]
    have : ∀ k, quadRule K d (padE d e) k quad method m fuel = some (.error .value) := by
      intro k
      unfold quadRule
      rw [if_neg (by tauto), if_neg (by tauto)]
    rw [this]

/-- `C52_rejects_int` on a concrete case: degree -1 and a leading entry of one. -/
example (K : TriKernels) (fuel : ℕ) : quadratureInt K ⟨3, fun _ => 1⟩ ⟨3, fun _ => 1⟩ (-1) "gw" none none "auto" 30 fuel = some (.error .assertion) :=
  (C52_rejects_int K ⟨3, fun _ => 1⟩ ⟨3, fun _ => 1⟩ (-1) "gw" none none "auto" 30 fuel).2.1 (by norm_num) rfl (by norm_num)

/-- `C52_negative_degree` on a concrete case: degree -1 of a 3 x 3 matrix gives two nodes. -/
example (K : TriKernels) (hK : EighOk K) (fuel : ℕ) :
    ∃ res, quadratureInt K ⟨3, fun _ => 1⟩ ⟨2, fun _ => 1⟩ (-1) "gw" none none "auto" 30 fuel = some (.ok res) ∧ res.len = 2 := by
  have h := (C52_negative_degree K ⟨3, fun _ => 1⟩ ⟨2, fun _ => 1⟩ ⟨by norm_num, Or.inl rfl⟩ 1 (by norm_num) "auto" 30 fuel).1 "gw"
    (Or.inl rfl)
  obtain ⟨-, xs, ws, h1, -⟩ := C43_golub_welsch K hK ⟨3, fun _ => 1⟩ ⟨2, fun _ => 1⟩ ⟨by norm_num, Or.inl rfl⟩ (some 2)
    (by simp) "gw" (Or.inl rfl) 30 fuel 2 rfl
  exact ⟨_, h.trans h1, rfl⟩

/-- The kernels of the theorems above exist. -/
example : ∃ K : TriKernels, EighOk K ∧ EigvalshOk K := exists_eighOk

/-- `C52`: three diagonal and one off-diagonal entries are rejected, two are accepted. -/
example (K : TriKernels) (hK : EighOk K) (fuel : ℕ) :
    quadrature K ⟨3, fun _ => 1⟩ ⟨1, fun _ => 1⟩ none "gw" none none "auto" 30 fuel = some (.error .assertion) ∧
    ∃ res, quadrature K ⟨3, fun _ => 1⟩ ⟨2, fun _ => 1⟩ (some 2) "gw" none none "auto" 30 fuel = some (.ok res) ∧
      res.len = 2 := by
  refine ⟨(C52_rejects K _ _ _ _ _ _ _ _ _).1 (by norm_num) (by norm_num), ?_⟩
  obtain ⟨-, xs, ws, h1, -⟩ := C43_golub_welsch K hK ⟨3, fun _ => 1⟩ ⟨2, fun _ => 1⟩ ⟨by norm_num, Or.inl rfl⟩ (some 2)
    (by simp) "gw" (Or.inl rfl) 30 fuel 2 rfl
  exact ⟨_, h1, rfl⟩

end Primate
