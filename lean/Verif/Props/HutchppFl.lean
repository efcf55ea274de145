import Verif.Model.HutchppFl
import Verif.Props.Hutchpp
import Verif.Props.RandomFl
import Verif.Props.TrinvFl

/-!
# C151: `hutchpp` in rounded arithmetic
-/

noncomputable section

namespace Primate

open Matrix Spec

variable {N : ℕ}

/-- The kernels have errors of at most `γ` relative to the sum of the absolute values (inner products, sums, operations) or to `a |x|` (products with `A`, quadratic forms);
`n` bounds the lengths. -/
structure Spec.HppOk (K : HppKernels N) (A : Matrix (Fin N) (Fin N) ℝ) (a γ : ℝ) (n : ℕ) : Prop where
  γ0 : 0 ≤ γ
  a0 : 0 ≤ a
  op : ∀ x, nrm (A *ᵥ x) ≤ a * nrm x
  fl : ∀ x, |K.fl x - x| ≤ γ * |x|
  mv : ∀ t j x, nrm (K.mv t j x - A *ᵥ x) ≤ γ * (a * nrm x)
  quad : ∀ q, K.quad = some q → ∀ x, |q x - Spec.quad A x| ≤ γ * (a * (nrm x * nrm x))
  dot : ∀ t i j k (x y : Vec k), k ≠ 0 → k ≤ n → |K.dot t i j k x y - x ⬝ᵥ y| ≤ γ * ∑ l, |x l| * |y l|
  sum : ∀ t (l : List ℝ), l ≠ [] → l.length ≤ n → |K.sum t l - l.sum| ≤ γ * (l.map abs).sum

/-- The QR factorisation is stable: the columns returned are close to an exactly orthonormal family whose span nearly contains the columns of the matrix (this is what
Householder triangularisation guarantees). -/
def Spec.QRStable {r nb : ℕ} (Qh : Fin r → Vec N) (Y : Fin nb → Vec N) (γ : ℝ) (Q : Fin r → Vec N) : Prop :=
  (∀ k l, ∑ i, Q k i * Q l i = if k = l then 1 else 0) ∧ (∀ l, nrm (Qh l - Q l) ≤ γ) ∧ ∃ R : Fin r → Fin nb → ℝ, ∀ k, nrm (Y k - ∑ l, R l k • Q l) ≤ γ * nrm (Y k)

theorem sum_abs_mul_abs_le {n : ℕ} (x y : Vec n) : ∑ i, |x i| * |y i| ≤ nrm x * nrm y := by
  have h := (le_abs_self _).trans (abs_dot_le (fun i => |x i|) fun i => |y i|)
  have e : ∀ v : Vec n, nrm (fun i => |v i|) = nrm v := fun v => by simp [nrm, dotProduct]
  rwa [e, e] at h

variable {K : HppKernels N} {A : Matrix (Fin N) (Fin N) ℝ} {a γ : ℝ} {n : ℕ}

theorem Spec.HppOk.mv_le (h : HppOk K A a γ n) (t j : ℕ) (x : Vec N) : nrm (K.mv t j x) ≤ (1 + γ) * (a * nrm x) := by
  have e : K.mv t j x = (K.mv t j x - A *ᵥ x) + A *ᵥ x := by simp
  rw [e]
  have := nrm_add_le (K.mv t j x - A *ᵥ x) (A *ᵥ x)
  linarith [h.mv t j x, h.op x]

/-- A contraction over the rows followed by a sum. -/
theorem Spec.HppOk.rows (h : HppOk K A a γ n) (hγ : 64 * γ ≤ 1) (hN : N ≠ 0) (hNn : N ≤ n) {m : ℕ} (hm : m ≠ 0) (hmn : m ≤ n) (s t s' : ℕ) (x : Fin m → Vec N) :
    |K.sum s (List.ofFn fun i : Fin N => K.dot t i 0 m (fun j => K.mv s' j (x j) i) fun j => x j i) - ∑ j, Spec.quad A (x j)| ≤ 4 * γ * (a * ∑ j, nrm (x j) * nrm (x j)) := by
  set d : Fin N → ℝ := fun i => K.dot t i 0 m (fun j => K.mv s' j (x j) i) fun j => x j i with hd
  set w : Fin N → ℝ := fun i => ∑ j : Fin m, |K.mv s' j (x j) i| * |x j i| with hw
  set X := a * ∑ j, nrm (x j) * nrm (x j) with hX
  have γ0 := h.γ0
  have a0 := h.a0
  have X0 : 0 ≤ X := mul_nonneg a0 (Finset.sum_nonneg fun j _ => mul_nonneg (nrm_nonneg _) (nrm_nonneg _))
  have w0 : ∀ i, 0 ≤ w i := fun i => Finset.sum_nonneg fun j _ => by positivity
  have hS : ∑ i, w i ≤ (1 + γ) * X := by
    rw [Finset.sum_comm, hX, Finset.mul_sum, Finset.mul_sum]
    refine Finset.sum_le_sum fun j _ => (sum_abs_mul_abs_le _ _).trans ?_
    have := mul_le_mul_of_nonneg_right (h.mv_le s' j (x j)) (nrm_nonneg (x j))
    linarith
  have h1 : ∀ i, |d i - ∑ j : Fin m, K.mv s' j (x j) i * x j i| ≤ γ * w i := fun i => h.dot t i 0 m _ _ hm hmn
  have h2 : ∀ i, |d i| ≤ (1 + γ) * w i := fun i => by
    have e : |∑ j : Fin m, K.mv s' j (x j) i * x j i| ≤ w i := (Finset.abs_sum_le_sum_abs _ _).trans (Finset.sum_le_sum fun j _ => (abs_mul _ _).le)
    have := abs_sub_abs_le_abs_sub (d i) (∑ j : Fin m, K.mv s' j (x j) i * x j i)
    linarith [h1 i]
  have h3 := h.sum s (List.ofFn d) (by rw [Ne, List.ofFn_eq_nil_iff]; exact hN) (by rw [List.length_ofFn]; exact hNn)
  rw [ofFn_sum_abs, List.sum_ofFn] at h3
  have h4 : ∑ i, |d i| ≤ (1 + γ) * ∑ i, w i := by
    rw [Finset.mul_sum]
    exact Finset.sum_le_sum fun i _ => h2 i
  have h5 : |∑ i, d i - ∑ i, ∑ j : Fin m, K.mv s' j (x j) i * x j i| ≤ γ * ∑ i, w i := by
    rw [← Finset.sum_sub_distrib, Finset.mul_sum]
    exact (Finset.abs_sum_le_sum_abs _ _).trans (Finset.sum_le_sum fun i _ => h1 i)
  have h6 : |∑ i, ∑ j : Fin m, K.mv s' j (x j) i * x j i - ∑ j, Spec.quad A (x j)| ≤ γ * X := by
    rw [Finset.sum_comm, ← Finset.sum_sub_distrib, hX, Finset.mul_sum, Finset.mul_sum]
    refine (Finset.abs_sum_le_sum_abs _ _).trans (Finset.sum_le_sum fun j _ => ?_)
    have e : ∑ i, K.mv s' j (x j) i * x j i - Spec.quad A (x j) = (K.mv s' j (x j) - A *ᵥ x j) ⬝ᵥ x j := by
      rw [sub_dotProduct, quad_eq_dot, dotProduct_comm (A *ᵥ x j)]
      rfl
    rw [e]
    have := mul_le_mul_of_nonneg_right (h.mv s' j (x j)) (nrm_nonneg (x j))
    linarith [abs_dot_le (K.mv s' j (x j) - A *ᵥ x j) (x j)]
  have h7 := mul_le_mul_of_nonneg_left h4 γ0
  have h8 := mul_le_mul_of_nonneg_left (mul_le_mul_of_nonneg_left hS (by linarith : (0 : ℝ) ≤ 1 + γ)) γ0
  have h9 := mul_le_mul_of_nonneg_left hS γ0
  have h10 : |K.sum s (List.ofFn d) - ∑ j, Spec.quad A (x j)| ≤ |K.sum s (List.ofFn d) - ∑ i, d i| + |∑ i, d i - ∑ i, ∑ j : Fin m, K.mv s' j (x j) i * x j i| +
      |∑ i, ∑ j : Fin m, K.mv s' j (x j) i * x j i - ∑ j, Spec.quad A (x j)| := by
    refine (abs_sub_le _ (∑ i, ∑ j : Fin m, K.mv s' j (x j) i * x j i) _).trans (add_le_add (abs_sub_le _ _ _) le_rfl)
  have g1 : γ * X * γ ≤ γ * X * (1 / 64) := mul_le_mul_of_nonneg_left (by linarith) (mul_nonneg γ0 X0)
  have g2 : γ * X * γ * γ ≤ γ * X * γ * (1 / 64) := mul_le_mul_of_nonneg_left (by linarith) (mul_nonneg (mul_nonneg γ0 X0) γ0)
  linarith [mul_nonneg γ0 X0]

/-- The quadratic forms of the columns, followed by a sum. -/
theorem Spec.HppOk.cols (h : HppOk K A a γ n) (hγ : 64 * γ ≤ 1) (hN : N ≠ 0) (hNn : N ≤ n) {m : ℕ} (hm : m ≠ 0) (hmn : m ≤ n) (s : ℕ) (x : Fin m → Vec N) :
    |K.sum s (List.ofFn fun l : Fin m => K.quadForm l (x l)) - ∑ j, Spec.quad A (x j)| ≤ 4 * γ * (a * ∑ j, nrm (x j) * nrm (x j)) := by
  have γ0 := h.γ0
  have a0 := h.a0
  set X := a * ∑ j, nrm (x j) * nrm (x j) with hX
  have X0 : 0 ≤ X := mul_nonneg a0 (Finset.sum_nonneg fun j _ => mul_nonneg (nrm_nonneg _) (nrm_nonneg _))
  have h1 : ∀ l : Fin m, |K.quadForm l (x l) - Spec.quad A (x l)| ≤ 5 / 2 * γ * (a * (nrm (x l) * nrm (x l))) := by
    intro l
    have z0 : 0 ≤ a * (nrm (x l) * nrm (x l)) := mul_nonneg a0 (mul_nonneg (nrm_nonneg _) (nrm_nonneg _))
    have z1 := mul_nonneg γ0 z0
    unfold HppKernels.quadForm
    split
    · rename_i f hf
      linarith [h.quad f hf (x l)]
    · have d1 := h.dot 0 l 0 N (x l) (K.mv 1 l (x l)) hN hNn
      have d2 := mul_le_mul_of_nonneg_left (sum_abs_mul_abs_le (x l) (K.mv 1 l (x l))) γ0
      have d3 := mul_le_mul_of_nonneg_left (mul_le_mul_of_nonneg_left (h.mv_le 1 l (x l)) (nrm_nonneg (x l))) γ0
      have e : x l ⬝ᵥ K.mv 1 l (x l) - Spec.quad A (x l) = x l ⬝ᵥ (K.mv 1 l (x l) - A *ᵥ x l) := by rw [dotProduct_sub, quad_eq_dot]
      have d4 : |x l ⬝ᵥ K.mv 1 l (x l) - Spec.quad A (x l)| ≤ nrm (x l) * (γ * (a * nrm (x l))) := by
        rw [e]
        exact (abs_dot_le _ _).trans (mul_le_mul_of_nonneg_left (h.mv 1 l (x l)) (nrm_nonneg _))
      have d5 := abs_sub_le (K.dot 0 l 0 N (x l) (K.mv 1 l (x l))) (x l ⬝ᵥ K.mv 1 l (x l)) (Spec.quad A (x l))
      have g1 := mul_le_mul_of_nonneg_left (show γ ≤ 1 / 64 by linarith) z1
      linarith
  have h2 : ∀ l, |Spec.quad A (x l)| ≤ a * (nrm (x l) * nrm (x l)) := fun l => by
    rw [quad_eq_dot]
    have := mul_le_mul_of_nonneg_left (h.op (x l)) (nrm_nonneg (x l))
    linarith [abs_dot_le (x l) (A *ᵥ x l)]
  have h3 : ∀ l : Fin m, |K.quadForm l (x l)| ≤ (1 + 5 / 2 * γ) * (a * (nrm (x l) * nrm (x l))) := fun l => by
    have := abs_sub_abs_le_abs_sub (K.quadForm l (x l)) (Spec.quad A (x l))
    linarith [h1 l, h2 l]
  have h4 := h.sum s (List.ofFn fun l : Fin m => K.quadForm l (x l)) (by rw [Ne, List.ofFn_eq_nil_iff]; exact hm) (by rw [List.length_ofFn]; exact hmn)
  rw [ofFn_sum_abs, List.sum_ofFn] at h4
  have h5 : ∑ l : Fin m, |K.quadForm l (x l)| ≤ (1 + 5 / 2 * γ) * X := by
    rw [hX, Finset.mul_sum, Finset.mul_sum]
    exact Finset.sum_le_sum fun l _ => h3 l
  have h6 : |∑ l : Fin m, K.quadForm l (x l) - ∑ j, Spec.quad A (x j)| ≤ 5 / 2 * γ * X := by
    rw [← Finset.sum_sub_distrib, hX, Finset.mul_sum, Finset.mul_sum]
    exact (Finset.abs_sum_le_sum_abs _ _).trans (Finset.sum_le_sum fun l _ => h1 l)
  have h7 := mul_le_mul_of_nonneg_left h5 γ0
  have h8 := abs_sub_le (K.sum s (List.ofFn fun l : Fin m => K.quadForm l (x l))) (∑ l : Fin m, K.quadForm l (x l)) (∑ j, Spec.quad A (x j))
  have g1 : γ * X * γ ≤ γ * X * (1 / 64) := mul_le_mul_of_nonneg_left (by linarith) (mul_nonneg γ0 X0)
  linarith [mul_nonneg γ0 X0]

theorem quad_sub_le (hA : ∀ x, nrm (A *ᵥ x) ≤ a * nrm x) (x y : Vec N) : |Spec.quad A x - Spec.quad A y| ≤ a * (nrm (x - y) * (nrm x + nrm y)) := by
  have e : Spec.quad A x - Spec.quad A y = (x - y) ⬝ᵥ A *ᵥ x + y ⬝ᵥ A *ᵥ (x - y) := by
    rw [quad_eq_dot, quad_eq_dot, sub_dotProduct, mulVec_sub, dotProduct_sub]
    ring
  rw [e]
  have h1 := (abs_dot_le (x - y) (A *ᵥ x)).trans (mul_le_mul_of_nonneg_left (hA x) (nrm_nonneg _))
  have h2 := (abs_dot_le y (A *ᵥ (x - y))).trans (mul_le_mul_of_nonneg_left (hA (x - y)) (nrm_nonneg _))
  linarith [abs_add_le ((x - y) ⬝ᵥ A *ᵥ x) (y ⬝ᵥ A *ᵥ (x - y))]

/-- The projection off an orthonormal family does not increase the norm. -/
theorem nrm_off_le {r : ℕ} (Q : Fin r → Vec N) (hQ : ∀ k l, ∑ i, Q k i * Q l i = if k = l then 1 else 0) (g : Vec N) : nrm (g - ∑ l, (Q l ⬝ᵥ g) • Q l) ≤ nrm g := by
  set w := ∑ l, (Q l ⬝ᵥ g) • Q l with hw
  have h1 : w ⬝ᵥ g = ∑ l, (Q l ⬝ᵥ g) * (Q l ⬝ᵥ g) := by
    rw [hw, sum_dotProduct]
    exact Finset.sum_congr rfl fun l _ => by rw [smul_dotProduct, smul_eq_mul]
  have h2 : w ⬝ᵥ w = w ⬝ᵥ g := by
    rw [h1]
    conv_lhs => rw [hw]
    rw [sum_dotProduct]
    refine Finset.sum_congr rfl fun l _ => ?_
    rw [smul_dotProduct, smul_eq_mul, dotProduct_sum]
    congr 1
    rw [Finset.sum_eq_single l]
    · rw [dotProduct_smul, smul_eq_mul, show Q l ⬝ᵥ Q l = 1 from (hQ l l).trans (if_pos rfl), mul_one]
    · intro b _ hb
      rw [dotProduct_smul, smul_eq_mul, show Q l ⬝ᵥ Q b = 0 from (hQ l b).trans (if_neg hb.symm), mul_zero]
    · simp
  have h3 : 0 ≤ w ⬝ᵥ w := by rw [← nrm_sq]; exact mul_nonneg (nrm_nonneg _) (nrm_nonneg _)
  unfold nrm
  refine Real.sqrt_le_sqrt ?_
  rw [sub_dotProduct, dotProduct_sub, dotProduct_sub, h2, dotProduct_comm g w]
  linarith

/-- The rounded projection. -/
theorem Spec.HppOk.project_err (h : HppOk K A a γ n) {r : ℕ} (hr : r ≠ 0) (hγ : 64 * (r * γ) ≤ 1) (hN : N ≠ 0) (hNn : N ≤ n) (hrn : r ≤ n) (Qh Q : Fin r → Vec N)
    (hQ : ∀ k l, ∑ i, Q k i * Q l i = if k = l then 1 else 0) (hQh : ∀ l, nrm (Qh l - Q l) ≤ γ) (j : ℕ) (g : Vec N) :
    nrm (K.project Qh j g - (g - ∑ l, (Q l ⬝ᵥ g) • Q l)) ≤ 6 * (r * γ) * nrm g := by
  have γ0 := h.γ0
  have r1 : (1 : ℝ) ≤ r := by exact_mod_cast Nat.one_le_iff_ne_zero.2 hr
  have rγ0 : 0 ≤ r * γ := mul_nonneg (by linarith) γ0
  have γr : γ ≤ r * γ := by nlinarith
  have g64 : γ ≤ 1 / 64 := by linarith
  set G := nrm g with hG
  have G0 : 0 ≤ G := nrm_nonneg g
  have q1 : ∀ l, nrm (Q l) = 1 := fun l => by
    rw [nrm, show Q l ⬝ᵥ Q l = 1 from (hQ l l).trans (if_pos rfl), Real.sqrt_one]
  have q2 : ∀ l, nrm (Qh l) ≤ 1 + γ := fun l => by
    have := nrm_add_le (Qh l - Q l) (Q l)
    rw [sub_add_cancel] at this
    linarith [hQh l, q1 l]
  have s1 : ∀ l, |Q l ⬝ᵥ g| ≤ G := fun l => by
    have := abs_dot_le (Q l) g
    rwa [q1, one_mul] at this
  set C : Vec r := fun l => K.dot 1 l j N (Qh l) g with hC
  have γG : 0 ≤ γ * G := mul_nonneg γ0 G0
  have γγG : γ * G * γ ≤ γ * G * (1 / 64) := mul_le_mul_of_nonneg_left g64 γG
  have c1 : ∀ l, |C l - Q l ⬝ᵥ g| ≤ 21 / 10 * (γ * G) := fun l => by
    have d1 := h.dot 1 l j N (Qh l) g hN hNn
    have d2 := mul_le_mul_of_nonneg_left ((sum_abs_mul_abs_le (Qh l) g).trans (mul_le_mul_of_nonneg_right (q2 l) G0)) γ0
    have d3 : |Qh l ⬝ᵥ g - Q l ⬝ᵥ g| ≤ γ * G := by
      rw [← sub_dotProduct]
      exact (abs_dot_le _ _).trans (mul_le_mul_of_nonneg_right (hQh l) G0)
    linarith [abs_sub_le (C l) (Qh l ⬝ᵥ g) (Q l ⬝ᵥ g)]
  have c2 : ∀ l, |C l| ≤ 11 / 10 * G := fun l => by
    have := abs_sub_abs_le_abs_sub (C l) (Q l ⬝ᵥ g)
    have e : γ * G ≤ 1 / 64 * G := mul_le_mul_of_nonneg_right g64 G0
    linarith [c1 l, s1 l]
  set wh : Vec N := fun i => K.dot 2 i j r (fun l => Qh l i) C with hwh
  set w := ∑ l, (Q l ⬝ᵥ g) • Q l with hw
  -- the product with `Q`
  have e1 : nrm (wh - ∑ l, C l • Qh l) ≤ 12 / 10 * (r * (γ * G)) := by
    have f1 : nrm (wh - ∑ l, C l • Qh l) ≤ nrm (∑ l : Fin r, (γ * |C l|) • fun i => |Qh l i|) := by
      refine nrm_le_of_abs fun i => ?_
      have d1 := h.dot 2 i j r (fun l => Qh l i) C hr hrn
      simp only [Pi.sub_apply, Finset.sum_apply, Pi.smul_apply, smul_eq_mul]
      have e : ∑ l, C l * Qh l i = (fun l => Qh l i) ⬝ᵥ C := Finset.sum_congr rfl fun l _ => mul_comm _ _
      rw [e]
      refine d1.trans (le_of_eq ?_)
      rw [Finset.mul_sum]
      exact Finset.sum_congr rfl fun l _ => by ring
    refine f1.trans ((nrm_sum_le _ _).trans ?_)
    have f2 : ∀ l : Fin r, nrm ((γ * |C l|) • fun i => |Qh l i|) ≤ 12 / 10 * (γ * G) := fun l => by
      have e : nrm (fun i => |Qh l i|) = nrm (Qh l) := by simp [nrm, dotProduct]
      rw [nrm_smul, e, abs_of_nonneg (mul_nonneg γ0 (abs_nonneg _))]
      have f3 := mul_le_mul (mul_le_mul_of_nonneg_left (c2 l) γ0) (q2 l) (nrm_nonneg _) (by positivity)
      linarith
    refine (Finset.sum_le_sum fun l _ => f2 l).trans (le_of_eq ?_)
    rw [Finset.sum_const, Finset.card_univ, Fintype.card_fin, nsmul_eq_mul]
    ring
  have e2 : nrm (∑ l, C l • Qh l - w) ≤ 32 / 10 * (r * (γ * G)) := by
    rw [hw, ← Finset.sum_sub_distrib]
    refine (nrm_sum_le _ _).trans ?_
    have f2 : ∀ l : Fin r, nrm (C l • Qh l - (Q l ⬝ᵥ g) • Q l) ≤ 32 / 10 * (γ * G) := fun l => by
      have e : C l • Qh l - (Q l ⬝ᵥ g) • Q l = (C l - Q l ⬝ᵥ g) • Qh l + (Q l ⬝ᵥ g) • (Qh l - Q l) := by
        rw [sub_smul, smul_sub]
        abel
      rw [e]
      refine (nrm_add_le _ _).trans ?_
      rw [nrm_smul, nrm_smul]
      have f3 := mul_le_mul (c1 l) (q2 l) (nrm_nonneg _) (by positivity)
      have f4 := mul_le_mul (s1 l) (hQh l) (nrm_nonneg _) G0
      linarith
    refine (Finset.sum_le_sum fun l _ => f2 l).trans (le_of_eq ?_)
    rw [Finset.sum_const, Finset.card_univ, Fintype.card_fin, nsmul_eq_mul]
    ring
  have e3 : nrm (wh - w) ≤ 44 / 10 * (r * (γ * G)) := by
    have := nrm_add_le (wh - ∑ l, C l • Qh l) (∑ l, C l • Qh l - w)
    rw [sub_add_sub_cancel] at this
    linarith
  have e4 : nrm (g - wh) ≤ 11 / 10 * G := by
    have h1 := nrm_add_le (g - w) (w - wh)
    rw [sub_add_sub_cancel, nrm_sub_comm w wh] at h1
    have h2 : nrm (g - w) ≤ G := nrm_off_le Q hQ g
    have h3 : r * γ * G ≤ 1 / 64 * G := mul_le_mul_of_nonneg_right (by linarith) G0
    linarith
  have e5 : nrm (K.project Qh j g - (g - wh)) ≤ γ * nrm (g - wh) := by
    have e : nrm (γ • fun i => |(g - wh) i|) = γ * nrm (g - wh) := by
      rw [nrm_smul, abs_of_nonneg γ0]
      congr 1
      simp [nrm, dotProduct]
    rw [← e]
    exact nrm_le_of_abs fun i => h.fl (g i - wh i)
  have e6 := nrm_add_le (K.project Qh j g - (g - wh)) (w - wh)
  have e7 : K.project Qh j g - (g - wh) + (w - wh) = K.project Qh j g - (g - w) := by abel
  rw [e7, nrm_sub_comm w wh] at e6
  have e8 := mul_le_mul_of_nonneg_left e4 γ0
  have e9 := mul_le_mul_of_nonneg_right γr G0
  linarith

/-- **C151**: what `hutchpp` computes after the sketch is close to the exact Hutch++ estimate for the nearby orthonormal family. -/
theorem C151_core (h : HppOk K A a γ n) {nb : ℕ} (hN : N ≠ 0) (hnb : nb ≠ 0) (hNn : N ≤ n) (hnbn : nb ≤ n) (hγ : 64 * ((min N nb : ℕ) * γ) ≤ 1)
    (qr : (Fin nb → Vec N) → Fin (min N nb) → Vec N) (modeFull full : Bool) (WB G : Fin nb → Vec N) (Q : Fin (min N nb) → Vec N)
    (hqr : QRStable (qr fun j => K.mv 0 j (WB j)) (fun j => K.mv 0 j (WB j)) γ Q) :
    |(hutchppCoreFl K qr modeFull full WB G).estimate - hutchppValue A Q G| ≤ 24 * ((min N nb : ℕ) * γ) * (a * (1 + (∑ j, nrm (G j) * nrm (G j)) / nb)) := by
  obtain ⟨hQ, hQh, -⟩ := hqr
  set r : ℝ := ((min N nb : ℕ) : ℝ) with hr
  set Qh := qr fun j => K.mv 0 j (WB j) with hQhat
  have r0 : min N nb ≠ 0 := by omega
  have rn : min N nb ≤ n := by omega
  have γ0 := h.γ0
  have a0 := h.a0
  have r1 : (1 : ℝ) ≤ r := by rw [hr]; exact_mod_cast Nat.one_le_iff_ne_zero.2 r0
  have γr : γ ≤ r * γ := by nlinarith
  have g64 : γ ≤ 1 / 64 := by linarith
  have nb0 : (0 : ℝ) < nb := by exact_mod_cast Nat.pos_of_ne_zero hnb
  -- the range
  have q1 : ∀ l, nrm (Q l) = 1 := fun l => by
    rw [nrm, show Q l ⬝ᵥ Q l = 1 from (hQ l l).trans (if_pos rfl), Real.sqrt_one]
  have q2 : ∀ l, nrm (Qh l) ≤ 1 + γ := fun l => by
    have := nrm_add_le (Qh l - Q l) (Q l)
    rw [sub_add_cancel] at this
    linarith [hQh l, q1 l]
  have q3 : ∑ l, nrm (Qh l) * nrm (Qh l) ≤ 11 / 10 * r := by
    have : ∀ l ∈ Finset.univ, nrm (Qh l) * nrm (Qh l) ≤ 11 / 10 := fun l _ => by
      have := mul_le_mul (q2 l) (q2 l) (nrm_nonneg _) (by linarith)
      have e : γ * γ ≤ γ * (1 / 64) := mul_le_mul_of_nonneg_left g64 γ0
      linarith
    refine (Finset.sum_le_sum this).trans (le_of_eq ?_)
    rw [Finset.sum_const, Finset.card_univ, Fintype.card_fin, nsmul_eq_mul, ← hr]
    ring
  have q4 : |∑ l, Spec.quad A (Qh l) - ∑ l, Spec.quad A (Q l)| ≤ 21 / 10 * (r * γ) * a := by
    rw [← Finset.sum_sub_distrib]
    have : ∀ l ∈ Finset.univ, |Spec.quad A (Qh l) - Spec.quad A (Q l)| ≤ 21 / 10 * γ * a := fun l _ => by
      refine (quad_sub_le h.op _ _).trans ?_
      have e1 : nrm (Qh l - Q l) * (nrm (Qh l) + nrm (Q l)) ≤ γ * (21 / 10) :=
        mul_le_mul (hQh l) (by linarith [q1 l, q2 l]) (add_nonneg (nrm_nonneg _) (nrm_nonneg _)) γ0
      linarith [mul_le_mul_of_nonneg_left e1 a0]
    refine (Finset.abs_sum_le_sum_abs _ _).trans ((Finset.sum_le_sum this).trans (le_of_eq ?_))
    rw [Finset.sum_const, Finset.card_univ, Fintype.card_fin, nsmul_eq_mul, ← hr]
    ring
  set rng_ests : List ℝ := if modeFull then List.ofFn fun i : Fin N => K.dot 0 i 0 (min N nb) (fun l => K.mv 1 l (Qh l) i) (fun l => Qh l i)
    else List.ofFn fun l => K.quadForm l (Qh l) with hrng
  set R := K.sum 0 rng_ests with hR
  have q5 : |R - ∑ l, Spec.quad A (Qh l)| ≤ 4 * γ * (a * ∑ l, nrm (Qh l) * nrm (Qh l)) := by
    rw [hR, hrng]
    cases modeFull
    · exact h.cols (by linarith) hN hNn r0 rn 0 Qh
    · exact h.rows (by linarith) hN hNn r0 rn 0 0 1 Qh
  set T1 := ∑ l, Spec.quad A (Q l) with hT1
  have γa : 0 ≤ γ * a := mul_nonneg γ0 a0
  have rγa : 0 ≤ r * γ * a := mul_nonneg (mul_nonneg (by linarith) γ0) a0
  have q6 : |R - T1| ≤ 7 * (r * γ * a) := by
    have e1 := mul_le_mul_of_nonneg_left (mul_le_mul_of_nonneg_left q3 a0) (by linarith : 0 ≤ 4 * γ)
    linarith [abs_sub_le R (∑ l, Spec.quad A (Qh l)) T1]
  have q7 : |T1| ≤ r * a := by
    have : ∀ l ∈ Finset.univ, |Spec.quad A (Q l)| ≤ a := fun l _ => by
      rw [quad_eq_dot]
      have e1 := h.op (Q l)
      have e2 := abs_dot_le (Q l) (A *ᵥ Q l)
      rw [q1] at e1 e2
      linarith
    refine (Finset.abs_sum_le_sum_abs _ _).trans ((Finset.sum_le_sum this).trans (le_of_eq ?_))
    rw [Finset.sum_const, Finset.card_univ, Fintype.card_fin, nsmul_eq_mul, ← hr]
  -- the residual
  set G' : Fin nb → Vec N := fun j => K.project Qh j (G j) with hG'
  set H : Fin nb → Vec N := fun j => G j - ∑ l, (Q l ⬝ᵥ G j) • Q l with hH
  set Γ := ∑ j, nrm (G j) * nrm (G j) with hΓ
  have Γ0 : 0 ≤ Γ := Finset.sum_nonneg fun j _ => mul_nonneg (nrm_nonneg _) (nrm_nonneg _)
  have p1 : ∀ j, nrm (G' j - H j) ≤ 6 * (r * γ) * nrm (G j) := fun j => h.project_err r0 hγ hN hNn rn Qh Q hQ hQh j (G j)
  have p2 : ∀ j, nrm (H j) ≤ nrm (G j) := fun j => nrm_off_le Q hQ (G j)
  have p3 : ∀ j, nrm (G' j) ≤ 11 / 10 * nrm (G j) := fun j => by
    have e1 := nrm_add_le (G' j - H j) (H j)
    rw [sub_add_cancel] at e1
    have e2 : r * γ * nrm (G j) ≤ 1 / 64 * nrm (G j) := mul_le_mul_of_nonneg_right (by linarith) (nrm_nonneg _)
    linarith [p1 j, p2 j, nrm_nonneg (G j)]
  have p4 : ∑ j, nrm (G' j) * nrm (G' j) ≤ 121 / 100 * Γ := by
    rw [hΓ, Finset.mul_sum]
    refine Finset.sum_le_sum fun j _ => ?_
    have := mul_le_mul (p3 j) (p3 j) (nrm_nonneg _) (by linarith [nrm_nonneg (G j)])
    linarith
  have p5 : |∑ j, Spec.quad A (G' j) - ∑ j, Spec.quad A (H j)| ≤ 126 / 10 * (r * γ * a) * Γ := by
    rw [← Finset.sum_sub_distrib, hΓ, Finset.mul_sum]
    refine (Finset.abs_sum_le_sum_abs _ _).trans (Finset.sum_le_sum fun j _ => ?_)
    refine (quad_sub_le h.op _ _).trans ?_
    have e1 : nrm (G' j - H j) * (nrm (G' j) + nrm (H j)) ≤ 6 * (r * γ) * nrm (G j) * (21 / 10 * nrm (G j)) :=
      mul_le_mul (p1 j) (by linarith [p2 j, p3 j]) (add_nonneg (nrm_nonneg _) (nrm_nonneg _)) (mul_nonneg (by linarith) (nrm_nonneg _))
    linarith [mul_le_mul_of_nonneg_left e1 a0]
  set D := K.sum 1 (List.ofFn fun i : Fin N => K.dot 3 i 0 nb (fun j => K.mv 2 j (G' j) i) (fun j => G' j i)) with hD
  have p6 : |D - ∑ j, Spec.quad A (G' j)| ≤ 4 * γ * (a * ∑ j, nrm (G' j) * nrm (G' j)) := h.rows (by linarith) hN hNn hnb hnbn 1 3 2 G'
  set T2 := ∑ j, Spec.quad A (H j) with hT2
  have aΓ : 0 ≤ a * Γ := mul_nonneg a0 Γ0
  have rγaΓ : 0 ≤ r * γ * a * Γ := mul_nonneg rγa Γ0
  have γraΓ : γ * a * Γ ≤ r * γ * a * Γ := mul_le_mul_of_nonneg_right (mul_le_mul_of_nonneg_right γr a0) Γ0
  have p7 : |D - T2| ≤ 176 / 10 * (r * γ * a * Γ) := by
    have e1 := mul_le_mul_of_nonneg_left (mul_le_mul_of_nonneg_left p4 a0) (by linarith : 0 ≤ 4 * γ)
    linarith [abs_sub_le D (∑ j, Spec.quad A (G' j)) T2]
  have p8 : |T2| ≤ a * Γ := by
    rw [hT2, hΓ, Finset.mul_sum]
    refine (Finset.abs_sum_le_sum_abs _ _).trans (Finset.sum_le_sum fun j _ => ?_)
    rw [quad_eq_dot]
    have e1 := (abs_dot_le (H j) (A *ᵥ H j)).trans (mul_le_mul_of_nonneg_left (h.op (H j)) (nrm_nonneg _))
    have e2 := mul_le_mul_of_nonneg_left (mul_le_mul (p2 j) (p2 j) (nrm_nonneg _) (nrm_nonneg _)) a0
    linarith
  have p9 : |D| ≤ 13 / 10 * (a * Γ) := by
    have e1 : r * γ * (a * Γ) ≤ 1 / 64 * (a * Γ) := mul_le_mul_of_nonneg_right (by linarith) aΓ
    linarith [abs_sub_abs_le_abs_sub D T2]
  -- the division by the number of vectors
  set M := Γ / nb with hM
  have M0 : 0 ≤ M := div_nonneg Γ0 nb0.le
  have aM : a * Γ / nb = a * M := by rw [hM, mul_div_assoc]
  set F := K.fl (K.fl (1 / (nb : ℝ)) * D) with hF
  have f1 : |K.fl (1 / (nb : ℝ)) * D - D / nb| ≤ γ * (13 / 10 * (a * M)) := by
    have e1 : K.fl (1 / (nb : ℝ)) * D - D / nb = (K.fl (1 / (nb : ℝ)) - 1 / nb) * D := by ring
    rw [e1, abs_mul]
    refine (mul_le_mul (h.fl (1 / (nb : ℝ))) p9 (abs_nonneg _) (mul_nonneg γ0 (abs_nonneg _))).trans (le_of_eq ?_)
    rw [abs_of_pos (by positivity : (0 : ℝ) < 1 / nb), ← aM]
    ring
  have f2 : |D / nb| ≤ 13 / 10 * (a * M) := by
    rw [abs_div, abs_of_pos nb0, ← aM, ← mul_div_assoc]
    exact div_le_div_of_nonneg_right p9 nb0.le
  have aM0 : 0 ≤ a * M := mul_nonneg a0 M0
  have γaM : γ * (a * M) ≤ 1 / 64 * (a * M) := mul_le_mul_of_nonneg_right g64 aM0
  have f3 : |K.fl (1 / (nb : ℝ)) * D| ≤ 14 / 10 * (a * M) := by
    linarith [abs_sub_abs_le_abs_sub (K.fl (1 / (nb : ℝ)) * D) (D / nb)]
  have f4 : |F - D / nb| ≤ 27 / 10 * (γ * (a * M)) := by
    have e1 := h.fl (K.fl (1 / (nb : ℝ)) * D)
    have e2 := mul_le_mul_of_nonneg_left f3 γ0
    linarith [abs_sub_le F (K.fl (1 / (nb : ℝ)) * D) (D / nb)]
  have f5 : |D / nb - T2 / nb| ≤ 176 / 10 * (r * γ * (a * M)) := by
    rw [← sub_div, abs_div, abs_of_pos nb0, ← aM]
    refine (div_le_div_of_nonneg_right p7 nb0.le).trans (le_of_eq ?_)
    ring
  have γr' : γ * (a * M) ≤ r * γ * (a * M) := mul_le_mul_of_nonneg_right γr aM0
  have f6 : |F - T2 / nb| ≤ 203 / 10 * (r * γ * (a * M)) := by
    linarith [abs_sub_le F (D / nb) (T2 / nb)]
  have f7 : |T2 / nb| ≤ a * M := by
    rw [abs_div, abs_of_pos nb0, ← aM]
    exact div_le_div_of_nonneg_right p8 nb0.le
  have hval : hutchppValue A Q G = T1 + T2 / nb := by
    unfold hutchppValue
    rw [hT1, hT2]
    congr 2
    refine Finset.sum_congr rfl fun j _ => ?_
    congr 1
    funext i
    simp [hH]
  have hest : (hutchppCoreFl K qr modeFull full WB G).estimate = K.fl (R + F) := by
    unfold hutchppCoreFl
    cases full <;> rfl
  rw [hest, hval]
  have k1 := h.fl (R + F)
  have k2 : |R + F - (T1 + T2 / nb)| ≤ 7 * (r * γ * a) + 203 / 10 * (r * γ * (a * M)) := by
    rw [add_sub_add_comm]
    exact (abs_add_le _ _).trans (add_le_add q6 f6)
  have k3 : |T1 + T2 / nb| ≤ r * a + a * M := (abs_add_le _ _).trans (add_le_add q7 f7)
  have k4 := abs_sub_abs_le_abs_sub (R + F) (T1 + T2 / nb)
  have k5 : γ * |R + F| ≤ γ * (r * a + a * M + 7 * (r * γ * a) + 203 / 10 * (r * γ * (a * M))) := mul_le_mul_of_nonneg_left (by linarith) γ0
  have k6 := abs_sub_le (K.fl (R + F)) (R + F) (T1 + T2 / nb)
  have k7 : r * γ * a * γ ≤ r * γ * a * (1 / 64) := mul_le_mul_of_nonneg_left g64 rγa
  have k8 : r * γ * (a * M) * γ ≤ r * γ * (a * M) * (1 / 64) := mul_le_mul_of_nonneg_left g64 (mul_nonneg (mul_nonneg (by linarith) γ0) aM0)
  have k9 : 0 ≤ r * γ * (a * M) := mul_nonneg (mul_nonneg (by linarith) γ0) aM0
  linarith only [k1, k2, k3, k5, k6, k7, k8, k9, γr', rγa]

/-! ### The trace -/

section off
variable {r : ℕ}

/-- The part of a vector off the span of the family. -/
def offSpan (Q : Fin r → Vec N) (v : Vec N) : Vec N := v - ∑ l, (Q l ⬝ᵥ v) • Q l

theorem offSpan_add (Q : Fin r → Vec N) (v w : Vec N) : offSpan Q (v + w) = offSpan Q v + offSpan Q w := by
  unfold offSpan
  simp only [dotProduct_add, add_smul, Finset.sum_add_distrib]
  abel

theorem offSpan_smul (Q : Fin r → Vec N) (c : ℝ) (v : Vec N) : offSpan Q (c • v) = c • offSpan Q v := by
  unfold offSpan
  simp only [dotProduct_smul, smul_sub, Finset.smul_sum, smul_eq_mul, mul_smul]

theorem offSpan_sum (Q : Fin r → Vec N) {ι : Type} (S : Finset ι) (f : ι → Vec N) : offSpan Q (∑ k ∈ S, f k) = ∑ k ∈ S, offSpan Q (f k) := by
  classical
  induction S using Finset.induction_on with
  | empty => simp [offSpan]
  | insert k S hk ih => rw [Finset.sum_insert hk, Finset.sum_insert hk, offSpan_add, ih]

theorem offSpan_span (Q : Fin r → Vec N) (hQ : ∀ k l, ∑ i, Q k i * Q l i = if k = l then 1 else 0) (c : Fin r → ℝ) : offSpan Q (∑ l, c l • Q l) = 0 := by
  rw [offSpan_sum]
  refine Finset.sum_eq_zero fun l _ => ?_
  rw [offSpan_smul]
  have : offSpan Q (Q l) = 0 := by
    unfold offSpan
    rw [Finset.sum_eq_single l, show Q l ⬝ᵥ Q l = 1 from (hQ l l).trans (if_pos rfl), one_smul, sub_self]
    · intro b _ hb
      rw [show Q b ⬝ᵥ Q l = 0 from (hQ b l).trans (if_neg hb), zero_smul]
    · simp
  rw [this, smul_zero]

theorem dot_offSpan (Q : Fin r → Vec N) (hQ : ∀ k l, ∑ i, Q k i * Q l i = if k = l then 1 else 0) (l : Fin r) (v : Vec N) : Q l ⬝ᵥ offSpan Q v = 0 := by
  unfold offSpan
  rw [dotProduct_sub, dotProduct_sum, Finset.sum_eq_single l, dotProduct_smul, show Q l ⬝ᵥ Q l = 1 from (hQ l l).trans (if_pos rfl), smul_eq_mul, mul_one, sub_self]
  · intro b _ hb
    rw [dotProduct_smul, show Q l ⬝ᵥ Q b = 0 from (hQ l b).trans (if_neg hb.symm), smul_zero]
  · simp

/-- If the columns of `A` are nearly in the span of `Q`, the Hutch++ value is close to the trace. -/
theorem hutchppValue_near {nb : ℕ} (A : Matrix (Fin N) (Fin N) ℝ) (Q : Fin r → Vec N) (hQ : ∀ k l, ∑ i, Q k i * Q l i = if k = l then 1 else 0) (G : Fin nb → Vec N) :
    |hutchppValue A Q G - A.trace| ≤ (∑ j, nrm (offSpan Q fun i => A i j)) * (1 + (∑ j, nrm (G j) * nrm (G j)) / nb) := by
  set τ : Fin N → ℝ := fun j => nrm (offSpan Q fun i => A i j) with hτ
  have τ0 : ∀ j, 0 ≤ τ j := fun j => nrm_nonneg _
  have S0 : 0 ≤ ∑ j, τ j := Finset.sum_nonneg fun j _ => τ0 j
  have h1 : ∑ l, Spec.quad A (Q l) - A.trace = - ∑ j, offSpan Q (fun i => A i j) j := by
    unfold offSpan
    simp only [Pi.sub_apply, Finset.sum_apply, Pi.smul_apply, smul_eq_mul, Finset.sum_sub_distrib, neg_sub]
    rw [Finset.sum_comm (s := Finset.univ (α := Fin N)) (t := Finset.univ (α := Fin r))]
    refine congrArg₂ (· - ·) (Finset.sum_congr rfl fun l _ => ?_) rfl
    rw [quad_eq_dot]
    simp only [dotProduct, mulVec, Finset.mul_sum, Finset.sum_mul]
    rw [Finset.sum_comm]
    exact Finset.sum_congr rfl fun j _ => Finset.sum_congr rfl fun i _ => by ring
  have h2 : |∑ l, Spec.quad A (Q l) - A.trace| ≤ ∑ j, τ j := by
    rw [h1, abs_neg]
    exact (Finset.abs_sum_le_sum_abs _ _).trans (Finset.sum_le_sum fun j _ => abs_le_nrm _ j)
  have h3 : ∀ g : Vec N, |Spec.quad A (offSpan Q g)| ≤ (∑ j, τ j) * (nrm g * nrm g) := by
    intro g
    set H := offSpan Q g with hH
    have e1 : Spec.quad A H = ∑ j, H j * (H ⬝ᵥ offSpan Q fun i => A i j) := by
      rw [quad_eq_dot]
      have e : ∀ j, H ⬝ᵥ (offSpan Q fun i => A i j) = ∑ i, H i * A i j := fun j => by
        rw [offSpan, dotProduct_sub, dotProduct_sum]
        rw [Finset.sum_eq_zero fun l _ => by rw [dotProduct_smul, dotProduct_comm H (Q l), hH, dot_offSpan Q hQ, smul_zero], sub_zero]
        rfl
      rw [Finset.sum_congr rfl fun j _ => by rw [e j]]
      simp only [dotProduct, mulVec, Finset.mul_sum]
      rw [Finset.sum_comm]
      exact Finset.sum_congr rfl fun j _ => Finset.sum_congr rfl fun i _ => by ring
    have hle : nrm H ≤ nrm g := nrm_off_le Q hQ g
    rw [e1, Finset.sum_mul]
    refine (Finset.abs_sum_le_sum_abs _ _).trans (Finset.sum_le_sum fun j _ => ?_)
    rw [abs_mul]
    have f1 : |H j| ≤ nrm g := (abs_le_nrm H j).trans hle
    have f2 : |H ⬝ᵥ offSpan Q fun i => A i j| ≤ nrm g * τ j := (abs_dot_le _ _).trans (mul_le_mul_of_nonneg_right hle (τ0 j))
    have := mul_le_mul f1 f2 (abs_nonneg _) (nrm_nonneg _)
    linarith
  have h4 : |(∑ j, Spec.quad A (offSpan Q (G j))) / nb| ≤ (∑ j, τ j) * ((∑ j, nrm (G j) * nrm (G j)) / nb) := by
    rw [abs_div, abs_of_nonneg (a := (nb : ℝ)) (Nat.cast_nonneg _), ← mul_div_assoc]
    refine div_le_div_of_nonneg_right ?_ (Nat.cast_nonneg _)
    rw [Finset.mul_sum]
    exact (Finset.abs_sum_le_sum_abs _ _).trans (Finset.sum_le_sum fun j _ => h3 (G j))
  have h5 : hutchppValue A Q G = ∑ l, Spec.quad A (Q l) + (∑ j, Spec.quad A (offSpan Q (G j))) / nb := by
    unfold hutchppValue
    congr 2
    refine Finset.sum_congr rfl fun j _ => ?_
    congr 1
    funext i
    simp [offSpan]
  rw [h5, add_sub_right_comm]
  refine (abs_add_le _ _).trans ?_
  linarith

end off

/-- The mean of the squared norms of the residual vectors. -/
def Spec.meanSq {nb : ℕ} (G : Fin nb → Vec N) : ℝ := (∑ j, nrm (G j) * nrm (G j)) / nb

/-- **C151**: low rank.  If every column of `A` is a combination of the sketch `A W` with coefficients `C`, the number computed is close to the trace. -/
theorem C151_low_rank (h : HppOk K A a γ n) {nb : ℕ} (hN : N ≠ 0) (hnb : nb ≠ 0) (hNn : N ≤ n) (hnbn : nb ≤ n) (hγ : 64 * ((min N nb : ℕ) * γ) ≤ 1)
    (qr : (Fin nb → Vec N) → Fin (min N nb) → Vec N) (modeFull full : Bool) (WB G : Fin nb → Vec N) (Q : Fin (min N nb) → Vec N)
    (hqr : QRStable (qr fun j => K.mv 0 j (WB j)) (fun j => K.mv 0 j (WB j)) γ Q) (C : Fin nb → Fin N → ℝ) (hcap : ∀ i j, A i j = ∑ k, (A *ᵥ WB k) i * C k j) :
    |(hutchppCoreFl K qr modeFull full WB G).estimate - A.trace| ≤ γ * (a * (1 + meanSq G)) * (24 * (min N nb : ℕ) + 3 * ∑ j, ∑ k, |C k j| * nrm (WB k)) := by
  have h1 := C151_core h hN hnb hNn hnbn hγ qr modeFull full WB G Q hqr
  obtain ⟨hQ, -, R, hR⟩ := hqr
  have γ0 := h.γ0
  have a0 := h.a0
  have r1 : (1 : ℝ) ≤ (min N nb : ℕ) := by exact_mod_cast Nat.one_le_iff_ne_zero.2 (by omega)
  have g64 : γ ≤ 1 / 64 := by
    have : 1 * γ ≤ (min N nb : ℕ) * γ := mul_le_mul_of_nonneg_right r1 γ0
    linarith
  have h2 := hutchppValue_near A Q hQ G
  have M0 : 0 ≤ meanSq G := div_nonneg (Finset.sum_nonneg fun j _ => mul_nonneg (nrm_nonneg _) (nrm_nonneg _)) (Nat.cast_nonneg _)
  have h3 : ∀ k, nrm (offSpan Q (A *ᵥ WB k)) ≤ 3 * (γ * (a * nrm (WB k))) := by
    intro k
    have e : A *ᵥ WB k = (A *ᵥ WB k - K.mv 0 k (WB k)) + (K.mv 0 k (WB k) - ∑ l, R l k • Q l) + ∑ l, R l k • Q l := by abel
    have z0 : 0 ≤ γ * (a * nrm (WB k)) := mul_nonneg γ0 (mul_nonneg a0 (nrm_nonneg _))
    rw [e, offSpan_add, offSpan_add, offSpan_span Q hQ, add_zero]
    have f1 : nrm (offSpan Q (A *ᵥ WB k - K.mv 0 k (WB k))) ≤ γ * (a * nrm (WB k)) := by
      refine (nrm_off_le Q hQ _).trans ?_
      rw [nrm_sub_comm]
      exact h.mv 0 k (WB k)
    have f2 : nrm (offSpan Q (K.mv 0 k (WB k) - ∑ l, R l k • Q l)) ≤ γ * ((1 + γ) * (a * nrm (WB k))) :=
      (nrm_off_le Q hQ _).trans ((hR k).trans (mul_le_mul_of_nonneg_left (h.mv_le 0 k (WB k)) γ0))
    have f3 := mul_le_mul_of_nonneg_right g64 z0
    linarith [nrm_add_le (offSpan Q (A *ᵥ WB k - K.mv 0 k (WB k))) (offSpan Q (K.mv 0 k (WB k) - ∑ l, R l k • Q l))]
  have h4 : ∑ j, nrm (offSpan Q fun i => A i j) ≤ 3 * (γ * a) * ∑ j, ∑ k, |C k j| * nrm (WB k) := by
    rw [Finset.mul_sum]
    refine Finset.sum_le_sum fun j _ => ?_
    have e : (fun i => A i j) = ∑ k, C k j • (A *ᵥ WB k) := by
      funext i
      rw [hcap i j]
      simp only [Finset.sum_apply, Pi.smul_apply, smul_eq_mul]
      exact Finset.sum_congr rfl fun k _ => mul_comm _ _
    rw [e, offSpan_sum, Finset.mul_sum]
    refine (nrm_sum_le _ _).trans (Finset.sum_le_sum fun k _ => ?_)
    rw [offSpan_smul, nrm_smul]
    have := mul_le_mul_of_nonneg_left (h3 k) (abs_nonneg (C k j))
    linarith
  have h5 := mul_le_mul_of_nonneg_right h4 (show 0 ≤ 1 + meanSq G by linarith)
  have h6 := abs_sub_le (hutchppCoreFl K qr modeFull full WB G).estimate (hutchppValue A Q G) A.trace
  unfold meanSq at *
  linarith

/-- **C151**: at least as many vectors as rows.  The number computed is close to the trace, whatever the random vectors. -/
theorem C151_full_rank (h : HppOk K A a γ n) {nb : ℕ} (hN : N ≠ 0) (hle : N ≤ nb) (hnbn : nb ≤ n) (hγ : 64 * (N * γ) ≤ 1)
    (qr : (Fin nb → Vec N) → Fin (min N nb) → Vec N) (modeFull full : Bool) (WB G : Fin nb → Vec N) (Q : Fin (min N nb) → Vec N)
    (hqr : QRStable (qr fun j => K.mv 0 j (WB j)) (fun j => K.mv 0 j (WB j)) γ Q) :
    |(hutchppCoreFl K qr modeFull full WB G).estimate - A.trace| ≤ 24 * (N * γ) * (a * (1 + meanSq G)) := by
  have hmin : min N nb = N := by omega
  have h1 := C151_core h hN (by omega) (by omega) hnbn (by rw [hmin]; exact hγ) qr modeFull full WB G Q hqr
  have key : ∀ (r : ℕ) (hr : r = N) (Q : Fin r → Vec N), (∀ a b, ∑ i, Q a i * Q b i = if a = b then 1 else 0) → ∃ C : Matrix (Fin r) (Fin N) ℝ, A = colMat Q * C := by
    intro r hr Q ho
    subst hr
    have h := mul_eq_one_comm.mp (colMat_orth Q ho)
    exact ⟨(colMat Q)ᵀ * A, by rw [← Matrix.mul_assoc, h, Matrix.one_mul]⟩
  rw [hutchppValue_exact A Q hqr.1 (key _ hmin Q hqr.1) G, hmin] at h1
  exact h1

/-! ### Dense arrays -/

/-- The kernels for a dense array: every operation has a relative error of at most `u`, inner products and sums are evaluated in some order. -/
structure Spec.HppRounded (K : HppKernels N) (A : Matrix (Fin N) (Fin N) ℝ) (u : ℝ) : Prop where
  u0 : 0 ≤ u
  fl : ∀ x, |K.fl x - x| ≤ u * |x|
  mv : ∀ t j x i, DotOrder K.fl (List.ofFn fun k => (A i k, x k)) (K.mv t j x i)
  quad : K.quad = none
  dot : ∀ t i j k (x y : Vec k), k ≠ 0 → DotOrder K.fl (List.ofFn fun l => (x l, y l)) (K.dot t i j k x y)
  sum : ∀ t (l : List ℝ), l ≠ [] → SumOrder K.fl l (K.sum t l)

/-- The error of a sum in any order. -/
theorem sumOrder_rel {fl : ℝ → ℝ} {u : ℝ} (hu : 0 ≤ u) (hfl : ∀ x, |fl x - x| ≤ u * |x|) {l : List ℝ} {s : ℝ} (h : SumOrder fl l s) :
    1 ≤ l.length ∧ |s - l.sum| ≤ ((1 + u) ^ l.length - 1) * (l.map abs).sum := by
  have habs : ∀ l : List ℝ, |l.sum| ≤ (l.map abs).sum := by
    intro l
    induction l with
    | nil => simp
    | cons q l ih =>
      simp only [List.map_cons, List.sum_cons]
      exact (abs_add_le _ _).trans (add_le_add le_rfl ih)
  have one : (1 : ℝ) ≤ 1 + u := by linarith
  induction h with
  | single x => simp [mul_nonneg hu (abs_nonneg x)]
  | @node xs ys s t _ _ ihs iht =>
    obtain ⟨l1, e1⟩ := ihs
    obtain ⟨l2, e2⟩ := iht
    refine ⟨by rw [List.length_append]; omega, ?_⟩
    rw [List.sum_append, List.map_append, List.sum_append, List.length_append]
    set D := (1 + u) ^ (max xs.length ys.length) with hD
    have m1 : (1 + u) ^ xs.length ≤ D := pow_le_pow_right₀ one (le_max_left _ _)
    have m2 : (1 + u) ^ ys.length ≤ D := pow_le_pow_right₀ one (le_max_right _ _)
    have m3 : D * (1 + u) ≤ (1 + u) ^ (xs.length + ys.length) := by
      rw [hD, ← pow_succ]
      exact pow_le_pow_right₀ one (by omega)
    have z1 := (abs_nonneg _).trans (habs xs)
    have z2 := (abs_nonneg _).trans (habs ys)
    have e3 := mul_le_mul_of_nonneg_right m1 z1
    have e4 := mul_le_mul_of_nonneg_right m2 z2
    have e5 := mul_le_mul_of_nonneg_right m3 (add_nonneg z1 z2)
    have f1 : |s + t - (xs.sum + ys.sum)| ≤ (D - 1) * ((xs.map abs).sum + (ys.map abs).sum) := by
      rw [add_sub_add_comm]
      refine (abs_add_le _ _).trans ?_
      linarith
    have f2 := hfl (s + t)
    have f3 : |s + t| ≤ D * ((xs.map abs).sum + (ys.map abs).sum) := by
      have := abs_sub_abs_le_abs_sub (s + t) (xs.sum + ys.sum)
      linarith [abs_add_le xs.sum ys.sum, habs xs, habs ys]
    have f4 := mul_le_mul_of_nonneg_left f3 hu
    linarith [abs_sub_le (fl (s + t)) (s + t) (xs.sum + ys.sum)]
  | perm hp _ ih =>
    obtain ⟨l1, e1⟩ := ih
    refine ⟨hp.length_eq ▸ l1, ?_⟩
    rw [← hp.sum_eq, ← (hp.map _).sum_eq, ← hp.length_eq]
    exact e1

/-- Such kernels have errors of at most `2 n u`; `a` bounds the norm of the matrix of absolute values. -/
theorem Spec.HppRounded.ok {u : ℝ} (h : HppRounded K A u) (hN : N ≠ 0) (hNn : N ≤ n) (hu : 2 * (n * u) ≤ 1) (a0 : 0 ≤ a) (hA : ∀ x, nrm ((A.map abs) *ᵥ x) ≤ a * nrm x) :
    HppOk K A a (2 * (n * u)) n := by
  have u0 := h.u0
  have n1 : (1 : ℝ) ≤ n := by exact_mod_cast (by omega : 1 ≤ n)
  have un : u ≤ 2 * (n * u) := by nlinarith
  have nu0 : 0 ≤ n * u := mul_nonneg (by linarith) u0
  have habs : ∀ x, nrm ((A.map abs) *ᵥ fun i => |x i|) ≤ a * nrm x := fun x => by
    have e : nrm (fun i => |x i|) = nrm x := by simp [nrm, dotProduct]
    have := hA fun i => |x i|
    rwa [e] at this
  have hpow : ∀ k : ℕ, k ≤ n → (1 + u) ^ k - 1 ≤ 2 * (n * u) := fun k hk => by
    have hk' : (k : ℝ) * u ≤ n * u := mul_le_mul_of_nonneg_right (by exact_mod_cast hk) u0
    linarith [pow_one_add_le u0 k (by linarith)]
  refine ⟨by linarith, a0, fun x => (nrm_le_of_abs fun i => ?_).trans (habs x), fun x => (h.fl x).trans (mul_le_mul_of_nonneg_right un (abs_nonneg _)), fun t j x => ?_, fun q hq => ?_,
    fun t i j k x y hk hkn => ?_, fun t l hl hln => ?_⟩
  · show |∑ j, A i j * x j| ≤ ∑ j, |A i j| * |x j|
    exact (Finset.abs_sum_le_sum_abs _ _).trans (le_of_eq (Finset.sum_congr rfl fun j _ => abs_mul _ _))
  · have e : nrm ((2 * (n * u)) • ((A.map abs) *ᵥ fun i => |x i|)) ≤ 2 * (n * u) * (a * nrm x) := by
      rw [nrm_smul, abs_of_nonneg (by linarith)]
      exact mul_le_mul_of_nonneg_left (habs x) (by linarith)
    refine (nrm_le_of_abs fun i => ?_).trans e
    have d := (dotOrder_rel u0 h.fl (h.mv t j x i)).2
    rw [List.map_ofFn, List.sum_ofFn, List.map_ofFn, List.sum_ofFn, List.length_ofFn] at d
    refine (show |K.mv t j x i - (A *ᵥ x) i| ≤ _ from d).trans ?_
    refine (mul_le_mul_of_nonneg_right (hpow N hNn) (Finset.sum_nonneg fun k _ => abs_nonneg _)).trans (le_of_eq ?_)
    simp [mulVec, dotProduct, abs_mul]
  · rw [h.quad] at hq
    cases hq
  · have d := (dotOrder_rel u0 h.fl (h.dot t i j k x y hk)).2
    rw [List.map_ofFn, List.sum_ofFn, List.map_ofFn, List.sum_ofFn, List.length_ofFn] at d
    refine (show |K.dot t i j k x y - x ⬝ᵥ y| ≤ _ from d).trans ?_
    refine (mul_le_mul_of_nonneg_right (hpow k hkn) (Finset.sum_nonneg fun k _ => abs_nonneg _)).trans (le_of_eq ?_)
    simp [abs_mul]
  · have d := (sumOrder_rel u0 h.fl (h.sum t l hl)).2
    refine d.trans (mul_le_mul_of_nonneg_right (hpow _ hln) (List.sum_nonneg fun x hx => ?_))
    obtain ⟨y, -, rfl⟩ := List.mem_map.1 hx
    exact abs_nonneg y

/-- There are such kernels. -/
theorem hppRounded_exists (A : Matrix (Fin N) (Fin N) ℝ) (hN : N ≠ 0) : ∃ K : HppKernels N, K.fl = roundP 53 ∧ HppRounded K A (1 / 2 ^ 53) := by
  have h : ∀ (n : ℕ) (x y : Vec n), ∃ s, n ≠ 0 → DotOrder (roundP 53) (List.ofFn fun i => (x i, y i)) s := by
    intro n x y
    by_cases h : n = 0
    · exact ⟨0, fun h' => absurd h h'⟩
    · obtain ⟨s, hs⟩ := DotOrder.exists (roundP 53) (List.ofFn fun i => (x i, y i)) (by rw [Ne, List.ofFn_eq_nil_iff]; exact h)
      exact ⟨s, fun _ => hs⟩
  choose T hT using h
  have h2 : ∀ l : List ℝ, ∃ s, l ≠ [] → SumOrder (roundP 53) l s := by
    intro l
    by_cases h : l = []
    · exact ⟨0, fun h' => absurd h h'⟩
    · obtain ⟨s, hs⟩ := SumOrder.exists (roundP 53) l h
      exact ⟨s, fun _ => hs⟩
  choose S hS using h2
  refine ⟨⟨roundP 53, fun _ _ x i => T N (A i) x, none, fun _ _ _ => T, fun _ => S⟩, rfl, by norm_num, fun x => ?_, fun t j x i => hT N (A i) x hN, rfl, fun t i j k x y => hT k x y, fun t => hS⟩
  have := roundP_err 53 x
  have e : (2 : ℝ) ^ (-((53 : ℕ) : ℤ)) = 1 / 2 ^ 53 := by norm_num
  rwa [e] at this

/-! ### The function -/

/-- **C151**: `hutchpp` as a whole, with any of the distributions.  With `full=True` the result object has the same estimate, `2 nb` iterations and one sample per
summand. -/
theorem C151_hutchpp (hN : N ≠ 0) (I : IsoKernels) (qr : ∀ nb, (Fin nb → Vec N) → Fin (min N nb) → Vec N) (rng : Rng) (m : Option ℤ) (modeFull full : Bool) (s : String) (pdf : Pdf N)
    (hp : isotropicPdfFl I s rng N = .ok pdf) (nb : ℕ) (hnb : nb ≠ 0) (hm : hutchppNb N m = nb) (h : HppOk K A a γ (max N nb)) (hγ : 64 * ((min N nb : ℕ) * γ) ≤ 1)
    (Q : Fin (min N nb) → Vec N) (hqr : QRStable (qr nb fun j => K.mv 0 j (pdf [] nb j)) (fun j => K.mv 0 j (pdf [] nb j)) γ Q) :
    ∃ x : ℝ, (∃ samples : List ℝ, samples.length = (if modeFull then N else min N nb) + N ∧
      hutchppFl I K qr rng m modeFull (.name s) full = .ok (if full then .pair x x (2 * nb) samples else .scalar x)) ∧
    |x - hutchppValue A Q (pdf [nb] nb)| ≤ 24 * ((min N nb : ℕ) * γ) * (a * (1 + meanSq (pdf [nb] nb))) ∧
    (N ≤ nb → |x - A.trace| ≤ 24 * (N * γ) * (a * (1 + meanSq (pdf [nb] nb)))) ∧
    ∀ C : Fin nb → Fin N → ℝ, (∀ i j, A i j = ∑ k, (A *ᵥ pdf [] nb k) i * C k j) →
      |x - A.trace| ≤ γ * (a * (1 + meanSq (pdf [nb] nb))) * (24 * (min N nb : ℕ) + 3 * ∑ j, ∑ k, |C k j| * nrm (pdf [] nb k)) := by
  have hmax1 : N ≤ max N nb := le_max_left _ _
  have hmax2 : nb ≤ max N nb := le_max_right _ _
  refine ⟨(hutchppCoreFl K (qr nb) modeFull full (pdf [] nb) (pdf [nb] nb)).estimate, ?_, C151_core h hN hnb hmax1 hmax2 hγ (qr nb) modeFull full (pdf [] nb) (pdf [nb] nb) Q hqr, fun hle => ?_,
    fun C hC => C151_low_rank h hN hnb hmax1 hmax2 hγ (qr nb) modeFull full (pdf [] nb) (pdf [nb] nb) Q hqr C hC⟩
  · have e : hutchppFl I K qr rng m modeFull (.name s) full = .ok (hutchppCoreFl K (qr nb) modeFull full (pdf [] nb) (pdf [nb] nb)) := by
      obtain rfl : nb = (hutchppNb N m).toNat := by omega
      simp only [hutchppFl, hp, hN, if_false, if_neg (show ¬ hutchppNb N m < 0 by omega), if_neg (show ¬ hutchppNb N m = 0 by omega)]
    rw [e]
    unfold hutchppCoreFl
    cases full
    · exact ⟨List.replicate _ 0, List.length_replicate, rfl⟩
    · refine ⟨_, ?_, rfl⟩
      cases modeFull <;> simp
  · exact C151_full_rank h hN hle hmax2 (by rwa [min_eq_left hle] at hγ) (qr nb) modeFull full (pdf [] nb) (pdf [nb] nb) Q hqr

/-- **C151**: invalid arguments and the empty matrix are treated as in exact arithmetic. -/
theorem C151_errors (I : IsoKernels) (K : HppKernels N) (qr : ∀ nb, (Fin nb → Vec N) → Fin (min N nb) → Vec N) (rng : Rng) (A : Operand N) (m : Option ℤ) (modeFull full : Bool) (pdf : PdfArg N) :
    (∀ e, hutchppFl I K qr rng m modeFull pdf full = .error e ↔ hutchpp qr rng A m modeFull pdf full = .error e) ∧
    (N = 0 → hutchppFl I K qr rng m modeFull pdf full = hutchpp qr rng A m modeFull pdf full) := by
  cases pdf with
  | callable f => exact ⟨fun e => Iff.rfl, fun _ => rfl⟩
  | name s =>
    cases hl : ISO_DISTRIBUTIONS.lookup s with
    | none =>
      simp only [hutchppFl, hutchpp, isotropicPdfFl, isotropicPdf, hl]
      exact ⟨fun e => trivial, fun _ => trivial⟩
    | some d =>
      simp only [hutchppFl, hutchpp, isotropicPdfFl, isotropicPdf, hl]
      by_cases hN : N = 0
      · simp only [if_pos hN]
        exact ⟨fun e => trivial, fun _ => trivial⟩
      · refine ⟨fun e => ?_, fun h => absurd h hN⟩
        simp only [if_neg hN]
        split_ifs <;> simp

/-- The vectors of 'rademacher' have `N` entries `1` or `-1`, so that their mean square is `N`. -/
theorem meanSq_rademacher {φ : Fmt} (I : IsoKernels) (hn : φ.Nearest I.fl) (h1 : φ.emin ≤ 0) (h2 : 0 < φ.emax) (hp : 1 < φ.p) (rng : Rng)
    (hu : ∀ q, φ.Mem (rng.unif q) ∧ 0 ≤ rng.unif q ∧ rng.unif q < 1) (pdf : Pdf N) (hpdf : isotropicPdfFl I "rademacher" rng N = .ok pdf) (hist : List ℕ) (nb : ℕ) (hnb : nb ≠ 0) :
    meanSq (pdf hist nb) = N := by
  rw [C148_rademacher_pdf I hn h1 h2 hp rng hu N] at hpdf
  have e : ∀ j i, pdf hist nb j i = 1 ∨ pdf hist nb j i = -1 := by
    intro j i
    have hp' : isotropicPdf "rademacher" rng N = .ok fun history b => IsoDist.fill .rademacher N b rng (history.sum * N) := rfl
    rw [hp'] at hpdf
    obtain rfl := Except.ok.inj hpdf
    show rademacherEntry (rng.unif _) = 1 ∨ rademacherEntry (rng.unif _) = -1
    generalize hist.sum * N + (j : ℕ) * N + (i : ℕ) = q
    obtain ⟨-, q1, q2⟩ := hu q
    rcases lt_or_ge (rng.unif q) (1 / 2) with hlt | hge
    · exact Or.inr ((rademacherEntry_half _).1 q1 hlt)
    · exact Or.inl ((rademacherEntry_half _).2 hge q2)
  have e2 : ∀ j, nrm (pdf hist nb j) * nrm (pdf hist nb j) = N := fun j => by
    rw [nrm_sq, dotProduct, Finset.sum_congr rfl fun i _ => show pdf hist nb j i * pdf hist nb j i = 1 by rcases e j i with h | h <;> rw [h] <;> norm_num]
    simp
  unfold meanSq
  rw [Finset.sum_congr rfl fun j _ => e2 j, Finset.sum_const, Finset.card_univ, Fintype.card_fin, nsmul_eq_mul]
  field_simp

/-- There are stable QR factorisations: round the entries of an exact one. -/
theorem qrStable_exists {nb : ℕ} {u γ : ℝ} {fl : ℝ → ℝ} (hu : 0 ≤ u) (hfl : ∀ x, |fl x - x| ≤ u * |x|) (hγ : u ≤ γ) :
    ∃ qr : (Fin nb → Vec N) → Fin (min N nb) → Vec N, ∀ Y, (∀ l i, ∃ x, qr Y l i = fl x) ∧ ∃ Q, QRStable (qr Y) Y γ Q := by
  choose q hq using fun Y : Fin nb → Vec N => exists_isQR Y
  refine ⟨fun Y l i => fl (q Y l i), fun Y => ⟨fun l i => ⟨_, rfl⟩, q Y, (hq Y).orth, fun l => ?_, ?_⟩⟩
  · have e : nrm (u • fun i => |q Y l i|) = u := by
      have e1 : nrm (fun i => |q Y l i|) = 1 := by
        have : q Y l ⬝ᵥ q Y l = 1 := ((hq Y).orth l l).trans (if_pos rfl)
        rw [← Real.sqrt_one, ← this]
        simp [nrm, dotProduct]
      rw [nrm_smul, e1, mul_one, abs_of_nonneg hu]
    refine (nrm_le_of_abs fun i => ?_).trans (e.le.trans hγ)
    exact hfl (q Y l i)
  · obtain ⟨R, hR⟩ := (hq Y).span
    refine ⟨R, fun k => ?_⟩
    have e : Y k - ∑ l, R l k • q Y l = 0 := by
      funext i
      simp only [Pi.sub_apply, Finset.sum_apply, Pi.smul_apply, smul_eq_mul, Pi.zero_apply, hR k i]
      rw [sub_eq_zero]
      exact Finset.sum_congr rfl fun l _ => mul_comm _ _
    rw [e, nrm_zero]
    exact mul_nonneg (hu.trans hγ) (nrm_nonneg _)

/-- Concrete case: with six vectors and double precision, the trace of `[[2, 1], [1, 3]]` is obtained up to `10 ^ -12`, whatever the numbers of the generator. -/
example (I : IsoKernels) (hn : binary64.Nearest I.fl) (rng : Rng) (hu : ∀ q, binary64.Mem (rng.unif q) ∧ 0 ≤ rng.unif q ∧ rng.unif q < 1) :
    ∃ (K : HppKernels 2) (qr : ∀ nb, (Fin nb → Vec 2) → Fin (min 2 nb) → Vec 2) (x : ℝ), HppRounded K !![2, 1; 1, 3] (1 / 2 ^ 53) ∧
      hutchppFl I K qr rng (some 6) false (.name "rademacher") false = .ok (.scalar x) ∧ |x - 5| ≤ 1 / 10 ^ 12 := by
  obtain ⟨K, -, hK⟩ := hppRounded_exists !![(2 : ℝ), 1; 1, 3] (by norm_num)
  have hA : ∀ x : Vec 2, nrm ((!![(2 : ℝ), 1; 1, 3].map abs) *ᵥ x) ≤ 4 * nrm x := by
    intro x
    have e : (4 : ℝ) * nrm x = nrm ((4 : ℝ) • x) := by rw [nrm_smul]; norm_num
    rw [e]
    unfold nrm
    refine Real.sqrt_le_sqrt ?_
    simp only [dotProduct, mulVec, Fin.sum_univ_two, Pi.smul_apply, smul_eq_mul, map_apply, of_apply, cons_val_zero, cons_val_one, cons_val', cons_val_fin_one]
    norm_num
    nlinarith [sq_nonneg (x 0 - x 1), sq_nonneg (x 0), sq_nonneg (x 1)]
  have hok := hK.ok (n := 6) (by norm_num) (by norm_num) (by norm_num) (by norm_num) hA
  choose qr hqr using fun nb : ℕ => qrStable_exists (N := 2) (nb := nb) hK.u0 hK.fl (γ := 2 * (6 * (1 / 2 ^ 53))) (by norm_num)
  have hp : isotropicPdfFl I "rademacher" rng 2 = .ok fun history b => IsoDist.fillFl I .rademacher 2 b rng (history.sum * 2) := rfl
  obtain ⟨Q, hQ⟩ := (hqr 6 fun j => K.mv 0 j (IsoDist.fillFl I .rademacher 2 6 rng (([] : List ℕ).sum * 2) j)).2
  obtain ⟨x, ⟨samples, -, h1⟩, -, h2, -⟩ := C151_hutchpp (by norm_num) I qr rng (some 6) false false "rademacher" _ hp 6 (by norm_num) rfl (by exact_mod_cast hok) (by norm_num) Q
    (by exact_mod_cast hQ)
  refine ⟨K, qr, x, hK, h1, ?_⟩
  have h3 := h2 (by norm_num)
  rw [meanSq_rademacher I hn (by norm_num [binary64]) (by norm_num [binary64]) (by norm_num [binary64]) rng hu _ hp [6] 6 (by norm_num)] at h3
  have e : (!![(2 : ℝ), 1; 1, 3]).trace = 5 := by norm_num [trace_fin_two]
  rw [e] at h3
  refine h3.trans ?_
  norm_num

end Primate
