import Verif.Lemmas.LanczosFlStep
import Verif.Props.HutchFl

/-! Vector operations in IEEE arithmetic, every operation rounded to nearest, meet the specification used for the Lanczos recurrence. -/

noncomputable section

namespace Primate

open Matrix Spec

variable {n : ℕ} {φ : Fmt} {fl : ℝ → ℝ}

/-- The vector operations are evaluated with the rounding `fl`: inner products and rows of the matrix in any order, with or without fused operations. -/
structure Spec.LKernelsRounded (fl : ℝ → ℝ) (A : Matrix (Fin n) (Fin n) ℝ) (K : LKernels n) : Prop where
  matvec : ∀ j x i, DotOrder fl (List.ofFn fun l => (A i l, x l)) (K.matvec j x i)
  axpy : ∀ j v b q i, K.axpy j v b q i = fl (v i - fl (b * q i)) ∨ K.axpy j v b q i = fl (v i - b * q i)
  dot : ∀ j x y, DotOrder fl (List.ofFn fun i => (x i, y i)) (K.dot j x y)
  norm : ∀ j v, ∃ s, DotOrder fl (List.ofFn fun i => (v i, v i)) s ∧ K.norm j v = fl (Real.sqrt s)
  scale : ∀ j v b i, K.scale j v b i = fl (v i / b)
  sqnorm : ∀ j u, DotOrder fl (List.ofFn fun i => (u i, u i)) (K.sqnorm j u)
  div : ∀ a b, K.div a b = fl (a / b)

/-- The format is large enough: neither overflow nor harmful underflow. -/
structure Spec.Fmt.Room (φ : Fmt) (n : ℕ) (M τ B : ℝ) : Prop where
  exp : φ.emin ≤ φ.emax
  size : 64 * n * φ.u ≤ 1
  low_M : 8 * (n * n * φ.eta) ≤ φ.u * M
  low_sq : 8 * (n * φ.eta) ≤ φ.u * φ.u * (τ * τ)
  low_tau : n * φ.eta ≤ φ.u * τ
  low_one : n * φ.eta ≤ φ.u
  high : 2 * (B * B) + 8 * B + 8 * M + 8 ≤ φ.top
  high_div : B ≤ τ * φ.top

theorem nrm_le_of_abs {x y : Vec n} (h : ∀ i, |x i| ≤ y i) : nrm x ≤ nrm y := by
  unfold nrm
  refine Real.sqrt_le_sqrt (Finset.sum_le_sum fun i _ => ?_)
  have h1 := h i
  rw [← abs_mul_abs_self (x i)]
  exact mul_self_le_mul_self (abs_nonneg _) h1

theorem nrm_const (c : ℝ) (hc : 0 ≤ c) : nrm (fun _ : Fin n => c) ≤ n * c := by
  unfold nrm
  rw [dotProduct, Finset.sum_const, Finset.card_univ, Fintype.card_fin, nsmul_eq_mul]
  apply Real.sqrt_le_iff.2
  refine ⟨by positivity, ?_⟩
  have h1 : (n : ℝ) ≤ n * n := by
    rcases Nat.eq_zero_or_pos n with h | h
    · simp [h]
    · have : (1 : ℝ) ≤ n := by exact_mod_cast h
      nlinarith
  have h2 : 0 ≤ c * c := by positivity
  nlinarith

theorem abs_le_nrm (v : Vec n) (i : Fin n) : |v i| ≤ nrm v := by
  unfold nrm
  apply Real.le_sqrt_of_sq_le
  rw [sq_abs, sq]
  exact Finset.single_le_sum (f := fun i => v i * v i) (fun i _ => mul_self_nonneg _) (Finset.mem_univ i)

theorem sum_abs_mul_le (x y : Vec n) : ∑ i, |x i * y i| ≤ nrm x * nrm y := by
  have h := abs_dot_le (fun i => |x i|) (fun i => |y i|)
  have e : ∀ z : Vec n, nrm (fun i => |z i|) = nrm z := by
    intro z
    unfold nrm
    congr 1
    exact Finset.sum_congr rfl fun i _ => abs_mul_abs_self _
  rw [e, e, abs_of_nonneg] at h
  · refine le_trans (le_of_eq ?_) h
    exact Finset.sum_congr rfl fun i _ => abs_mul _ _
  · exact Finset.sum_nonneg fun i _ => mul_nonneg (abs_nonneg _) (abs_nonneg _)

/-- An inner product in any order. -/
theorem dot_err (hn : φ.Nearest fl) (he : φ.emin ≤ φ.emax) (hu : 64 * n * φ.u ≤ 1) (hone : n * φ.eta ≤ 1) (x y : Vec n) (s C : ℝ)
    (hs : DotOrder fl (List.ofFn fun i => (x i, y i)) s) (hC : ∑ i, |x i * y i| ≤ C) (htop : 2 * C + 2 ≤ φ.top) :
    |s - x ⬝ᵥ y| ≤ 2 * (n * φ.u) * C + 2 * (n * φ.eta) ∧ ((∀ i, 0 ≤ x i * y i) → 0 ≤ s) := by
  have up := φ.u_pos
  have ep := φ.eta_pos
  have hp : (1 + φ.u) ^ n ≤ 1 + 2 * (n * φ.u) := pow_one_add_le up.le n (by linarith)
  have hp2 : (1 + φ.u) ^ n ≤ 2 := by linarith
  have l1 : ((List.ofFn fun i => (x i, y i)).map fun q : ℝ × ℝ => |q.1 * q.2|).sum = ∑ i, |x i * y i| := by
    rw [List.map_ofFn, List.sum_ofFn]; rfl
  have l2 : ((List.ofFn fun i => (x i, y i)).map fun q : ℝ × ℝ => q.1 * q.2).sum = x ⬝ᵥ y := by
    rw [List.map_ofFn, List.sum_ofFn]; rfl
  have hC0 : 0 ≤ ∑ i, |x i * y i| := Finset.sum_nonneg fun i _ => abs_nonneg _
  have nn : 0 ≤ (n : ℝ) * φ.eta := by positivity
  have ht : (1 + φ.u) ^ (List.ofFn fun i => (x i, y i)).length * (((List.ofFn fun i => (x i, y i)).map fun q : ℝ × ℝ => |q.1 * q.2|).sum +
      (List.ofFn fun i => (x i, y i)).length * φ.eta) ≤ φ.top := by
    rw [l1, List.length_ofFn]
    have : (1 + φ.u) ^ n * (∑ i, |x i * y i| + n * φ.eta) ≤ 2 * (∑ i, |x i * y i| + n * φ.eta) := mul_le_mul_of_nonneg_right hp2 (by linarith)
    linarith
  refine ⟨?_, fun h0 => ?_⟩
  · obtain ⟨-, h2⟩ := hs.err hn he ht
    rw [l1, l2, List.length_ofFn] at h2
    refine h2.trans ?_
    have a1 : ((1 + φ.u) ^ n - 1) * ∑ i, |x i * y i| ≤ 2 * (n * φ.u) * C := mul_le_mul (by linarith) hC hC0 (by positivity)
    have a2 : (1 + φ.u) ^ n * (n * φ.eta) ≤ 2 * (n * φ.eta) := mul_le_mul_of_nonneg_right hp2 nn
    linarith
  · refine hs.nonneg hn he (fun q hq => ?_) ht
    rw [List.mem_ofFn] at hq
    obtain ⟨i, rfl⟩ := hq
    exact h0 i

/-- The square root of an approximate square. -/
theorem sqrt_err {s x u e τ : ℝ} (hs : 0 ≤ s) (hx : 0 ≤ x) (hu : 0 < u) (hτ : 0 < τ) {g : ℝ} (hg : 0 ≤ g) (hg1 : g ≤ 1 / 32) (h : |s - x * x| ≤ g * (x * x) + e)
    (he : 4 * e ≤ u * u * (τ * τ)) : |Real.sqrt s - x| ≤ g * x + 2 * u * τ := by
  have e0 : Real.sqrt s * Real.sqrt s = s := Real.mul_self_sqrt hs
  have e1 := Real.sqrt_nonneg s
  obtain ⟨h1, h2⟩ := abs_le.1 h
  have ut : 0 < u * τ := by positivity
  have hgx : 0 ≤ g * x := by positivity
  rw [abs_le]
  constructor
  · by_contra hc
    push Not at hc
    -- sqrt s < x - g x - 2 u τ
    have c1 : Real.sqrt s < x - (g * x + 2 * u * τ) := by linarith
    have c2 : Real.sqrt s * Real.sqrt s ≤ (x - (g * x + 2 * u * τ)) * (x - (g * x + 2 * u * τ)) := mul_self_le_mul_self e1 c1.le
    have c3 : 2 * u * τ ≤ x - g * x := by linarith
    have c4 : (u * τ) * (2 * u * τ) ≤ (u * τ) * (x - g * x) := mul_le_mul_of_nonneg_left c3 ut.le
    have c5 : g * x * (g * x) ≤ g * (x * x) := by
      have : g * (g * (x * x)) ≤ 1 * (g * (x * x)) := mul_le_mul_of_nonneg_right (by linarith) (by positivity)
      linarith
    have c6 : g * x * (u * τ) ≤ 1 / 32 * (x * (u * τ)) := by
      have : g * (x * (u * τ)) ≤ 1 / 32 * (x * (u * τ)) := mul_le_mul_of_nonneg_right hg1 (by positivity)
      linarith
    have c7 : u * τ * (u * τ) = u * u * (τ * τ) := by ring
    nlinarith
  · by_contra hc
    push Not at hc
    have c1 : x + (g * x + 2 * u * τ) < Real.sqrt s := by linarith
    have c2 : (x + (g * x + 2 * u * τ)) * (x + (g * x + 2 * u * τ)) ≤ Real.sqrt s * Real.sqrt s := mul_self_le_mul_self (by positivity) c1.le
    have c3 : 0 ≤ x * (u * τ) := by positivity
    have c4 : 0 ≤ g * x * (u * τ) := by positivity
    have c5 : 0 ≤ g * x * (g * x) := by positivity
    have c7 : u * τ * (u * τ) = u * u * (τ * τ) := by ring
    nlinarith [mul_nonneg ut.le ut.le, mul_nonneg hg (mul_self_nonneg x)]

/-- Operations rounded to nearest have the relative error `8 (n + 1) u`. -/
theorem rounded_ok (hn : φ.Nearest fl) (A : Matrix (Fin n) (Fin n) ℝ) {K : LKernels n} (hK : LKernelsRounded fl A K) (M τ B : ℝ) (hM : 0 < M) (hτ : 0 < τ) (hB : 0 ≤ B)
    (hF : frobSq A ≤ M ^ 2) (hn0 : 0 < n) (hR : φ.Room n M τ B) : LKernelsOk K A M (8 * (n + 1) * φ.u) τ B := by
  have up := φ.u_pos
  have ep := φ.eta_pos
  have u1 : φ.u ≤ 1 := φ.u_le_one
  have hnr : (1 : ℝ) ≤ n := by exact_mod_cast hn0
  have he := hR.exp
  have hsz := hR.size
  have hone : n * φ.eta ≤ 1 := hR.low_one.trans u1
  have nu : 0 ≤ n * φ.u := by positivity
  have hun : φ.u ≤ n * φ.u := le_mul_of_one_le_left up.le hnr
  have hen : φ.eta ≤ n * φ.eta := le_mul_of_one_le_left ep.le hnr
  have hBB : 0 ≤ B * B := by positivity
  have htopB : 8 * B ≤ φ.top := by linarith [hR.high]
  -- one rounding
  have r1 : ∀ z : ℝ, |z| ≤ φ.top → |fl z - z| ≤ φ.u * |z| + φ.eta := fun z hz => hn.err he hz
  refine ⟨?_, ?_, ?_, ?_, ?_⟩
  · intro j x hx
    set a : Vec n := fun i => nrm (A i) with ha
    have hai : nrm a ≤ M := by
      unfold nrm
      apply Real.sqrt_le_iff.2
      refine ⟨hM.le, le_trans (le_of_eq ?_) hF⟩
      unfold frobSq
      refine Finset.sum_congr rfl fun i _ => ?_
      rw [ha]
      simp only
      rw [nrm_sq]
      exact Finset.sum_congr rfl fun l _ => (sq _).symm
    have hrow : ∀ i, |(K.matvec j x - A *ᵥ x) i| ≤ ((4 * (n * φ.u)) • a + fun _ => 2 * (n * φ.eta) : Vec n) i := by
      intro i
      have hc : ∑ l, |A i l * x l| ≤ 2 * a i := by
        refine (sum_abs_mul_le (A i) x).trans ?_
        rw [mul_comm]
        exact mul_le_mul_of_nonneg_right hx (nrm_nonneg _)
      have hai' : a i ≤ M := by
        have := abs_le_nrm a i
        rw [abs_of_nonneg (show 0 ≤ a i from nrm_nonneg _)] at this
        exact this.trans hai
      have := (dot_err hn he hsz hone (A i) x _ _ (hK.matvec j x i) hc (by linarith [hR.high])).1
      refine this.trans (le_of_eq ?_)
      simp only [Pi.add_apply, Pi.smul_apply, smul_eq_mul]
      ring
    refine (nrm_le_of_abs hrow).trans ((nrm_add_le _ _).trans ?_)
    rw [nrm_smul, abs_of_nonneg (by positivity)]
    have h2 := nrm_const (n := n) (2 * (n * φ.eta)) (by positivity)
    have h3 : 4 * (n * φ.u) * nrm a ≤ 4 * (n * φ.u) * M := mul_le_mul_of_nonneg_left hai (by positivity)
    have h4 := hR.low_M
    have h5 : φ.u * M ≤ n * φ.u * M := mul_le_mul_of_nonneg_right hun hM.le
    have h6 : 0 ≤ φ.u * M := by positivity
    linarith
  · intro j v b q hv hb hq
    have hent : ∀ i, |(K.axpy j v b q - (v - b • q)) i| ≤ (φ.u • (fun i => |v i|) + (3 * φ.u * |b|) • (fun i => |q i|) + fun _ => 3 * φ.eta : Vec n) i := by
      intro i
      have v1 := (abs_le_nrm v i).trans hv
      have q1 := (abs_le_nrm q i).trans hq
      have bq : |b * q i| ≤ 2 * B := by
        rw [abs_mul]
        have := mul_le_mul hb q1 (abs_nonneg _) hB
        linarith
      have bqe : |b * q i| = |b| * |q i| := abs_mul _ _
      have ubq : 0 ≤ φ.u * |b * q i| := mul_nonneg up.le (abs_nonneg _)
      simp only [Pi.sub_apply, Pi.add_apply, Pi.smul_apply, smul_eq_mul]
      rw [mul_assoc (3 * φ.u), ← bqe]
      rcases hK.axpy j v b q i with h | h
      · rw [h]
        have p1 := r1 (b * q i) (by linarith)
        set p := fl (b * q i) with hp
        have ub1 : φ.u * |b * q i| ≤ |b * q i| := mul_le_of_le_one_left (abs_nonneg _) u1
        have p2 : |p| ≤ |b * q i| + (φ.u * |b * q i| + φ.eta) := by
          have := abs_sub_abs_le_abs_sub p (b * q i)
          linarith
        have p3 : |v i - p| ≤ |v i| + (|b * q i| + (φ.u * |b * q i| + φ.eta)) := (abs_sub _ _).trans (by linarith)
        have p4 := r1 (v i - p) (by linarith [hR.high, hM.le])
        have p5 : φ.u * |v i - p| ≤ φ.u * (|v i| + (|b * q i| + (φ.u * |b * q i| + φ.eta))) := mul_le_mul_of_nonneg_left p3 up.le
        have p6 : φ.u * (φ.u * |b * q i|) ≤ φ.u * |b * q i| := mul_le_of_le_one_left ubq u1
        have p7 : φ.u * φ.eta ≤ φ.eta := mul_le_of_le_one_left ep.le u1
        have e : fl (v i - p) - (v i - b * q i) = (fl (v i - p) - (v i - p)) - (p - b * q i) := by ring
        rw [e]
        refine (abs_sub _ _).trans ?_
        linarith
      · rw [h]
        have p3 : |v i - b * q i| ≤ |v i| + |b * q i| := abs_sub _ _
        have p4 := r1 (v i - b * q i) (by linarith)
        have p5 : φ.u * |v i - b * q i| ≤ φ.u * (|v i| + |b * q i|) := mul_le_mul_of_nonneg_left p3 up.le
        linarith
    have hab : ∀ z : Vec n, nrm (fun i => |z i|) = nrm z := by
      intro z
      unfold nrm
      congr 1
      exact Finset.sum_congr rfl fun i _ => abs_mul_abs_self _
    refine (nrm_le_of_abs hent).trans ((nrm_add_le _ _).trans ?_)
    have t1 := nrm_add_le (φ.u • (fun i => |v i|)) ((3 * φ.u * |b|) • (fun i => |q i|))
    have t2 := nrm_const (n := n) (3 * φ.eta) (by positivity)
    rw [nrm_smul, nrm_smul, hab, hab, abs_of_pos up, abs_of_nonneg (show 0 ≤ 3 * φ.u * |b| by positivity)] at t1
    have t3 : 3 * φ.u * |b| * nrm q ≤ 3 * φ.u * |b| * 2 := mul_le_mul_of_nonneg_left hq (by positivity)
    have t4 : n * φ.eta ≤ n * n * φ.eta := by
      rw [mul_assoc]
      exact le_mul_of_one_le_left (by positivity) hnr
    have t5 := hR.low_M
    have w1 : 0 ≤ φ.u * nrm v := mul_nonneg up.le (nrm_nonneg _)
    have w2 : 0 ≤ φ.u * |b| := mul_nonneg up.le (abs_nonneg _)
    have w3 : 0 ≤ φ.u * M := by positivity
    have w4 : 0 ≤ n * (φ.u * nrm v) := by positivity
    have w5 : 0 ≤ n * (φ.u * |b|) := by positivity
    have w6 : 0 ≤ n * (φ.u * M) := by positivity
    linarith
  · intro j x y hx hy
    have hc : ∑ i, |x i * y i| ≤ 2 * nrm y := (sum_abs_mul_le x y).trans (mul_le_mul_of_nonneg_right hx (nrm_nonneg _))
    have := (dot_err hn he hsz hone x y _ _ (hK.dot j x y) hc (by linarith [hR.high])).1
    refine this.trans ?_
    have t4 : n * φ.eta ≤ n * n * φ.eta := by
      rw [mul_assoc]
      exact le_mul_of_one_le_left (by positivity) hnr
    have t5 := hR.low_M
    have w1 : 0 ≤ φ.u * nrm y := mul_nonneg up.le (nrm_nonneg _)
    have w3 : 0 ≤ φ.u * M := by positivity
    have w4 : 0 ≤ n * (φ.u * nrm y) := by positivity
    have w6 : 0 ≤ n * (φ.u * M) := by positivity
    linarith
  · intro j v hv
    obtain ⟨s, hs, hn1⟩ := hK.norm j v
    have nv := nrm_nonneg v
    have hvv : nrm v * nrm v ≤ B * B := mul_self_le_mul_self nv hv
    have hc : ∑ i, |v i * v i| ≤ nrm v * nrm v := sum_abs_mul_le v v
    obtain ⟨d1, d2⟩ := dot_err hn he hsz hone v v s _ hs hc (by linarith [hR.high, hM.le])
    have hs0 := d2 fun i => mul_self_nonneg _
    rw [← nrm_sq] at d1
    have sq := sqrt_err hs0 nv up hτ (g := 2 * (n * φ.u)) (by positivity) (by linarith) d1 (by linarith [hR.low_sq])
    have ss : Real.sqrt s ≤ nrm v + (2 * (n * φ.u) * nrm v + 2 * φ.u * τ) := by linarith [(abs_le.1 sq).2]
    have uv : 0 ≤ φ.u * nrm v := mul_nonneg up.le nv
    have nuv : 0 ≤ n * (φ.u * nrm v) := by positivity
    have ut : 0 ≤ φ.u * τ := by positivity
    have nut : 0 ≤ n * (φ.u * τ) := by positivity
    have s0 := Real.sqrt_nonneg s
    have g1 : 2 * (n * φ.u) * nrm v ≤ 1 / 32 * nrm v := mul_le_mul_of_nonneg_right (by linarith) nv
    have hsq1 : s ≤ 2 * (B * B) + 2 := by
      have h1 := (abs_le.1 d1).2
      have h2 : 2 * (n * φ.u) * (nrm v * nrm v) ≤ 1 / 32 * (nrm v * nrm v) := mul_le_mul_of_nonneg_right (by linarith) (by positivity)
      linarith
    have htops : |Real.sqrt s| ≤ φ.top := by
      rw [abs_of_nonneg s0]
      have h1 : Real.sqrt s ≤ s + 1 := by
        rw [Real.sqrt_le_iff]
        constructor
        · linarith
        · nlinarith
      linarith [hR.high, hM.le]
    have f1 := r1 (Real.sqrt s) htops
    rw [abs_of_nonneg s0, ← hn1] at f1
    have f2 : φ.u * Real.sqrt s ≤ φ.u * (nrm v + (1 / 32 * nrm v + 2 * φ.u * τ)) := mul_le_mul_of_nonneg_left (by linarith) up.le
    have f3 : φ.u * (φ.u * τ) ≤ φ.u * τ := mul_le_of_le_one_left ut u1
    have f4 := hR.low_tau
    have e : K.norm j v - nrm v = (K.norm j v - Real.sqrt s) + (Real.sqrt s - nrm v) := by ring
    rw [e]
    refine (abs_add_le _ _).trans ?_
    linarith
  · intro j v b hv hb
    have hb0 : 0 < b := hτ.trans_le hb
    have hent : ∀ i, |(K.scale j v b - b⁻¹ • v) i| ≤ ((φ.u * b⁻¹) • (fun i => |v i|) + fun _ => φ.eta : Vec n) i := by
      intro i
      have v1 := (abs_le_nrm v i).trans hv
      have vt : |v i / b| ≤ φ.top := by
        rw [abs_div, abs_of_pos hb0, div_le_iff₀ hb0]
        have := mul_le_mul_of_nonneg_right hb φ.top_nonneg
        linarith [hR.high_div]
      have p := r1 (v i / b) vt
      simp only [Pi.sub_apply, Pi.add_apply, Pi.smul_apply, smul_eq_mul]
      rw [hK.scale j v b i, ← div_eq_inv_mul]
      refine p.trans (le_of_eq ?_)
      rw [abs_div, abs_of_pos hb0]
      ring
    have hab : nrm (fun i => |v i|) = nrm v := by
      unfold nrm
      congr 1
      exact Finset.sum_congr rfl fun i _ => abs_mul_abs_self _
    refine (nrm_le_of_abs hent).trans ((nrm_add_le _ _).trans ?_)
    rw [nrm_smul, hab, abs_of_nonneg (by positivity)]
    have t2 := nrm_const (n := n) φ.eta ep.le
    have t3 : φ.u * b⁻¹ * nrm v = φ.u * (nrm v / b) := by
      rw [div_eq_inv_mul]
      ring
    have w1 : 0 ≤ φ.u * (nrm v / b) := mul_nonneg up.le (div_nonneg (nrm_nonneg _) hb0.le)
    have w4 : 0 ≤ n * (φ.u * (nrm v / b)) := by positivity
    rw [t3]
    have := hR.low_one
    linarith

/-- There are such operations for every rounding. -/
theorem rounded_exist (fl : ℝ → ℝ) (A : Matrix (Fin n) (Fin n) ℝ) (hn0 : n ≠ 0) : ∃ K : LKernels n, LKernelsRounded fl A K := by
  have h1 : ∀ f : Fin n → ℝ × ℝ, ∃ s, DotOrder fl (List.ofFn f) s := fun f => DotOrder.exists fl _ (by simpa [List.ofFn_eq_nil_iff] using hn0)
  choose D hD using h1
  exact ⟨⟨fun _ x i => D fun l => (A i l, x l), fun _ v b q i => fl (v i - fl (b * q i)), fun _ x y => D fun i => (x i, y i), fun _ u => D fun i => (u i, u i),
    fun a b => fl (a / b), fun _ v => fl (Real.sqrt (D fun i => (v i, v i))), fun _ v b i => fl (v i / b)⟩,
    fun _ _ _ => hD _, fun _ _ _ _ _ => Or.inl rfl, fun _ _ _ => hD _, fun _ _ => ⟨_, hD _, rfl⟩, fun _ _ _ _ => rfl, fun _ _ => hD _, fun _ _ => rfl⟩

end Primate
