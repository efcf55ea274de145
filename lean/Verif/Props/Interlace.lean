import Verif.Lemmas.Interlace
import Verif.Spec.Interlace
import Verif.Props.Ritz
import Verif.Props.QuadError

/-!
# Interlacing of the Ritz values (C108)
-/

noncomputable section

namespace Primate

open Matrix

variable {n : ℕ}

/-- What `Interlace` says of sorted lists: the classical inequalities. -/
theorem interlace_sorted {k m : ℕ} {th : Fin k → ℝ} {mu : Fin m → ℝ} (hkm : k ≤ m) (h : Spec.Interlace th mu) (hth : Monotone th)
    (hmu : Monotone mu) (i : Fin k) :
    mu ⟨i, by omega⟩ ≤ th i ∧ th i ≤ mu ⟨i + (m - k), by omega⟩ := by
  classical
  constructor
  · by_contra hc
    push Not at hc
    have h1 : (i : ℕ) + 1 ≤ Spec.countLE th (th i) := by
      unfold Spec.countLE
      rw [← Fin.card_Iic]
      exact Finset.card_le_card fun j hj => by simpa using hth (by simpa using hj)
    have h2 : Spec.countLE mu (th i) ≤ i := by
      unfold Spec.countLE
      have := Fin.card_Iio (⟨i, by omega⟩ : Fin m)
      simp only at this
      rw [← this]
      refine Finset.card_le_card fun j hj => ?_
      simp only [Finset.mem_filter, Finset.mem_univ, true_and] at hj
      rw [Finset.mem_Iio]
      by_contra hji
      exact absurd (hj.trans_lt hc) (not_lt.2 (hmu (not_lt.1 hji)))
    have := (h (th i)).1
    omega
  · by_contra hc
    push Not at hc
    have h1 : Spec.countLT th (th i) ≤ i := by
      unfold Spec.countLT
      rw [← Fin.card_Iio]
      refine Finset.card_le_card fun j hj => ?_
      simp only [Finset.mem_filter, Finset.mem_univ, true_and] at hj
      rw [Finset.mem_Iio]
      by_contra hji
      exact absurd hj (not_lt.2 (hth (not_lt.1 hji)))
    have h2 : (i : ℕ) + (m - k) + 1 ≤ Spec.countLT mu (th i) := by
      unfold Spec.countLT
      have := Fin.card_Iic (⟨i + (m - k), by omega⟩ : Fin m)
      simp only at this
      rw [← this]
      refine Finset.card_le_card fun j hj => ?_
      simp only [Finset.mem_filter, Finset.mem_univ, true_and]
      exact lt_of_le_of_lt (hmu (Finset.mem_Iic.1 hj)) hc
    have := (h (th i)).2.2.2
    omega

/-- Cauchy's theorem. -/
theorem interlace_of_compress {k m : ℕ} {A : Matrix (Fin m) (Fin m) ℝ} {T : Matrix (Fin k) (Fin k) ℝ} {Q : Matrix (Fin m) (Fin k) ℝ}
    (hQ : Qᵀ * Q = 1) (hT : ∀ y, (Q *ᵥ y) ⬝ᵥ (A *ᵥ (Q *ᵥ y)) = y ⬝ᵥ (T *ᵥ y)) {lam : Fin m → ℝ} {U : Matrix (Fin m) (Fin m) ℝ}
    (hA : IsEigh A lam U) {th : Fin k → ℝ} {Y : Matrix (Fin k) (Fin k) ℝ} (hY : IsEigh T th Y) : Spec.Interlace th lam := by
  classical
  intro t
  have c1 := fun (P : Fin k → Prop) => Finset.card_filter_add_card_filter_not (s := Finset.univ) P
  have c2 := fun (P : Fin m → Prop) => Finset.card_filter_add_card_filter_not (s := Finset.univ) P
  unfold Spec.countLE Spec.countLT
  have a1 := c1 fun i => th i ≤ t
  have a2 := c1 fun i => th i < t
  have a3 := c2 fun i => lam i ≤ t
  have a4 := c2 fun i => lam i < t
  simp only [Finset.card_univ, Fintype.card_fin] at a1 a2 a3 a4
  have b1 := compress_card hQ hT hA hY (fun i => th i ≤ t) (fun j => lam j ≤ t) fun i j h1 h2 => by push Not at h2; linarith
  have b2 := compress_card hQ hT hA hY (fun i => th i < t) (fun j => lam j < t) fun i j h1 h2 => by push Not at h2; linarith
  have b3 := compress_card_ge hQ hT hA hY (fun i => ¬ th i ≤ t) (fun j => ¬ lam j ≤ t) fun i j h1 h2 => by push Not at h1 h2; linarith
  have b4 := compress_card_ge hQ hT hA hY (fun i => ¬ th i < t) (fun j => ¬ lam j < t) fun i j h1 h2 => by push Not at h1 h2; linarith
  refine ⟨b1, ?_, b2, ?_⟩ <;> omega

/-- What a run of `rayleigh_ritz` without early stop computes: the eigenvalues of the leading block of the Lanczos matrix. -/
theorem ritz_complete (K : TriKernels) (hK : EighOk K) (hK' : EigvalshOk K) (eps : ℝ) (heps : 0 ≤ eps) (fuel : ℕ)
    (M : Matrix (Fin n) (Fin n) ℝ) (hM : M.IsSymm) (a : LanczosArgs n) (hA : a.A = M.mulVec) (hv : a.v0 ≠ 0) (hr : 0 < a.rtol)
    (h1 : a.alpha = none) (h2 : a.beta = none) (h3 : a.Q = none) (deg : Option ℤ) (hdeg : 0 < lanczosDeg n deg)
    (vec : Bool) (out : RitzOut n) (hout : rayleighRitz K eps fuel a deg vec = some (.ok (some out))) :
    (out.k : ℤ) = ritzDeg n deg ∧ 0 < out.k ∧
    ((∀ i, i + 1 < out.k → Real.sqrt n * a.rtol ≤ lzb M.mulVec a.v0 (i + 1)) →
      ∃ Y, IsEigh (triMat out.k (lza M.mulVec a.v0) (lzb M.mulVec a.v0)) out.values Y) ∧
    (∀ al be B, lanczos eps { a with deg := some (ritzDeg n deg), sparse_mat := false } = .ok (.arrays al be, B) →
      (∀ b ∈ be, Real.sqrt n * a.rtol ≤ b) → ∀ i, i + 1 < out.k → Real.sqrt n * a.rtol ≤ lzb M.mulVec a.v0 (i + 1)) := by
  have hn : 0 < n := by
    by_contra hn0
    have : n = 0 := by omega
    subst this
    exact hv (funext fun i => i.elim0)
  obtain ⟨J, s, out', Y, g1, g2, g3, g4, g5, ⟨ncv, -, hF⟩, g7, -, -, B0, hl⟩ := ritz_run K hK hK' eps heps fuel a
    (hA ▸ SelfAdj.mulVec hM) hr h1 h2 h3 hn deg hdeg vec
  rw [hout] at g1
  simp only [Option.some.injEq, Except.ok.injEq] at g1
  subst g1
  rw [hA] at g4 g5 hF
  refine ⟨g2, by omega, fun hb => ?_, fun al be B hl' hbe i hi => ?_⟩
  · have hJ : J + 1 = out.k := by
      by_contra hJk
      have h5 : lzb M.mulVec a.v0 (J + 1) < Real.sqrt n * a.rtol := by tauto
      exact absurd (hb J (by omega)) (not_le.2 h5)
    refine ⟨Y, ?_⟩
    rw [triMat_congr (d' := s.alpha.get) (e' := s.beta.get)]
    · exact g7
    · exact fun i hi => (hF.alpha_le i (by omega)).symm
    · exact fun i _ hi => (hF.beta_le i (by omega)).symm
  · rw [hl] at hl'
    simp only [Except.ok.injEq, Prod.mk.injEq, TriOut.arrays.injEq] at hl'
    obtain ⟨⟨-, rfl⟩, -⟩ := hl'
    have hJk : J + 1 = out.k := by
      by_contra hJk
      have : lzb M.mulVec a.v0 (J + 1) < Real.sqrt n * a.rtol := by tauto
      rw [← hF.beta_le (J + 1) le_rfl] at this
      refine absurd (hbe (s.beta.get (J + 1)) ?_) (not_le.mpr this)
      exact List.mem_map.mpr ⟨J, List.mem_range.mpr (by omega), rfl⟩
    exact g4 i (by omega)

/-- **C108.**  Without an early stop the Ritz values interlace the eigenvalues: counted from either end, the `i`-th Ritz value is never beyond the
`i`-th eigenvalue. -/
theorem C108_ritz_interlace (K : TriKernels) (hK : EighOk K) (hK' : EigvalshOk K) (eps : ℝ) (heps : 0 ≤ eps) (fuel : ℕ)
    (M : Matrix (Fin n) (Fin n) ℝ) (hM : M.IsSymm) (lam : Fin n → ℝ) (U : Matrix (Fin n) (Fin n) ℝ)
    (hU : Spec.Eigen M lam U) (a : LanczosArgs n) (hA : a.A = M.mulVec) (hv : a.v0 ≠ 0) (hr : 0 < a.rtol)
    (h1 : a.alpha = none) (h2 : a.beta = none) (h3 : a.Q = none) (deg : Option ℤ) (hdeg : 0 < lanczosDeg n deg) (vec : Bool)
    (al be : List ℝ) (B : Option (Buf (Vec n)))
    (hl : lanczos eps { a with deg := some (ritzDeg n deg), sparse_mat := false } = .ok (.arrays al be, B))
    (hbe : ∀ b ∈ be, Real.sqrt n * a.rtol ≤ b) :
    ∃ out, rayleighRitz K eps fuel a deg vec = some (.ok (some out)) ∧ (out.k : ℤ) = ritzDeg n deg ∧ Spec.Interlace out.values lam := by
  have hn : 0 < n := by
    by_contra hn0
    have : n = 0 := by omega
    subst this
    exact hv (funext fun i => i.elim0)
  obtain ⟨-, -, out, -, g1, -⟩ := ritz_run K hK hK' eps heps fuel a (hA ▸ SelfAdj.mulVec hM) hr h1 h2 h3 hn deg hdeg vec
  obtain ⟨c1, c0, c2, c3⟩ := ritz_complete K hK hK' eps heps fuel M hM a hA hv hr h1 h2 h3 deg hdeg vec out g1
  have c4 := c3 al be B hl hbe
  obtain ⟨Y, hY⟩ := c2 c4
  have htol := tol_pos hn hr
  obtain ⟨Q, hQ, hT⟩ := lz_compress M hM a.v0 hv out.k c0 fun i hi => (htol.trans_le (c4 i hi)).ne'
  exact ⟨out, g1, c1, interlace_of_compress hQ hT (isEigh_iff_eigen.mpr hU) hY⟩

/-- **C108**, two degrees.  With the same operator and the same starting vector the Ritz values of the smaller degree interlace those of the larger
one. -/
theorem C108_degrees_interlace (K : TriKernels) (hK : EighOk K) (hK' : EigvalshOk K) (eps : ℝ) (heps : 0 ≤ eps) (fuel : ℕ)
    (M : Matrix (Fin n) (Fin n) ℝ) (hM : M.IsSymm) (a : LanczosArgs n) (hA : a.A = M.mulVec) (hv : a.v0 ≠ 0) (hr : 0 < a.rtol)
    (h1 : a.alpha = none) (h2 : a.beta = none) (h3 : a.Q = none) (deg deg' : Option ℤ) (hdeg : 0 < lanczosDeg n deg)
    (hdd : lanczosDeg n deg ≤ lanczosDeg n deg') (vec vec' : Bool) (al be : List ℝ) (B : Option (Buf (Vec n)))
    (hl : lanczos eps { a with deg := some (ritzDeg n deg'), sparse_mat := false } = .ok (.arrays al be, B))
    (hbe : ∀ b ∈ be, Real.sqrt n * a.rtol ≤ b) :
    ∃ out out', rayleighRitz K eps fuel a deg vec = some (.ok (some out)) ∧ rayleighRitz K eps fuel a deg' vec' = some (.ok (some out')) ∧
      out.k ≤ out'.k ∧ Spec.Interlace out.values out'.values ∧
      -- in particular the extreme Ritz values can only move outwards
      (∀ i, (∃ j, out'.values j ≤ out.values i) ∧ ∃ j, out.values i ≤ out'.values j) := by
  have hn : 0 < n := by
    by_contra hn0
    have : n = 0 := by omega
    subst this
    exact hv (funext fun i => i.elim0)
  obtain ⟨-, -, out, -, g1, -⟩ := ritz_run K hK hK' eps heps fuel a (hA ▸ SelfAdj.mulVec hM) hr h1 h2 h3 hn deg hdeg vec
  obtain ⟨-, -, out', -, g1', -⟩ := ritz_run K hK hK' eps heps fuel a (hA ▸ SelfAdj.mulVec hM) hr h1 h2 h3 hn deg' (by omega) vec'
  obtain ⟨c1, c0, c2, -⟩ := ritz_complete K hK hK' eps heps fuel M hM a hA hv hr h1 h2 h3 deg hdeg vec out g1
  obtain ⟨d1, d0, d2, d3⟩ := ritz_complete K hK hK' eps heps fuel M hM a hA hv hr h1 h2 h3 deg' (by omega) vec' out' g1'
  have hkk : out.k ≤ out'.k := by
    have : ritzDeg n deg ≤ ritzDeg n deg' := by
      unfold ritzDeg npClip
      omega
    omega
  have d4 := d3 al be B hl hbe
  obtain ⟨Y', hY'⟩ := d2 d4
  obtain ⟨Y, hY⟩ := c2 fun i hi => d4 i (by omega)
  obtain ⟨Q, hQ, hT⟩ := triMat_lead hkk (lza M.mulVec a.v0) (lzb M.mulVec a.v0)
  have hI := interlace_of_compress hQ hT hY' hY
  refine ⟨out, out', g1, g1', hkk, hI, fun i => ⟨?_, ?_⟩⟩
  · classical
    by_contra hc
    push Not at hc
    have e1 : Spec.countLE out'.values (out.values i) = 0 := by
      unfold Spec.countLE
      rw [Finset.card_eq_zero, Finset.filter_eq_empty_iff]
      exact fun j _ => not_le.2 (hc j)
    have e2 : 0 < Spec.countLE out.values (out.values i) := by
      unfold Spec.countLE
      exact Finset.card_pos.2 ⟨i, by simp⟩
    have := (hI (out.values i)).1
    omega
  · classical
    by_contra hc
    push Not at hc
    have e1 : Spec.countLT out'.values (out.values i) = out'.k := by
      unfold Spec.countLT
      rw [Finset.filter_true_of_mem fun j _ => hc j, Finset.card_univ, Fintype.card_fin]
    have e2 : Spec.countLT out.values (out.values i) < out.k := by
      unfold Spec.countLT
      refine lt_of_lt_of_eq (Finset.card_lt_card (t := Finset.univ) ?_) (by simp)
      rw [Finset.ssubset_univ_iff]
      intro hu
      have := Finset.mem_univ i
      rw [← hu] at this
      simp at this
    have := (hI (out.values i)).2.2.2
    omega

/-! ## A concrete case: `[[2, 1, 0], [1, 2, 1], [0, 1, 2]]`, start `e1`, degrees two and three -/

theorem L3_b2 : lzb L3.mulVec ![1, 0, 0] 2 = 1 := by
  have u1 : (![1, 0, 0] : Vec 3) ⬝ᵥ ![1, 0, 0] = 1 := by simp [dotProduct, Fin.sum_univ_three]
  have u2 : (![0, 1, 0] : Vec 3) ⬝ᵥ ![0, 1, 0] = 1 := by simp [dotProduct, Fin.sum_univ_three]
  have u3 : (![0, 0, 1] : Vec 3) ⬝ᵥ ![0, 0, 1] = 1 := by simp [dotProduct, Fin.sum_univ_three]
  have u12 : (![1, 0, 0] : Vec 3) ⬝ᵥ ![2, 1, 0] = 2 := by simp [dotProduct, Fin.sum_univ_three]
  have u22 : (![0, 1, 0] : Vec 3) ⬝ᵥ ![0, 2, 1] = 2 := by simp [dotProduct, Fin.sum_univ_three]
  have hS : L3 *ᵥ ![1, 0, 0] = ![2, 1, 0] := by
    funext i; fin_cases i <;> simp [L3, mulVec, dotProduct, Fin.sum_univ_three]
  have hS2 : L3 *ᵥ ![0, 1, 0] = ![1, 2, 1] := by
    funext i; fin_cases i <;> simp [L3, mulVec, dotProduct, Fin.sum_univ_three]
  have hw : lzw L3.mulVec ![1, 0, 0] 0 = ![2, 1, 0] := by
    rw [lzw, lzq_zero, normalized_of_unit u1, hS, lzb_zero, zero_smul, sub_zero]
  have ha : lza L3.mulVec ![1, 0, 0] 0 = 2 := by rw [lza, lzq_zero, normalized_of_unit u1, hw, u12]
  have hr : (![2, 1, 0] : Vec 3) - (2 : ℝ) • ![1, 0, 0] = ![0, 1, 0] := by
    funext i; fin_cases i <;> simp
  have hr0 : lzr L3.mulVec ![1, 0, 0] 0 = ![0, 1, 0] := by rw [lzr, hw, ha, lzq_zero, normalized_of_unit u1, hr]
  have hq1 : lzq L3.mulVec ![1, 0, 0] 1 = ![0, 1, 0] := by
    rw [lzq_succ, hr0, L3_b1]
    simp
  have hw1 : lzw L3.mulVec ![1, 0, 0] 1 = ![0, 2, 1] := by
    rw [lzw, hq1, hS2, L3_b1]
    show _ - (1 : ℝ) • lzq L3.mulVec ![1, 0, 0] 0 = _
    rw [lzq_zero, normalized_of_unit u1]
    funext i; fin_cases i <;> simp
  have ha1 : lza L3.mulVec ![1, 0, 0] 1 = 2 := by rw [lza, hq1, hw1, u22]
  have hr1 : (![0, 2, 1] : Vec 3) - (2 : ℝ) • ![0, 1, 0] = ![0, 0, 1] := by
    funext i; fin_cases i <;> simp
  rw [lzb_succ, lzr, hw1, ha1, hq1, hr1, nrm_of_unit u3]

/-- Both theorems at work: neither degree stops early. -/
example (K : TriKernels) (hK : EighOk K) (hK' : EigvalshOk K) (fuel : ℕ) (lam : Fin 3 → ℝ) (U : Matrix (Fin 3) (Fin 3) ℝ)
    (hU : Spec.Eigen L3 lam U) : ∃ (a : LanczosArgs 3) (out out' : RitzOut 3), a.A = L3.mulVec ∧ out.k = 2 ∧ out'.k = 3 ∧
    rayleighRitz K 0 fuel a (some 2) true = some (.ok (some out)) ∧ rayleighRitz K 0 fuel a none false = some (.ok (some out')) ∧
    Spec.Interlace out.values out'.values ∧ Spec.Interlace out'.values lam := by
  obtain ⟨a, ha⟩ : ∃ a : LanczosArgs 3, a = ⟨L3.mulVec, ![1, 0, 0], none, 1e-8, 0, false, true, none, none, none⟩ := ⟨_, rfl⟩
  have hv : a.v0 ≠ 0 := by
    intro hc
    rw [ha] at hc
    have := congrFun hc 0
    simp at this
  have hr : 0 < a.rtol := by rw [ha]; norm_num
  have hA : a.A = L3.mulVec := by rw [ha]
  have d2 : lanczosDeg 3 (some 2) = 2 := rfl
  have d3 : lanczosDeg 3 none = 3 := rfl
  have r2 : ritzDeg 3 (some 2) = 2 := rfl
  have r3 : ritzDeg 3 none = 3 := rfl
  obtain ⟨J, s, out0, Y, -, g2, g3, g4, g5, ⟨ncv, -, hF⟩, g7, -, -, B0, hl⟩ := ritz_run K hK hK' 0 le_rfl fuel a
    (hA ▸ SelfAdj.mulVec L3_symm) hr (by rw [ha]) (by rw [ha]) (by rw [ha]) (by norm_num) none (by omega) false
  have hk : out0.k = 3 := by omega
  have hav : a.v0 = ![1, 0, 0] := by rw [ha]
  have hart : Real.sqrt ((3 : ℕ) : ℝ) * a.rtol ≤ 1 := by
    rw [ha]
    exact L3_tol
  rw [hA, hav] at g5 hF
  have hJ : J = 2 := by
    rcases g5 with h | h
    · have h1 : J ≠ 0 := by
        rintro rfl
        rw [zero_add, L3_b1] at h
        linarith
      have h2 : J ≠ 1 := by
        rintro rfl
        rw [L3_b2] at h
        linarith
      omega
    · omega
  have hbe : ∀ b ∈ (List.range (out0.k - 1)).map fun i => s.beta.get (i + 1), Real.sqrt ((3 : ℕ) : ℝ) * a.rtol ≤ b := by
    intro b hb
    rw [hk] at hb
    obtain ⟨i, hi, rfl⟩ := List.mem_map.mp hb
    have hi' : i < 2 := by simpa using hi
    rw [hF.beta_le _ (by omega)]
    interval_cases i
    · rw [L3_b1]; exact hart
    · rw [L3_b2]; exact hart
  obtain ⟨out, out', p1, p2, -, p3, -⟩ := C108_degrees_interlace K hK hK' 0 le_rfl fuel L3 L3_symm a hA hv hr (by rw [ha]) (by rw [ha])
    (by rw [ha]) (some 2) none (by omega) (by omega) true false _ _ B0 hl hbe
  obtain ⟨out'', q1, q2, q3⟩ := C108_ritz_interlace K hK hK' 0 le_rfl fuel L3 L3_symm lam U hU a hA hv hr (by rw [ha]) (by rw [ha])
    (by rw [ha]) none (by omega) false _ _ B0 hl hbe
  obtain ⟨w1, -, -⟩ := ritz_complete K hK hK' 0 le_rfl fuel L3 L3_symm a hA hv hr (by rw [ha]) (by rw [ha]) (by rw [ha]) (some 2) (by omega) true
    out p1
  rw [p2] at q1
  simp only [Option.some.injEq, Except.ok.injEq] at q1
  subst q1
  exact ⟨a, out, out', hA, by omega, by omega, p1, p2, p3, q3⟩

end Primate
