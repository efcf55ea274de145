import Verif.Lemmas.EarlyNodes
import Verif.Model.MatFunSpecial
import Verif.Model.Special
import Verif.Props.HutchSpecialRun
import Verif.Props.MatrixFunctionWitness

/-!
# C155: functions that are not finite at zero or below, after an early stop
-/

noncomputable section

namespace Primate

open Matrix Spec

variable {n : ℕ}

/-! ## Values -/

theorem quadColS_of {K : TriKernels} {eps : ℝ} {fuel : ℕ} {M M' : MF n} {x : Vec n} {r : ℝ} (g : ℝ → Fl) (h : M.quadCol K eps fuel x = some (.ok (M', some r))) :
    M.quadColS K eps fuel g x = some (.ok (M', quadValueS g M.deg M'.nodes M'.weights (nrm x ^ 2))) := by
  unfold MF.quadCol at h
  unfold MF.quadColS
  simp only at h ⊢
  split at h
  · cases h
  · rename_i s hs
    simp only [hs]
    split at h
    · cases h
    · cases h
    · cases h
    · rename_i th ta hq
      simp only [hq]
      cases h
      rfl

theorem quadValue_nan {g : ℝ → Fl} {m : ℕ} {theta tau : ℕ → ℝ} (q : ℝ) {a : ℕ} (ha : a < m) (h : g (theta a) = .nan ∨ ¬ Spec.Finite (g (theta a)) ∧ tau a = 0) :
    quadValueS g m theta tau q = .nan := by
  have h1 : (g (theta a)).mul (.fin (tau a)) = .nan := by
    rcases h with h | ⟨h, h'⟩
    · rw [h, Fl.nan_mul]
    · rw [h']
      cases hg : g (theta a) with
      | fin r => exact absurd ⟨r, hg⟩ h
      | pinf => simp [Fl.mul, Fl.scale]
      | ninf => simp [Fl.mul, Fl.scale]
      | nan => rfl
  unfold quadValueS
  rw [Fl.sum_nan (List.mem_map.2 ⟨a, List.mem_range.2 ha, h1⟩), Fl.nan_mul]

theorem sum_map_range_fin (c : ℕ → ℝ) (m : ℕ) : Fl.sum ((List.range m).map fun i => .fin (c i)) = .fin (∑ i ∈ Finset.range m, c i) := by
  have := Fl.sum_fin ((List.range m).map c)
  rw [List.map_map] at this
  rw [show ((List.range m).map fun i => Fl.fin (c i)) = (List.range m).map (Fl.fin ∘ c) from rfl, this]
  congr 1

theorem quadValue_fin {g : ℝ → Fl} {f : ℝ → ℝ} {m : ℕ} {theta tau : ℕ → ℝ} (q : ℝ) (h : ∀ i < m, g (theta i) = .fin (f (theta i))) :
    quadValueS g m theta tau q = .fin ((∑ i ∈ Finset.range m, f (theta i) * tau i) * q) := by
  unfold quadValueS
  rw [List.map_congr_left fun i hi => by rw [h i (List.mem_range.1 hi), show (Fl.fin (f (theta i))).mul (.fin (tau i)) = .fin (f (theta i) * tau i) from rfl],
    sum_map_range_fin]
  rfl

/-! ## Runs of a new object -/

/-- What makes line 150 NaN: a function value NaN, or an infinite one with weight zero. -/
def Bad {m : ℕ} (g : ℝ → Fl) (theta : Fin m → ℝ) (Y : Matrix (Fin m) (Fin m) ℝ) (hm : 0 < m) : Prop :=
  ∃ a, g (theta a) = .nan ∨ ¬ Spec.Finite (g (theta a)) ∧ Y ⟨0, hm⟩ a = 0

theorem run_quad (K : TriKernels) (hK : EighOk K) (eps : ℝ) (heps : 0 ≤ eps) (fuel : ℕ) (B : Matrix (Fin n) (Fin n) ℝ) (hB : B.IsSymm) (f : ℝ → ℝ) (g : ℝ → Fl)
    (deg orth : ℤ) (hn : 0 < n) {M0 : MF n} (h0 : MF.init B.mulVec f deg orth = .ok M0) (x : Vec n) (hx : x ≠ 0) :
    ∃ (hm : 0 < M0.deg) (J : ℕ) (theta : Fin M0.deg → ℝ) (Y : Matrix (Fin M0.deg) (Fin M0.deg) ℝ) (M' : MF n) (y : Fl) (r : ℝ),
      FreshRun B x M0.deg J M'.alpha.get M'.beta.get theta Y ∧
      (∀ i, 1 ≤ i → i ≤ J → Real.sqrt n * 1e-8 ≤ M'.beta.get i) ∧ (J + 1 < M0.deg → M'.beta.get (J + 1) < Real.sqrt n * 1e-8) ∧
      M0.quadColS K eps fuel g x = some (.ok (M', y)) ∧ M0.quadCol K eps fuel x = some (.ok (M', some r)) ∧
      (Bad g theta Y hm → y = .nan) ∧ ((∀ a, g (theta a) = .fin (f (theta a))) → y = .fin r) ∧ r = (∑ a, f (theta a) * Y ⟨0, hm⟩ a ^ 2) * nrm x ^ 2 := by
  obtain ⟨w, a1, a2, a3, a4, a5⟩ := init_wf _ _ deg orth M0 hn h0
  obtain ⟨J, s, theta, Y, hJ, hJ1, hJ2, hF, hY, hq⟩ := quadCol_run K hK eps heps fuel M0 w B hB a1 (by rw [a4]; norm_num)
    (fresh_reached K eps fuel _ _ deg orth hn M0 M0 h0 (.refl M0) (.inl rfl)) x
  rw [a4] at hJ1 hJ2
  have htol : 0 < Real.sqrt n * (1e-8 : ℝ) := tol_pos hn (by norm_num)
  have hz : M0.alpha = Buf.zeros (M0.deg + 1) ∧ M0.beta = Buf.zeros (M0.deg + 1) := by
    unfold MF.init at h0
    split_ifs at h0
    cases h0
    exact ⟨rfl, rfl⟩
  refine ⟨w.dpos, J, theta, Y, _, _, _, ⟨hB, hx, hJ, fun i hi => (lt_of_lt_of_le htol (hJ1 i hi)).ne', hF.alpha_le, fun i hi _ => ?_, hF.beta_le, fun i hi _ => ?_, hY⟩,
    fun i hi hi' => ?_, fun hlt => ?_, quadColS_of g hq, hq, fun hb => ?_, fun hb => ?_, by rw [a2]⟩
  · rw [hF.alpha_gt i hi, hz.1]
    rfl
  · rw [hF.beta_gt i hi, hz.2]
    rfl
  · show _ ≤ s.beta.get i
    rw [hF.beta_le i (by omega)]
    have := hJ1 (i - 1) (by omega)
    rwa [Nat.sub_add_cancel hi] at this
  · show s.beta.get (J + 1) < _
    rw [hF.beta_le _ le_rfl]
    exact hJ2.resolve_right (by omega)
  · obtain ⟨a, ha⟩ := hb
    refine quadValue_nan _ a.2 ?_
    simp only
    rw [ofFin, dif_pos a.2, ofFin, dif_pos a.2]
    rcases ha with ha | ⟨ha, ha'⟩
    · exact .inl ha
    · refine .inr ⟨ha, ?_⟩
      show gwWeights Y a = 0
      unfold gwWeights
      rw [ha']
      norm_num
  · rw [quadValue_fin (f := f) _ fun i hi => by
      simp only
      rw [ofFin, dif_pos hi]
      exact hb _]
    simp only
    rw [sum_ofFin fun a b => f a * b, a2]
    rfl

theorem run_matvec (K : TriKernels) (hK : EighOk K) (eps : ℝ) (heps : 0 ≤ eps) (fuel : ℕ) (B : Matrix (Fin n) (Fin n) ℝ) (hB : B.IsSymm) (f : ℝ → ℝ) (g : ℝ → Fl)
    (deg orth : ℤ) (hn : 0 < n) {M0 : MF n} (h0 : MF.init B.mulVec f deg orth = .ok M0) (x : Vec n) (hx : x ≠ 0) :
    ∃ (hm : 0 < M0.deg) (J : ℕ) (theta : Fin M0.deg → ℝ) (Y : Matrix (Fin M0.deg) (Fin M0.deg) ℝ) (M' : MF n) (y : Fin n → Fl) (r : Vec n),
      FreshRun B x M0.deg J M'.alpha.get M'.beta.get theta Y ∧
      (∀ i, 1 ≤ i → i ≤ J → Real.sqrt n * 1e-8 ≤ M'.beta.get i) ∧ (J + 1 < M0.deg → M'.beta.get (J + 1) < Real.sqrt n * 1e-8) ∧
      M0.matvecS K eps fuel g x = some (.ok (M', y)) ∧ M0.matvec K eps fuel x = some (.ok (M', some r)) ∧
      (Bad g theta Y hm → ∀ i, y i = .nan) ∧ ((∀ a, g (theta a) = .fin (f (theta a))) → ∀ i, y i = .fin (r i)) := by
  obtain ⟨w, a1, a2, a3, a4, a5⟩ := init_wf _ _ deg orth M0 hn h0
  have htol : 0 < Real.sqrt n * (1e-8 : ℝ) := tol_pos hn (by norm_num)
  have hz : M0.alpha = Buf.zeros (M0.deg + 1) ∧ M0.beta = Buf.zeros (M0.deg + 1) := by
    unfold MF.init at h0
    split_ifs at h0
    cases h0
    exact ⟨rfl, rfl⟩
  have hQl : M0.zeroQ.len = M0.deg := w.Q_len
  obtain ⟨J, s, hJ, hJ1, hJ2, hs, hF⟩ := lanczosNative_run M0.A (a1 ▸ SelfAdj.mulVec hB) eps heps x M0.deg w.dpos M0.rtol (by rw [a4]; norm_num)
    w.npos M0.orth M0.alpha M0.beta M0.zeroQ (Or.inr fun l _ _ => zeroQ_fresh M0 w l) (by rw [w.alpha_len]; omega)
    (by rw [w.beta_len]) (by rw [hQl]; exact w.dpos) (by rw [hQl]; have := w.dpos; omega)
  rw [a1] at hJ1 hJ2 hF
  rw [a4] at hJ1 hJ2
  have hd := w.dpos
  obtain ⟨theta, Y, h1, -, h2⟩ := eighTridiag_ok K hK ⟨M0.deg, s.alpha.get⟩ ⟨M0.deg - 1, fun i => s.beta.get (i + 1)⟩
    hd (Or.inl (by show M0.deg = M0.deg - 1 + 1; omega)) 30 fuel
  have hY : IsEigh (triMat M0.deg s.alpha.get s.beta.get) theta Y := by
    rw [triMat_congr (d' := s.alpha.get) (e' := s.beta.get)] at h2
    · exact h2
    · intro i _; rfl
    · intro i hi1 hi2
      unfold padE
      rw [if_pos (by simp only; omega)]
      simp only
      rw [if_neg (by omega), Nat.sub_add_cancel hi1]
  have e1 : M0.matvecS K eps fuel g x = some (.ok ({ M0 with alpha := s.alpha, beta := s.beta, Q := s.Q }, fun i => Fl.sum (List.ofFn fun a : Fin M0.deg =>
      Fl.scale (∑ l : Fin M0.deg, nrm x * s.Q.get l i * Y l a) ((g (theta a)).mul (.fin (Y ⟨0, a.pos⟩ a)))))) := by
    unfold MF.matvecS
    simp only [hs, h1]
  have e2 : M0.matvec K eps fuel x = some (.ok ({ M0 with alpha := s.alpha, beta := s.beta, Q := s.Q },
      some fun i => ∑ l : Fin M0.deg, nrm x * s.Q.get l i * ∑ a, Y l a * (M0.f (theta a) * Y ⟨0, hd⟩ a))) := by
    unfold MF.matvec
    simp only [hs, h1]
  refine ⟨hd, J, theta, Y, _, _, _, ⟨hB, hx, hJ, fun i hi => (lt_of_lt_of_le htol (hJ1 i hi)).ne', hF.alpha_le, fun i hi _ => ?_, hF.beta_le, fun i hi _ => ?_, hY⟩,
    fun i hi hi' => ?_, fun hlt => ?_, e1, e2, fun hb i => ?_, fun hb i => ?_⟩
  · rw [hF.alpha_gt i hi, hz.1]
    rfl
  · rw [hF.beta_gt i hi, hz.2]
    rfl
  · show _ ≤ s.beta.get i
    rw [hF.beta_le i (by omega)]
    have := hJ1 (i - 1) (by omega)
    rwa [Nat.sub_add_cancel hi] at this
  · show s.beta.get (J + 1) < _
    rw [hF.beta_le _ le_rfl]
    exact hJ2.resolve_right (by omega)
  · obtain ⟨a, ha⟩ := hb
    have h3 : (g (theta a)).mul (.fin (Y ⟨0, hd⟩ a)) = .nan := by
      rcases ha with h | ⟨h, h'⟩
      · rw [h, Fl.nan_mul]
      · rw [h']
        cases hg : g (theta a) with
        | fin r => exact absurd ⟨r, hg⟩ h
        | pinf => simp [Fl.mul, Fl.scale]
        | ninf => simp [Fl.mul, Fl.scale]
        | nan => rfl
    exact Fl.sum_nan (List.mem_ofFn.2 ⟨a, by rw [h3]; rfl⟩)
  · have h3 : (List.ofFn fun a : Fin M0.deg => Fl.scale (∑ l : Fin M0.deg, nrm x * s.Q.get l i * Y l a) ((g (theta a)).mul (.fin (Y ⟨0, a.pos⟩ a)))) =
        (List.ofFn fun a : Fin M0.deg => (∑ l : Fin M0.deg, nrm x * s.Q.get l i * Y l a) * (f (theta a) * Y ⟨0, a.pos⟩ a)).map .fin := by
      rw [List.map_ofFn]
      congr 1
      funext a
      rw [hb a]
      rfl
    show Fl.sum _ = _
    rw [h3, Fl.sum_fin, List.sum_ofFn, a2]
    congr 1
    simp only [Finset.sum_mul, Finset.mul_sum]
    rw [Finset.sum_comm]
    exact Finset.sum_congr rfl fun l _ => Finset.sum_congr rfl fun a _ => by ring

/-! ## C155 -/

/-- A function such as `np.log`: finite on positive numbers, NaN on negative ones, not finite at zero. -/
structure Spec.LogLike (g : ℝ → Fl) (f : ℝ → ℝ) : Prop where
  pos : ∀ t, 0 < t → g t = .fin (f t)
  zero : ¬ Spec.Finite (g 0)
  neg : ∀ t, t < 0 → g t = .nan

theorem bad_log {B : Matrix (Fin n) (Fin n) ℝ} {x : Vec n} {m J : ℕ} {al be : ℕ → ℝ} {theta : Fin m → ℝ} {Y : Matrix (Fin m) (Fin m) ℝ} (h : FreshRun B x m J al be theta Y)
    (hp : ∀ u : Vec n, u ≠ 0 → 0 < quadForm B u) {g : ℝ → Fl} {f : ℝ → ℝ} (hg : LogLike g f) (hJ : J + 1 < m) (hm : 0 < m) : Bad g theta Y hm := by
  by_cases hb : be (J + 1) = 0
  · obtain ⟨a, ha⟩ := h.zero_node hJ (.inl hb)
    exact ⟨a, .inr ⟨ha ▸ hg.zero, h.zero_weight hp ha _ (Nat.zero_le _)⟩⟩
  · obtain ⟨a, ha⟩ := h.neg_node hJ hb
    exact ⟨a, .inl (hg.neg _ ha)⟩

/-- **C155** (`np.log` and the like).  Let `A` be positive definite.  On a new object `quad(x)` and `M @ x` are NaN if the iteration stops before the last step (some off-diagonal entry is
below `√n · 1e-8`), and else the finite values of the other theorems. -/
theorem C155_log (K : TriKernels) (hK : EighOk K) (eps : ℝ) (heps : 0 ≤ eps) (fuel : ℕ) (B : Matrix (Fin n) (Fin n) ℝ) (hB : B.IsSymm)
    (hp : ∀ u : Vec n, u ≠ 0 → 0 < quadForm B u) (f : ℝ → ℝ) (g : ℝ → Fl) (hg : LogLike g f) (deg orth : ℤ) (hn : 0 < n) {M0 : MF n}
    (h0 : MF.init B.mulVec f deg orth = .ok M0) (x : Vec n) (hx : x ≠ 0) :
    (∃ M' y r, M0.quadColS K eps fuel g x = some (.ok (M', y)) ∧ M0.quadCol K eps fuel x = some (.ok (M', some r)) ∧
      ((∃ i, 1 ≤ i ∧ i < M0.deg ∧ M'.beta.get i < Real.sqrt n * 1e-8) → y = .nan) ∧
      ((∀ i, 1 ≤ i → i < M0.deg → Real.sqrt n * 1e-8 ≤ M'.beta.get i) → y = .fin r)) ∧
    ∃ M' y r, M0.matvecS K eps fuel g x = some (.ok (M', y)) ∧ M0.matvec K eps fuel x = some (.ok (M', some r)) ∧
      ((∃ i, 1 ≤ i ∧ i < M0.deg ∧ M'.beta.get i < Real.sqrt n * 1e-8) → ∀ k, y k = .nan) ∧
      ((∀ i, 1 ≤ i → i < M0.deg → Real.sqrt n * 1e-8 ≤ M'.beta.get i) → ∀ k, y k = .fin (r k)) := by
  constructor
  · obtain ⟨hm, J, theta, Y, M', y, r, h, h1, h2, h3, h4, h5, h6, -⟩ := run_quad K hK eps heps fuel B hB f g deg orth hn h0 x hx
    have hl := h.lt
    refine ⟨M', y, r, h3, h4, fun ⟨i, hi, hi', hb⟩ => h5 (bad_log h hp hg ?_ hm), fun hb => h6 fun a => hg.pos _ (h.pos_node hp ?_ a)⟩
    · by_contra hc
      exact absurd (h1 i hi (by omega)) (not_le.2 hb)
    · by_contra hc
      exact absurd (hb (J + 1) (by omega) (by omega)) (not_le.2 (h2 (by omega)))
  · obtain ⟨hm, J, theta, Y, M', y, r, h, h1, h2, h3, h4, h5, h6⟩ := run_matvec K hK eps heps fuel B hB f g deg orth hn h0 x hx
    have hl := h.lt
    refine ⟨M', y, r, h3, h4, fun ⟨i, hi, hi', hb⟩ => h5 (bad_log h hp hg ?_ hm), fun hb => h6 fun a => hg.pos _ (h.pos_node hp ?_ a)⟩
    · by_contra hc
      exact absurd (h1 i hi (by omega)) (not_le.2 hb)
    · by_contra hc
      exact absurd (hb (J + 1) (by omega) (by omega)) (not_le.2 (h2 (by omega)))

/-- **C155** (`fun="inv"`).  Let `A` be positive definite.  On a new object `quad(x)` and `M @ x` are NaN if and only if some off-diagonal entry is zero. -/
theorem C155_inv (K : TriKernels) (hK : EighOk K) (eps : ℝ) (heps : 0 ≤ eps) (fuel : ℕ) (B : Matrix (Fin n) (Fin n) ℝ) (hB : B.IsSymm)
    (hp : ∀ u : Vec n, u ≠ 0 → 0 < quadForm B u) (kw : String → Option ℝ) (g : ℝ → Fl) (hg : paramCallable (.str "inv") kw = .ok g) (deg orth : ℤ) (hn : 0 < n) {M0 : MF n}
    (h0 : MF.init B.mulVec (fun t => 1 / t) deg orth = .ok M0) (x : Vec n) (hx : x ≠ 0) :
    (∃ M' y r, M0.quadColS K eps fuel g x = some (.ok (M', y)) ∧ M0.quadCol K eps fuel x = some (.ok (M', some r)) ∧
      ((∃ i, 1 ≤ i ∧ i < M0.deg ∧ M'.beta.get i = 0) → y = .nan) ∧ ((∀ i, 1 ≤ i → i < M0.deg → M'.beta.get i ≠ 0) → y = .fin r)) ∧
    ∃ M' y r, M0.matvecS K eps fuel g x = some (.ok (M', y)) ∧ M0.matvec K eps fuel x = some (.ok (M', some r)) ∧
      ((∃ i, 1 ≤ i ∧ i < M0.deg ∧ M'.beta.get i = 0) → ∀ k, y k = .nan) ∧ ((∀ i, 1 ≤ i → i < M0.deg → M'.beta.get i ≠ 0) → ∀ k, y k = .fin (r k)) := by
  have hg0 : ¬ Spec.Finite (g 0) := by
    simp [paramCallable, BUILTIN_MATRIX_FUNCTIONS] at hg
    rw [← hg]
    simp [Fl.divFin]
  have hg1 : ∀ t, t ≠ 0 → g t = .fin (1 / t) := by
    intro t ht
    simp [paramCallable, BUILTIN_MATRIX_FUNCTIONS] at hg
    rw [← hg]
    simp [Fl.divFin, ht]
  have htol : 0 < Real.sqrt n * (1e-8 : ℝ) := tol_pos hn (by norm_num)
  have key : ∀ {m J : ℕ} {al be : ℕ → ℝ} {theta : Fin m → ℝ} {Y : Matrix (Fin m) (Fin m) ℝ} (h : FreshRun B x m J al be theta Y)
      (h1 : ∀ i, 1 ≤ i → i ≤ J → Real.sqrt n * 1e-8 ≤ be i) (hm : 0 < m),
      ((∃ i, 1 ≤ i ∧ i < m ∧ be i = 0) → Bad g theta Y hm) ∧ ((∀ i, 1 ≤ i → i < m → be i ≠ 0) → ∀ a, g (theta a) = .fin (1 / theta a)) := by
    intro m J al be theta Y h h1 hm
    have hl := h.lt
    constructor
    · rintro ⟨i, hi, hi', hb⟩
      have hJi : J < i := by
        by_contra hc
        have := h1 i hi (by omega)
        rw [hb] at this
        exact absurd this (not_le.2 htol)
      obtain ⟨a, ha⟩ := h.zero_node (by omega) (by
        by_cases hc : i = J + 1
        · exact .inl (hc ▸ hb)
        · exact .inr (by omega))
      exact ⟨a, .inr ⟨ha ▸ hg0, h.zero_weight hp ha _ (Nat.zero_le _)⟩⟩
    · intro hb a
      refine hg1 _ ?_
      by_cases hJ : J + 1 = m
      · exact (h.pos_node hp hJ a).ne'
      · have hJ2 : J + 2 = m := by
          by_contra hc
          exact hb (J + 2) (by omega) (by omega) (h.hb0 _ (by omega) (by omega))
        exact h.ne_node hp hJ2 (hb _ (by omega) (by omega)) a
  constructor
  · obtain ⟨hm, J, theta, Y, M', y, r, h, h1, h2, h3, h4, h5, h6, -⟩ := run_quad K hK eps heps fuel B hB _ g deg orth hn h0 x hx
    exact ⟨M', y, r, h3, h4, fun hb => h5 ((key h h1 hm).1 hb), fun hb => h6 ((key h h1 hm).2 hb)⟩
  · obtain ⟨hm, J, theta, Y, M', y, r, h, h1, h2, h3, h4, h5, h6⟩ := run_matvec K hK eps heps fuel B hB _ g deg orth hn h0 x hx
    exact ⟨M', y, r, h3, h4, fun hb => h5 ((key h h1 hm).1 hb), fun hb => h6 ((key h h1 hm).2 hb)⟩

/-- **C155** (`fun="sqrt"`).  Let `A` be positive semidefinite.  On a new object `quad(x)` and `M @ x` are NaN if and only if the iteration stops before the last step at a residual that is not zero
(some off-diagonal entry lies strictly between 0 and `√n · 1e-8`). -/
theorem C155_sqrt (K : TriKernels) (hK : EighOk K) (eps : ℝ) (heps : 0 ≤ eps) (fuel : ℕ) (B : Matrix (Fin n) (Fin n) ℝ) (hB : B.IsSymm)
    (hp : ∀ u : Vec n, 0 ≤ quadForm B u) (kw : String → Option ℝ) (g : ℝ → Fl) (hg : paramCallable (.str "sqrt") kw = .ok g) (deg orth : ℤ) (hn : 0 < n) {M0 : MF n}
    (h0 : MF.init B.mulVec Real.sqrt deg orth = .ok M0) (x : Vec n) (hx : x ≠ 0) :
    (∃ M' y r, M0.quadColS K eps fuel g x = some (.ok (M', y)) ∧ M0.quadCol K eps fuel x = some (.ok (M', some r)) ∧
      ((∃ i, 1 ≤ i ∧ i < M0.deg ∧ 0 < M'.beta.get i ∧ M'.beta.get i < Real.sqrt n * 1e-8) → y = .nan) ∧
      ((∀ i, 1 ≤ i → i < M0.deg → M'.beta.get i ≤ 0 ∨ Real.sqrt n * 1e-8 ≤ M'.beta.get i) → y = .fin r)) ∧
    ∃ M' y r, M0.matvecS K eps fuel g x = some (.ok (M', y)) ∧ M0.matvec K eps fuel x = some (.ok (M', some r)) ∧
      ((∃ i, 1 ≤ i ∧ i < M0.deg ∧ 0 < M'.beta.get i ∧ M'.beta.get i < Real.sqrt n * 1e-8) → ∀ k, y k = .nan) ∧
      ((∀ i, 1 ≤ i → i < M0.deg → M'.beta.get i ≤ 0 ∨ Real.sqrt n * 1e-8 ≤ M'.beta.get i) → ∀ k, y k = .fin (r k)) := by
  have hg0 : ∀ t, t < 0 → g t = .nan := by
    intro t ht
    simp [paramCallable, BUILTIN_MATRIX_FUNCTIONS] at hg
    rw [← hg]
    simp [ht]
  have hg1 : ∀ t, 0 ≤ t → g t = .fin (Real.sqrt t) := by
    intro t ht
    simp [paramCallable, BUILTIN_MATRIX_FUNCTIONS] at hg
    rw [← hg]
    simp [not_lt.2 ht]
  have key : ∀ {m J : ℕ} {al be : ℕ → ℝ} {theta : Fin m → ℝ} {Y : Matrix (Fin m) (Fin m) ℝ} (h : FreshRun B x m J al be theta Y)
      (h1 : ∀ i, 1 ≤ i → i ≤ J → Real.sqrt n * 1e-8 ≤ be i) (h2 : J + 1 < m → be (J + 1) < Real.sqrt n * 1e-8) (hm : 0 < m),
      ((∃ i, 1 ≤ i ∧ i < m ∧ 0 < be i ∧ be i < Real.sqrt n * 1e-8) → Bad g theta Y hm) ∧
      ((∀ i, 1 ≤ i → i < m → be i ≤ 0 ∨ Real.sqrt n * 1e-8 ≤ be i) → ∀ a, g (theta a) = .fin (Real.sqrt (theta a))) := by
    intro m J al be theta Y h h1 h2 hm
    have hl := h.lt
    constructor
    · rintro ⟨i, hi, hi', hb, hb'⟩
      have hJi : i = J + 1 := by
        by_contra hc
        by_cases hJ : i ≤ J
        · exact absurd (h1 i hi hJ) (not_le.2 hb')
        · exact absurd (h.hb0 i (by omega) hi') hb.ne'
      subst hJi
      obtain ⟨a, ha⟩ := h.neg_node hi' hb.ne'
      exact ⟨a, .inl (hg0 _ ha)⟩
    · intro hb a
      refine hg1 _ (h.nonneg hp (fun hJ => ?_) a)
      rcases hb (J + 1) (by omega) hJ with h3 | h3
      · refine le_antisymm h3 ?_
        rw [h.hb (J + 1) le_rfl, lzb_succ]
        exact nrm_nonneg _
      · exact absurd h3 (not_le.2 (h2 hJ))
  constructor
  · obtain ⟨hm, J, theta, Y, M', y, r, h, h1, h2, h3, h4, h5, h6, -⟩ := run_quad K hK eps heps fuel B hB _ g deg orth hn h0 x hx
    exact ⟨M', y, r, h3, h4, fun hb => h5 ((key h h1 h2 hm).1 hb), fun hb => h6 ((key h h1 h2 hm).2 hb)⟩
  · obtain ⟨hm, J, theta, Y, M', y, r, h, h1, h2, h3, h4, h5, h6⟩ := run_matvec K hK eps heps fuel B hB _ g deg orth hn h0 x hx
    exact ⟨M', y, r, h3, h4, fun hb => h5 ((key h h1 h2 hm).1 hb), fun hb => h6 ((key h h1 h2 hm).2 hb)⟩

/-- **C155** (finite functions).  A function that is finite everywhere, as the other builtin ones (`"log"` included), gives finite values on every object and vector on which the real function does. -/
theorem C155_finite (K : TriKernels) (eps : ℝ) (fuel : ℕ) (M M' : MF n) (g : ℝ → Fl) (hg : ∀ t, g t = .fin (M.f t)) (x : Vec n) (r : ℝ)
    (h : M.quadCol K eps fuel x = some (.ok (M', some r))) : M.quadColS K eps fuel g x = some (.ok (M', .fin r)) := by
  rw [quadColS_of g h, quadValue_fin (f := M.f) _ fun i _ => hg _]
  unfold MF.quadCol at h
  simp only at h
  split at h
  · cases h
  · split at h
    · cases h
    · cases h
    · cases h
    · cases h
      rfl

/-- C155: for every state of the object, product or failure, the two models of `_matvec` leave the same state behind and raise the same exceptions; if the eigensolver returns
NaN, so does the product. -/
theorem C155_state (K : TriKernels) (eps : ℝ) (fuel : ℕ) (g : ℝ → Fl) (M M' : MF n) (x : Vec n) (er : PyErr) :
    (M.matvecS K eps fuel g x = none ↔ M.matvec K eps fuel x = none) ∧
    (M.matvecS K eps fuel g x = some (.error er) ↔ M.matvec K eps fuel x = some (.error er)) ∧
    ((∃ y, M.matvecS K eps fuel g x = some (.ok (M', y))) ↔ ∃ r, M.matvec K eps fuel x = some (.ok (M', r))) ∧
    (M.matvec K eps fuel x = some (.ok (M', none)) → M.matvecS K eps fuel g x = some (.ok (M', fun _ => .nan))) := by
  unfold MF.matvecS MF.matvec
  cases lanczosNative M.A eps x M.deg M.rtol M.orth M.alpha M.beta M.zeroQ with
  | error e => simp
  | ok s =>
    simp only
    rcases eighTridiag K ⟨M.deg, s.alpha.get⟩ ⟨M.deg - 1, fun i => s.beta.get (i + 1)⟩ "auto" 30 fuel with _ | _ | _ | ⟨rw, Y⟩ <;> simp

end Primate
