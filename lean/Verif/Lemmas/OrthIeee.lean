import Verif.Lemmas.LanczosIeee
import Verif.Lemmas.OrthPass

/-! The operations of the re-orthogonalisation in IEEE arithmetic. -/

noncomputable section

namespace Primate

open Matrix Spec

variable {n : ℕ} {φ : Fmt} {fl : ℝ → ℝ}

theorem dotOrder_zero (h0 : fl 0 = 0) {xs : List (ℝ × ℝ)} {s : ℝ} (h : DotOrder fl xs s) (hx : ∀ q ∈ xs, q = (0, 0)) : s = 0 := by
  induction h with
  | single a b =>
    have := hx (a, b) (List.mem_singleton.2 rfl)
    rw [Prod.mk.injEq] at this
    rw [this.1, zero_mul, h0]
  | node _ _ ih1 ih2 =>
    rw [ih1 fun q hq => hx q (List.mem_append_left _ hq), ih2 fun q hq => hx q (List.mem_append_right _ hq), add_zero, h0]
  | fma _ ih =>
    rename_i a b ys t _
    have := hx (a, b) List.mem_cons_self
    rw [Prod.mk.injEq] at this
    rw [this.1, zero_mul, ih fun q hq => hx q (List.mem_cons_of_mem _ hq), add_zero, h0]
  | perm hp _ ih => exact ih fun q hq => hx q (hp.mem_iff.1 hq)

/-- Operations rounded to nearest have the relative error `8 (n + 1) u`. -/
theorem rounded_orth_ok (hn : φ.Nearest fl) (A : Matrix (Fin n) (Fin n) ℝ) {K : LKernels n} (hK : LKernelsRounded fl A K) (M τ B : ℝ) (hM : 0 < M) (hB : 0 ≤ B)
    (hn0 : 0 < n) (hR : φ.Room n M τ B) : OKernelsOk K M (8 * (n + 1) * φ.u) B := by
  have up := φ.u_pos
  have ep := φ.eta_pos
  have u1 : φ.u ≤ 1 := φ.u_le_one
  have hnr : (1 : ℝ) ≤ n := by exact_mod_cast hn0
  have he := hR.exp
  have hsz := hR.size
  have hone : n * φ.eta ≤ 1 := hR.low_one.trans u1
  have hen : φ.eta ≤ n * φ.eta := le_mul_of_one_le_left ep.le hnr
  have hBB : 0 ≤ B * B := by positivity
  have t4 : n * φ.eta ≤ n * n * φ.eta := by
    rw [mul_assoc]
    exact le_mul_of_one_le_left (by positivity) hnr
  have t5 := hR.low_M
  have w3 : 0 ≤ φ.u * M := by positivity
  have w6 : 0 ≤ n * (φ.u * M) := by positivity
  refine ⟨fun j v u hv hu => ?_, fun j u _ hu => ?_, fun j => ?_, fun a b ha hb => ?_⟩
  · have hc : ∑ i, |v i * u i| ≤ 2 * nrm v := by
      refine (sum_abs_mul_le v u).trans ?_
      have := mul_le_mul_of_nonneg_left hu (nrm_nonneg v)
      linarith
    have := (dot_err hn he hsz hone v u _ _ (hK.dot j v u) hc (by linarith [hR.high])).1
    refine this.trans ?_
    have w1 : 0 ≤ φ.u * nrm v := mul_nonneg up.le (nrm_nonneg _)
    have w4 : 0 ≤ n * (φ.u * nrm v) := by positivity
    linarith
  · have hc : ∑ i, |u i * u i| ≤ 2.25 := by
      refine (sum_abs_mul_le u u).trans ?_
      have := mul_le_mul hu hu (nrm_nonneg u) (by norm_num)
      linarith
    have := (dot_err hn he hsz hone u u _ _ (hK.sqnorm j u) hc (by linarith [hR.high])).1
    refine this.trans ?_
    have := hR.low_one
    have : 0 ≤ (n : ℝ) * φ.u := by positivity
    linarith
  · exact dotOrder_zero (hn.zero he) (hK.sqnorm j 0) fun q hq => by
      rw [List.mem_ofFn] at hq
      obtain ⟨i, rfl⟩ := hq
      rfl
  · have hb0 : 0 < b := by linarith
    have hab : |a / b| ≤ 2 * B := by
      rw [abs_div, abs_of_pos hb0, div_le_iff₀ hb0]
      have := mul_le_mul_of_nonneg_left hb (by linarith : 0 ≤ 2 * B)
      linarith
    rw [hK.div]
    have := hn.err he (show |a / b| ≤ φ.top by linarith [hR.high])
    refine this.trans ?_
    rw [abs_div, abs_of_pos hb0]
    have w1 : 0 ≤ φ.u * (|a| / b) := mul_nonneg up.le (by positivity)
    have w4 : 0 ≤ n * (φ.u * (|a| / b)) := by positivity
    linarith

end Primate
