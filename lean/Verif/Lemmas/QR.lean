import Verif.Prelude
import Mathlib.Analysis.InnerProductSpace.PiL2

/-! Existence of a reduced QR factor: the contract assumed of `np.linalg.qr` is satisfiable. -/

namespace Primate

open Matrix Module

/-- Contract of `np.linalg.qr(Y, mode="reduced")[0]`: orthonormal columns whose span contains
the columns of `Y`. -/
structure IsQR {N nb r : ℕ} (Y : Fin nb → Fin N → ℝ) (Q : Fin r → Fin N → ℝ) : Prop where
  orth : ∀ a b, ∑ i, Q a i * Q b i = if a = b then 1 else 0
  span : ∃ R : Fin r → Fin nb → ℝ, ∀ j i, Y j i = ∑ l, Q l i * R l j

theorem exists_isQR {N nb : ℕ} (Y : Fin nb → Fin N → ℝ) :
    ∃ Q : Fin (min N nb) → Fin N → ℝ, IsQR Y Q := by
  let E := EuclideanSpace ℝ (Fin N)
  let y : Fin nb → E := fun j => WithLp.toLp 2 (Y j)
  let S : Submodule ℝ E := Submodule.span ℝ (Set.range y)
  have h1 : finrank ℝ S ≤ nb := (finrank_range_le_card (R := ℝ) y).trans (by simp)
  have h2 : finrank ℝ E = N := by simp [E]
  have h3 : finrank ℝ S ≤ N := (Submodule.finrank_le S).trans_eq h2
  -- a subspace of dimension `min N nb` containing `S`
  obtain ⟨T, hST, hT⟩ : ∃ T : Submodule ℝ E, S ≤ T ∧ finrank ℝ T = min N nb := by
    have : ∀ k, finrank ℝ S ≤ k → k ≤ N → ∃ T : Submodule ℝ E, S ≤ T ∧ finrank ℝ T = k := by
      intro k hk
      induction k, hk using Nat.le_induction with
      | base => intro _; exact ⟨S, le_rfl, rfl⟩
      | succ k hk ih =>
        intro hkN
        obtain ⟨T, hST, hT⟩ := ih (by omega)
        have hne : T ≠ ⊤ := by
          intro h
          rw [h, finrank_top, h2] at hT; omega
        obtain ⟨v, -, hv⟩ := SetLike.exists_of_lt (lt_top_iff_ne_top.mpr hne)
        refine ⟨T ⊔ Submodule.span ℝ {v}, le_trans hST le_sup_left, ?_⟩
        have := Submodule.finrank_sup_add_finrank_inf_eq T (Submodule.span ℝ {v})
        have hv0 : v ≠ 0 := by rintro rfl; exact hv T.zero_mem
        rw [finrank_span_singleton hv0, (Submodule.disjoint_span_singleton'  hv0).mpr hv |>.eq_bot,
          finrank_bot] at this
        omega
    exact this _ (le_min h3 h1) (min_le_left _ _)
  let b := (stdOrthonormalBasis ℝ T).reindex (finCongr hT)
  refine ⟨fun l i => (b l : E) i, ?_, ?_⟩
  · intro l l'
    have := orthonormal_iff_ite.mp b.orthonormal l' l
    rw [Submodule.coe_inner, EuclideanSpace.inner_eq_star_dotProduct] at this
    simp only [star_trivial, dotProduct] at this
    rw [this]
    exact if_congr eq_comm rfl rfl
  · refine ⟨fun l j => inner ℝ (b l) (⟨y j, hST (Submodule.subset_span ⟨j, rfl⟩)⟩ : T), ?_⟩
    intro j i
    have := b.sum_repr' (⟨y j, hST (Submodule.subset_span ⟨j, rfl⟩)⟩ : T)
    have h4 := congrArg ((EuclideanSpace.proj i : E →L[ℝ] ℝ).toLinearMap ∘ₗ T.subtype) this
    rw [map_sum] at h4
    simp only [map_smul, smul_eq_mul] at h4
    have h5 : y j i = Y j i := rfl
    rw [← h5]
    refine Eq.trans ?_ (h4.symm.trans ?_)
    · rfl
    · exact Finset.sum_congr rfl fun l _ => mul_comm _ _

end Primate
