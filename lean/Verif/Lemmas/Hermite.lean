import Mathlib.LinearAlgebra.Lagrange
import Mathlib.Analysis.Calculus.LocalExtr.Rolle
import Mathlib.Analysis.Calculus.Deriv.Polynomial
import Mathlib.Data.Finset.Sort
import Mathlib.Tactic.Linarith
import Mathlib.Tactic.FieldSimp
import Mathlib.Tactic.Ring
import Mathlib.Tactic.Positivity

/-!
# Hermite interpolation at a finite set and its remainder
-/

noncomputable section

namespace Primate

open Polynomial

/-- A polynomial of degree below `2 |S|` with given values and derivatives at `S`. -/
theorem exists_hermite (S : Finset ℝ) (hS : S.Nonempty) (a b : ℝ → ℝ) :
    ∃ p : ℝ[X], p.natDegree < 2 * S.card ∧ (∀ s ∈ S, p.eval s = a s) ∧ ∀ s ∈ S, (derivative p).eval s = b s := by
  have hid : Set.InjOn (id : ℝ → ℝ) S := Function.injective_id.injOn
  set L := Lagrange.interpolate S id a with hL
  set W := Lagrange.nodal S (id : ℝ → ℝ) with hW
  set M := Lagrange.interpolate S id (fun s => (b s - (derivative L).eval s) / (derivative W).eval s) with hM
  have hc : 0 < S.card := hS.card_pos
  have hW' : ∀ s ∈ S, (derivative W).eval s ≠ 0 := by
    intro s hs
    have h1 := Lagrange.eval_nodal_derivative_eval_node_eq (v := (id : ℝ → ℝ)) hs
    rw [hW]
    simp only [id] at h1 ⊢
    rw [h1]
    refine Lagrange.eval_nodal_not_at_node fun i hi h => ?_
    exact (Finset.ne_of_mem_erase hi) h.symm
  refine ⟨L + W * M, ?_, fun s hs => ?_, fun s hs => ?_⟩
  · have h1 : L.degree < S.card := Lagrange.degree_interpolate_lt _ hid
    have h2 : M.degree < S.card := Lagrange.degree_interpolate_lt _ hid
    have h3 : W.natDegree = S.card := Lagrange.natDegree_nodal
    have h1' : L.natDegree < S.card := by
      rcases eq_or_ne L 0 with h | h
      · rw [h]; simpa using hc
      · exact (natDegree_lt_iff_degree_lt h).2 h1
    have h2' : M.natDegree < S.card := by
      rcases eq_or_ne M 0 with h | h
      · rw [h]; simpa using hc
      · exact (natDegree_lt_iff_degree_lt h).2 h2
    have h4 := natDegree_add_le L (W * M)
    have h5 := natDegree_mul_le (p := W) (q := M)
    rcases max_choice L.natDegree (W * M).natDegree with h | h <;> omega
  · have h1 : W.eval s = 0 := Lagrange.eval_nodal_at_node (v := (id : ℝ → ℝ)) hs
    have h2 : L.eval s = a s := Lagrange.eval_interpolate_at_node _ hid hs
    rw [eval_add, eval_mul, h1, h2, zero_mul, add_zero]
  · have h1 : W.eval s = 0 := Lagrange.eval_nodal_at_node (v := (id : ℝ → ℝ)) hs
    have h2 : M.eval s = (b s - (derivative L).eval s) / (derivative W).eval s :=
      Lagrange.eval_interpolate_at_node _ hid hs
    rw [derivative_add, derivative_mul, eval_add, eval_add, eval_mul, eval_mul, h1, h2, zero_mul, add_zero,
      mul_div_cancel₀ _ (hW' s hs)]
    ring

/-- Rolle's theorem for finitely many zeros: the new ones avoid the old ones. -/
theorem rolle_finset (lo hi : ℝ) (g g' : ℝ → ℝ) (hd : ∀ t ∈ Set.Icc lo hi, HasDerivAt g (g' t) t) (Z : Finset ℝ)
    (hZ : ∀ z ∈ Z, z ∈ Set.Icc lo hi ∧ g z = 0) :
    ∃ Z' : Finset ℝ, Z.card ≤ Z'.card + 1 ∧ Disjoint Z' Z ∧ ∀ z ∈ Z', z ∈ Set.Icc lo hi ∧ g' z = 0 := by
  obtain ⟨m, hm⟩ : ∃ m, Z.card = m := ⟨_, rfl⟩
  rcases m with _ | m
  · exact ⟨∅, by omega, by simp, by simp⟩
  let z := Z.orderEmbOfFin hm
  have hz : ∀ i, z i ∈ Z := fun i => Finset.orderEmbOfFin_mem Z hm i
  have hstep : ∀ i : Fin m, ∃ t ∈ Set.Ioo (z i.castSucc) (z i.succ), g' t = 0 := by
    intro i
    have hlt : z i.castSucc < z i.succ := z.strictMono Fin.castSucc_lt_succ
    have hsub : ∀ t ∈ Set.Icc (z i.castSucc) (z i.succ), t ∈ Set.Icc lo hi := fun t ht =>
      ⟨(hZ _ (hz _)).1.1.trans ht.1, ht.2.trans (hZ _ (hz _)).1.2⟩
    exact exists_hasDerivAt_eq_zero hlt (fun t ht => (hd t (hsub t ht)).continuousAt.continuousWithinAt)
      (by rw [(hZ _ (hz _)).2, (hZ _ (hz _)).2]) fun t ht => hd t (hsub t (Set.Ioo_subset_Icc_self ht))
  choose w hw hw' using hstep
  have hmono : StrictMono w := by
    intro i j hij
    have h1 := (hw i).2
    have h2 := (hw j).1
    have h3 : z i.succ ≤ z j.castSucc := z.monotone (Fin.succ_le_castSucc_iff.2 hij)
    linarith
  refine ⟨Finset.univ.image w, ?_, ?_, ?_⟩
  · rw [Finset.card_image_of_injective _ hmono.injective, Finset.card_univ, Fintype.card_fin, hm]
  · rw [Finset.disjoint_left]
    intro t ht htZ
    obtain ⟨i, -, rfl⟩ := Finset.mem_image.1 ht
    obtain ⟨j, hj⟩ : ∃ j, z j = w i := by
      have : w i ∈ Set.range z := by rw [Finset.range_orderEmbOfFin]; exact htZ
      exact this
    have h1 := hw i
    rw [← hj] at h1
    have h2 : i.castSucc < j := z.lt_iff_lt.1 h1.1
    have h3 : j < i.succ := z.lt_iff_lt.1 h1.2
    rw [Fin.lt_def] at h2 h3
    simp at h2 h3
    omega
  · intro t ht
    obtain ⟨i, -, rfl⟩ := Finset.mem_image.1 ht
    have h1 := hw i
    exact ⟨⟨(hZ _ (hz _)).1.1.trans h1.1.le, h1.2.le.trans (hZ _ (hz _)).1.2⟩, hw' i⟩

/-- `m + 1` zeros of a function give a zero of the `m`-th derivative. -/
theorem rolle_iterated (lo hi : ℝ) (m : ℕ) : ∀ (g : ℕ → ℝ → ℝ) (_ : ∀ j < m, ∀ t ∈ Set.Icc lo hi, HasDerivAt (g j) (g (j + 1) t) t)
    (Z : Finset ℝ) (_ : ∀ z ∈ Z, z ∈ Set.Icc lo hi ∧ g 0 z = 0) (_ : m + 1 ≤ Z.card), ∃ t ∈ Set.Icc lo hi, g m t = 0 := by
  induction m with
  | zero =>
    intro g _ Z hZ hc
    obtain ⟨z, hz⟩ := Finset.card_pos.1 (by omega : 0 < Z.card)
    exact ⟨z, hZ z hz⟩
  | succ m ih =>
    intro g hg Z hZ hc
    obtain ⟨Z', h1, -, h3⟩ := rolle_finset lo hi (g 0) (g 1) (hg 0 (by omega)) Z hZ
    exact ih (fun j => g (j + 1)) (fun j hj => hg (j + 1) (by omega)) Z' h3 (by omega)

theorem iterate_derivative_monic (q : ℝ[X]) (hq : q.Monic) (t : ℝ) :
    (derivative^[q.natDegree] q).eval t = (q.natDegree.factorial : ℝ) := by
  have h1 : derivative^[q.natDegree] q = C ((q.natDegree.factorial : ℝ)) := by
    have h2 : (derivative^[q.natDegree] q).natDegree = 0 := by
      have := natDegree_iterate_derivative q q.natDegree
      omega
    rw [eq_C_of_natDegree_eq_zero h2, coeff_iterate_derivative, zero_add, Nat.descFactorial_self]
    simp [hq.coeff_natDegree]
  rw [h1, eval_C]

/-- The remainder of Hermite interpolation. -/
theorem hermite_remainder (lo hi : ℝ) (S : Finset ℝ) (hS : S.Nonempty) (hSI : ∀ s ∈ S, s ∈ Set.Icc lo hi) (F : ℕ → ℝ → ℝ)
    (hF : ∀ j < 2 * S.card, ∀ t ∈ Set.Icc lo hi, HasDerivAt (F j) (F (j + 1) t) t) (p : ℝ[X]) (hp : p.natDegree < 2 * S.card)
    (hp0 : ∀ s ∈ S, p.eval s = F 0 s) (hp1 : ∀ s ∈ S, (derivative p).eval s = F 1 s) (x : ℝ) (hx : x ∈ Set.Icc lo hi) :
    ∃ t ∈ Set.Icc lo hi, F 0 x - p.eval x = F (2 * S.card) t / ((2 * S.card).factorial : ℝ) * (∏ s ∈ S, (x - s)) ^ 2 := by
  have hc := hS.card_pos
  by_cases hxS : x ∈ S
  · refine ⟨x, hx, ?_⟩
    rw [hp0 x hxS, Finset.prod_eq_zero hxS (sub_self x)]
    ring
  set W := Lagrange.nodal S (id : ℝ → ℝ) with hW
  have hWx : W.eval x = ∏ s ∈ S, (x - s) := Lagrange.eval_nodal
  have hWx0 : W.eval x ≠ 0 := Lagrange.eval_nodal_not_at_node fun i hi h => hxS (by rw [h]; exact hi)
  have hWS : ∀ s ∈ S, W.eval s = 0 := fun s hs => Lagrange.eval_nodal_at_node (v := (id : ℝ → ℝ)) hs
  set c := (F 0 x - p.eval x) / W.eval x ^ 2 with hcdef
  have hW2 : (W ^ 2).natDegree = 2 * S.card := by
    rw [natDegree_pow, hW, Lagrange.natDegree_nodal]
  have hWm : (W ^ 2).Monic := (Lagrange.nodal_monic (s := S) (v := (id : ℝ → ℝ))).pow 2
  let g : ℕ → ℝ → ℝ := fun j t => F j t - (derivative^[j] p).eval t - c * (derivative^[j] (W ^ 2)).eval t
  have hg : ∀ j < 2 * S.card, ∀ t ∈ Set.Icc lo hi, HasDerivAt (g j) (g (j + 1) t) t := by
    intro j hj t ht
    have h1 := (hF j hj t ht).sub ((derivative^[j] p).hasDerivAt t)
    have h2 := ((derivative^[j] (W ^ 2)).hasDerivAt t).const_mul c
    have h3 := h1.sub h2
    simp only [g, Function.iterate_succ_apply']
    exact h3
  have hg0 : ∀ z ∈ insert x S, z ∈ Set.Icc lo hi ∧ g 0 z = 0 := by
    intro z hz
    rcases Finset.mem_insert.1 hz with rfl | hz
    · refine ⟨hx, ?_⟩
      simp only [g, Function.iterate_zero, id, eval_pow, hcdef]
      field_simp
      ring
    · refine ⟨hSI z hz, ?_⟩
      simp only [g, Function.iterate_zero, id, eval_pow, hWS z hz, hp0 z hz]
      ring
  obtain ⟨Z', h1, h2, h3⟩ := rolle_finset lo hi (g 0) (g 1) (hg 0 (by omega)) _ hg0
  have hcard : (insert x S).card = S.card + 1 := Finset.card_insert_of_notMem hxS
  have hdis : Disjoint Z' S := Finset.disjoint_of_subset_right (Finset.subset_insert x S) h2
  obtain ⟨t, ht, ht0⟩ := rolle_iterated lo hi (2 * S.card - 1) (fun j => g (j + 1)) (fun j hj => hg (j + 1) (by omega)) (Z' ∪ S)
    (fun z hz => by
      rcases Finset.mem_union.1 hz with hz | hz
      · exact h3 z hz
      · refine ⟨hSI z hz, ?_⟩
        simp only [g, zero_add, Function.iterate_one, hp1 z hz, derivative_pow, eval_mul, eval_pow, hWS z hz]
        simp)
    (by rw [Finset.card_union_of_disjoint hdis]; omega)
  refine ⟨t, ht, ?_⟩
  simp only [show 2 * S.card - 1 + 1 = 2 * S.card by omega, g] at ht0
  have e1 := iterate_derivative_monic _ hWm t
  rw [hW2] at e1
  rw [iterate_derivative_eq_zero hp, e1, eval_zero, sub_zero] at ht0
  have e2 : F (2 * S.card) t = c * ((2 * S.card).factorial : ℝ) := by linarith
  have hf : ((2 * S.card).factorial : ℝ) ≠ 0 := by positivity
  rw [e2, mul_div_assoc, div_self hf, mul_one, ← hWx, hcdef]
  field_simp

end Primate
