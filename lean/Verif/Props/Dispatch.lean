import Verif.Model.Dispatch
import Verif.Props.Lanczos

/-!
# C82: element types and the results of `lanczos`
-/

noncomputable section

namespace Primate

open Matrix

variable {n : ℕ}

/-- C82: the overload that is called, for every combination of argument types: the precision of the arrays if they all have the same
one and the tolerance is a Python float, and single precision otherwise.  The operand is always of a kind the overload can take. -/
theorem C82_dispatch (c : CallTypes) :
    ∃ k, resolve c = some (k, if c.rtolFloat = true ∧ c.v = c.alpha ∧ c.beta = c.alpha ∧ c.Q = c.alpha then c.alpha else .f32) ∧
      (c.A.1 = .object → k = .object) ∧ (c.A.1 = .sparse → k = .sparse) ∧ (c.A.1 = .dense → k = .dense ∨ k = .sparse) := by
  obtain ⟨⟨k, p⟩, v, r, a, b, q⟩ := c
  cases k <;> cases p <;> cases v <;> cases r <;> cases a <;> cases b <;> cases q <;>
    exact ⟨_, rfl, by simp, by simp, by simp⟩

/-- C82 (`MatrixFunction`): its buffers and its vector have the element type of the object and its tolerance is a Python float
(`src/primate/operators.py:68-80, 117-119, 139-147`), so nothing that is computed gets lost, whatever the element type of the operand. -/
theorem C82_matrix_function (A : OperandKind × Prec) (p : Prec) : ∃ k, resolve ⟨A, p, true, p, p, p⟩ = some (k, p) := by
  obtain ⟨k, h, -⟩ := C82_dispatch ⟨A, p, true, p, p, p⟩
  refine ⟨k, ?_⟩
  simpa using h

/-- C82, the part that holds: for a single precision operand, and for a double precision operand if the tolerance is a Python float and
`dtype` is not float32, the arrays returned are those computed. -/
theorem C82_computed_partial (eps : ℝ) (t : LanczosTypes) (a : LanczosArgs n) (hq : t.qtype = none)
    (h : t.adtype = .f32 ∨ t.rtolFloat = true ∧ t.dtype ≠ some .f32) : lanczosTyped eps t a = lanczos eps a := by
  obtain ⟨k, hk, -⟩ := C82_dispatch t.call
  have hF : (if t.call.rtolFloat = true ∧ t.call.v = t.call.alpha ∧ t.call.beta = t.call.alpha ∧ t.call.Q = t.call.alpha then
      t.call.alpha else .f32) = t.adtype := by
    obtain ⟨kd, ad, dt, rf, qt⟩ := t
    simp only at hq h
    subst hq
    simp only [LanczosTypes.call, Option.getD_none, true_and, and_true]
    rcases h with rfl | ⟨rfl, h⟩
    · simp
    · rcases ad with _ | _
      · simp
      · rw [if_pos]
        refine ⟨rfl, ?_⟩
        rcases dt with _ | _ | _
        · rfl
        · exact absurd rfl h
        · rfl
  rw [hF] at hk
  unfold lanczosTyped lanczos
  simp only [hk]
  have e1 : t.call.alpha = t.adtype := rfl
  have e2 : t.call.beta = t.adtype := rfl
  have e3 : t.call.Q = t.adtype := by simp [LanczosTypes.call, hq]
  simp only [written, e1, e2, e3, if_true]
  rfl

/-- C82 is false of the code: for a double precision operand with `dtype=float32`, or with a tolerance that is not a Python float
(`rtol=0`, `rtol=np.float32(1e-5)`), the single precision overload is called, it writes to converted copies of the output arrays, and
`lanczos` returns zeros whatever the operator and the starting vector. -/
theorem C82_lost (eps : ℝ) (t : LanczosTypes) (a : LanczosArgs n) (k : ℕ) (hk : 0 < k) (hd : lanczosDeg n a.deg = k)
    (ha : t.adtype = .f64) (h : t.rtolFloat = false ∨ t.dtype = some .f32) (hq : t.qtype = none)
    (h1 : a.alpha = none) (h2 : a.beta = none) (h3 : a.Q = none) (h4 : a.sparse_mat = false) :
    ∃ B, lanczosTyped eps t a = .ok (.arrays (List.replicate k 0) (List.replicate (k - 1) 0), B) ∧
      ∀ Q, B = some Q → ∀ i, Q.get i = 0 := by
  obtain ⟨kd, hkd, -⟩ := C82_dispatch t.call
  have hF : (if t.call.rtolFloat = true ∧ t.call.v = t.call.alpha ∧ t.call.beta = t.call.alpha ∧ t.call.Q = t.call.alpha then
      t.call.alpha else .f32) = .f32 := by
    rw [if_neg]
    rintro ⟨x1, x2, -⟩
    rcases h with h | h
    · simp only [LanczosTypes.call, h] at x1
      cases x1
    · simp only [LanczosTypes.call, h, ha, Option.getD_some] at x2
      cases x2
  rw [hF] at hkd
  have hdpos : 0 < lanczosDeg n a.deg := by rw [hd]; exact_mod_cast hk
  have hnc := ncv_bounds a hdpos
  unfold LanczosArgs.ncv LanczosArgs.orthE at hnc
  rw [hd] at hnc
  obtain ⟨s, hs, -⟩ := lanczosNative_safe a.A eps a.v0 k a.rtol (lanczosOrth k a.orth) (Buf.zeros ((k : ℤ) + 1).toNat)
    (Buf.zeros ((k : ℤ) + 1).toNat) (Buf.zeros (lanczosNcv k (lanczosOrth k a.orth) a.return_basis).toNat)
    (by show k ≤ ((k : ℤ) + 1).toNat; omega) (by show k + 1 ≤ ((k : ℤ) + 1).toNat; omega)
    (by show 1 ≤ (lanczosNcv k (lanczosOrth k a.orth) a.return_basis).toNat; omega)
    (by show _ ∨ 2 ≤ (lanczosNcv k (lanczosOrth k a.orth) a.return_basis).toNat; omega)
  have e1 : t.call.alpha = .f64 := ha
  have e2 : t.call.beta = .f64 := ha
  have e3 : t.call.Q = .f64 := by simp [LanczosTypes.call, hq, ha]
  have hz : ∀ m : ℕ, (List.range m).map (fun _ : ℕ => (0 : ℝ)) = List.replicate m 0 := by
    intro m
    rw [List.map_const', List.length_range]
  refine ⟨if a.return_basis then some (Buf.zeros (lanczosNcv k (lanczosOrth k a.orth) a.return_basis).toNat) else none, ?_, ?_⟩
  · unfold lanczosTyped
    simp only [hd, h1, h2, h3, h4, Option.getD_none, hkd, hs, written, e1, e2, e3, reduceCtorEq, if_false,
      Int.toNat_natCast, Bool.false_eq_true]
    rw [if_neg (by omega), if_neg, if_neg, if_neg]
    · simp only [Buf.zeros, hz]
    · show ¬ (((lanczosNcv k (lanczosOrth k a.orth) a.return_basis).toNat : ℕ) : ℤ) ≠ _
      omega
    all_goals
      show ¬ ((((k : ℤ) + 1).toNat : ℕ) : ℤ) ≠ _
      omega
  · intro Q hQ i
    split_ifs at hQ
    · rw [← Option.some.inj hQ]
      rfl

/-- A concrete call on which the result is lost: the double precision 1 x 1 matrix `[2]` with the integer tolerance 0.  The coefficient is 2
and 0 is returned. -/
theorem C82_counterexample :
    ∃ (t : LanczosTypes) (a : LanczosArgs 1), t.dtype = none ∧ t.adtype = .f64 ∧ t.rtolFloat = false ∧ a.rtol = 0 ∧
      (∃ B, lanczosTyped 0 t a = .ok (.arrays [0] [], B)) ∧ lanczos 0 a = .ok (.arrays [2] [], none) := by
  refine ⟨⟨.dense, .f64, none, false, none⟩,
    ⟨fun x => ![2 * x 0], ![1], none, 0, 0, false, false, none, none, none⟩, rfl, rfl, rfl, rfl, ?_, ?_⟩
  · obtain ⟨B, h, -⟩ := C82_lost 0 ⟨.dense, .f64, none, false, none⟩
      ⟨fun x => ![2 * x 0], ![1], none, 0, 0, false, false, none, none, none⟩ 1 (by norm_num) rfl rfl (Or.inl rfl) rfl rfl rfl rfl rfl
    exact ⟨B, h⟩
  · have hn : normalized (![1] : Vec 1) = ![1] := by
      unfold normalized nrm
      have : (![1] : Vec 1) ⬝ᵥ ![1] = 1 := by simp [dotProduct]
      rw [this, if_pos one_pos, Real.sqrt_one]
      funext i
      simp
    have hd : lanczosDeg 1 (none : Option ℤ) = 1 := rfl
    have ho : lanczosOrth 1 0 = 0 := by unfold lanczosOrth; norm_num
    have hc : lanczosNcv 1 0 false = 1 := by unfold lanczosNcv npClip; norm_num
    unfold lanczos
    simp only [hd, ho, hc, Option.getD_none]
    rw [if_neg (by norm_num), if_neg (by decide), if_neg (by decide), if_neg (by decide)]
    have hnat : ∃ s, lanczosNative (fun x : Vec 1 => ![2 * x 0]) 0 ![1] 1 0 0 (Buf.zeros (1 + 1 : ℤ).toNat)
        (Buf.zeros (1 + 1 : ℤ).toNat) (Buf.zeros (1 : ℤ).toNat) = .ok s ∧ s.alpha.get 0 = 2 := by
      unfold lanczosNative
      simp [Buf.zeros, Buf.write, bind, Except.bind, hn, lanczosLoop, Buf.read, reorth, dotProduct]
    obtain ⟨s, hs, h2⟩ := hnat
    rw [hs]
    simp [h2]

/-- Double precision throughout: the case with which everything is as documented. -/
example (M : Matrix (Fin 3) (Fin 3) ℝ) (v : Vec 3) :
    lanczosTyped 0 ⟨.dense, .f64, none, true, none⟩ ⟨M.mulVec, v, some 2, 1 / 100, -1, false, true, none, none, none⟩ =
      lanczos 0 ⟨M.mulVec, v, some 2, 1 / 100, -1, false, true, none, none, none⟩ :=
  C82_computed_partial 0 _ _ rfl (Or.inr ⟨rfl, by simp⟩)

end Primate
