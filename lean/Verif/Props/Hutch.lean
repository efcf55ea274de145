import Verif.Lemmas.Hutch
import Verif.Props.Estimators

/-! # Properties C20-C26: the Girard-Hutchinson estimator -/

namespace Primate

variable {N : ℕ} (tppf : ℝ → ℕ → ℝ) (zscore : ℝ → ℝ) (rng : Rng)

/-- Number of columns drawn per request. -/
def HutchArgs.cols (a : HutchArgs N) : ℕ := if a.full || a.callback then a.batch else 1

theorem updates_vec (A : Operand N) (pdf : Pdf N) (b k : ℕ) (record : Bool) :
    (MeanEst.init 1 true record).updates ((Spec.observations A.quadForm pdf b k).map .vec) =
    (MeanEst.init 1 true record).updates ((rowsAt A pdf b k).map fun X => .mat ⟨1, X⟩) := by
  unfold rowsAt MeanEst.updates
  generalize MeanEst.init 1 true record = e
  induction Spec.observations A.quadForm pdf b k generalizing e with
  | nil => rfl
  | cons l ls ih =>
    simp only [List.map_cons, List.foldlM_cons, update_vec]
    cases e.update (.mat ⟨1, l.map fun x _ => x⟩) with
    | error err => rfl
    | ok e' => exact ih e'

theorem stopsAt_iff (A : Operand N) (pdf : Pdf N) {b : ℕ} (hb : 0 < b) (record : Bool)
    (crit : Crit) (k : ℕ) (e : MeanEst 1) :
    Spec.StopsAt A.quadForm pdf b record crit k e ↔ e = estAt A pdf b record k ∧
      crit.eval (estAt A pdf b record k).view = .ok true ∧
        ∀ j < k, crit.eval (estAt A pdf b record j).view = .ok false := by
  have key : ∀ j e', (MeanEst.init 1 true record).updates
      ((Spec.observations A.quadForm pdf b j).map .vec) = .ok e' ↔ estAt A pdf b record j = e' := by
    intro j e'
    rw [updates_vec, (estAt_inv A pdf hb record j).2, Except.ok.injEq]
  constructor
  · rintro ⟨h1, h2, h3⟩
    rw [key] at h1
    refine ⟨h1.symm, by rw [h1]; exact h2, fun j hj => ?_⟩
    obtain ⟨e', h4, h5⟩ := h3 j hj
    rw [key] at h4
    rw [h4]; exact h5
  · rintro ⟨h1, h2, h3⟩
    subst h1
    exact ⟨(key _ _).mpr rfl, h2, fun j hj => ⟨_, (key _ _).mpr rfl, h3 j hj⟩⟩

/-- Everything `hutch` can return on a non-empty operator. -/
theorem hutch_ok_iff (a : HutchArgs N) (hN : N ≠ 0) (hb : 0 < a.cols) (fuel : ℕ)
    (out : HutchOut) (calls : List (MeanEst 1)) :
    hutch tppf zscore rng a fuel = some (.ok (out, calls)) ↔
      ∃ pdf crit k, a.pdf.resolve rng = .ok pdf ∧
        hutchCriterion tppf zscore a.converge a.kw = .ok crit ∧ k < fuel ∧
        Spec.StopsAt a.A.quadForm pdf a.cols a.record crit k (estAt a.A pdf a.cols a.record k) ∧
        out = (if a.full || a.callback then
          .pair (estAt a.A pdf a.cols a.record k).estimate
            (.mk2 (some (estAt a.A pdf a.cols a.record k)) (some crit))
          else .scalar (estAt a.A pdf a.cols a.record k).estimate) ∧
        calls = if a.callback then
          (List.range k).map fun t => estAt a.A pdf a.cols a.record (t + 1) else [] := by
  have h0 : ∀ pdf : Pdf N, (⟨[], MeanEst.init 1 true a.record, []⟩ : HutchState) =
      stateAt a.A pdf a.cols a.record 0 := fun _ => rfl
  simp only [stopsAt_iff a.A _ hb]
  unfold hutch
  rcases hp : a.pdf.resolve rng with e | pdf
  · simp
  · rcases hc : hutchCriterion tppf zscore a.converge a.kw with e | crit
    · simp
    · simp only [hN, if_false, Except.ok.injEq, exists_and_left, exists_eq_left']
      have hloop := hutchLoop_ok a.A pdf hb a.record crit fuel 0
      by_cases hf : (a.full || a.callback) = true
      · have hcols : a.cols = a.batch := by simp only [HutchArgs.cols, hf, if_true]
        rw [h0 pdf]
        simp only [hf, if_true, ← hcols]
        constructor
        · intro h
          split at h
          · cases h
          · cases h
          · rename_i s hs
            rw [hloop] at hs
            obtain ⟨k, -, h2, rfl, h3, h4⟩ := hs
            simp only [Option.some.injEq, Except.ok.injEq, Prod.mk.injEq] at h
            exact ⟨k, by omega, ⟨trivial, h3, fun j hj => h4 j (by omega) hj⟩, h.1.symm,
              h.2.symm⟩
        · rintro ⟨k, h2, ⟨-, h3, h4⟩, rfl, rfl⟩
          rw [(hloop (stateAt a.A pdf a.cols a.record k)).mpr
            ⟨k, by omega, by omega, rfl, h3, fun j _ hj => h4 j hj⟩]
          rfl
      · have hcols : a.cols = 1 := by simp only [HutchArgs.cols, hf]; rfl
        simp only [Bool.or_eq_true, not_or, Bool.not_eq_true] at hf
        obtain ⟨hff, hcb⟩ := hf
        rw [h0 pdf]
        rw [hcols] at hloop ⊢
        simp only [hff, hcb, Bool.or_false, Bool.false_eq_true, if_false]
        constructor
        · intro h
          split at h
          · cases h
          · cases h
          · rename_i s hs
            rw [hloop] at hs
            obtain ⟨k, -, h2, rfl, h3, h4⟩ := hs
            simp only [Option.some.injEq, Except.ok.injEq, Prod.mk.injEq] at h
            exact ⟨k, by omega, ⟨trivial, h3, fun j hj => h4 j (by omega) hj⟩, h.1.symm, h.2.symm⟩
        · rintro ⟨k, h2, ⟨-, h3, h4⟩, rfl, rfl⟩
          rw [(hloop (stateAt a.A pdf 1 a.record k)).mpr
            ⟨k, by omega, by omega, rfl, h3, fun j _ hj => h4 j hj⟩]
          rfl

/-! ## C20 -/

/-- **C20**: whenever `hutch` returns, there is a number `k` of batches such that the
criterion was false after every smaller number of batches, holds after `k`, and the returned
value is the arithmetic mean of the quadratic forms of exactly the `k * cols` vectors drawn
(NaN when the criterion held before any draw). -/
theorem C20_first_stop (a : HutchArgs N) (hN : N ≠ 0) (hb : 0 < a.cols) (fuel : ℕ)
    (out : HutchOut) (calls : List (MeanEst 1))
    (h : hutch tppf zscore rng a fuel = some (.ok (out, calls))) :
    ∃ pdf crit k e, a.pdf.resolve rng = .ok pdf ∧
      hutchCriterion tppf zscore a.converge a.kw = .ok crit ∧
      Spec.StopsAt a.A.quadForm pdf a.cols a.record crit k e ∧
      (k = 0 → out.estimate = .nan) ∧
      (k ≠ 0 → out.estimate =
        .val fun _ => Spec.mean ((Spec.drawn pdf a.cols k).map a.A.quadForm)) := by
  rw [hutch_ok_iff tppf zscore rng a hN hb] at h
  obtain ⟨pdf, crit, k, h1, h2, h3, h4, h5, h6⟩ := h
  have he : out.estimate = (estAt a.A pdf a.cols a.record k).estimate := by
    rw [h5]; split_ifs <;> rfl
  rw [estAt_estimate a.A pdf hb] at he
  refine ⟨pdf, crit, k, _, h1, h2, h4, fun hk => ?_, fun hk => ?_⟩
  · rw [he, if_pos hk]
  · rw [he, if_neg hk]

/-- **C20**: the outcome does not depend on the fuel of the model: two runs that finish agree. -/
theorem C20_deterministic (a : HutchArgs N) (hN : N ≠ 0) (hb : 0 < a.cols) (f₁ f₂ : ℕ)
    (o₁ o₂ : HutchOut × List (MeanEst 1))
    (h₁ : hutch tppf zscore rng a f₁ = some (.ok o₁))
    (h₂ : hutch tppf zscore rng a f₂ = some (.ok o₂)) : o₁ = o₂ := by
  obtain ⟨o₁, c₁⟩ := o₁
  obtain ⟨o₂, c₂⟩ := o₂
  rw [hutch_ok_iff tppf zscore rng a hN hb] at h₁ h₂
  obtain ⟨p, c, k, h1, h2, -, h4, h5, h6⟩ := h₁
  obtain ⟨p', c', k', h1', h2', -, h4', h5', h6'⟩ := h₂
  rw [h1, Except.ok.injEq] at h1'
  rw [h2, Except.ok.injEq] at h2'
  subst h1' h2'
  rw [stopsAt_iff a.A _ hb] at h4 h4'
  have hk : k = k' := by
    rcases lt_trichotomy k k' with h | h | h
    · have := h4'.2.2 k h; rw [h4.2.1] at this; cases this
    · exact h
    · have := h4.2.2 k' h; rw [h4'.2.1] at this; cases this
  subst hk
  rw [h5, h6, h5', h6']

/-- **C20**: for a matrix without `quad` the averaged quantity is `vᵀ A v`; an operator's own
`quad` is used when it exists. -/
theorem C20_quadForm (A : Matrix (Fin N) (Fin N) ℝ) (q : Vec N → ℝ) (f : Vec N → Vec N)
    (v : Vec N) :
    (Operand.ofMatrix A).quadForm v = Spec.quad A v ∧
    (Operand.quadForm ⟨f, some q⟩ v = q v) := by
  refine ⟨?_, rfl⟩
  simp only [Operand.quadForm, Operand.ofMatrix, Spec.quad, Matrix.mulVec, dotProduct,
    Finset.mul_sum]
  exact Finset.sum_congr rfl fun i _ => Finset.sum_congr rfl fun j _ => by ring

/-! ## C21 -/

theorem exists_first_stop (A : Operand N) (pdf : Pdf N) (b : ℕ) (record : Bool) (crit : Crit)
    (hr : ∀ j, ∃ r, crit.eval (estAt A pdf b record j).view = .ok r) (K : ℕ)
    (hK : crit.eval (estAt A pdf b record K).view = .ok true) :
    ∃ k ≤ K, crit.eval (estAt A pdf b record k).view = .ok true ∧
      ∀ j < k, crit.eval (estAt A pdf b record j).view = .ok false := by
  classical
  have hex : ∃ k, crit.eval (estAt A pdf b record k).view = .ok true := ⟨K, hK⟩
  refine ⟨Nat.find hex, Nat.find_min' hex hK, Nat.find_spec hex, fun j hj => ?_⟩
  obtain ⟨r, h⟩ := hr j
  cases r with
  | false => exact h
  | true => exact absurd h (Nat.find_min hex hj)

theorem hutch_stops_count (a : HutchArgs N) (hN : N ≠ 0) (hb : 0 < a.cols) (pdf : Pdf N)
    (hp : a.pdf.resolve rng = .ok pdf) (c : ℤ) (other : Crit)
    (hc : hutchCriterion tppf zscore a.converge a.kw = .ok (.or (.count c) other))
    (ho : Spec.NonRaising a.record other) :
    ∃ fuel out calls k, hutch tppf zscore rng a fuel = some (.ok (out, calls)) ∧
      Spec.StopsAt a.A.quadForm pdf a.cols a.record (.or (.count c) other) k
        (estAt a.A pdf a.cols a.record k) ∧
      out = (if a.full || a.callback then
          .pair (estAt a.A pdf a.cols a.record k).estimate
            (.mk2 (some (estAt a.A pdf a.cols a.record k)) (some (.or (.count c) other)))
          else .scalar (estAt a.A pdf a.cols a.record k).estimate) ∧
      (k = 0 ∨ ((k * a.cols : ℕ) : ℤ) ≤ c + a.cols - 1) := by
  set b := a.cols with hbdef
  have hr : ∀ j, ∃ r, other.eval (estAt a.A pdf b a.record j).view = .ok r := fun j =>
    ho _ _ (rowsAt_ne a.A pdf hb j) (estAt_inv a.A pdf hb a.record j).2
  have hev : ∀ j, ∃ r, (Crit.or (.count c) other).eval (estAt a.A pdf b a.record j).view = .ok r ∧
      (c ≤ ((j * b : ℕ) : ℤ) → r = true) := by
    intro j
    obtain ⟨r, h⟩ := hr j
    refine ⟨truth (c ≤ ((estAt a.A pdf b a.record j).view.len : ℤ)) || r,
      by simp only [Crit.eval, h, bind, Except.bind, pure, Except.pure], fun hle => ?_⟩
    have : (estAt a.A pdf b a.record j).view.len = j * b := estAt_n a.A pdf hb a.record j
    simp only [this, Bool.or_eq_true, truth_eq_true]
    exact Or.inl hle
  have hK : (Crit.or (.count c) other).eval (estAt a.A pdf b a.record c.toNat).view = .ok true := by
    obtain ⟨r, h, h'⟩ := hev c.toNat
    rw [h, h' ?_]
    have h1 : c ≤ (c.toNat : ℤ) := Int.self_le_toNat c
    have h2 : (c.toNat : ℤ) ≤ ((c.toNat * b : ℕ) : ℤ) := by
      exact_mod_cast Nat.le_mul_of_pos_right _ hb
    omega
  obtain ⟨k, hkK, h1, h2⟩ := exists_first_stop a.A pdf b a.record _
    (fun j => let ⟨r, h, _⟩ := hev j; ⟨r, h⟩) _ hK
  have hs : Spec.StopsAt a.A.quadForm pdf b a.record (.or (.count c) other) k
        (estAt a.A pdf b a.record k) := (stopsAt_iff a.A pdf hb _ _ _ _).mpr ⟨rfl, h1, h2⟩
  refine ⟨k + 1, _, _, k, (hutch_ok_iff tppf zscore rng a hN hb _ _ _).mpr
    ⟨pdf, _, k, hp, hc, by omega, hs, rfl, rfl⟩, hs, rfl, ?_⟩
  rcases Nat.eq_zero_or_pos k with h | h
  · exact Or.inl h
  · right
    obtain ⟨r, h3, h4⟩ := hev (k - 1)
    have hf := h2 (k - 1) (by omega)
    rw [h3, Except.ok.injEq] at hf
    have hlt : ¬ c ≤ (((k - 1) * b : ℕ) : ℤ) := fun hle => by
      rw [h4 hle] at hf; cases hf
    have : k * b = (k - 1) * b + b := by
      obtain ⟨m, rfl⟩ : ∃ m, k = m + 1 := ⟨k - 1, by omega⟩
      simp; ring
    rw [this]; push_cast at hlt ⊢; omega

/-- **C21**: with a criterion `Count(c) | other`, `other` not raising, `hutch` without
`full`/`callback` returns, after drawing at most `max(c, 0)` vectors one at a time. -/
theorem C21_scalar (a : HutchArgs N) (hN : N ≠ 0) (hf : a.full = false) (hcb : a.callback = false)
    (pdf : Pdf N) (hp : a.pdf.resolve rng = .ok pdf) (c : ℤ) (other : Crit)
    (hc : hutchCriterion tppf zscore a.converge a.kw = .ok (.or (.count c) other))
    (ho : Spec.NonRaising a.record other) :
    ∃ (fuel : ℕ) (out : _) (k : ℕ) (e : MeanEst 1),
      hutch tppf zscore rng a fuel = some (.ok (.scalar out, [])) ∧ (k : ℤ) ≤ max c 0 ∧
      Spec.StopsAt a.A.quadForm pdf 1 a.record (.or (.count c) other) k e ∧ out = e.estimate := by
  have hcols : a.cols = 1 := by simp [HutchArgs.cols, hf, hcb]
  obtain ⟨fuel, out, calls, k, h1, h2, h3, h4⟩ := hutch_stops_count tppf zscore rng a hN
    (by omega) pdf hp c other hc ho
  have h5 : calls = [] := by
    rw [hutch_ok_iff tppf zscore rng a hN (by omega)] at h1
    obtain ⟨_, _, _, _, _, _, _, _, h⟩ := h1
    simpa [hcb] using h
  simp only [hf, hcb, Bool.or_false] at h3
  rw [hcols] at h2 h3 h4
  refine ⟨fuel, _, k, _, by rw [h1, h3, h5]; rfl, ?_, h2, rfl⟩
  omega

/-- **C21**: with `full` or a callback, `hutch` returns a pair whose estimator has seen at most
`max(c, 0) + batch - 1` vectors. -/
theorem C21_full (a : HutchArgs N) (hN : N ≠ 0) (hf : (a.full || a.callback) = true)
    (hb : 1 ≤ a.batch)
    (pdf : Pdf N) (hp : a.pdf.resolve rng = .ok pdf) (c : ℤ) (other : Crit)
    (hc : hutchCriterion tppf zscore a.converge a.kw = .ok (.or (.count c) other))
    (ho : Spec.NonRaising a.record other) :
    ∃ fuel est res e calls, hutch tppf zscore rng a fuel = some (.ok (.pair est res, calls)) ∧
      res.estimator = some e ∧ est = e.estimate ∧ (e.nSamples : ℤ) ≤ max c 0 + a.batch - 1 ∧
      ∃ k, Spec.StopsAt a.A.quadForm pdf a.batch a.record (.or (.count c) other) k e := by
  have hcols : a.cols = a.batch := by simp only [HutchArgs.cols, hf, if_true]
  obtain ⟨fuel, out, calls, k, h1, h2, h3, h4⟩ := hutch_stops_count tppf zscore rng a hN
    (by omega) pdf hp c other hc ho
  simp only [hf, if_true] at h3
  rw [hcols] at h2 h3 h4
  refine ⟨fuel, _, _, _, calls, by rw [h1, h3], rfl, rfl, ?_, k, h2⟩
  rw [estAt_n a.A pdf (by omega) a.record k]
  rcases h4 with rfl | h4
  · simp; omega
  · omega

theorem conf_nonRaising (c : ConfCrit) (record : Bool) : Spec.NonRaising record (.conf c) := by
  intro Xs e hne he
  by_cases hn : 3 ≤ Xs.flatten.length
  · obtain ⟨e', b, h1, h2, -⟩ := C11_decision c record Xs hne hn
    rw [he, Except.ok.injEq] at h1
    subst h1; exact ⟨b, h2⟩
  · obtain ⟨e', h1, h2⟩ := C11_few (d := 1) c true record Xs hne (by omega)
    rw [he, Except.ok.injEq] at h1
    subst h1; exact ⟨false, h2⟩

theorem hutchDefault_eq : ∃ c, ConfCrit.init tppf zscore 0.95 (some 1) (some 0) = .ok c ∧
    hutchDefault tppf zscore = .ok (.or (.count 200) (.conf c)) := by
  obtain ⟨c, h, -⟩ := (C11_constructor tppf zscore 0.95 (some 1) (some 0)).2 (by norm_num)
  refine ⟨c, h, ?_⟩
  have h1 : (1.0 : ℝ) = 1 := by norm_num
  have h2 : (0.0 : ℝ) = 0 := by norm_num
  simp [hutchDefault, h1, h2, h, bind, Except.bind, pure, Except.pure]

/-- **C21**: the default criterion terminates after at most 200 vectors, or 199 + batch with
`full` or a callback. -/
theorem C21_default (a : HutchArgs N) (hN : N ≠ 0) (hb : 1 ≤ a.batch)
    (hconv : a.converge = .str "default")
    (pdf : Pdf N) (hp : a.pdf.resolve rng = .ok pdf) :
    ((a.full || a.callback) = false → ∃ fuel out k,
      hutch tppf zscore rng a fuel = some (.ok (.scalar out, [])) ∧ 1 ≤ k ∧ k ≤ 200 ∧
      out = .val fun _ => Spec.mean ((Spec.drawn pdf 1 k).map a.A.quadForm)) ∧
    ((a.full || a.callback) = true → ∃ fuel est res e calls,
      hutch tppf zscore rng a fuel = some (.ok (.pair est res, calls)) ∧
      res.estimator = some e ∧ est = e.estimate ∧ e.nSamples ≤ 199 + a.batch) := by
  obtain ⟨cc, -, hd⟩ := hutchDefault_eq tppf zscore
  have hc : hutchCriterion tppf zscore a.converge a.kw = .ok (.or (.count 200) (.conf cc)) := by
    rw [hconv]; simp [hutchCriterion, hd]
  constructor
  · intro hf
    simp only [Bool.or_eq_false_iff] at hf
    obtain ⟨fuel, out, k, e, h1, h2, h3, h4⟩ := C21_scalar tppf zscore rng a hN hf.1 hf.2 pdf hp
      200 _ hc (conf_nonRaising cc _)
    have hk : k ≠ 0 := by
      rintro rfl
      have hst := h3.stop
      rw [stopsAt_iff a.A pdf (by omega)] at h3
      rw [h3.1] at hst
      obtain ⟨e', he', hcf⟩ := C11_few (d := 1) cc true a.record [] (by simp) (by simp)
      have : e' = estAt a.A pdf 1 a.record 0 := (Except.ok.inj he').symm
      rw [this] at hcf
      simp only [Crit.eval] at hcf hst
      rw [hcf] at hst
      simp only [bind, Except.bind, pure, Except.pure, Bool.or_false, Except.ok.injEq,
        truth_eq_true] at hst
      simp [estAt, MeanEst.view, MeanEst.init] at hst
    refine ⟨fuel, out, k, h1, by omega, by omega, ?_⟩
    rw [stopsAt_iff a.A pdf (by omega)] at h3
    rw [h4, h3.1, estAt_estimate a.A pdf (by omega), if_neg hk]
  · intro hf
    obtain ⟨fuel, est, res, e, calls, h1, h2, h3, h4, -⟩ := C21_full tppf zscore rng a hN hf hb pdf hp
      200 _ hc (conf_nonRaising cc _)
    exact ⟨fuel, est, res, e, calls, h1, h2, h3, by omega⟩

/-- Non-vacuity: a 2x2 matrix with the default settings. -/
example (A : Matrix (Fin 2) (Fin 2) ℝ) : ∃ fuel out calls,
    hutch (N := 2) tppf zscore rng ⟨.ofMatrix A, 32, .name "rademacher", .str "default", false,
      false, false, []⟩ fuel = some (.ok (.scalar out, calls)) := by
  obtain ⟨fuel, out, k, h, -⟩ := (C21_default tppf zscore rng
    (⟨.ofMatrix A, 32, .name "rademacher", .str "default", false, false, false, []⟩ : HutchArgs 2)
    (by simp) (by simp) rfl _ rfl).1 rfl
  exact ⟨fuel, out, _, h⟩

end Primate
