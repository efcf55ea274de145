import Verif.Prelude
import Verif.Model.Kwargs

/-! # Properties C15 and C16: resolving criteria, splitting keyword arguments -/

namespace Primate

theorem lookup_filter_key {α : Type} (p : String → Bool) (kw : Kwargs α) (k : String) :
    (kw.filter fun kv => p kv.1).lookup k = if p k then kw.lookup k else none := by
  induction kw with
  | nil => simp
  | cons kv kw ih =>
    obtain ⟨k', v⟩ := kv
    by_cases hk : k = k'
    · subst hk
      by_cases hp : p k
      · simp [hp]
      · simp [hp, ih]
    · have hb : (k == k') = false := by simp [hk]
      by_cases hp : p k'
      · simp [hp, List.lookup_cons, hb, ih]
      · simp [hp, List.lookup_cons, hb, ih]

theorem lookup_restrict {α : Type} (params : List String) (kw : Kwargs α) (k : String) :
    (restrictKwargs params kw).lookup k = if k ∈ params then kw.lookup k else none := by
  have := lookup_filter_key (fun k => decide (k ∈ params)) kw k
  simpa [restrictKwargs] using this

theorem lookup_filterMap_keys {α : Type} (f : String → Option α) (ks : List String) (k : String) :
    (ks.filterMap fun k => (f k).map fun v => (k, v)).lookup k = if k ∈ ks then f k else none := by
  induction ks with
  | nil => simp
  | cons k' ks ih =>
    cases hf : f k' with
    | none =>
      simp only [List.filterMap_cons, hf, Option.map_none, ih]
      by_cases hk : k = k'
      · subst hk; simp [hf]
      · simp [hk]
    | some v =>
      simp only [List.filterMap_cons, hf, Option.map_some, List.lookup_cons]
      by_cases hk : k = k'
      · subst hk; simp [hf]
      · have hb : (k == k') = false := by simp [hk]
        simp [hb, ih, hk]

theorem lookup_eq_none_of_not_mem {α : Type} (kw : Kwargs α) (k : String)
    (h : k ∉ kw.map Prod.fst) : kw.lookup k = none := by
  induction kw with
  | nil => rfl
  | cons kv kw ih =>
    obtain ⟨k', v⟩ := kv
    simp only [List.map_cons, List.mem_cons, not_or] at h
    have hb : (k == k') = false := by simp [h.1]
    rw [List.lookup_cons, hb, ih h.2]

/-- **C16**: as dictionaries, `restrict_kwargs` and `setdiff_kwargs` split the keywords into
the accepted and the other ones, values unchanged. -/
theorem C16_partition {α : Type} (params : List String) (kw : Kwargs α) (k : String) :
    (restrictKwargs params kw).lookup k = (if k ∈ params then kw.lookup k else none) ∧
    (setdiffKwargs params kw).lookup k = (if k ∈ params then none else kw.lookup k) := by
  refine ⟨lookup_restrict params kw k, ?_⟩
  unfold setdiffKwargs
  rw [lookup_filterMap_keys]
  by_cases hp : k ∈ params
  · simp [hp]
  · by_cases hk : k ∈ kw.map Prod.fst
    · rw [if_pos (by simpa [hp] using hk), if_neg hp]
    · rw [if_neg (by intro h; exact hk (List.mem_of_mem_filter h)), if_neg hp,
        lookup_eq_none_of_not_mem kw k hk]

/-- **C16**: the results are dictionaries (distinct keys), their keys are disjoint and
together are the original keys. -/
theorem C16_keys {α : Type} (params : List String) (kw : Kwargs α)
    (hn : (kw.map Prod.fst).Nodup) :
    ((restrictKwargs params kw).map Prod.fst).Nodup ∧
    ((setdiffKwargs params kw).map Prod.fst).Nodup ∧
    (∀ k, k ∈ (restrictKwargs params kw).map Prod.fst ↔ k ∈ kw.map Prod.fst ∧ k ∈ params) ∧
    (∀ k, k ∈ (setdiffKwargs params kw).map Prod.fst ↔ k ∈ kw.map Prod.fst ∧ k ∉ params) := by
  have hs : (setdiffKwargs params kw).map Prod.fst =
      (kw.map Prod.fst).filter fun k => k ∉ params := by
    have key : ∀ ks : List String, (∀ k ∈ ks, k ∈ kw.map Prod.fst) →
        (ks.filterMap fun k => (kw.lookup k).map fun v => (k, v)).map Prod.fst = ks := by
      intro ks
      induction ks with
      | nil => intro _; rfl
      | cons k ks ih =>
        intro h
        have hk := h k (by simp)
        have : ∃ v, kw.lookup k = some v := by
          clear hn h ih
          induction kw with
          | nil => simp at hk
          | cons kv kw ih =>
            obtain ⟨k', v'⟩ := kv
            by_cases he : k = k'
            · exact ⟨v', by simp [he]⟩
            · have hb : (k == k') = false := by simp [he]
              simp only [List.map_cons, List.mem_cons, he, false_or] at hk
              obtain ⟨v, hv⟩ := ih hk
              exact ⟨v, by simp [List.lookup_cons, hb, hv]⟩
        obtain ⟨v, hv⟩ := this
        simp [hv, ih fun k' hk' => h k' (by simp [hk'])]
    exact key _ fun k hk => List.mem_of_mem_filter hk
  refine ⟨?_, ?_, ?_, ?_⟩
  · exact hn.sublist ((List.filter_sublist).map _)
  · rw [hs]; exact hn.filter _
  · intro k
    simp only [restrictKwargs, List.mem_map, List.mem_filter, decide_eq_true_eq]
    constructor
    · rintro ⟨kv, ⟨h1, h2⟩, rfl⟩; exact ⟨⟨kv, h1, rfl⟩, h2⟩
    · rintro ⟨⟨kv, h1, rfl⟩, h2⟩; exact ⟨kv, ⟨h1, h2⟩, rfl⟩
  · intro k
    rw [hs]; simp

example : restrictKwargs ["rtol", "atol"] [("atol", 1), ("seed", 2)] = [("atol", 1)] ∧
    setdiffKwargs ["rtol", "atol"] [("atol", 1), ("seed", 2)] = [("seed", 2)] := by decide

variable (tppf : ℝ → ℕ → ℝ) (zscore : ℝ → ℝ)

/-- **C15**: a criterion object is returned unchanged whatever the keywords. -/
theorem C15_passthrough (c : Crit) (kw : Kwargs) :
    convergenceCriterion tppf zscore (.obj c) kw = .ok c := rfl

/-- **C15**: anything but a criterion object or one of the four names (in any letter case)
raises AssertionError. -/
theorem C15_invalid (s : String) (kw : Kwargs)
    (h : pyLower s ∉ ["count", "tolerance", "confidence", "knee"]) :
    convergenceCriterion tppf zscore (.str s) kw = .error .assertion ∧
    convergenceCriterion tppf zscore .other kw = .error .assertion := by
  refine ⟨?_, rfl⟩
  have : CRITERIA.lookup (pyLower s) = none := lookup_eq_none_of_not_mem _ _ h
  simp [convergenceCriterion, this]

theorem restrict_no_unexpected (cls : CritClass) (kw : Kwargs) :
    ((restrictKwargs (cls.signature.map Prod.fst) kw).any
      fun kv => (cls.signature.lookup kv.1).isNone) = false := by
  rw [List.any_eq_false]
  intro kv hkv
  simp only [restrictKwargs, List.mem_filter, decide_eq_true_eq] at hkv
  have := hkv.2
  cases cls <;> simp only [CritClass.signature, List.map_cons, List.map_nil, List.mem_cons,
    List.not_mem_nil, or_false] at this <;> (try rcases this with h | h | h) <;>
    simp_all [CritClass.signature, List.lookup_cons]

/-- **C15**: `'count'` reads the keyword `count` and nothing else; without it, TypeError. -/
theorem C15_count (s : String) (hs : pyLower s = "count") (kw : Kwargs) :
    (∀ c, kw.lookup "count" = some (.int c) →
      convergenceCriterion tppf zscore (.str s) kw = .ok (.count c)) ∧
    (kw.lookup "count" = none →
      convergenceCriterion tppf zscore (.str s) kw = .error .type) := by
  have hp : CritClass.count.signature.map Prod.fst = ["count"] := rfl
  have hr : (restrictKwargs ["count"] kw).lookup "count" = kw.lookup "count" := by
    rw [lookup_restrict]; simp
  have hu := restrict_no_unexpected .count kw
  rw [hp] at hu
  have l0 : CRITERIA.lookup "count" = some .count := by decide
  have l1 : CritClass.count.signature.lookup "count" = some none := by
    simp [CritClass.signature]
  constructor
  · intro c hc
    simp only [convergenceCriterion, hs, l0, CritClass.construct, hp, hu,
      bindParam, hr, hc, bind, Except.bind, pure, Except.pure, KwVal.toInt]
    rfl
  · intro hc
    simp only [convergenceCriterion, hs, l0, CritClass.construct, hp, hu, l1, Option.getD_some,
      bindParam, hr, hc, bind, Except.bind]
    rfl

/-- **C15**: a float `count` is accepted; the criterion holds exactly from the first number of samples that reaches it. -/
theorem C15_count_float (s : String) (hs : pyLower s = "count") (kw : Kwargs) (r : ℝ) (hc : kw.lookup "count" = some (.float r)) :
    ∃ c : ℤ, convergenceCriterion tppf zscore (.str s) kw = .ok (.count c) ∧ ∀ n : ℕ, c ≤ n ↔ r ≤ n := by
  have hp : CritClass.count.signature.map Prod.fst = ["count"] := rfl
  have hr : (restrictKwargs ["count"] kw).lookup "count" = kw.lookup "count" := by
    rw [lookup_restrict]; simp
  have hu := restrict_no_unexpected .count kw
  rw [hp] at hu
  have l0 : CRITERIA.lookup "count" = some .count := by decide
  refine ⟨⌈r⌉, ?_, fun n => by rw [Int.ceil_le]; simp⟩
  simp only [convergenceCriterion, hs, l0, CritClass.construct, hp, hu,
    bindParam, hr, hc, bind, Except.bind, pure, Except.pure, KwVal.toInt]
  rfl

example : ∃ c : ℤ, convergenceCriterion tppf zscore (.str "Count") [("count", .float 2.5)] = .ok (.count c) ∧
    ∀ n : ℕ, c ≤ n ↔ (2.5 : ℝ) ≤ n := C15_count_float tppf zscore "Count" (by decide) _ _ rfl

/-- **C15**: constructing a criterion directly with a keyword its class does not have raises TypeError
(`convergence_criterion` drops such keywords first). -/
theorem C15_unexpected (cls : CritClass) (kw : Kwargs) (k : String) (hk : k ∈ kw.map Prod.fst)
    (hp : k ∉ cls.signature.map Prod.fst) : cls.construct tppf zscore kw = .error .type := by
  have : (kw.any fun kv => (cls.signature.lookup kv.1).isNone) = true := by
    rw [List.any_eq_true]
    obtain ⟨kv, h1, rfl⟩ := List.mem_map.1 hk
    exact ⟨kv, h1, by rw [lookup_eq_none_of_not_mem _ _ hp]; rfl⟩
  unfold CritClass.construct
  rw [if_pos this]

example : CritClass.count.construct tppf zscore [("count", .int 3), ("rtol", .float 1)] = .error .type :=
  C15_unexpected tppf zscore _ _ "rtol" (by simp) (by simp [CritClass.signature])

/-- The value of a numeric keyword, or its default. -/
def kwReal (kw : Kwargs) (name : String) (dflt : ℝ) (r : ℝ) : Prop :=
  kw.lookup name = some (.float r) ∨ (∃ z : ℤ, kw.lookup name = some (.int z) ∧ r = z) ∨
    (kw.lookup name = none ∧ r = dflt)

theorem bind_kwReal {kw : Kwargs} {name : String} {dflt r : ℝ} (h : kwReal kw name dflt r) :
    ∃ v, bindParam kw name (some (.float dflt)) = .ok v ∧ v.toReal = .ok r ∧
      v.toOptReal = .ok (some r) := by
  rcases h with h | ⟨z, h, rfl⟩ | ⟨h, rfl⟩
  · exact ⟨.float r, by simp [bindParam, h], rfl, rfl⟩
  · exact ⟨.int z, by simp [bindParam, h], rfl, rfl⟩
  · exact ⟨.float r, by simp [bindParam, h], rfl, rfl⟩

theorem kwReal_restrict {kw : Kwargs} {name : String} {dflt r : ℝ} {params : List String}
    (hp : name ∈ params) (h : kwReal kw name dflt r) :
    kwReal (restrictKwargs params kw) name dflt r := by
  unfold kwReal at h ⊢
  rw [lookup_restrict, if_pos hp]; exact h

theorem bind_kwOpt {kw : Kwargs} {name : String} {dflt r : ℝ} {params : List String}
    (hp : name ∈ params) (h : kwReal kw name dflt r ∨ kw.lookup name = some .none ∧ r = 0) :
    ∃ v o, bindParam (restrictKwargs params kw) name (some (.float dflt)) = .ok v ∧
      v.toOptReal = .ok o ∧ o.getD 0 = r := by
  rcases h with h | ⟨h, rfl⟩
  · obtain ⟨v, e, -, t⟩ := bind_kwReal (kwReal_restrict hp h)
    exact ⟨v, some r, e, t, rfl⟩
  · exact ⟨.none, none, by simp [bindParam, lookup_restrict, hp, h], rfl, rfl⟩

/-- The order of the norm selected by the keyword `ord`. -/
def kwOrd (kw : Kwargs) (o : NormOrd) : Prop :=
  kw.lookup "ord" = none ∧ o = .two ∨ kw.lookup "ord" = some .none ∧ o = .none ∨
    kw.lookup "ord" = some .inf ∧ o = .inf ∨ kw.lookup "ord" = some (.int 2) ∧ o = .two ∨
    kw.lookup "ord" = some (.int 1) ∧ o = .one ∨ kw.lookup "ord" = some (.float 2) ∧ o = .two ∨
    kw.lookup "ord" = some (.float 1) ∧ o = .one ∨ ∃ t, kw.lookup "ord" = some (.str t) ∧ o = .str

/-- **C15**: `'tolerance'` reads `rtol` (default 0.01), `atol` (default 1.49e-8) and `ord`
(default 2). -/
theorem C15_tolerance (s : String) (hs : pyLower s = "tolerance") (kw : Kwargs) (rtol atol : ℝ)
    (hr : kwReal kw "rtol" 0.01 rtol) (ha : kwReal kw "atol" 1.49e-08 atol)
    (o : NormOrd) (ho : kwOrd kw o) :
    convergenceCriterion tppf zscore (.str s) kw = .ok (.tol rtol atol o) := by
  have hu := restrict_no_unexpected .tolerance kw
  have hp : CritClass.tolerance.signature.map Prod.fst = ["rtol", "atol", "ord"] := rfl
  obtain ⟨v1, e1, t1, -⟩ := bind_kwReal (kwReal_restrict (params := ["rtol", "atol", "ord"]) (by simp) hr)
  obtain ⟨v2, e2, t2, -⟩ := bind_kwReal (kwReal_restrict (params := ["rtol", "atol", "ord"]) (by simp) ha)
  obtain ⟨v3, e3, t3⟩ : ∃ v, bindParam (restrictKwargs ["rtol", "atol", "ord"] kw) "ord" (some (.float 2)) =
      .ok v ∧ v.toOrd = .ok o := by
    rcases ho with ⟨h, rfl⟩ | ⟨h, rfl⟩ | ⟨h, rfl⟩ | ⟨h, rfl⟩ | ⟨h, rfl⟩ | ⟨h, rfl⟩ | ⟨h, rfl⟩ | ⟨t, h, rfl⟩ <;>
      exact ⟨_, by simp only [bindParam, lookup_restrict, h]; rfl, by simp [KwVal.toOrd]⟩
  have l0 : CRITERIA.lookup "tolerance" = some .tolerance := by decide
  have l1 : CritClass.tolerance.signature.lookup "rtol" = some (some (.float 0.01)) := by
    simp [CritClass.signature]
  have l2 : CritClass.tolerance.signature.lookup "atol" = some (some (.float 1.49e-08)) := by
    simp [CritClass.signature, List.lookup_cons]
  have l3 : CritClass.tolerance.signature.lookup "ord" = some (some (.float 2)) := by
    simp [CritClass.signature, List.lookup_cons]
  rw [hp] at hu
  simp only [convergenceCriterion, hs, l0, CritClass.construct, hp, hu, l1, l2, l3,
    Option.getD_some, e1, e2, e3, t1, t2, t3, bind, Except.bind, pure, Except.pure]
  simp

/-- **C15**: `'confidence'` reads `confidence` (default 0.95), `atol` (default 0) and `rtol`
(default 0.01); the last two may be `None`, which means 0.  A confidence outside (0, 1) raises
AssertionError. -/
theorem C15_confidence (s : String) (hs : pyLower s = "confidence") (kw : Kwargs)
    (conf rtol atol : ℝ) (hc : kwReal kw "confidence" 0.95 conf)
    (hr : kwReal kw "rtol" 0.01 rtol ∨ kw.lookup "rtol" = some .none ∧ rtol = 0)
    (ha : kwReal kw "atol" 0 atol ∨ kw.lookup "atol" = some .none ∧ atol = 0) :
    (0 < conf ∧ conf < 1 → ∃ c, convergenceCriterion tppf zscore (.str s) kw = .ok (.conf c) ∧
      c.confidence = conf ∧ c.atol = atol ∧ c.rtol = rtol ∧ c.z = zscore conf) ∧
    (¬ (0 < conf ∧ conf < 1) → convergenceCriterion tppf zscore (.str s) kw = .error .assertion) := by
  have hu := restrict_no_unexpected .confidence kw
  have hp : CritClass.confidence.signature.map Prod.fst = ["confidence", "atol", "rtol"] := rfl
  obtain ⟨v1, e1, t1, -⟩ := bind_kwReal (kwReal_restrict (params := ["confidence", "atol", "rtol"]) (by simp) hc)
  obtain ⟨v2, o2, e2, t2, g2⟩ := bind_kwOpt (params := ["confidence", "atol", "rtol"]) (by simp) ha
  obtain ⟨v3, o3, e3, t3, g3⟩ := bind_kwOpt (params := ["confidence", "atol", "rtol"]) (by simp) hr
  have l0 : CRITERIA.lookup "confidence" = some .confidence := by decide
  have l1 : CritClass.confidence.signature.lookup "confidence" = some (some (.float 0.95)) := by
    simp [CritClass.signature]
  have l2 : CritClass.confidence.signature.lookup "atol" = some (some (.float 0)) := by
    simp [CritClass.signature, List.lookup_cons]
  have l3 : CritClass.confidence.signature.lookup "rtol" = some (some (.float 0.01)) := by
    simp [CritClass.signature, List.lookup_cons]
  rw [hp] at hu
  simp only [convergenceCriterion, hs, l0, CritClass.construct, hp, hu, l1, l2, l3,
    Option.getD_some, e1, e2, e3, t1, t2, t3, bind, Except.bind, pure, Except.pure]
  constructor
  · intro hc
    rw [ConfCrit.init, if_pos hc]
    exact ⟨_, rfl, rfl, g2, g3, rfl⟩
  · intro hc
    rw [ConfCrit.init, if_neg hc]
    rfl

/-- **C15**: `'knee'` reads `S` (default 1). -/
theorem C15_knee (s : String) (hs : pyLower s = "knee") (kw : Kwargs) (S : ℝ)
    (hS : kwReal kw "S" 1 S) :
    convergenceCriterion tppf zscore (.str s) kw = .ok (.knee S) := by
  have hu := restrict_no_unexpected .knee kw
  have hp : CritClass.knee.signature.map Prod.fst = ["S"] := rfl
  obtain ⟨v1, e1, t1, -⟩ := bind_kwReal (kwReal_restrict (params := ["S"]) (by simp) hS)
  have l0 : CRITERIA.lookup "knee" = some .knee := by decide
  have l1 : CritClass.knee.signature.lookup "S" = some (some (.float 1)) := by
    simp [CritClass.signature]
  rw [hp] at hu
  simp only [convergenceCriterion, hs, l0, CritClass.construct, hp, hu, l1,
    Option.getD_some, e1, t1, bind, Except.bind, pure, Except.pure]
  rfl

/-- **C15**: for every name the result depends on the values of the six keywords the criteria
know, and on no other keyword. -/
theorem C15_ignores_others (s : String) (kw kw' : Kwargs)
    (h : ∀ name ∈ ["count", "rtol", "atol", "ord", "confidence", "S"], kw.lookup name = kw'.lookup name) :
    convergenceCriterion tppf zscore (.str s) kw = convergenceCriterion tppf zscore (.str s) kw' := by
  simp only [convergenceCriterion]
  split
  · rfl
  · rename_i cls _
    unfold CritClass.construct
    rw [restrict_no_unexpected, restrict_no_unexpected]
    have hb : ∀ name d, name ∈ cls.signature.map Prod.fst →
        bindParam (restrictKwargs (cls.signature.map Prod.fst) kw) name d =
        bindParam (restrictKwargs (cls.signature.map Prod.fst) kw') name d := by
      intro name d hn
      have : kw.lookup name = kw'.lookup name := by
        refine h name ?_
        cases cls <;> simp [CritClass.signature] at hn ⊢ <;> tauto
      simp [bindParam, lookup_restrict, hn, this]
    cases cls
    · have h1 := fun d => hb "count" d (by simp [CritClass.signature])
      simp only [h1]
    · have h1 := fun d => hb "rtol" d (by simp [CritClass.signature])
      have h2 := fun d => hb "atol" d (by simp [CritClass.signature])
      have h3 := fun d => hb "ord" d (by simp [CritClass.signature])
      simp only [h1, h2, h3]
    · have h1 := fun d => hb "confidence" d (by simp [CritClass.signature])
      have h2 := fun d => hb "atol" d (by simp [CritClass.signature])
      have h3 := fun d => hb "rtol" d (by simp [CritClass.signature])
      simp only [h1, h2, h3]
    · have h1 := fun d => hb "S" d (by simp [CritClass.signature])
      simp only [h1]

/-- Non-vacuity: letter case is ignored and foreign keywords are dropped. -/
example : convergenceCriterion tppf zscore (.str "COUNT") [("seed", .int 1), ("count", .int 7)] =
    .ok (.count 7) :=
  (C15_count tppf zscore "COUNT" (by decide) _).1 7 (by simp [List.lookup_cons])

example : convergenceCriterion tppf zscore (.str "Tolerance") [("ord", .inf), ("rtol", .int 1), ("full", .other)] =
    .ok (.tol 1 1.49e-08 .inf) :=
  C15_tolerance tppf zscore "Tolerance" (by decide) _ 1 1.49e-08
    (Or.inr (Or.inl ⟨1, by simp [List.lookup_cons], by simp⟩))
    (Or.inr (Or.inr ⟨by simp [List.lookup_cons], rfl⟩)) .inf
    (Or.inr (Or.inr (Or.inl ⟨by simp, rfl⟩)))

end Primate
