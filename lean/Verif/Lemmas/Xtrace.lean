import Verif.Props.Trinv
import Verif.Lemmas.Estimators
import Verif.Lemmas.Hutch
import Mathlib.Data.List.GetD

namespace Primate

open Matrix

variable {n : ℕ}

/-- Contract assumed of `scipy.linalg.qr_insert(Q, R, u, Q.shape[1], which="col")` on an economic
factorization: it appends one orthonormal column and one column of `R`, or raises LinAlgError
when `u` lies in the range of `Q`. -/
structure QRInsertOk (qrInsert : QRInsert n) : Prop where
  some : ∀ k Q R u Q' R', Qᵀ * Q = 1 → qrInsert k Q R u = some (Q', R') →
    Q'ᵀ * Q' = 1 ∧ (∀ i (j : Fin k), Q' i j.castSucc = Q i j) ∧
    (∀ i j : Fin k, R' i.castSucc j.castSucc = R i j) ∧
    (∀ j : Fin k, R' (Fin.last k) j.castSucc = 0) ∧ R' (Fin.last k) (Fin.last k) ≠ 0 ∧
    ∀ i, u i = ∑ l, Q' i l * R' l (Fin.last k)
  none : ∀ k Q R u, Qᵀ * Q = 1 → qrInsert k Q R u = none → ∃ c, u = Q *ᵥ c

/-- Columns of the current orthonormal factor. -/
def QRState.cols (s : QRState n) : List (Vec n) := List.ofFn fun (j : Fin s.k) (i : Fin n) => s.Q i j

/-- `s` holds the QR factorization of the vectors `ys`. -/
structure QInv (s : QRState n) (ys : List (Vec n)) : Prop where
  k_eq : s.k = ys.length
  orth : s.Qᵀ * s.Q = 1
  fact : ∀ (j : Fin s.k) i, (ys.getD j 0) i = (s.Q * s.R) i j
  inv : s.Rinv * s.R = 1

theorem QInv.step {qrInsert : QRInsert n} (hq : QRInsertOk qrInsert) {s : QRState n}
    {ys : List (Vec n)} (h : QInv s ys) (u : Vec n) {Q'} {R'} (hs : qrInsert s.k s.Q s.R u = some (Q', R')) :
    ∃ M, updateTrinv s.Rinv (fun i => R' i (Fin.last s.k)) = .ok M ∧
      QInv ⟨s.k + 1, Q', R', M⟩ (ys ++ [u]) ∧
      QRState.cols ⟨s.k + 1, Q', R', M⟩ = s.cols ++ [fun i => Q' i (Fin.last s.k)] := by
  obtain ⟨h1, h2, h3, h4, h5, h6⟩ := hq.some _ _ _ _ _ _ h.orth hs
  obtain ⟨M, hM, hM1, -⟩ := C34_inverse s.R s.Rinv h.inv (fun i => R' i (Fin.last s.k)) h5
  have hR : Spec.border s.R (fun i => R' i (Fin.last s.k)) = R' := by
    funext i j
    simp only [Spec.border, of_apply]
    refine Fin.lastCases ?_ (fun j => ?_) j
    · simp
    · refine Fin.lastCases ?_ (fun i => ?_) i
      · simp [h4]
      · simp [h3]
  rw [hR] at hM1
  refine ⟨M, hM, ⟨by simp [h.k_eq], h1, ?_, hM1⟩, ?_⟩
  · intro j i
    simp only at j
    refine Fin.lastCases ?_ (fun j => ?_) j
    · rw [mul_apply, ← h6]
      simp [h.k_eq]
    · have hj : (j : ℕ) < ys.length := by rw [← h.k_eq]; exact j.2
      have := h.fact j i
      rw [List.getD_append _ _ _ _ (by simpa using hj)]
      simp only [Fin.val_castSucc]
      rw [this, mul_apply, mul_apply, Fin.sum_univ_castSucc, h4, mul_zero, add_zero]
      simp [h2, h3]
  · simp only [QRState.cols]
    rw [List.ofFn_succ']
    simp [h2]

/-- What the insertion loop does. -/
theorem xtraceInsert_ok {qrInsert : QRInsert n} (hq : QRInsertOk qrInsert) (us : List (Vec n))
    {s s' : QRState n} {ys : List (Vec n)} (h : QInv s ys)
    (hi : xtraceInsert qrInsert us s = .ok s') :
    QInv s' (ys ++ us) ∧ ∃ new, new.length = us.length ∧ s'.cols = s.cols ++ new := by
  induction us generalizing s ys with
  | nil =>
    simp only [xtraceInsert, Except.ok.injEq] at hi
    subst hi
    exact ⟨by simpa using h, [], rfl, by simp⟩
  | cons u us ih =>
    unfold xtraceInsert at hi
    rcases hu : qrInsert s.k s.Q s.R u with _ | ⟨Q', R'⟩
    · rw [hu] at hi; cases hi
    · rw [hu] at hi
      obtain ⟨M, hM, hinv, hcols⟩ := h.step hq u hu
      simp only [hM] at hi
      obtain ⟨i1, new, l, c⟩ := ih hinv hi
      refine ⟨by simpa using i1, (fun i => Q' i (Fin.last s.k)) :: new, by simp [l], ?_⟩
      rw [c, hcols, List.append_assoc]; rfl

/-- The insertion loop fails only with LinAlgError, and only on linearly dependent vectors. -/
theorem xtraceInsert_error {qrInsert : QRInsert n} (hq : QRInsertOk qrInsert) (us : List (Vec n))
    {s : QRState n} {ys : List (Vec n)} (h : QInv s ys) {e : PyErr}
    (hi : xtraceInsert qrInsert us s = .error e) :
    e = .linAlg ∧ ¬ Spec.NoDependent (ys ++ us) := by
  induction us generalizing s ys with
  | nil => cases hi
  | cons u us ih =>
    unfold xtraceInsert at hi
    rcases hu : qrInsert s.k s.Q s.R u with _ | ⟨Q', R'⟩
    · rw [hu] at hi
      simp only [Except.error.injEq] at hi
      refine ⟨hi.symm, fun hd => ?_⟩
      obtain ⟨c, hc⟩ := hq.none _ _ _ _ h.orth hu
      refine hd ys u us rfl ⟨fun j => (s.Rinv *ᵥ c) (Fin.cast h.k_eq.symm j), ?_⟩
      have hRR : s.R * s.Rinv = 1 := mul_eq_one_comm.mp h.inv
      have hc' : u = (s.Q * s.R) *ᵥ (s.Rinv *ᵥ c) := by
        rw [mulVec_mulVec, Matrix.mul_assoc, hRR, Matrix.mul_one, hc]
      rw [hc']
      funext i
      simp only [mulVec, dotProduct, Finset.sum_apply, Pi.smul_apply, smul_eq_mul]
      rw [← Equiv.sum_comp (finCongr h.k_eq)]
      refine Finset.sum_congr rfl fun j _ => ?_
      have := h.fact j i
      rw [← this]
      simp only [finCongr_apply, Fin.cast_cast, Fin.cast_eq_self, List.get_eq_getElem, Fin.val_cast]
      rw [List.getD_eq_getElem _ _ (by rw [← h.k_eq]; exact j.2), mul_comm]
    · rw [hu] at hi
      obtain ⟨M, hM, hinv, -⟩ := h.step hq u hu
      simp only [hM] at hi
      have := ih hinv hi
      simpa using this

theorem xdrawn_succ (pdf : Pdf n) (batch t : ℕ) : Spec.xdrawn pdf batch (t + 1) =
    Spec.xdrawn pdf batch t ++ List.ofFn (pdf (Spec.xhist n batch t) (Spec.xsize n batch t)) := by
  simp [Spec.xdrawn, List.range_succ]

theorem xhist_succ (batch t : ℕ) : Spec.xhist n batch (t + 1) =
    Spec.xhist n batch t ++ [Spec.xsize n batch t] := by
  simp [Spec.xhist, List.range_succ]

theorem xdrawn_length (pdf : Pdf n) (batch t : ℕ) :
    (Spec.xdrawn pdf batch t).length = min n (t * batch) := by
  induction t with
  | zero => simp [Spec.xdrawn]
  | succ t ih =>
    rw [xdrawn_succ, List.length_append, ih, List.length_ofFn, Spec.xsize, Nat.succ_mul]
    omega

theorem xdrawn_prefix (pdf : Pdf n) (batch : ℕ) {t t' : ℕ} (h : t ≤ t') :
    ∃ rest, Spec.xdrawn pdf batch t' = Spec.xdrawn pdf batch t ++ rest := by
  induction t', h using Nat.le_induction with
  | base => exact ⟨[], by simp⟩
  | succ t' _ ih =>
    obtain ⟨r, hr⟩ := ih
    exact ⟨r ++ List.ofFn (pdf (Spec.xhist n batch t') (Spec.xsize n batch t')), by
      rw [xdrawn_succ, hr, List.append_assoc]⟩

theorem noDependent_prefix {a b : List (Vec n)} (h : Spec.NoDependent (a ++ b)) :
    Spec.NoDependent a := by
  intro pre u post hl hc
  exact h pre u (post ++ b) (by rw [hl]; simp) hc

/-- State of `xtrace` after `t` passes. -/
structure XInv (A : Operand n) (pdf : Pdf n) (batch : ℕ) (record : Bool) (t : ℕ) (s : XState n) :
    Prop where
  hist : s.history = Spec.xhist n batch t
  W : s.W = Spec.xdrawn pdf batch t
  qr : QInv s.qr ((Spec.xdrawn pdf batch t).map A.apply)
  Z : s.Z = s.qr.cols.map A.apply
  need : ∀ u < t, u * batch < n
  calls : s.calls = List.replicate t (.mk2 none none)
  est : ∃ Wm Zm : Matrix (Fin n) (Fin s.qr.k) ℝ,
    (∀ i (j : Fin s.qr.k), Wm i j = ((Spec.xdrawn pdf batch t).getD j 0) i) ∧
    (∀ i j, Zm i j = A.apply (fun i => s.qr.Q i j) i) ∧
    MeanEstInv false record s.est
      ((List.ofFn (xtraceEsts Wm Zm s.qr.Q s.qr.R s.qr.Rinv false)).map fun x _ => x)

theorem XInv.init (A : Operand n) (pdf : Pdf n) (batch : ℕ) (record : Bool) :
    XInv A pdf batch record 0 (XState.init n record) := by
  refine ⟨rfl, rfl, ⟨rfl, ?_, fun j => j.elim0, ?_⟩, rfl, by simp, rfl, ?_⟩
  · funext i; exact i.elim0
  · funext i; exact i.elim0
  · refine ⟨Matrix.of fun _ j => j.elim0, Matrix.of fun _ j => j.elim0, fun _ j => j.elim0,
      fun _ j => j.elim0, ?_⟩
    exact MeanEstInv.init false record

theorem XInv.len {A : Operand n} {pdf : Pdf n} {batch : ℕ} {record : Bool} {t : ℕ} {s : XState n}
    (h : XInv A pdf batch record t s) : s.qr.k = min n (t * batch) := by
  rw [h.qr.k_eq, List.length_map, xdrawn_length]

theorem XInv.nSamples {A : Operand n} {pdf : Pdf n} {batch : ℕ} {record : Bool} {t : ℕ}
    {s : XState n} (h : XInv A pdf batch record t s) : s.est.nSamples = min n (t * batch) := by
  obtain ⟨Wm, Zm, -, -, he⟩ := h.est
  rw [he.n]; simp [h.len]

/-- One pass from a state in which fewer than `n` vectors have been drawn. -/
theorem XInv.body {A : Operand n} {pdf : Pdf n} {batch : ℕ} {record : Bool} {t : ℕ}
    {s : XState n} {qrInsert : QRInsert n} (hq : QRInsertOk qrInsert)
    (h : XInv A pdf batch record t s) (hb : 1 ≤ batch) (ht : t * batch < n) :
    (∃ s', xtraceBody qrInsert A pdf batch record s = .ok s' ∧ XInv A pdf batch record (t + 1) s') ∨
    (xtraceBody qrInsert A pdf batch record s = .error .linAlg ∧
      ¬ Spec.NoDependent ((Spec.xdrawn pdf batch (t + 1)).map A.apply)) := by
  rcases s with ⟨hist, W0, Z0, qr0, est0, calls⟩
  have h' := h
  obtain ⟨hh, hW, hqr, hZ0, hneed, hcalls, -⟩ := h'
  simp only at hh hW hqr hZ0 hcalls
  subst hh hW hZ0 hcalls
  have hns : min (n - (Spec.xdrawn pdf batch t).length) batch = Spec.xsize n batch t := by
    rw [xdrawn_length]; rfl
  unfold xtraceBody
  dsimp only
  rw [hns]
  set ns := Spec.xsize n batch t with hnsdef
  set Nv := List.ofFn (pdf (Spec.xhist n batch t) ns) with hNv
  have hNvl : Nv.length = ns := by simp [hNv]
  have hns1 : 1 ≤ ns := by simp only [hnsdef, Spec.xsize]; omega
  have hdr : Spec.xdrawn pdf batch (t + 1) = Spec.xdrawn pdf batch t ++ Nv := xdrawn_succ _ _ _
  rcases hi : xtraceInsert qrInsert (Nv.map A.apply) qr0 with e | qr
  · right
    obtain ⟨rfl, hd⟩ := xtraceInsert_error hq _ hqr hi
    refine ⟨rfl, ?_⟩
    rw [hdr, List.map_append]; exact hd
  · left
    obtain ⟨hqi, new, hnew, hcols⟩ := xtraceInsert_ok hq _ hqr hi
    rw [← List.map_append, ← hdr] at hqi
    have hk : qr.k = qr0.k + ns := by
      rw [hqi.k_eq, hqr.k_eq, hdr]; simp [hNvl]
    have hcl : qr0.cols.length = qr0.k := by simp [QRState.cols]
    have hdrop : (List.ofFn fun j : Fin qr.k => fun i => qr.Q i j).drop (qr.k - ns) = new := by
      have : (List.ofFn fun (j : Fin qr.k) (i : Fin n) => qr.Q i j) = qr0.cols ++ new := hcols
      rw [this, hk, Nat.add_sub_cancel, ← hcl, List.drop_left]
    have hZ : qr0.cols.map A.apply ++ new.map A.apply = qr.cols.map A.apply := by
      rw [hcols, List.map_append]
    dsimp only
    simp only [hdrop, hZ, ← hdr]
    have hcond : (Spec.xdrawn pdf batch (t + 1)).length = qr.k ∧
        (qr.cols.map A.apply).length = qr.k := by
      refine ⟨?_, by simp [QRState.cols]⟩
      rw [hqi.k_eq, List.length_map]
    rw [if_pos hcond]
    obtain ⟨e', he, hinv, -⟩ := (MeanEstInv.init (d := 1) false record).step
      ((List.ofFn (xtraceEsts (colsMat (Spec.xdrawn pdf batch (t + 1)) qr.k)
        (colsMat (qr.cols.map A.apply) qr.k) qr.Q qr.R qr.Rinv false)).map fun x _ => x) (by
        simp only [ne_eq, List.map_eq_nil_iff, List.ofFn_eq_nil_iff]; omega)
    rw [update_vec, he]
    refine ⟨_, rfl, ?_, rfl, hqi, rfl, ?_, ?_, colsMat (Spec.xdrawn pdf batch (t + 1)) qr.k,
      colsMat (qr.cols.map A.apply) qr.k, fun i j => rfl, ?_, by simpa using hinv⟩
    · rw [xhist_succ]
    · intro u hu
      rcases Nat.lt_succ_iff_lt_or_eq.mp hu with h' | rfl
      · exact hneed u h'
      · exact ht
    · simp [List.replicate_succ']
    · intro i j
      simp only [colsMat, of_apply]
      rw [List.getD_eq_getElem _ _ (by rw [hcond.2]; exact j.2), List.getElem_map]
      congr 1
      unfold QRState.cols
      rw [List.getElem_ofFn]

theorem eval_count_eq {d : ℕ} (c : ℤ) (est : EstView d) :
    (Crit.count c).eval est = .ok (truth (c ≤ (est.len : ℤ))) := rfl

/-- The loop under a criterion that is exactly "at least `n` samples". -/
theorem xtraceLoop_spec {A : Operand n} {pdf : Pdf n} {batch : ℕ} {record : Bool}
    {qrInsert : QRInsert n} (hq : QRInsertOk qrInsert) (hb : 1 ≤ batch) {crit : Crit}
    (hc : ∀ e : MeanEst 1, crit.eval e.view = .ok (truth ((n : ℤ) ≤ (e.nSamples : ℤ)))) (d : ℕ) :
    ∀ t s, XInv A pdf batch record t s → n - t * batch ≤ d →
      (∃ s' t', xtraceLoop qrInsert A pdf batch record crit (d + 1) s = some (.ok s') ∧
        XInv A pdf batch record t' s' ∧ n ≤ t' * batch) ∨
      (∃ t', xtraceLoop qrInsert A pdf batch record crit (d + 1) s = some (.error .linAlg) ∧
        t' * batch < n ∧ ¬ Spec.NoDependent ((Spec.xdrawn pdf batch (t' + 1)).map A.apply)) := by
  induction d with
  | zero =>
    intro t s h hd
    left
    refine ⟨s, t, ?_, h, by omega⟩
    unfold xtraceLoop
    rw [hc, h.nSamples, (truth_eq_true _).mpr (by omega)]
  | succ d ih =>
    intro t s h hd
    unfold xtraceLoop
    by_cases ht : n ≤ t * batch
    · left
      refine ⟨s, t, ?_, h, ht⟩
      rw [hc, h.nSamples, (truth_eq_true _).mpr (by omega)]
    · rw [hc, h.nSamples, (truth_eq_false _).mpr (by omega)]
      rcases h.body hq hb (by omega) with ⟨s', h1, h2⟩ | ⟨h1, h2⟩
      · simp only [h1]
        exact ih (t + 1) s' h2 (by rw [Nat.succ_mul]; omega)
      · right
        simp only [h1]
        exact ⟨t, trivial, by omega, h2⟩

theorem xtraceLoop_mono {A : Operand n} {pdf : Pdf n} {batch : ℕ} {record : Bool}
    {qrInsert : QRInsert n} {crit : Crit} {fuel : ℕ} {s : XState n} {r : Py (XState n)}
    (h : xtraceLoop qrInsert A pdf batch record crit fuel s = some r) (k : ℕ) :
    xtraceLoop qrInsert A pdf batch record crit (fuel + k) s = some r := by
  induction fuel generalizing s with
  | zero => cases h
  | succ fuel ih =>
    rw [Nat.succ_add]
    unfold xtraceLoop at h ⊢
    rcases hc : crit.eval s.est.view with e | ⟨_ | _⟩ <;> rw [hc] at h
    · exact h
    · simp only at h ⊢
      rcases hx : xtraceBody qrInsert A pdf batch record s with e | s' <;> rw [hx] at h
      · exact h
      · exact ih h
    · exact h

end Primate
