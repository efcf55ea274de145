import Verif.Model.NativeOps
import Mathlib.LinearAlgebra.Matrix.Notation

/-!
# C86, C87: the native operator wrappers
-/

noncomputable section

namespace Primate

open Matrix

/-- The numbers of a buffer as a vector. -/
def Spec.bufVec (b : Buf ℝ) (c : ℕ) : Fin c → ℝ := fun i => b.get i

/-- Column `j` of a column-major buffer with `c` rows. -/
def Spec.bufCol (b : Buf ℝ) (c j : ℕ) : Fin c → ℝ := fun i => b.get (j * c + i)

/-- The wrapper is the linear map given by the matrix `M`, for every caller that allocates its buffers by `shape()`: the shape is that
of `M`, `matvec` is the product with `M`, `rmatvec` the adjoint, `matmat` the product with each column; nothing else is written and no
access is out of bounds. -/
structure Spec.Represents (o : NativeOp) {r c : ℕ} (M : Matrix (Fin r) (Fin c) ℝ) : Prop where
  shape : o.shape = (r, c)
  matvec : ∀ inp out : Buf ℝ, inp.len = o.shape.2 → out.len = o.shape.1 →
    ∃ out', o.matvec inp out = .ok out' ∧ out'.len = out.len ∧ Spec.bufVec out' r = M *ᵥ Spec.bufVec inp c
  rmatvec : ∀ inp out : Buf ℝ, inp.len = o.shape.1 → out.len = o.shape.2 →
    ∃ out', o.rmatvec inp out = .ok out' ∧ out'.len = out.len ∧
      ∀ x : Fin c → ℝ, Spec.bufVec out' c ⬝ᵥ x = Spec.bufVec inp r ⬝ᵥ (M *ᵥ x)
  matmat : ∀ (k : ℕ) (X Y : Buf ℝ), X.len = o.shape.2 * k → Y.len = o.shape.1 * k →
    ∃ Y', o.matmat X Y k = .ok Y' ∧ Y'.len = Y.len ∧ ∀ j < k, Spec.bufCol Y' r j = M *ᵥ Spec.bufCol X c j

theorem storeVec_ok {r : ℕ} (b : Buf ℝ) (x : Fin r → ℝ) (h : r ≤ b.len) :
    ∃ b', storeVec b x = .ok b' ∧ b'.len = b.len ∧ Spec.bufVec b' r = x := by
  refine ⟨⟨b.len, fun i => if h : i < r then x ⟨i, h⟩ else b.get i⟩, by unfold storeVec; rw [if_pos h], rfl, ?_⟩
  funext i
  simp [Spec.bufVec]

theorem storeMat_ok {r k : ℕ} (b : Buf ℝ) (Y : Matrix (Fin r) (Fin k) ℝ) (h : r * k ≤ b.len) :
    ∃ b', storeMat b Y = .ok b' ∧ b'.len = b.len ∧ ∀ j (hj : j < k), Spec.bufCol b' r j = fun i => Y i ⟨j, hj⟩ := by
  refine ⟨⟨b.len, fun i => if h : i < r * k then
      Y ⟨i % r, Nat.mod_lt _ (Nat.pos_of_ne_zero fun h0 => by simp [h0] at h)⟩ ⟨i / r, Nat.div_lt_of_lt_mul h⟩ else b.get i⟩,
    by unfold storeMat; rw [if_pos h], rfl, ?_⟩
  intro j hj
  funext i
  have hi := i.2
  have hlt : j * r + i < r * k := by
    calc j * r + i < j * r + r := by omega
      _ = (j + 1) * r := by ring
      _ ≤ k * r := Nat.mul_le_mul_right r (by omega)
      _ = r * k := Nat.mul_comm k r
  simp only [Spec.bufCol, hlt, dite_true]
  have h1 : (j * r + i) % r = i := by rw [Nat.mul_comm, Nat.mul_add_mod]; exact Nat.mod_eq_of_lt hi
  have h2 : (j * r + i) / r = j := by
    rw [Nat.mul_comm, Nat.mul_add_div (by omega), Nat.div_eq_of_lt hi, Nat.add_zero]
  congr 1
  · exact Fin.ext h1
  · exact Fin.ext h2

theorem mapVec_ok (b : Buf ℝ) (c : ℕ) (h : b.len = c) : mapVec b c = .ok (Spec.bufVec b c) := by
  unfold mapVec
  rw [if_pos (le_of_eq h.symm)]
  rfl

theorem mapMat_ok (b : Buf ℝ) (c k : ℕ) (h : b.len = c * k) :
    mapMat b c k = .ok (Matrix.of fun (i : Fin c) (j : Fin k) => b.get (j * c + i)) := by
  unfold mapMat
  rw [if_pos (le_of_eq h.symm)]
  rfl

/-- C86: the dense wrapper represents its matrix. -/
theorem C86_dense {r c : ℕ} (A : Matrix (Fin r) (Fin c) ℝ) : Spec.Represents (denseOp A) A := by
  refine ⟨rfl, ?_, ?_, ?_⟩
  · intro inp out h1 h2
    have hm := mapVec_ok inp c h1
    obtain ⟨b, hb, hl, hv⟩ := storeVec_ok out (A *ᵥ Spec.bufVec inp c) (show r ≤ out.len from le_of_eq h2.symm)
    exact ⟨b, by simp only [denseOp, hm, bind, Except.bind, hb], hl, hv⟩
  · intro inp out h1 h2
    have hm := mapVec_ok inp r h1
    obtain ⟨b, hb, hl, hv⟩ := storeVec_ok out (Aᵀ *ᵥ Spec.bufVec inp r) (show c ≤ out.len from le_of_eq h2.symm)
    refine ⟨b, by simp only [denseOp, hm, bind, Except.bind, hb], hl, fun x => ?_⟩
    rw [hv, mulVec_transpose, dotProduct_mulVec]
  · intro k X Y h1 h2
    have hm := mapMat_ok X c k h1
    obtain ⟨b, hb, hl, hv⟩ := storeMat_ok Y (A * Matrix.of fun (i : Fin c) (j : Fin k) => X.get (j * c + i)) (show r * k ≤ Y.len from le_of_eq h2.symm)
    refine ⟨b, by simp only [denseOp, hm, bind, Except.bind, hb], hl, fun j hj => ?_⟩
    rw [hv j hj]
    rfl

/-- C86 (partial): the sparse wrapper used by the bindings (`gram = false`) represents its matrix.  Missing: the variant `gram = true`, of
which the claim is false (see `C86_gram_counterexample`). -/
theorem C86_sparse_partial {r c : ℕ} (A : Matrix (Fin r) (Fin c) ℝ) : Spec.Represents (sparseOp false A) A := C86_dense A

/-- C86: the affine wrapper represents `A` after construction and `A + t B` after `set_parameter(t)`, whatever was set before. -/
theorem C86_affine {r c : ℕ} (A B : Matrix (Fin r) (Fin c) ℝ) (ts : List ℝ) (inp out : Buf ℝ) (h1 : inp.len = c) (h2 : out.len = r) :
    ∃ out', (ts.foldl AffineOp.setParameter (AffineOp.init A B)).matvec inp out = .ok out' ∧
      Spec.bufVec out' r = A *ᵥ Spec.bufVec inp c + (ts.getLast?.getD 0) • (B *ᵥ Spec.bufVec inp c) := by
  have key : ∀ (ts : List ℝ) (o : AffineOp r c), (ts.foldl AffineOp.setParameter o).A = o.A ∧
      (ts.foldl AffineOp.setParameter o).B = o.B ∧ (ts.foldl AffineOp.setParameter o).param = ts.getLast?.getD o.param := by
    intro ts
    induction ts with
    | nil => intro o; exact ⟨rfl, rfl, rfl⟩
    | cons t ts ih =>
      intro o
      obtain ⟨a, b, c⟩ := ih (o.setParameter t)
      refine ⟨a, b, ?_⟩
      rw [List.foldl_cons, c]
      cases ts with
      | nil => rfl
      | cons s ts =>
        rw [List.getLast?_cons_cons]
        cases h : (s :: ts).getLast? with
        | none => simp at h
        | some x => rfl
  obtain ⟨ha, hb, hp⟩ := key ts (AffineOp.init A B)
  have hm := mapVec_ok inp c h1
  obtain ⟨b, hst, -, hv⟩ := storeVec_ok out ((A + (ts.getLast?.getD 0) • B) *ᵥ Spec.bufVec inp c) (le_of_eq h2.symm)
  refine ⟨b, ?_, ?_⟩
  · unfold AffineOp.matvec
    simp only [hm, bind, Except.bind, ha, hb, hp]
    exact hst
  · rw [hv, add_mulVec, smul_mulVec]

/-- C86 is false of the code for the Gram variant (`gram = true`, not bound to Python): no matrix is represented by the wrapper of the
`1 x 1` matrix `[2]`, since `matvec` multiplies by 4 and `matmat` by 2. -/
theorem C86_gram_counterexample : ¬ ∃ (r c : ℕ) (M : Matrix (Fin r) (Fin c) ℝ), Spec.Represents (sparseOp true !![2]) M := by
  rintro ⟨r, c, M, hs, hv, -, hmm⟩
  obtain ⟨hr, hc⟩ : 1 = r ∧ 1 = c := Prod.mk.inj hs
  subst hr
  subst hc
  obtain ⟨o1, ho1, -, h1⟩ := hv ⟨1, fun _ => 1⟩ ⟨1, fun _ => 0⟩ rfl rfl
  obtain ⟨o2, ho2, -, h2⟩ := hmm 1 ⟨1, fun _ => 1⟩ ⟨1, fun _ => 0⟩ rfl rfl
  have e1 : o1.get 0 = 4 := by
    have : (sparseOp true !![2]).matvec ⟨1, fun _ => 1⟩ ⟨1, fun _ => 0⟩ = .ok o1 := ho1
    simp [sparseOp, mapVec, storeVec, bind, Except.bind] at this
    rw [← this]
    simp [mulVec, dotProduct]
    norm_num
  have e2 : o2.get 0 = 2 := by
    have : (sparseOp true !![2]).matmat ⟨1, fun _ => 1⟩ ⟨1, fun _ => 0⟩ 1 = .ok o2 := ho2
    simp [sparseOp, mapMat, storeMat, bind, Except.bind] at this
    rw [← this]
    simp [vecMul, dotProduct]
  have f1 := congrFun h1 0
  have f2 := congrFun (h2 0 (by norm_num)) 0
  simp [Spec.bufVec, Spec.bufCol, mulVec, dotProduct] at f1 f2
  rw [e1] at f1
  rw [e2] at f2
  linarith

/-- C86: with more columns than rows the Gram variant writes outside an output buffer allocated by `shape()`. -/
theorem C86_gram_overflow {r c : ℕ} (hrc : r < c) (A : Matrix (Fin r) (Fin c) ℝ) (inp out : Buf ℝ)
    (h1 : inp.len = (sparseOp true A).shape.2) (h2 : out.len = (sparseOp true A).shape.1) :
    (sparseOp true A).matvec inp out = .error .index := by
  have h1 : inp.len = c := h1
  have h2 : out.len = r := h2
  have hm := mapVec_ok inp c h1
  simp only [sparseOp, hm, bind, Except.bind, if_true, storeVec]
  rw [if_neg (by omega)]

/-- C86: with a buffer shorter than `shape()` asks for, every method of the dense wrapper and of the sparse wrapper used by the bindings
accesses memory outside of it. -/
theorem C86_short_buffers {r c : ℕ} (A : Matrix (Fin r) (Fin c) ℝ) (o : NativeOp) (ho : o = denseOp A ∨ o = sparseOp false A)
    (inp out : Buf ℝ) (k : ℕ) :
    (inp.len < c ∨ out.len < r → o.matvec inp out = .error .index) ∧
    (inp.len < r ∨ out.len < c → o.rmatvec inp out = .error .index) ∧
    (inp.len < c * k ∨ out.len < r * k → o.matmat inp out k = .error .index) := by
  have hv : ∀ {a b : ℕ} (M : Matrix (Fin a) (Fin b) ℝ), inp.len < b ∨ out.len < a →
      (mapVec inp b >>= fun x => storeVec out (M *ᵥ x)) = (.error .index : Py (Buf ℝ)) := by
    intro a b M h
    by_cases h1 : b ≤ inp.len
    · simp only [mapVec, if_pos h1, bind, Except.bind, storeVec]
      rw [if_neg (by omega)]
    · simp only [mapVec, if_neg h1, bind, Except.bind]
  have hm : inp.len < c * k ∨ out.len < r * k → (mapMat inp c k >>= fun X => storeMat out (A * X)) = (.error .index : Py (Buf ℝ)) := by
    intro h
    by_cases h1 : c * k ≤ inp.len
    · simp only [mapMat, if_pos h1, bind, Except.bind, storeMat]
      rw [if_neg (by omega)]
    · simp only [mapMat, if_neg h1, bind, Except.bind]
  rcases ho with rfl | rfl
  · exact ⟨hv A, hv Aᵀ, hm⟩
  · refine ⟨fun h => ?_, fun h => ?_, hm⟩
    · exact hv A h
    · exact hv Aᵀ h

/-- The product computed by `matmat` on a concrete `2 x 1` matrix and two columns. -/
example : ∃ Y', (denseOp (!![1; 2] : Matrix (Fin 2) (Fin 1) ℝ)).matmat ⟨2, fun i => if i = 0 then 3 else 5⟩ ⟨4, fun _ => 0⟩ 2 = .ok Y' ∧
    Y'.get 0 = 3 ∧ Y'.get 1 = 6 ∧ Y'.get 2 = 5 ∧ Y'.get 3 = 10 := by
  obtain ⟨Y', h, -, hc⟩ := (C86_dense (!![1; 2] : Matrix (Fin 2) (Fin 1) ℝ)).matmat 2 ⟨2, fun i => if i = 0 then 3 else 5⟩
    ⟨4, fun _ => 0⟩ rfl rfl
  refine ⟨Y', h, ?_⟩
  have a := hc 0 (by norm_num)
  have b := hc 1 (by norm_num)
  have a0 := congrFun a 0
  have a1 := congrFun a 1
  have b0 := congrFun b 0
  have b1 := congrFun b 1
  simp [Spec.bufCol, mulVec, dotProduct] at a0 a1 b0 b1
  norm_num at a1 b1
  exact ⟨a0, a1, b0, b1⟩

/-! ## C87 -/

theorem copyOut_ok (a : NpVec) (m : ℕ) (h : ∀ i : ℕ, i < m → 0 ≤ a.off + i ∧ a.off + i < a.mem.len) :
    copyOut a m = .ok ((List.range m).map fun i : ℕ => a.mem.get (a.off + i).toNat) := by
  have key : ∀ l : List ℕ, (∀ i ∈ l, i < m) → (l.mapM fun i : ℕ => a.mem.read (a.off + i)) =
      .ok (l.map fun i : ℕ => a.mem.get (a.off + i).toNat) := by
    intro l
    induction l with
    | nil => intro _; rfl
    | cons i l ih =>
      intro hl
      rw [List.mapM_cons, ih fun j hj => hl j (by simp [hj])]
      simp only [Buf.read, h i (hl i (by simp)), and_self, if_true, bind, Except.bind, pure, Except.pure, List.map_cons]
  exact key _ fun i hi => List.mem_range.mp hi

/-- C87: the constructor accepts exactly the objects with both attributes; the others raise ValueError. -/
theorem C87_constructor (o : MvObj) :
    (o.matvec = none ∨ o.shape = none → PyLinOp.init o = .error .value) ∧
    (∀ mv s, o.matvec = some mv → o.shape = some s → PyLinOp.init o = .ok ⟨s, mv⟩) := by
  constructor
  · rintro (h | h)
    · simp [PyLinOp.init, h]
    · unfold PyLinOp.init
      rw [h]
      cases o.matvec <;> rfl
  · intro mv s h1 h2
    simp [PyLinOp.init, h1, h2]

/-- C87 (partial): if the Python `matvec` returns a contiguous array of length at least `shape[0]`, the native code receives its first
`shape[0]` elements; in particular all of them when the length is `shape[0]`; and an exception is passed on.  The function sees exactly
the numbers of the input.  Missing: other arrays (see `C87_strided_counterexample`, `C87_short`). -/
theorem C87_exact_partial (o : PyLinOp) (inp : Buf ℝ) (hin : inp.len = o.shape.2) :
    ∃ x : ℕ → ℝ, (∀ i < o.shape.2, x i = inp.get i) ∧
      (∀ e, o.matvec x = .error e → o.apply inp = .error e) ∧
      (∀ y, o.matvec x = .ok y → y.WF → y.stride = 1 → o.shape.1 ≤ y.size →
        o.apply inp = .ok ((List.range o.shape.1).map y.elem)) := by
  have hm : mapVec inp o.shape.2 = .ok (fun i => inp.get i) := by unfold mapVec; rw [if_pos (le_of_eq hin.symm)]
  refine ⟨fun i => if _h : i < o.shape.2 then inp.get i else 0, fun i hi => by simp [hi], ?_, ?_⟩
  · intro e he
    simp only [PyLinOp.apply, hm, bind, Except.bind, he]
  · intro y hy hwf hs hl
    simp only [PyLinOp.apply, hm, bind, Except.bind, hy]
    rw [copyOut_ok y _ fun i hi => ?_]
    · unfold NpVec.elem
      simp only [hs, mul_one]
    · have := hwf i (by omega)
      rwa [hs, mul_one] at this

/-- C87 is false of the code: an output array that is a strided view is copied as if it were contiguous.  Here the Python function
returns a view with the elements 1 and 2 (every second number of 1, 9, 2), and the native code receives 1 and 9. -/
theorem C87_strided_counterexample : ∃ (o : PyLinOp) (inp : Buf ℝ) (y : NpVec), inp.len = o.shape.2 ∧ y.WF ∧ y.size = o.shape.1 ∧
    (∀ x, o.matvec x = .ok y) ∧ (List.range o.shape.1).map y.elem = [1, 2] ∧ o.apply inp = .ok [1, 9] := by
  refine ⟨⟨(2, 2), fun _ => .ok ⟨⟨3, fun i => if i = 0 then 1 else if i = 1 then 9 else 2⟩, 0, 2, 2⟩⟩, ⟨2, fun _ => 0⟩,
    ⟨⟨3, fun i => if i = 0 then 1 else if i = 1 then 9 else 2⟩, 0, 2, 2⟩, rfl, ?_, rfl, fun _ => rfl, ?_, ?_⟩
  · intro i hi
    have : i = 0 ∨ i = 1 := by have : i < 2 := hi; omega
    rcases this with rfl | rfl <;> norm_num
  · simp [List.range_succ, NpVec.elem]
  · simp only [PyLinOp.apply, mapVec, le_refl, if_true, bind, Except.bind]
    rw [copyOut_ok]
    · simp [List.range_succ]
    · intro i hi
      have : i = 0 ∨ i = 1 := by omega
      rcases this with rfl | rfl <;> norm_num

/-- C87 is false of the code: an array shorter than `shape[0]` that fills its block of memory is read beyond the end. -/
theorem C87_short (o : PyLinOp) (inp : Buf ℝ) (hin : inp.len = o.shape.2) (y : NpVec) (hy : ∀ x, o.matvec x = .ok y)
    (h0 : y.off = 0) (hmem : y.mem.len = y.size) (hs : y.size < o.shape.1) : o.apply inp = .error .index := by
  have hm : mapVec inp o.shape.2 = .ok (fun i => inp.get i) := by unfold mapVec; rw [if_pos (le_of_eq hin.symm)]
  simp only [PyLinOp.apply, hm, bind, Except.bind, hy]
  unfold copyOut
  rw [h0]
  have key : ∀ (l : List ℕ), (∃ i ∈ l, y.size ≤ i) → (l.mapM fun i : ℕ => y.mem.read (0 + (i : ℤ))) = .error .index := by
    intro l
    induction l with
    | nil => rintro ⟨i, hi, -⟩; simp at hi
    | cons a l ih =>
      rintro ⟨i, hi, hi2⟩
      rw [List.mapM_cons]
      by_cases ha : a < y.size
      · have : y.mem.read (0 + (a : ℤ)) = .ok (y.mem.get a) := by
          unfold Buf.read
          rw [if_pos (by omega)]
          simp
        rw [this]
        simp only [bind, Except.bind]
        rw [ih ⟨i, by
          rcases List.mem_cons.mp hi with rfl | h
          · omega
          · exact h, hi2⟩]
      · have : y.mem.read (0 + (a : ℤ)) = .error .index := by
          unfold Buf.read
          rw [if_neg (by omega)]
        rw [this]
        rfl
  exact key _ ⟨y.size, List.mem_range.mpr hs, le_rfl⟩

/-- The hypotheses of `C87_exact_partial` are met: a function that doubles its input. -/
example : (⟨(2, 2), fun x => .ok ⟨⟨2, fun i => 2 * x i⟩, 0, 1, 2⟩⟩ : PyLinOp).apply ⟨2, fun i => (i : ℝ) + 3⟩ = .ok [6, 8] := by
  obtain ⟨x, hx, -, h⟩ := C87_exact_partial ⟨(2, 2), fun x => .ok ⟨⟨2, fun i => 2 * x i⟩, 0, 1, 2⟩⟩ ⟨2, fun i => (i : ℝ) + 3⟩ rfl
  rw [h _ rfl (fun i hi => by have : i < 2 := hi; constructor <;> push_cast <;> omega) rfl le_rfl]
  have h0 := hx 0 (by norm_num)
  have h1 := hx 1 (by norm_num)
  simp [List.range_succ, NpVec.elem, h0, h1]
  norm_num

/-! ## C145 -/

/-- C145 (partial): as long as the object still has the shape that the constructor copied, and at least one row, the array overload returns the elements of the
array returned by Python, or passes on its exception.  Missing: inputs that are too short (`C145_short_input`) and objects whose shape has changed
(`C145_shape_changed`). -/
theorem C145_array_partial (o : PyLinOp) (inp : Buf ℝ) (hin : inp.len = o.shape.2) (h0 : o.shape.1 ≠ 0) :
    ∃ x : ℕ → ℝ, (∀ i < o.shape.2, x i = inp.get i) ∧
      (∀ e, o.matvec x = .error e → o.applyArray o.shape inp = .error e) ∧
      (∀ y, o.matvec x = .ok y → y.WF → y.stride = 1 → o.shape.1 ≤ y.size →
        o.applyArray o.shape inp = .ok ((List.range o.shape.1).map y.elem)) := by
  obtain ⟨x, h1, h2, h3⟩ := C87_exact_partial o inp hin
  refine ⟨x, h1, fun e he => ?_, fun y hy hw hs hl => ?_⟩
  · simp only [PyLinOp.applyArray, if_neg h0, h2 e he, bind, Except.bind]
  · simp only [PyLinOp.applyArray, if_neg h0, h3 y hy hw hs hl, bind, Except.bind, le_refl, if_true, Nat.sub_self, List.replicate_zero, List.append_nil]

/-- C145 is false of the code: the length of the input array is not compared with the shape, a shorter one is read beyond its end. -/
theorem C145_short_input (o : PyLinOp) (cur : ℕ × ℕ) (inp : Buf ℝ) (hin : inp.len < o.shape.2) : o.applyArray cur inp = .error .index := by
  have h : o.apply inp = .error .index := by
    simp only [PyLinOp.apply, mapVec, if_neg (not_le.2 hin), bind, Except.bind]
  by_cases h0 : cur.1 = 0
  · simp only [PyLinOp.applyArray, if_pos h0]
  · simp only [PyLinOp.applyArray, if_neg h0, h, bind, Except.bind]

/-- C145 is false of the code: if the object has changed its shape since it was wrapped, fewer rows let the copy overrun the result, and for more rows the rest of
the result stays zero. -/
theorem C145_shape_changed (o : PyLinOp) (cur : ℕ × ℕ) (inp : Buf ℝ) (y : List ℝ) (h : o.apply inp = .ok y) :
    (cur.1 < o.shape.1 → o.applyArray cur inp = .error .index) ∧
    (o.shape.1 ≤ cur.1 → cur.1 ≠ 0 → o.applyArray cur inp = .ok (y ++ List.replicate (cur.1 - o.shape.1) 0)) := by
  constructor
  · intro hc
    by_cases h0 : cur.1 = 0
    · simp only [PyLinOp.applyArray, if_pos h0]
    · simp only [PyLinOp.applyArray, if_neg h0, h, bind, Except.bind, if_neg (not_le.2 hc)]
  · intro hc h0
    simp only [PyLinOp.applyArray, if_neg h0, h, bind, Except.bind, if_pos hc]

/-- The hypotheses of `C145_array_partial` are met: a function that doubles its input. -/
example : (⟨(2, 2), fun x => .ok ⟨⟨2, fun i => 2 * x i⟩, 0, 1, 2⟩⟩ : PyLinOp).applyArray (2, 2) ⟨2, fun i => (i : ℝ) + 3⟩ = .ok [6, 8] := by
  obtain ⟨x, hx, -, h⟩ := C145_array_partial ⟨(2, 2), fun x => .ok ⟨⟨2, fun i => 2 * x i⟩, 0, 1, 2⟩⟩ ⟨2, fun i => (i : ℝ) + 3⟩ rfl (by norm_num)
  rw [h _ rfl (fun i hi => by have : i < 2 := hi; constructor <;> push_cast <;> omega) rfl le_rfl]
  have h0 := hx 0 (by norm_num)
  have h1 := hx 1 (by norm_num)
  simp [List.range_succ, NpVec.elem, h0, h1]
  norm_num

/-- The same function after the object has grown to three rows, and after it has shrunk to one. -/
example : (⟨(2, 2), fun x => .ok ⟨⟨2, fun i => 2 * x i⟩, 0, 1, 2⟩⟩ : PyLinOp).applyArray (3, 2) ⟨2, fun i => (i : ℝ) + 3⟩ = .ok [6, 8, 0] ∧
    (⟨(2, 2), fun x => .ok ⟨⟨2, fun i => 2 * x i⟩, 0, 1, 2⟩⟩ : PyLinOp).applyArray (1, 2) ⟨2, fun i => (i : ℝ) + 3⟩ = .error .index := by
  have h : (⟨(2, 2), fun x => .ok ⟨⟨2, fun i => 2 * x i⟩, 0, 1, 2⟩⟩ : PyLinOp).apply ⟨2, fun i => (i : ℝ) + 3⟩ = .ok [6, 8] := by
    obtain ⟨x, hx, -, h⟩ := C87_exact_partial ⟨(2, 2), fun x => .ok ⟨⟨2, fun i => 2 * x i⟩, 0, 1, 2⟩⟩ ⟨2, fun i => (i : ℝ) + 3⟩ rfl
    rw [h _ rfl (fun i hi => by have : i < 2 := hi; constructor <;> push_cast <;> omega) rfl le_rfl]
    have h0 := hx 0 (by norm_num)
    have h1 := hx 1 (by norm_num)
    simp [List.range_succ, NpVec.elem, h0, h1]
    norm_num
  exact ⟨(C145_shape_changed _ (3, 2) _ _ h).2 (by norm_num) (by norm_num), (C145_shape_changed _ (1, 2) _ _ h).1 (by norm_num)⟩

end Primate
