import Verif.TensorDiagMain

/-!
# Diagonals, diagonal matrices and pivots of tensors (C77)
-/

set_option linter.unusedSectionVars false

namespace TN.TensorOps

open TN NDArray Finset

variable {R : Type} [CommSemiring R]

/-! ### Specification -/

/-- `r` is diagonal `q` of `t` over two axes, whose shape is `A`, `d`, `B`, `e`, `C`: the positions along the first
axis are the rows, along the second the columns, and the diagonal is the last axis of `r`. -/
def IsDiagonal (t r : NDArray R) (A B C : List Nat) (d e : Nat) (q : Int) : Prop :=
  (∃ l, r.shape = A ++ (B ++ (C ++ [l])) ∧ ∀ m : Nat, m < l ↔ (m : Int) - min q 0 < d ∧ (m : Int) + max q 0 < e) ∧
  ∀ i j k (m : Nat), InB A i → InB B j → InB C k → ∀ x y : Nat, (x : Int) = m - min q 0 → (y : Int) = m + max q 0 →
    r.get (i ++ (j ++ (k ++ [m]))) = t.get (i ++ x :: (j ++ y :: k))

/-- `M` is a square matrix with the entries of `v` on diagonal `q`, in order, and zeros elsewhere. -/
def IsDiagMatrix (M : NDArray R) (v : Nat → R) (n : Nat) (q : Int) : Prop :=
  M.shape = [n + q.natAbs, n + q.natAbs] ∧ ∀ x y, x < n + q.natAbs → y < n + q.natAbs →
    ((∀ m : Nat, (x : Int) = m - min q 0 → (y : Int) = m + max q 0 → M.get [x, y] = v m) ∧
      ((y : Int) - x ≠ q → M.get [x, y] = 0))

/-! ### C77 -/

theorem lt_diagLen (d e m : Nat) (q : Int) :
    m < diagLen d e q ↔ (m : Int) - min q 0 < d ∧ (m : Int) + max q 0 < e := by
  unfold diagLen; omega

theorem diagonalNp_eq (t : NDArray R) (hn : 2 ≤ t.ndim) {k axis1 axis2 : Int} {a b : Nat}
    (ha : axisOf t.ndim axis1 = .ok a) (hb : axisOf t.ndim axis2 = .ok b) (hab : a ≠ b) :
    diagonalNp t k axis1 axis2 =
      .ok { shape := (freeAxes t.ndim [a, b]).map (fun p => t.shape.getD p 0) ++
              [diagLen (t.shape.getD a 0) (t.shape.getD b 0) k]
            get := fun i => t.get (mergeIdx t.ndim [a, b]
              [i.getD (freeAxes t.ndim [a, b]).length 0 + (-k).toNat,
               i.getD (freeAxes t.ndim [a, b]).length 0 + k.toNat] (i.take (freeAxes t.ndim [a, b]).length)) } := by
  unfold diagonalNp
  rw [if_neg (by omega), ha, hb]
  show (if a = b then _ else _) = _
  rw [if_neg hab]

/-- C77: `diagonal` of the numpy backend, and of the PyTorch backend, with the rows along `axis1`. -/
theorem C77_diagonal (t : NDArray R) {A B C : List Nat} {d e : Nat} (hs : t.shape = A ++ d :: (B ++ e :: C))
    (q : Int) {axis1 axis2 : Int} (h1 : IsAxis t.ndim A.length axis1)
    (h2 : IsAxis t.ndim (A.length + 1 + B.length) axis2) :
    ∃ r, diagonalNp t q axis1 axis2 = .ok r ∧ diagonalTorch t q axis1 axis2 = .ok r ∧ IsDiagonal t r A B C d e q := by
  have hnd : t.ndim = A.length + 1 + B.length + 1 + C.length := by rw [ndim, hs]; simp; omega
  have ha := h1.axisOf (by omega)
  have hb := h2.axisOf (by omega)
  have hne : axis1 ≠ axis2 := by
    rintro rfl; rw [ha] at hb; simp at hb; omega
  have hfs : (freeAxes t.ndim [A.length, A.length + 1 + B.length]).map (fun p => t.shape.getD p 0) = A ++ (B ++ C) := by
    rw [hs]; exact freeAxes_shape rfl rfl (by omega)
  have hfl : (freeAxes t.ndim [A.length, A.length + 1 + B.length]).length = A.length + (B.length + C.length) := by
    simpa using congrArg List.length hfs
  refine ⟨_, diagonalNp_eq t (by omega) ha hb (by omega), ?_, ⟨_, ?_, fun m => lt_diagLen d e m q⟩, ?_⟩
  · rw [diagonalTorch, if_neg hne]; exact diagonalNp_eq t (by omega) ha hb (by omega)
  · simp only [hfs]
    rw [hs, getD_mid, getD_mid2]
    simp
  · intro i j k m hi hj hk x y hx hy
    have hl : (i ++ (j ++ k)).length = A.length + (B.length + C.length) := by
      simp [hi.length, hj.length, hk.length]
    have e0 : i ++ (j ++ (k ++ [m])) = (i ++ (j ++ k)) ++ [m] := by simp
    simp only [hfl]
    rw [e0, ← hl, List.take_left, List.getD_eq_getElem _ _ (by simp), List.getElem_append_right (by omega)]
    simp only [Nat.sub_self, List.getElem_cons_zero]
    rw [mergeIdx_two hi.length (by rw [hj.length]) (by rw [hk.length]; omega)]
    rw [show m + (-q).toNat = x by omega, show m + q.toNat = y by omega]

/-- C77: the same with the rows along the later axis. -/
theorem C77_diagonal_swapped (t : NDArray R) {A B C : List Nat} {d e : Nat} (hs : t.shape = A ++ d :: (B ++ e :: C))
    (q : Int) {axis1 axis2 : Int} (h1 : IsAxis t.ndim (A.length + 1 + B.length) axis1)
    (h2 : IsAxis t.ndim A.length axis2) :
    ∃ r, diagonalNp t q axis1 axis2 = .ok r ∧ diagonalTorch t q axis1 axis2 = .ok r ∧
      IsDiagonal t r A B C d e (-q) := by
  have hnd : t.ndim = A.length + 1 + B.length + 1 + C.length := by rw [ndim, hs]; simp; omega
  have ha := h1.axisOf (by omega)
  have hb := h2.axisOf (by omega)
  have hne : axis1 ≠ axis2 := by
    rintro rfl; rw [ha] at hb; simp at hb; omega
  have hfs : (freeAxes t.ndim [A.length, A.length + 1 + B.length]).map (fun p => t.shape.getD p 0) = A ++ (B ++ C) := by
    rw [hs]; exact freeAxes_shape rfl rfl (by omega)
  have hf : freeAxes t.ndim [A.length + 1 + B.length, A.length] = freeAxes t.ndim [A.length, A.length + 1 + B.length] := by
    unfold freeAxes; apply List.filter_congr; intro p _
    simp only [List.mem_cons, List.not_mem_nil, or_false]; exact decide_eq_decide.2 (by tauto)
  have hfl : (freeAxes t.ndim [A.length, A.length + 1 + B.length]).length = A.length + (B.length + C.length) := by
    simpa using congrArg List.length hfs
  refine ⟨_, diagonalNp_eq t (by omega) ha hb (by omega), ?_, ⟨diagLen e d q, ?_, fun m => ?_⟩, ?_⟩
  · rw [diagonalTorch, if_neg hne]; exact diagonalNp_eq t (by omega) ha hb (by omega)
  · simp only [hf, hfs]
    rw [hs, getD_mid, getD_mid2]
    simp
  · unfold diagLen; omega
  · intro i j k m hi hj hk x y hx hy
    have hl : (i ++ (j ++ k)).length = A.length + (B.length + C.length) := by
      simp [hi.length, hj.length, hk.length]
    have e0 : i ++ (j ++ (k ++ [m])) = (i ++ (j ++ k)) ++ [m] := by simp
    simp only [hf, hfl]
    rw [e0, ← hl, List.take_left, List.getD_eq_getElem _ _ (by simp), List.getElem_append_right (by omega)]
    simp only [Nat.sub_self, List.getElem_cons_zero]
    rw [mergeIdx_swap _ A.length _ _ _ (by omega), mergeIdx_two hi.length (by rw [hj.length]) (by rw [hk.length]; omega)]
    rw [show m + (-q).toNat = y by omega, show m + q.toNat = x by omega]

/-- C77: the TensorFlow backend takes the diagonal of the last two axes, and the numpy and PyTorch backends return
the same; any other way to name the axes, also `0` and `1` of a matrix, is refused. -/
theorem C77_diagonal_tf (t : NDArray R) {A : List Nat} {d e : Nat} (hs : t.shape = A ++ [d, e]) (q : Int)
    (hq : -(d : Int) < q ∧ q < e) :
    (∃ r, diagonalTf t q (-2) (-1) = .ok r ∧ diagonalNp t q (-2) (-1) = .ok r ∧ diagonalTorch t q (-2) (-1) = .ok r ∧
      IsDiagonal t r A [] [] d e q) ∧
    ∀ axis1 axis2, axis1 ≠ -2 ∨ axis2 ≠ -1 → diagonalTf t q axis1 axis2 = .error .runtimeError := by
  have hnd : t.ndim = A.length + 2 := by rw [ndim, hs]; simp
  refine ⟨?_, fun axis1 axis2 h => by rw [diagonalTf, if_pos h]⟩
  obtain ⟨r, h1, h2, h3⟩ := C77_diagonal t (A := A) (B := []) (C := []) (d := d) (e := e) (by simpa using hs) q
    (axis1 := -2) (axis2 := -1) (.inr (by rw [hnd]; push_cast; omega)) (.inr (by rw [hnd]; simp))
  refine ⟨r, ?_, h1, h2, h3⟩
  have e1 : t.shape.getD (t.ndim - 2) 0 = d := by
    rw [hs, hnd]; exact getD_mid A d [e]
  have e2 : t.shape.getD (t.ndim - 1) 0 = e := by
    rw [hs, hnd, show A.length + 2 - 1 = A.length + 1 + ([] : List Nat).length by simp]; exact getD_mid2 A d [] e []
  rw [diagonalTf, if_neg (by simp), if_neg (by omega), if_pos (by rw [e1, e2]; exact hq), h1]

/-- C77: `trace` of the numpy backend, with any offset, is the sum of `diagonal` over its last axis. -/
theorem C77_trace_diagonal (t : NDArray R) (q axis1 axis2 : Int) :
    (∀ r, traceNp t q axis1 axis2 = .ok r → ∃ s L l, diagonalNp t q axis1 axis2 = .ok s ∧ s.shape = L ++ [l] ∧
      r.shape = L ∧ ∀ i, InB L i → r.get i = ∑ m ∈ range l, s.get (i ++ [m])) ∧
    ((∃ r, traceNp t q axis1 axis2 = .ok r) ↔ ∃ s, diagonalNp t q axis1 axis2 = .ok s) := by
  by_cases hn : t.ndim < 2
  · constructor
    · intro r hr; unfold traceNp at hr; rw [if_pos hn] at hr; cases hr
    · unfold traceNp diagonalNp; simp [hn]
  rcases ha : axisOf t.ndim axis1 with er | a
  · constructor
    · intro r hr; unfold traceNp at hr; rw [if_neg hn, ha] at hr; cases hr
    · unfold traceNp diagonalNp; rw [if_neg hn, if_neg hn, ha]; simp
  rcases hb : axisOf t.ndim axis2 with er | b
  · constructor
    · intro r hr; unfold traceNp at hr; rw [if_neg hn, ha, hb] at hr; cases hr
    · unfold traceNp diagonalNp; rw [if_neg hn, if_neg hn, ha, hb]; simp
  by_cases hab : a = b
  · constructor
    · intro r hr; unfold traceNp at hr; rw [if_neg hn, ha, hb] at hr
      simp [hab] at hr
    · unfold traceNp diagonalNp; rw [if_neg hn, if_neg hn, ha, hb]; simp [hab]
  rw [traceNp_eq t (by omega) ha hb hab, diagonalNp_eq t (by omega) ha hb hab]
  refine ⟨?_, by simp⟩
  rintro r hr
  cases hr
  refine ⟨_, (freeAxes t.ndim [a, b]).map (fun p => t.shape.getD p 0), diagLen (t.shape.getD a 0) (t.shape.getD b 0) q,
    rfl, rfl, rfl, fun i hi => ?_⟩
  have hl : i.length = (freeAxes t.ndim [a, b]).length := by simpa using hi.length
  dsimp only
  refine Finset.sum_congr rfl fun m _ => ?_
  simp only [← hl]
  rw [List.take_left, List.getD_eq_getElem _ _ (by simp), List.getElem_append_right (by omega)]
  simp

theorem isDiagMatrix_np (t : NDArray R) (q : Int) :
    IsDiagMatrix (diagflatNp t q) (fun m => t.get (unravel t.shape m)) t.shape.prod q := by
  refine ⟨rfl, fun x y hx hy => ⟨fun m h1 h2 => ?_, fun h => ?_⟩⟩
  · simp only [diagflatNp, List.getD_cons_zero, List.getD_cons_succ]
    rw [if_pos (by omega), show x - (-q).toNat = m by omega]
  · simp only [diagflatNp, List.getD_cons_zero, List.getD_cons_succ]
    rw [if_neg (by omega)]

/-- C77: `diagflat` of the numpy backend flattens any tensor and places its entries on diagonal `q`; the side of the
matrix is the size plus the absolute value of `q`.  Reading the diagonal back gives the flattened tensor. -/
theorem C77_diagflat (t : NDArray R) (q : Int) :
    IsDiagMatrix (diagflatNp t q) (fun m => t.get (unravel t.shape m)) t.shape.prod q ∧
    ∃ r, diagonalNp (diagflatNp t q) q (-2) (-1) = .ok r ∧ r.shape = [t.shape.prod] ∧
      ∀ i, InB t.shape i → r.get [ravel t.shape i] = t.get i := by
  refine ⟨isDiagMatrix_np t q, ?_⟩
  obtain ⟨r, h1, -, ⟨l, h3, h4⟩, h5⟩ := C77_diagonal (diagflatNp t q) (A := []) (B := []) (C := [])
    (d := t.shape.prod + q.natAbs) (e := t.shape.prod + q.natAbs) rfl q (axis1 := -2) (axis2 := -1)
    (.inr (by simp [ndim, diagflatNp])) (.inr (by simp [ndim, diagflatNp]))
  refine ⟨r, h1, ?_, fun i hi => ?_⟩
  · have : l = t.shape.prod := by
      have a1 := h4 l
      have a2 := h4 t.shape.prod
      omega
    rw [h3, this]; rfl
  · have hlt := ravel_lt hi
    have := h5 [] [] [] (ravel t.shape i) (by simp) (by simp) (by simp) (ravel t.shape i + (-q).toNat)
      (ravel t.shape i + q.toNat) (by omega) (by omega)
    simp only [List.nil_append] at this
    rw [this, (((isDiagMatrix_np t q).2 _ _ (by omega) (by omega)).1 (ravel t.shape i) (by omega) (by omega))]
    show t.get (unravel t.shape (ravel t.shape i)) = _
    rw [unravel_ravel hi]

/-- C77: on vectors the three backends return the same matrix. -/
theorem C77_diagflat_vector (t : NDArray R) {d : Nat} (hs : t.shape = [d]) (q : Int) :
    ∃ r, diagflatEmbed t q = .ok r ∧ r.Same (diagflatNp t q) ∧ IsDiagMatrix r (fun m => t.get [m]) d q := by
  have hn : t.ndim = 1 := by rw [ndim, hs]; rfl
  have hsame : NDArray.Same ⟨t.shape.take 0 ++ [t.shape.getD 0 0 + q.natAbs, t.shape.getD 0 0 + q.natAbs],
      fun i => if (i.getD (0 + 1) 0 : Int) = i.getD 0 0 + q then t.get (i.take 0 ++ [i.getD 0 0 - (-q).toNat]) else 0⟩
      (diagflatNp t q) := by
    refine ⟨by simp [diagflatNp, hs], fun i hi => ?_⟩
    simp only [diagflatNp]
    by_cases h : (i.getD (0 + 1) 0 : Int) = i.getD 0 0 + q
    · rw [if_pos h, if_pos h]
      congr 1
      simp only [hs, List.take_zero, List.nil_append, List.getD_cons_zero] at hi ⊢
      have hi1 := inB_iff_getD.1 hi
      have g0 := hi1.2 0 (by simp)
      have g1 := hi1.2 1 (by simp)
      simp only [List.getD_cons_zero, List.getD_cons_succ] at g0 g1
      rw [Nat.zero_add] at h
      have hlt : i.getD 0 0 - (-q).toNat < d := by omega
      have := unravel_ravel (s := [d]) (i := [i.getD 0 0 - (-q).toNat]) (by simpa using hlt)
      simpa [ravel] using this.symm
    · rw [if_neg h, if_neg h]
  refine ⟨_, by rw [diagflatEmbed, if_neg (by omega)], by simpa [hn] using hsame, ?_⟩
  refine ⟨by simp [hn, hs], fun x y hx hy => ⟨fun m h1 h2 => ?_, fun h => ?_⟩⟩
  · simp only [hn, Nat.sub_self, List.take_zero, List.nil_append, List.getD_cons_zero, List.getD_cons_succ, Nat.zero_add]
    rw [if_pos (by omega), show x - (-q).toNat = m by omega]
  · simp only [hn, Nat.sub_self, List.take_zero, List.nil_append, List.getD_cons_zero, List.getD_cons_succ, Nat.zero_add]
    rw [if_neg (by omega)]

/-- C77, the property the PyTorch and TensorFlow backends lack: for every tensor which is not a vector their
`diagflat` does not return the documented matrix. -/
theorem C77_diagflat_false (t : NDArray R) (h : t.ndim ≠ 1) (q : Int) :
    ∀ r, diagflatEmbed t q = .ok r → r.shape.length ≠ 2 ∧ ¬ r.Same (diagflatNp t q) := by
  intro r hr
  unfold diagflatEmbed at hr
  split_ifs at hr with h0
  cases hr
  have hl : t.shape.length = t.ndim := rfl
  have : (List.take (t.ndim - 1) t.shape ++
      [t.shape.getD (t.ndim - 1) 0 + q.natAbs, t.shape.getD (t.ndim - 1) 0 + q.natAbs]).length ≠ 2 := by
    simp only [List.length_append, List.length_take, List.length_cons, List.length_nil, hl]; omega
  exact ⟨this, fun hs => this (congrArg List.length hs.1)⟩

/-- C77: `pivot` at an axis between `-ndim` and `ndim` is the matrix whose rows are the axes before the pivot and
whose columns are the others, both in row-major order. -/
theorem C77_pivot (t : NDArray R) {A B : List Nat} (hs : t.shape = A ++ B) {p : Int}
    (hp : p = A.length ∨ (p = (A.length : Int) - t.ndim ∧ B ≠ [])) :
    ∃ r, pivot t p = .ok r ∧ r.shape = [A.prod, B.prod] ∧
      ∀ i j, InB A i → InB B j → r.get [ravel A i, ravel B j] = t.get (i ++ j) := by
  have hnd : t.ndim = A.length + B.length := by rw [ndim, hs]; simp
  have hcut : cutAt t.ndim p = A.length := by
    unfold cutAt
    rcases hp with rfl | ⟨rfl, hB⟩
    · rw [if_pos (by omega)]; omega
    · have : 0 < B.length := List.length_pos_iff.2 hB
      rw [if_neg (by omega)]; omega
  have hle : ¬ p > t.ndim := by omega
  refine ⟨⟨[A.prod, B.prod], fun i => t.get (unravel t.shape (ravel [A.prod, B.prod] i))⟩, ?_, rfl,
    fun i j hi hj => ?_⟩
  · rw [pivot, if_neg hle]
    simp only [hcut, hs, List.take_left, List.drop_left]
    rw [NDArray.reshape, if_pos (by simp [hs]), hs]
  · show t.get (unravel t.shape (ravel [A.prod, B.prod] [ravel A i, ravel B j])) = _
    have : ravel [A.prod, B.prod] [ravel A i, ravel B j] = ravel (A ++ B) (i ++ j) := by
      rw [ravel_append hi.length]; simp [ravel]
    rw [this, hs, unravel_ravel (inB_append hi hj)]

/-- C77: the example in the documentation of `pivot` is wrong for every tensor of the shape it gives. -/
theorem C77_pivot_doc_false (t : NDArray R) (hs : t.shape = [1, 2, 4, 5]) :
    ∃ r, pivot t 2 = .ok r ∧ r.shape = [2, 20] ∧ r.shape ≠ [8, 5] := by
  obtain ⟨r, h1, h2, -⟩ := C77_pivot t (A := [1, 2]) (B := [4, 5]) (by simpa using hs) (p := 2) (.inl rfl)
  exact ⟨r, h1, by simpa using h2, by rw [h2]; decide⟩

/-- C77: an axis above `ndim` is refused, an axis below `-ndim` is not: the result is one row. -/
theorem C77_pivot_range (t : NDArray R) (p : Int) :
    (p > t.ndim → pivot t p = .error .valueError) ∧
    (p < -(t.ndim : Int) → ∃ r, pivot t p = .ok r ∧ r.shape = [1, t.shape.prod]) := by
  refine ⟨fun h => by rw [pivot, if_pos h], fun h => ?_⟩
  have hcut : cutAt t.ndim p = 0 := by unfold cutAt; rw [if_neg (by omega)]; omega
  rw [pivot, if_neg (by omega)]
  simp only [hcut, NDArray.reshape]
  rw [if_pos (by simp)]
  exact ⟨_, rfl, by simp⟩

/-! ### Cases that meet the hypotheses -/

/-- A tensor of shape `2 × 3 × 2` with the entries `0 … 11`. -/
def exT : NDArray Nat := ⟨[2, 3, 2], fun i => ravel [2, 3, 2] i⟩

example : ∃ r, traceEinsum exT 0 (-1) 0 = .ok r ∧ traceNp exT 0 (-1) 0 = .ok r ∧ IsTrace exT r [] [3] [] 2 2 :=
  C77_trace exT (A := []) (B := [3]) (C := []) (d := 2) rfl (by decide) (a := 2) (b := 0) (.inr ⟨rfl, rfl⟩)
    (.inr (by decide)) (.inl rfl)

example : traceEinsum exT 0 0 1 = .error .valueError ∧ ∃ r, traceNp exT 0 0 1 = .ok r ∧ IsTrace exT r [] [] [2] 2 3 :=
  C77_trace_nonsquare exT (A := []) (B := []) (C := [2]) rfl (by decide) (a := 0) (b := 1) (.inl ⟨rfl, rfl⟩)
    (.inl rfl) (.inl rfl)

example : (∃ r, traceEinsum exT 0 (-2) 1 = .ok r ∧ IsAxisSum exT r [2] [2] 3) ∧
    traceNp exT 0 (-2) 1 = .error .valueError :=
  C77_trace_same_axis_false exT (A := [2]) (C := [2]) rfl (by decide) (.inl (by decide))

example : (∃ r, traceEinsum exT 0 (-5) 1 = .ok r ∧ IsAxisSum exT r [2] [2] 3) ∧
    traceNp exT 0 (-5) 1 = .error .valueError :=
  C77_trace_same_axis_false exT (A := [2]) (C := [2]) rfl (by decide) (.inr (by decide))

/-- The value of a trace: entry `1` is `t[0,1,0] + t[1,1,1]`, that is `2 + 9`. -/
example : ∃ r, traceEinsum exT 0 0 2 = .ok r ∧ r.get [1] = 11 := by
  obtain ⟨r, h, -, -, h3⟩ := C77_trace exT (A := []) (B := [3]) (C := []) (d := 2) rfl (by decide) (a := 0) (b := 2)
    (.inl ⟨rfl, rfl⟩) (axis1 := 0) (axis2 := 2) (.inl rfl) (.inl rfl)
  refine ⟨r, h, ?_⟩
  have := h3 [] [1] [] (by simp) (by simp) (by simp)
  simp only [List.nil_append, List.append_nil] at this
  rw [this]; decide

example : ∀ r, diagflatEmbed exT 1 = .ok r → r.shape.length ≠ 2 ∧ ¬ r.Same (diagflatNp exT 1) :=
  C77_diagflat_false exT (by decide) 1

example : ∃ r, diagflatEmbed exT 1 = .ok r := ⟨_, by rw [diagflatEmbed, if_neg (by decide)]⟩

end TN.TensorOps
