import Verif.TensorDiagProps

/-!
# Traces and diagonals of tensors in the three backends (C77), the theorems
-/

set_option linter.unusedSectionVars false

namespace TN.TensorOps

open TN NDArray Finset

variable {R : Type} [CommSemiring R]

/-! ### Specification -/

/-- `r` is the trace over two axes of `t`, whose shape is `A`, `d`, `B`, `e`, `C`: the sum of the entries where the
two axes have the same position. -/
def IsTrace (t r : NDArray R) (A B C : List Nat) (d e : Nat) : Prop :=
  r.shape = A ++ (B ++ C) ∧ ∀ i j k, InB A i → InB B j → InB C k →
    r.get (i ++ (j ++ k)) = ∑ m ∈ range (min d e), t.get (i ++ m :: (j ++ m :: k))

/-- `r` is the sum of `t` over the one axis of size `d`; the shape of `t` is `A`, `d`, `C`. -/
def IsAxisSum (t r : NDArray R) (A C : List Nat) (d : Nat) : Prop :=
  r.shape = A ++ C ∧ ∀ i k, InB A i → InB C k → r.get (i ++ k) = ∑ m ∈ range d, t.get (i ++ m :: k)

/-- The two ways to write axis `a` of an `n`-dimensional array. -/
def IsAxis (n a : Nat) (x : Int) : Prop := x = a ∨ x = (a : Int) - n

/-! ### Indices -/

theorem range_two {a b n : Nat} (hab : a < b) (hb : b < n) :
    List.range n = List.range a ++ a :: (List.range' (a + 1) (b - a - 1) ++ b :: List.range' (b + 1) (n - b - 1)) := by
  apply List.ext_getElem
  · simp; omega
  · intro p h1 h2
    simp only [List.getElem_range]
    by_cases hp : p < a
    · rw [List.getElem_append_left (by simpa using hp)]; simp
    · rw [List.getElem_append_right (by simp; omega)]
      simp only [List.length_range, List.getElem_cons]
      split_ifs with h3
      · omega
      · by_cases hp2 : p < b
        · rw [List.getElem_append_left (by simp; omega)]; simp; omega
        · rw [List.getElem_append_right (by simp; omega)]
          simp only [List.length_range', List.getElem_cons]
          split_ifs with h4
          · omega
          · simp; omega

theorem freeAxes_two {a b n : Nat} (hab : a < b) (hb : b < n) :
    freeAxes n [a, b] = List.range a ++ (List.range' (a + 1) (b - a - 1) ++ List.range' (b + 1) (n - b - 1)) := by
  have h1 : (List.range a).filter (fun p => decide (p ∉ [a, b])) = List.range a := by
    rw [List.filter_eq_self]; intro p hp; simp at hp ⊢; omega
  have h2 : (List.range' (a + 1) (b - a - 1)).filter (fun p => decide (p ∉ [a, b])) =
      List.range' (a + 1) (b - a - 1) := by
    rw [List.filter_eq_self]; intro p hp; simp at hp ⊢; omega
  have h3 : (List.range' (b + 1) (n - b - 1)).filter (fun p => decide (p ∉ [a, b])) =
      List.range' (b + 1) (n - b - 1) := by
    rw [List.filter_eq_self]; intro p hp; simp at hp ⊢; omega
  unfold freeAxes
  conv_lhs => rw [range_two hab hb]
  rw [List.filter_append, List.filter_cons_of_neg (by simp), List.filter_append, List.filter_cons_of_neg (by simp),
    h1, h2, h3]

theorem idxOf_range' (s n q : Nat) (hq : q < n) : (List.range' s n).idxOf (s + q) = q := by
  have h : (List.range' s n)[q]'(by simpa using hq) = s + q := by simp
  conv_lhs => rw [← h]
  exact List.Nodup.idxOf_getElem (by simp [List.nodup_range']) q _

theorem idxOf_range {n q : Nat} (hq : q < n) : (List.range n).idxOf q = q := by
  have h : (List.range n)[q]'(by simpa using hq) = q := by simp
  conv_lhs => rw [← h]
  exact List.nodup_range.idxOf_getElem q _

theorem mergeIdx_two {i j k : List Nat} {a b n : Nat} (hi : i.length = a) (hb : b = a + 1 + j.length)
    (hn : n = b + 1 + k.length) (x y : Nat) :
    mergeIdx n [a, b] [x, y] (i ++ (j ++ k)) = i ++ x :: (j ++ y :: k) := by
  have hab : a < b := by omega
  have hbn : b < n := by omega
  unfold mergeIdx
  rw [freeAxes_two hab hbn]
  conv_lhs => rw [range_two hab hbn]
  rw [List.map_append, List.map_cons, List.map_append, List.map_cons]
  have hj : b - a - 1 = j.length := by omega
  have hk : n - b - 1 = k.length := by omega
  rw [hj, hk]
  congr 1
  · apply List.ext_getElem (by simp [hi])
    intro p h1 h2
    have hp : p < a := by simpa using h1
    simp only [List.getElem_map, List.getElem_range]
    rw [if_neg (by simp; omega), List.idxOf_append_of_mem (by simpa using hp), idxOf_range hp,
      List.getD_eq_getElem _ _ (by simp; omega), List.getElem_append_left (by omega)]
  · congr 1
    · simp
    · congr 1
      · apply List.ext_getElem (by simp)
        intro p h1 h2
        simp only [List.getElem_map, List.getElem_range', Nat.one_mul]
        rw [if_neg (by simp; omega), List.idxOf_append_of_notMem (by simp; omega),
          List.idxOf_append_of_mem (by simp; omega), idxOf_range' _ _ _ h2, List.length_range,
          List.getD_eq_getElem _ _ (by simp; omega), List.getElem_append_right (by omega),
          List.getElem_append_left (by omega)]
        congr 1; omega
      · congr 1
        · rw [if_pos (by simp), List.idxOf_cons_ne _ (by omega)]; simp
        · apply List.ext_getElem (by simp)
          intro p h1 h2
          simp only [List.getElem_map, List.getElem_range', Nat.one_mul]
          rw [if_neg (by simp; omega), List.idxOf_append_of_notMem (by simp; omega),
            List.idxOf_append_of_notMem (by simp; omega), idxOf_range' _ _ _ h2, List.length_range,
            List.length_range',
            List.getD_eq_getElem _ _ (by simp; omega), List.getElem_append_right (by omega),
            List.getElem_append_right (by omega)]
          congr 1; omega

theorem mergeIdx_swap (n a b x y : Nat) (hab : a ≠ b) (i : List Nat) :
    mergeIdx n [b, a] [y, x] i = mergeIdx n [a, b] [x, y] i := by
  have hf : freeAxes n [b, a] = freeAxes n [a, b] := by
    unfold freeAxes; apply List.filter_congr; intro p _
    simp only [List.mem_cons, List.not_mem_nil, or_false]; exact decide_eq_decide.2 (by tauto)
  unfold mergeIdx
  rw [hf]
  refine List.map_congr_left fun p _ => ?_
  by_cases h1 : p = a
  · subst h1
    rw [if_pos (by simp), if_pos (by simp), List.idxOf_cons_ne _ (Ne.symm hab)]; simp
  · by_cases h2 : p = b
    · subst h2
      rw [if_pos (by simp), if_pos (by simp), List.idxOf_cons_ne _ hab]; simp
    · rw [if_neg (by simp [h1, h2]), if_neg (by simp [h1, h2])]

theorem freeAxes_shape {A B C : List Nat} {d e a b n : Nat} (ha : a = A.length) (hb : b = A.length + 1 + B.length)
    (hn : n = b + 1 + C.length) :
    (freeAxes n [a, b]).map (fun p => (A ++ d :: (B ++ e :: C)).getD p 0) = A ++ (B ++ C) := by
  rw [freeAxes_two (by omega) (by omega), List.map_append, List.map_append]
  congr 1
  · apply List.ext_getElem (by simp [ha])
    intro p h1 h2
    simp only [List.getElem_map, List.getElem_range]
    rw [List.getD_eq_getElem _ _ (by simp; omega), List.getElem_append_left (by omega)]
  · congr 1
    · apply List.ext_getElem (by simp; omega)
      intro p h1 h2
      simp only [List.getElem_map, List.getElem_range', Nat.one_mul]
      rw [List.getD_eq_getElem _ _ (by simp; omega), List.getElem_append_right (by omega)]
      simp only [show a + 1 + p - A.length = p + 1 by omega, List.getElem_cons_succ]
      rw [List.getElem_append_left (by omega)]
    · apply List.ext_getElem (by simp; omega)
      intro p h1 h2
      simp only [List.getElem_map, List.getElem_range', Nat.one_mul]
      rw [List.getD_eq_getElem _ _ (by simp; omega), List.getElem_append_right (by omega)]
      simp only [show b + 1 + p - A.length = (B.length + 1 + p) + 1 by omega, List.getElem_cons_succ]
      rw [List.getElem_append_right (by omega)]
      simp only [show B.length + 1 + p - B.length = p + 1 by omega, List.getElem_cons_succ]

theorem freeAxes_one {a n : Nat} (hb : a < n) :
    freeAxes n [a] = List.range a ++ List.range' (a + 1) (n - a - 1) := by
  have h0 : List.range n = List.range a ++ a :: List.range' (a + 1) (n - a - 1) := by
    apply List.ext_getElem
    · simp; omega
    · intro p h1 h2
      simp only [List.getElem_range]
      by_cases hp : p < a
      · rw [List.getElem_append_left (by simpa using hp)]; simp
      · rw [List.getElem_append_right (by simp; omega)]
        simp only [List.length_range, List.getElem_cons]
        split_ifs with h3
        · omega
        · simp; omega
  have h1 : (List.range a).filter (fun p => decide (p ∉ [a])) = List.range a := by
    rw [List.filter_eq_self]; intro p hp; simp at hp ⊢; omega
  have h2 : (List.range' (a + 1) (n - a - 1)).filter (fun p => decide (p ∉ [a])) =
      List.range' (a + 1) (n - a - 1) := by
    rw [List.filter_eq_self]; intro p hp; simp at hp ⊢; omega
  unfold freeAxes
  rw [h0, List.filter_append, List.filter_cons_of_neg (by simp), h1, h2]

theorem mergeIdx_one {i k : List Nat} {a n : Nat} (hi : i.length = a) (hn : n = a + 1 + k.length) (x : Nat) :
    mergeIdx n [a] [x] (i ++ k) = i ++ x :: k := by
  apply List.ext_getElem (by simp [mergeIdx]; omega)
  intro p h1 h2
  have hp : p < n := by simpa [mergeIdx] using h1
  simp only [mergeIdx, List.getElem_map, List.getElem_range]
  rw [freeAxes_one (by omega)]
  rcases Nat.lt_trichotomy p a with h | h | h
  · rw [if_neg (by simp; omega), List.idxOf_append_of_mem (by simpa using h), idxOf_range h,
      List.getD_eq_getElem _ _ (by simp; omega), List.getElem_append_left (by omega),
      List.getElem_append_left (by omega)]
  · subst h
    rw [if_pos (by simp), List.getElem_append_right (by omega)]
    simp [hi]
  · obtain ⟨q, rfl⟩ : ∃ q, p = a + 1 + q := ⟨p - a - 1, by omega⟩
    rw [if_neg (by simp; omega), List.idxOf_append_of_notMem (by simp; omega), idxOf_range' _ _ _ (by omega),
      List.length_range, List.getD_eq_getElem _ _ (by simp; omega), List.getElem_append_right (by omega),
      List.getElem_append_right (by omega)]
    simp only [show a + 1 + q - i.length = q + 1 by omega, List.getElem_cons_succ]
    congr 1; omega

theorem freeAxes_shape_one {A C : List Nat} {d a n : Nat} (ha : a = A.length) (hn : n = a + 1 + C.length) :
    (freeAxes n [a]).map (fun p => (A ++ d :: C).getD p 0) = A ++ C := by
  rw [freeAxes_one (by omega), List.map_append]
  congr 1
  · apply List.ext_getElem (by simp [ha])
    intro p h1 h2
    simp only [List.getElem_map, List.getElem_range]
    rw [List.getD_eq_getElem _ _ (by simp; omega), List.getElem_append_left (by omega)]
  · apply List.ext_getElem (by simp; omega)
    intro p h1 h2
    simp only [List.getElem_map, List.getElem_range', Nat.one_mul]
    rw [List.getD_eq_getElem _ _ (by simp; omega), List.getElem_append_right (by omega)]
    simp only [show a + 1 + p - A.length = p + 1 by omega, List.getElem_cons_succ]

/-! ### From the sums of the model to the specification -/

theorem getD_mid (A : List Nat) (d : Nat) (C : List Nat) : (A ++ d :: C).getD A.length 0 = d := by
  rw [List.getD_eq_getElem _ _ (by simp), List.getElem_append_right (by omega)]; simp

theorem getD_mid2 (A : List Nat) (d : Nat) (B : List Nat) (e : Nat) (C : List Nat) :
    (A ++ d :: (B ++ e :: C)).getD (A.length + 1 + B.length) 0 = e := by
  rw [List.getD_eq_getElem _ _ (by simp; omega), List.getElem_append_right (by omega)]
  simp only [show A.length + 1 + B.length - A.length = B.length + 1 by omega, List.getElem_cons_succ]
  rw [List.getElem_append_right (by omega)]; simp

/-- A sum over a diagonal, in either order of the axes. -/
theorem isTrace_of (t r : NDArray R) {A B C : List Nat} {d e : Nat} (hs : t.shape = A ++ d :: (B ++ e :: C))
    {a b : Nat} (hab : (a = A.length ∧ b = A.length + 1 + B.length) ∨ (b = A.length ∧ a = A.length + 1 + B.length))
    (h1 : r.shape = (freeAxes t.ndim [a, b]).map (fun p => t.shape.getD p 0))
    (h2 : ∀ i, r.get i = ∑ m ∈ range (min d e), t.get (mergeIdx t.ndim [a, b] [m, m] i)) :
    IsTrace t r A B C d e := by
  have hn : t.ndim = A.length + 1 + B.length + 1 + C.length := by rw [ndim, hs]; simp; omega
  rcases hab with ⟨ha, hb⟩ | ⟨hb, ha⟩
  · refine ⟨?_, fun i j k hi hj hk => ?_⟩
    · rw [h1, hs]; exact freeAxes_shape ha hb (by omega)
    · rw [h2]
      refine Finset.sum_congr rfl fun m _ => ?_
      rw [mergeIdx_two (by rw [hi.length, ha]) (by rw [hj.length]; omega) (by rw [hk.length]; omega)]
  · refine ⟨?_, fun i j k hi hj hk => ?_⟩
    · have hf : freeAxes t.ndim [a, b] = freeAxes t.ndim [b, a] := by
        unfold freeAxes; apply List.filter_congr; intro p _
        simp only [List.mem_cons, List.not_mem_nil, or_false]; exact decide_eq_decide.2 (by tauto)
      rw [h1, hs, hf]; exact freeAxes_shape hb ha (by omega)
    · rw [h2]
      refine Finset.sum_congr rfl fun m _ => ?_
      rw [mergeIdx_swap _ b a m m (by omega), mergeIdx_two (by rw [hi.length, hb]) (by rw [hj.length]; omega)
        (by rw [hk.length]; omega)]

theorem isAxisSum_of (t : NDArray R) {A C : List Nat} {d : Nat} (hs : t.shape = A ++ d :: C) :
    IsAxisSum t (diagSum t A.length A.length) A C d := by
  have hn : t.ndim = A.length + 1 + C.length := by rw [ndim, hs]; simp; omega
  have hf : freeAxes t.ndim [A.length, A.length] = freeAxes t.ndim [A.length] := by
    unfold freeAxes; apply List.filter_congr; intro p _; simp
  refine ⟨?_, fun i k hi hk => ?_⟩
  · simp only [diagSum, hf]
    rw [hs]; exact freeAxes_shape_one rfl hn
  · simp only [diagSum, hs, getD_mid]
    refine Finset.sum_congr rfl fun m _ => ?_
    rw [show mergeIdx t.ndim [A.length, A.length] [m, m] (i ++ k) = mergeIdx t.ndim [A.length] [m] (i ++ k) from ?_,
      mergeIdx_one hi.length (by rw [hk.length]; omega)]
    unfold mergeIdx
    rw [hf]
    refine List.map_congr_left fun p _ => ?_
    by_cases h : p = A.length
    · subst h; simp
    · simp [h]

theorem IsAxis.axisOf {n a : Nat} {x : Int} (h : IsAxis n a x) (ha : a < n) : axisOf n x = .ok a := by
  unfold TensorOps.axisOf
  rcases h with rfl | rfl
  · rw [if_pos (by omega)]; simp
  · rw [if_neg (by omega), if_pos (by omega)]; simp

theorem isAxis_of {n a : Nat} {x : Int} (h : axisOf n x = .ok a) : IsAxis n a x := by
  unfold axisOf at h
  unfold IsAxis
  split_ifs at h with h1 h2
  · cases h; omega
  · cases h; omega

theorem split_two {s : List Nat} {a b : Nat} (hab : a < b) (hb : b < s.length) :
    ∃ A B C d e, s = A ++ d :: (B ++ e :: C) ∧ a = A.length ∧ b = A.length + 1 + B.length := by
  refine ⟨s.take a, (s.drop (a + 1)).take (b - a - 1), s.drop (b + 1), s[a], s[b], ?_, by simp; omega, by simp; omega⟩
  have h1 : s.drop (b + 1) = (s.drop (a + 1)).drop (b - a - 1 + 1) := by
    rw [List.drop_drop]; congr 1; omega
  have h2 : s[b] = (s.drop (a + 1))[b - a - 1]'(by simp; omega) := by simp; congr 1; omega
  rw [h1, h2, List.getElem_cons_drop, List.take_append_drop, List.getElem_cons_drop, List.take_append_drop]

theorem split_one {s : List Nat} {a : Nat} (ha : a < s.length) :
    ∃ A C d, s = A ++ d :: C ∧ a = A.length := by
  refine ⟨s.take a, s.drop (a + 1), s[a], ?_, by simp; omega⟩
  rw [List.getElem_cons_drop, List.take_append_drop]

/-! ### C77 -/

/-- C77: over two axes of the same size, given in either order and with either sign, `trace` of the PyTorch and
TensorFlow backends returns the trace, and the same array as the numpy backend. -/
theorem C77_trace (t : NDArray R) {A B C : List Nat} {d : Nat} (hs : t.shape = A ++ d :: (B ++ d :: C))
    (hn : t.ndim ≤ 25) {a b : Nat} (hab : (a = A.length ∧ b = A.length + 1 + B.length) ∨
      (b = A.length ∧ a = A.length + 1 + B.length)) {axis1 axis2 : Int} (h1 : IsAxis t.ndim a axis1)
    (h2 : IsAxis t.ndim b axis2) :
    ∃ r, traceEinsum t 0 axis1 axis2 = .ok r ∧ traceNp t 0 axis1 axis2 = .ok r ∧ IsTrace t r A B C d d := by
  have hnd : t.ndim = A.length + 1 + B.length + 1 + C.length := by rw [ndim, hs]; simp; omega
  have hab' : a ≠ b := by omega
  have ha := h1.axisOf (by omega)
  have hb := h2.axisOf (by omega)
  have hda : t.shape.getD a 0 = d := by
    rw [hs]; rcases hab with ⟨rfl, -⟩ | ⟨-, rfl⟩
    · exact getD_mid _ _ _
    · exact getD_mid2 _ _ _ _ _
  have hdb : t.shape.getD b 0 = d := by
    rw [hs]; rcases hab with ⟨-, rfl⟩ | ⟨rfl, -⟩
    · exact getD_mid2 _ _ _ _ _
    · exact getD_mid _ _ _
  have hne : axis1 ≠ axis2 := by
    rintro rfl; rw [ha] at hb; cases hb; exact hab' rfl
  have e1 : traceEinsum t 0 axis1 axis2 = .ok (diagSum t a b) := by
    rw [traceEinsum_eq t hn hne (a := a) (b := b) (by rw [axisOf_wrap ha]; exact axisOf_natCast (by omega))
      (by rw [axisOf_wrap hb]; exact axisOf_natCast (by omega)), axisOf_wrap ha, axisOf_wrap hb,
      filter_outsOf (a := a) (b := b) (by intro p _; omega), einsum1_trace t (by omega) (by omega) (by rw [hda, hdb])]
  refine ⟨_, e1, ?_, isTrace_of t _ hs hab rfl fun i => ?_⟩
  · rw [traceNp_eq t (by omega) ha hb hab']
    simp only [diagSum, diagLen, hda, hdb]
    simp
  · simp only [diagSum, hda, min_self]

/-- C77: over two axes of different sizes the numpy backend sums the shorter diagonal, the other two refuse. -/
theorem C77_trace_nonsquare (t : NDArray R) {A B C : List Nat} {d e : Nat} (hs : t.shape = A ++ d :: (B ++ e :: C))
    (hde : d ≠ e) {a b : Nat} (hab : (a = A.length ∧ b = A.length + 1 + B.length) ∨
      (b = A.length ∧ a = A.length + 1 + B.length)) {axis1 axis2 : Int} (h1 : IsAxis t.ndim a axis1)
    (h2 : IsAxis t.ndim b axis2) :
    traceEinsum t 0 axis1 axis2 = .error .valueError ∧ ∃ r, traceNp t 0 axis1 axis2 = .ok r ∧ IsTrace t r A B C d e := by
  have hnd : t.ndim = A.length + 1 + B.length + 1 + C.length := by rw [ndim, hs]; simp; omega
  have hab' : a ≠ b := by omega
  have ha := h1.axisOf (by omega)
  have hb := h2.axisOf (by omega)
  have hdd : (t.shape.getD a 0 = d ∧ t.shape.getD b 0 = e) ∨ (t.shape.getD a 0 = e ∧ t.shape.getD b 0 = d) := by
    rw [hs]; rcases hab with ⟨rfl, rfl⟩ | ⟨rfl, rfl⟩
    · exact .inl ⟨getD_mid _ _ _, getD_mid2 _ _ _ _ _⟩
    · exact .inr ⟨getD_mid2 _ _ _ _ _, getD_mid _ _ _⟩
  have hne : axis1 ≠ axis2 := by
    rintro rfl; rw [ha] at hb; cases hb; exact hab' rfl
  constructor
  · by_cases hn : t.ndim ≤ 25
    · rw [traceEinsum_eq t hn hne (a := a) (b := b) (by rw [axisOf_wrap ha]; exact axisOf_natCast (by omega))
        (by rw [axisOf_wrap hb]; exact axisOf_natCast (by omega))]
      exact einsum1_trace_error t (by omega) (by omega) (by omega) _
    · unfold traceEinsum
      rw [if_neg (by simp), if_neg hne, if_pos (by omega)]
  · refine ⟨_, traceNp_eq t (by omega) ha hb hab', isTrace_of t _ hs hab rfl fun i => ?_⟩
    have : diagLen (t.shape.getD a 0) (t.shape.getD b 0) 0 = min d e := by
      unfold diagLen
      rcases hdd with ⟨h, h'⟩ | ⟨h, h'⟩ <;> rw [h, h'] <;> simp [min_comm]
    simp only [this]
    simp

/-- What `trace` of the PyTorch and TensorFlow backends should do: return a trace over the two axes, or raise. -/
def TraceSound (t : NDArray R) (k axis1 axis2 : Int) : Prop :=
  ∀ r, traceEinsum t k axis1 axis2 = .ok r → ∃ A B C d a b, t.shape = A ++ d :: (B ++ d :: C) ∧
    ((a = A.length ∧ b = A.length + 1 + B.length) ∨ (b = A.length ∧ a = A.length + 1 + B.length)) ∧
    IsAxis t.ndim a axis1 ∧ IsAxis t.ndim b axis2 ∧ IsTrace t r A B C d d

/-- C77: whatever the arguments, when `trace` of these backends returns then it returns the trace over the two
axes, or the sum over one axis of the tensor. -/
theorem C77_trace_partial (t : NDArray R) (k axis1 axis2 : Int) :
    TraceSound t k axis1 axis2 ∨ ∃ r A C d, traceEinsum t k axis1 axis2 = .ok r ∧ t.shape = A ++ d :: C ∧
      IsAxisSum t r A C d := by
  by_cases hk : k = 0
  swap
  · left; intro r hr; unfold traceEinsum at hr; rw [if_pos hk] at hr; cases hr
  subst hk
  by_cases hne : axis1 = axis2
  · left; intro r hr; unfold traceEinsum at hr; rw [if_neg (by simp), if_pos hne] at hr; cases hr
  by_cases hn : t.ndim ≤ 25
  swap
  · left; intro r hr; unfold traceEinsum at hr; rw [if_neg (by simp), if_neg hne, if_pos (by omega)] at hr; cases hr
  rcases ha : axisOf t.ndim (wrapAxis t.ndim axis1) with er | a
  · left; intro r hr; unfold traceEinsum at hr; rw [if_neg (by simp), if_neg hne, if_neg (by omega)] at hr
    simp only [setItem_eq, List.length_range', ha] at hr
    cases hr
  rcases hb : axisOf t.ndim (wrapAxis t.ndim axis2) with er | b
  · left; intro r hr; unfold traceEinsum at hr; rw [if_neg (by simp), if_neg hne, if_neg (by omega)] at hr
    simp only [setItem_eq, List.length_range', ha] at hr
    simp [bind, Except.bind, hb] at hr
  have han := axisOf_lt ha
  have hbn := axisOf_lt hb
  have e := traceEinsum_eq t hn hne ha hb
  by_cases hout : ∀ p < t.ndim, ((p : Int) ≠ wrapAxis t.ndim axis1 ∧ (p : Int) ≠ wrapAxis t.ndim axis2) ↔ (p ≠ a ∧ p ≠ b)
  swap
  · left; intro r hr
    exfalso
    apply hout
    rw [e, einsum1] at hr
    split_ifs at hr with hc
    obtain ⟨-, -, h3, -⟩ := hc
    intro p hp
    constructor
    · intro h
      have := h3 (98 + p) (List.mem_map.2 ⟨p, List.mem_filter.2 ⟨by simpa using hp, by simpa using h⟩, rfl⟩)
      rcases mem_insOf.1 this with ⟨h97, -⟩ | ⟨q, -, h1, h2, h4⟩
      · omega
      · have : p = q := by omega
        subst this; exact ⟨h1, h2⟩
    · rintro ⟨h1, h2⟩
      constructor
      · intro h; rw [← h, axisOf_natCast hp] at ha; cases ha; exact h1 rfl
      · intro h; rw [← h, axisOf_natCast hp] at hb; cases hb; exact h2 rfl
  rw [filter_outsOf hout] at e
  by_cases hdim : t.shape.getD a 0 = t.shape.getD b 0
  swap
  · left; intro r hr; rw [e, einsum1_trace_error t han hbn hdim] at hr; cases hr
  rw [einsum1_trace t han hbn hdim] at e
  by_cases hab : a = b
  · subst hab
    right
    obtain ⟨A, C, d, hs, rfl⟩ := split_one han
    exact ⟨_, A, C, d, e, hs, isAxisSum_of t hs⟩
  · left
    intro r hr
    rw [e] at hr; cases hr
    have h1 : wrapAxis t.ndim axis1 = a := by
      have h := hout a han
      by_contra hc
      have hb2 : (a : Int) = wrapAxis t.ndim axis2 := by
        by_contra hc2
        exact (h.1 ⟨fun h => hc h.symm, hc2⟩).1 rfl
      rw [← hb2, axisOf_natCast han] at hb; cases hb; exact hab rfl
    have h2 : wrapAxis t.ndim axis2 = b := by
      have h := hout b hbn
      by_contra hc
      have hb2 : (b : Int) = wrapAxis t.ndim axis1 := by
        by_contra hc2
        exact (h.1 ⟨hc2, fun h => hc h.symm⟩).2 rfl
      rw [← hb2, axisOf_natCast hbn] at ha; cases ha; exact hab rfl
    have g1 : IsAxis t.ndim a axis1 := by unfold wrapAxis at h1; unfold IsAxis; split_ifs at h1 <;> omega
    have g2 : IsAxis t.ndim b axis2 := by unfold wrapAxis at h2; unfold IsAxis; split_ifs at h2 <;> omega
    rcases Nat.lt_or_gt_of_ne hab with hlt | hlt
    · obtain ⟨A, B, C, d, e', hs, h3, h4⟩ := split_two hlt hbn
      have hd : d = e' := by
        rw [hs, h3, h4, getD_mid, getD_mid2] at hdim; exact hdim
      subst hd
      refine ⟨A, B, C, d, a, b, hs, .inl ⟨h3, h4⟩, g1, g2, isTrace_of t _ hs (.inl ⟨h3, h4⟩) rfl fun i => ?_⟩
      simp only [diagSum, min_self]
      rw [show t.shape.getD a 0 = d by rw [hs, h3]; exact getD_mid _ _ _]
    · obtain ⟨A, B, C, d, e', hs, h3, h4⟩ := split_two hlt han
      have hd : d = e' := by
        rw [hs, h3, h4, getD_mid, getD_mid2] at hdim; exact hdim.symm
      subst hd
      refine ⟨A, B, C, d, a, b, hs, .inr ⟨h3, h4⟩, g1, g2, isTrace_of t _ hs (.inr ⟨h3, h4⟩) rfl fun i => ?_⟩
      simp only [diagSum, min_self]
      rw [show t.shape.getD a 0 = d by rw [hs, h4]; exact getD_mid2 _ _ _ _ _]

/-- C77, the property the two backends lack: given the same axis twice, once from the front and once from the end,
or an axis below `-ndim` that reaches the other axis when the code wraps it twice, they do not raise as the numpy
backend does, but return the sum over this axis.  For every tensor and every axis. -/
theorem C77_trace_same_axis_false (t : NDArray R) {A C : List Nat} {d : Nat} (hs : t.shape = A ++ d :: C)
    (hn : t.ndim ≤ 25) {axis1 : Int} (h1 : axis1 = (A.length : Int) - t.ndim ∨ axis1 = (A.length : Int) - 2 * t.ndim) :
    (∃ r, traceEinsum t 0 axis1 A.length = .ok r ∧ IsAxisSum t r A C d) ∧
      traceNp t 0 axis1 A.length = .error .valueError := by
  have hnd : t.ndim = A.length + 1 + C.length := by rw [ndim, hs]; simp; omega
  have hb : axisOf t.ndim (wrapAxis t.ndim (A.length : Int)) = .ok A.length := by
    rw [wrapAxis, if_neg (by omega)]; exact axisOf_natCast (by omega)
  have ha : axisOf t.ndim (wrapAxis t.ndim axis1) = .ok A.length := by
    rw [wrapAxis, if_pos (by omega)]
    rcases h1 with rfl | rfl
    · rw [show (t.ndim : Int) + (A.length - t.ndim) = A.length by omega]; exact axisOf_natCast (by omega)
    · rw [axisOf, if_neg (by omega), if_pos (by omega)]; congr 1; omega
  constructor
  · refine ⟨_, ?_, isAxisSum_of t hs⟩
    rw [traceEinsum_eq t hn (by omega) ha hb, filter_outsOf (a := A.length) (b := A.length),
      einsum1_trace t (by omega) (by omega) rfl]
    intro p hp
    unfold wrapAxis
    rw [if_pos (by omega), if_neg (by omega)]
    omega
  · unfold traceNp
    split_ifs with h2
    · rfl
    · rcases h1 with h1 | h1
      · rw [show axisOf t.ndim axis1 = .ok A.length from IsAxis.axisOf (.inr h1) (by omega),
          axisOf_natCast (by omega)]
        show (if A.length = A.length then _ else _) = _
        rw [if_pos rfl]
      · rw [show axisOf t.ndim axis1 = .error .valueError from by rw [axisOf, if_neg (by omega), if_neg (by omega)]]
        rfl

end TN.TensorOps
