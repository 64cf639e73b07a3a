import Verif.TensorClsShape

/-!
# The class `Tensor` (C84): products and `finalize`
-/

set_option linter.unusedSectionVars false

namespace TN.TensorCls

open TN NDArray Bcast Ncon

variable {R : Type}

theorem take_two {α : Type} (s : List α) (x y : α) : (s ++ [x, y]).take ((s ++ [x, y]).length - 2) = s := by simp

theorem getD_two (s : List Nat) (x y : Nat) : (s ++ [x, y]).getD ((s ++ [x, y]).length - 2) 0 = x ∧
    (s ++ [x, y]).getD ((s ++ [x, y]).length - 1) 0 = y := by
  constructor
  · simp [List.getD_eq_getElem?_getD]
  · simp [List.getD_eq_getElem?_getD]

theorem matmulArray_eq [NonUnitalNonAssocSemiring R] (a b : NDArray R) {ba bb : List Nat} {m k k' n : Nat}
    (ha : a.shape = ba ++ [m, k]) (hb : b.shape = bb ++ [k', n]) :
    matmulArray a b = if k ≠ k' then .error .valueError else match bshape ba bb with
      | none => .error .valueError
      | some s => .ok ⟨s ++ [m, n], fun i => ∑ l ∈ Finset.range k,
          a.get (bidx ba (i.take s.length) ++ [i.getD s.length 0, l]) *
          b.get (bidx bb (i.take s.length) ++ [l, i.getD (s.length + 1) 0])⟩ := by
  have h1 : ¬ (a.ndim ≤ 1 ∨ b.ndim ≤ 1) := by simp [ndim, ha, hb]
  unfold matmulArray
  rw [if_neg h1]
  simp only [ndim, ha, hb, take_two, getD_two]
  split_ifs
  · rfl
  · cases bshape ba bb <;> rfl

theorem getD_split (i : List Nat) (x y : Nat) : (i ++ [x, y]).getD i.length 0 = x ∧
    (i ++ [x, y]).getD (i.length + 1) 0 = y ∧ (i ++ [x, y]).take i.length = i := by
  refine ⟨?_, ?_, by simp⟩ <;> simp [List.getD_eq_getElem?_getD]

theorem bidx_aligned {a b s i j : List Nat} (h : bshape a b = some s) (hi : InB s i) (hj : Aligned a i j) : bidx a i = j := by
  refine aligned_bidx ?_ hj
  have := (bshape_eq_some.1 h).2.1
  rw [hi.length, this]; omega

/-- **C84**, `a @ b`: tensors of different backends, tensors with fewer than two axes, matrices that
do not fit and batch axes that do not fit are refused; otherwise the last two axes are multiplied as
matrices for every index of the broadcast batch axes. -/
theorem C84_matmul [NonUnitalNonAssocSemiring R] (a b : Tensor R) :
    (a.backend ≠ b.backend → matmul a b = .error .valueError) ∧
    (a.array.ndim ≤ 1 ∨ b.array.ndim ≤ 1 → matmul a b = .error .valueError) ∧
    ∀ {ba bb : List Nat} {m k k' n : Nat}, a.array.shape = ba ++ [m, k] → b.array.shape = bb ++ [k', n] →
      (k ≠ k' → matmul a b = .error .valueError) ∧
      ((∃ d, axisFromEnd ba d ≠ axisFromEnd bb d ∧ axisFromEnd ba d ≠ 1 ∧ axisFromEnd bb d ≠ 1) →
        matmul a b = .error .valueError) ∧
      (a.backend = b.backend → k = k' →
        (∀ d, axisFromEnd ba d = axisFromEnd bb d ∨ axisFromEnd ba d = 1 ∨ axisFromEnd bb d = 1) →
        ∃ c s, matmul a b = .ok c ∧ c.backend = a.backend ∧ c.array.shape = s ++ [m, n] ∧ Fit ba bb s ∧
          ∀ i x y, InB s i → x < m → y < n → ∀ ja jb, Aligned ba i ja → Aligned bb i jb →
            c.array.get (i ++ [x, y]) =
              ∑ l ∈ Finset.range k, a.array.get (ja ++ [x, l]) * b.array.get (jb ++ [l, y])) := by
  have wrap : ∀ e, matmulArray a.array b.array = .error e → e = .valueError → matmul a b = .error .valueError := by
    intro e he h
    subst h
    unfold matmul
    split_ifs
    · rfl
    · rw [he]; rfl
  refine ⟨fun h => by simp [matmul, h], fun h => wrap .valueError (by rw [matmulArray, if_pos h]) rfl, ?_⟩
  intro ba bb m k k' n ha hb
  have he := matmulArray_eq a.array b.array ha hb
  refine ⟨fun h => wrap .valueError (by rw [he, if_pos h]) rfl, fun h => ?_, fun hbk hk hfit => ?_⟩
  · have hn := bshape_eq_none.2 h
    refine wrap .valueError ?_ rfl
    rw [he, hn]
    split_ifs <;> rfl
  · cases hs : bshape ba bb with
    | none =>
      obtain ⟨d, hd⟩ := bshape_eq_none.1 hs
      have := hfit d
      tauto
    | some s =>
      rw [hs, if_neg (by simpa using hk)] at he
      refine ⟨⟨⟨s ++ [m, n], fun i => ∑ l ∈ Finset.range k,
          a.array.get (bidx ba (i.take s.length) ++ [i.getD s.length 0, l]) *
          b.array.get (bidx bb (i.take s.length) ++ [l, i.getD (s.length + 1) 0])⟩, a.backend⟩, s, by rw [matmul, if_neg (by simpa using hbk), he]; rfl, rfl, rfl,
        bshape_eq_some.1 hs, ?_⟩
      intro i x y hi hx hy ja jb hja hjb
      simp only
      rw [← hi.length, (getD_split i x y).1, (getD_split i x y).2.1, (getD_split i x y).2.2,
        bidx_aligned hs hi hja, bidx_aligned (bshape_comm ba bb ▸ hs) hi hjb]

/-- **C84**, `(a @ b) @ c` and `a @ (b @ c)` are both refused or have the same entries, for all batch
axes. -/
theorem C84_matmul_assoc [NonUnitalSemiring R] (a b c : Tensor R) {ba bb bc : List Nat} {m k k' n n' q : Nat}
    (ha : a.array.shape = ba ++ [m, k]) (hb : b.array.shape = bb ++ [k', n]) (hc : c.array.shape = bc ++ [n', q]) :
    ((matmul a b >>= fun x => matmul x c) = .error .valueError ∧ (matmul b c >>= fun x => matmul a x) = .error .valueError) ∨
    ∃ r r', (matmul a b >>= fun x => matmul x c) = .ok r ∧ (matmul b c >>= fun x => matmul a x) = .ok r' ∧
      r.backend = r'.backend ∧ r.array.Same r'.array := by
  have e1 := matmulArray_eq a.array b.array ha hb
  have e2 := matmulArray_eq b.array c.array hb hc
  unfold matmul
  by_cases hab : a.backend = b.backend
  swap
  · left
    refine ⟨by simp [hab, bind, Except.bind], ?_⟩
    by_cases hbc : b.backend = c.backend
    · rw [if_neg (by simpa using hbc), e2]
      split_ifs
      · rfl
      · cases bshape bb bc with
        | none => rfl
        | some s => simp [bind, Except.bind, pure, Except.pure, hab]
    · simp [hbc, bind, Except.bind]
  by_cases hbc : b.backend = c.backend
  swap
  · left
    refine ⟨?_, by simp [hbc, bind, Except.bind]⟩
    rw [if_neg (by simpa using hab), e1]
    split_ifs
    · rfl
    · cases bshape ba bb with
      | none => rfl
      | some s => simp [bind, Except.bind, pure, Except.pure, hab, hbc]
  rw [if_neg (by simpa using hab), if_neg (by simpa using hbc), e1, e2]
  by_cases hk : k = k'
  swap
  · left
    refine ⟨by simp [hk, bind, Except.bind], ?_⟩
    by_cases hn : n = n'
    · rw [if_neg (by simpa using hn)]
      cases hs : bshape bb bc with
      | none => rfl
      | some s =>
        simp only [bind, Except.bind, pure, Except.pure, hab, ne_eq, not_true_eq_false, if_false]
        rw [matmulArray_eq a.array ⟨s ++ [k', q], _⟩ ha rfl, if_pos hk]
    · simp [hn, bind, Except.bind]
  by_cases hn : n = n'
  swap
  · left
    refine ⟨?_, by simp [hn, bind, Except.bind]⟩
    rw [if_neg (by simpa using hk)]
    cases hs : bshape ba bb with
    | none => rfl
    | some s =>
      simp only [bind, Except.bind, pure, Except.pure, hab, hbc, ne_eq, not_true_eq_false, if_false]
      rw [matmulArray_eq ⟨s ++ [m, n], _⟩ c.array rfl hc, if_pos hn]
  rw [if_neg (by simpa using hk), if_neg (by simpa using hn)]
  subst hk hn
  have hass := bshape_assoc ba bb bc
  cases hs : bshape ba bb with
  | none =>
    left
    refine ⟨rfl, ?_⟩
    rw [hs] at hass
    cases ht : bshape bb bc with
    | none => rfl
    | some t =>
      rw [ht] at hass
      simp only [bind, Except.bind, pure, Except.pure, hab, ne_eq, not_true_eq_false, if_false]
      rw [matmulArray_eq a.array ⟨t ++ [k, q], _⟩ ha rfl]
      simp only [Option.bind_none, Option.bind_some] at hass
      simp [← hass]
  | some s =>
    rw [hs] at hass
    simp only [Option.bind_some] at hass
    cases ht : bshape bb bc with
    | none =>
      left
      rw [ht] at hass
      refine ⟨?_, rfl⟩
      simp only [bind, Except.bind, pure, Except.pure, hab, hbc, ne_eq, not_true_eq_false, if_false]
      rw [matmulArray_eq ⟨s ++ [m, n], _⟩ c.array rfl hc]
      simp [hass]
    | some t =>
      rw [ht] at hass
      simp only [Option.bind_some] at hass
      simp only [bind, Except.bind, pure, Except.pure, hab, hbc, ne_eq, not_true_eq_false, if_false]
      rw [matmulArray_eq ⟨s ++ [m, n], _⟩ c.array rfl hc, matmulArray_eq a.array ⟨t ++ [k, q], _⟩ ha rfl]
      simp only [ne_eq, not_true_eq_false, if_false, ← hass]
      cases hu : bshape s bc with
      | none => left; exact ⟨rfl, rfl⟩
      | some u =>
        right
        refine ⟨_, _, rfl, rfl, rfl, rfl, fun i hi => ?_⟩
        simp only at hi ⊢
        have hau : bshape ba t = some u := by rw [← hass, hu]
        obtain ⟨j, xy, rfl, hj, hxy⟩ : ∃ j xy, i = j ++ xy ∧ InB u j ∧ InB [m, q] xy := by
          have hl := hi.length
          refine ⟨i.take u.length, i.drop u.length, by simp, ?_⟩
          have hlt : (i.take u.length).length = u.length := by simp [hl]
          exact (inB_append_iff hlt).1 (by simpa using hi)
        obtain ⟨x, rest, rfl, hx, hrest⟩ := inB_cons_iff.1 hxy
        obtain ⟨y, rest', rfl, hy, hrest'⟩ := inB_cons_iff.1 hrest
        rw [inB_nil_iff] at hrest'
        subst hrest'
        obtain ⟨g1, g2, g3⟩ := getD_split j x y
        rw [hj.length] at g1 g2 g3
        rw [g1, g2, g3]
        have hsj : (bidx s j).length = s.length := (bidx_inB hu hj).length
        have htj : (bidx t j).length = t.length := (bidx_inB (bshape_comm ba t ▸ hau) hj).length
        have r1 : ∀ l, (bidx s j ++ [x, l]).getD s.length 0 = x ∧ (bidx s j ++ [x, l]).getD (s.length + 1) 0 = l ∧
            (bidx s j ++ [x, l]).take s.length = bidx s j := by
          intro l; rw [← hsj]; exact getD_split _ _ _
        have r2 : ∀ l, (bidx t j ++ [l, y]).getD t.length 0 = l ∧ (bidx t j ++ [l, y]).getD (t.length + 1) 0 = y ∧
            (bidx t j ++ [l, y]).take t.length = bidx t j := by
          intro l; rw [← htj]; exact getD_split _ _ _
        simp only [fun l => (r1 l).1, fun l => (r1 l).2.1, fun l => (r1 l).2.2, fun l => (r2 l).1,
          fun l => (r2 l).2.1, fun l => (r2 l).2.2, bidx_bidx hs, bidx_bidx_right hs, bidx_bidx ht, bidx_bidx_right ht,
          Finset.sum_mul, Finset.mul_sum, mul_assoc]
        exact Finset.sum_comm

/-- **C84**, `(a @ b).H` is `b.H @ a.H` for matrices. -/
theorem C84_matmul_H [CommSemiring R] [StarRing R] (a b : Tensor R) {m k n : Nat} (hbk : a.backend = b.backend)
    (ha : a.array.shape = [m, k]) (hb : b.array.shape = [k, n]) :
    ∃ l r, (matmul a b >>= H) = .ok l ∧ (H b >>= fun y => H a >>= fun x => matmul y x) = .ok r ∧
      l.backend = r.backend ∧ l.array.Same r.array := by
  obtain ⟨-, -, h⟩ := C84_matmul a b
  obtain ⟨-, -, h⟩ := h (ba := []) (bb := []) (by simpa using ha) (by simpa using hb)
  obtain ⟨c, s, hc, hcb, hcs, hfit, hcv⟩ := h hbk rfl (fun d => .inl rfl)
  have hs0 : s = [] := List.length_eq_zero_iff.1 (by simpa using hfit.2.1)
  subst hs0
  obtain ⟨_, l, -, hl, -, -, hlb, -, hls, hlv⟩ := C84_H c
  obtain ⟨_, p, -, hp, -, -, hpb, -, hps, hpv⟩ := C84_H b
  obtain ⟨_, o, -, ho, -, -, hob, -, hos, hov⟩ := C84_H a
  obtain ⟨-, -, g⟩ := C84_matmul p o
  obtain ⟨-, -, g⟩ := g (ba := []) (bb := []) (by simpa [hb] using hps) (by simpa [ha] using hos)
  obtain ⟨r, s, hr, hrb, hrs, hfit', hrv⟩ := g (by rw [hpb, hob, hbk]) rfl (fun d => .inl rfl)
  have hs0 : s = [] := List.length_eq_zero_iff.1 (by simpa using hfit'.2.1)
  subst hs0
  have al : ∀ i, Aligned [] i [] := fun i => ⟨by simp, fun d hd => absurd (by simp [axisFromEnd]) hd⟩
  refine ⟨l, r, by rw [hc]; exact hl, by rw [hp]; show (H a >>= fun x => matmul p x) = _; rw [ho]; exact hr,
    by rw [hlb, hcb, hrb, hpb, hbk], ?_⟩
  have hlsh : l.array.shape = [n, m] := by rw [hls, hcs]; rfl
  refine ⟨by rw [hlsh, hrs]; rfl, fun i hi => ?_⟩
  rw [hlsh] at hi
  obtain ⟨y, i, rfl, hy, hi⟩ := inB_cons_iff.1 hi
  obtain ⟨x, i, rfl, hx, hi⟩ := inB_cons_iff.1 hi
  rw [inB_nil_iff] at hi
  subst hi
  have h1 := (hlv [x, y] (by rw [hcs]; simp [hx, hy])).2
  have h2 := hcv [] x y (by simp) hx hy [] [] (al _) (al _)
  have h3 := hrv [] y x (by simp) hy hx [] [] (al _) (al _)
  simp only [List.nil_append, List.reverse_cons, List.reverse_nil] at h1 h2 h3
  have h1' : l.array.get [y, x] = star (c.array.get [x, y]) := h1
  rw [h1', h2, h3, star_sum]
  refine Finset.sum_congr rfl fun z hz => ?_
  have hz := Finset.mem_range.1 hz
  have h4 : p.array.get [y, z] = star (b.array.get [z, y]) := (hpv [z, y] (by rw [hb]; simp [hz, hy])).2
  have h5 : o.array.get [z, x] = star (a.array.get [x, z]) := (hov [x, z] (by rw [ha]; simp [hz, hx])).2
  rw [h4, h5, star_mul']
  exact mul_comm _ _

/-! ### The broadcasting products of the backend -/

theorem bidx_append_last {i : List Nat} {n x : Nat} (hx : x < n) : bidx [n] (i ++ [x]) = [x] := by
  simp only [bidx, bidxR, List.reverse_append, List.reverse_cons, List.reverse_nil, List.nil_append,
    List.singleton_append, List.zipWith_cons_cons, List.zipWith_nil_left]
  split_ifs with h
  · simp; omega
  · simp

theorem bshape_last (s : List Nat) (n : Nat) : bshape (s ++ [n]) [n] = some (s ++ [n]) := by
  simp [bshape, bshapeR, bdim_self, bshapeR_nil_right]

/-- **C84**, `broadcast_right_multiplication(t, v)` multiplies along the last axis of `t`. -/
theorem C84_broadcast_right [Mul R] (t v : NDArray R) :
    (v.ndim ≠ 1 → broadcastRight t v = .error .valueError) ∧
    ∀ {s : List Nat} {n : Nat}, t.shape = s ++ [n] → v.shape = [n] →
      ∃ r, broadcastRight t v = .ok r ∧ r.shape = t.shape ∧
        ∀ i x, InB s i → x < n → r.get (i ++ [x]) = t.get (i ++ [x]) * v.get [x] := by
  refine ⟨fun h => by simp [broadcastRight, h], fun {s n} ht hv => ?_⟩
  refine ⟨⟨s ++ [n], fun i => t.get (bidx t.shape i) * v.get (bidx v.shape i)⟩, ?_, ht.symm, fun i x hi hx => ?_⟩
  · rw [broadcastRight, if_neg (by simp [ndim, hv])]
    simp only [elementwise, ht, hv, bshape_last]
  · simp only [ht, hv]
    rw [bidx_self (inB_append hi (by simpa using hx)), bidx_append_last hx]

theorem bshapeR_ones (s : List Nat) (n : Nat) :
    bshapeR (s ++ [n]) (List.replicate s.length 1 ++ [n]) = some (s ++ [n]) := by
  induction s with
  | nil => simp [bshapeR, bdim_self]
  | cons d s ih =>
    simp only [List.cons_append, List.length_cons, List.replicate_succ, bshapeR, ih, Option.map_some]
    have : bdim d 1 = some d := by rw [bdim_eq_some]; refine ⟨by simp, ?_⟩; split_ifs with h <;> simp [h]
    rw [this]; rfl

theorem bidxR_ones (i : List Nat) (n x : Nat) (hx : x < n) :
    bidxR (List.replicate i.length 1 ++ [n]) (i ++ [x]) = List.replicate i.length 0 ++ [x] := by
  induction i with
  | nil =>
    simp only [bidxR, List.length_nil, List.replicate_zero, List.nil_append, List.zipWith_cons_cons, List.zipWith_nil_left]
    split_ifs with h
    · congr 1; omega
    · rfl
  | cons d i ih =>
    simp only [bidxR, List.length_cons, List.replicate_succ, List.cons_append, List.zipWith_cons_cons, if_true] at ih ⊢
    rw [ih]

theorem ravel_replicate (l : Nat) : ravel (List.replicate l 1) (List.replicate l 0) = 0 := by
  induction l with
  | zero => rfl
  | succ l ih => simp [List.replicate_succ, ravel, ih]

/-- **C84**, `broadcast_left_multiplication(v, t)` multiplies along the first axis of `t`. -/
theorem C84_broadcast_left [CommMagma R] (t v : NDArray R) :
    (v.ndim ≠ 1 → broadcastLeft v t = .error .valueError) ∧
    ∀ {s : List Nat} {n : Nat}, t.shape = n :: s → v.shape = [n] →
      ∃ r, broadcastLeft v t = .ok r ∧ r.shape = t.shape ∧
        ∀ i x, InB s i → x < n → r.get (x :: i) = v.get [x] * t.get (x :: i) := by
  refine ⟨fun h => by simp [broadcastLeft, h], fun {s n} ht hv => ?_⟩
  have hb : bshape (n :: s) (n :: List.replicate s.length 1) = some (n :: s) := by
    have := bshapeR_ones s.reverse n
    simp only [bshape, List.reverse_cons, List.reverse_replicate]
    rw [List.length_reverse] at this
    rw [this]; simp
  have hr : v.reshape (v.shape ++ List.replicate (t.ndim - 1) 1) =
      .ok ⟨n :: List.replicate s.length 1, fun i => v.get (unravel [n] (ravel (n :: List.replicate s.length 1) i))⟩ := by
    have : t.ndim - 1 = s.length := by simp [ndim, ht]
    rw [NDArray.reshape, hv, this]
    simp
  refine ⟨⟨n :: s, fun i => t.get (bidx t.shape i) * v.get (unravel [n] (ravel (n :: List.replicate s.length 1)
      (bidx (n :: List.replicate s.length 1) i)))⟩, ?_, ht.symm, fun i x hi hx => ?_⟩
  · rw [broadcastLeft, if_neg (by simp [ndim, hv]), hr]
    simp only [bind, Except.bind, elementwise, ht, hb]
  · simp only [ht]
    have e : bidx (n :: List.replicate s.length 1) (x :: i) = x :: List.replicate s.length 0 := by
      have := bidxR_ones i.reverse n x hx
      rw [List.length_reverse, hi.length] at this
      simp only [bidx, List.reverse_cons, List.reverse_replicate]
      rw [this]; simp
    have e2 : ravel (n :: List.replicate s.length 1) (x :: List.replicate s.length 0) = x := by
      simp [ravel, ravel_replicate]
    rw [bidx_self (show InB (n :: s) (x :: i) by simp [hx, hi]), e, e2, mul_comm]
    simp [unravel]

/-- **C84**, the lengths need not agree: a vector of length one multiplies every entry, and a tensor
whose last axis has dimension one is repeated. -/
theorem C84_broadcast_length_false : ¬ ∀ (t v : NDArray Int), (∃ r, broadcastRight t v = .ok r) →
    t.shape.getLast? = v.shape.getLast? := by
  intro h
  have := h ⟨[2, 1], fun _ => 1⟩ ⟨[3], fun _ => 1⟩ ⟨_, rfl⟩
  simp at this

/-! ### `finalize` -/

/-- An expression of tensors with labels, joined by `@`. -/
inductive Expr (R : Type)
  | call (t : Tensor R) (args : List Lab)
  | matmul (e f : Expr R)

/-- The builder that Python makes of the expression. -/
def Expr.build : Expr R → NconBuilder R
  | .call t args => TensorCls.call t args
  | .matmul e f => e.build.matmul f.build

/-- The tensors and labels of the expression, from left to right. -/
def Expr.leaves : Expr R → List (Tensor R × List Lab)
  | .call t args => [(t, args)]
  | .matmul e f => e.leaves ++ f.leaves

theorem build_eq (e : Expr R) : e.build = ⟨e.leaves.map Prod.fst, e.leaves.map Prod.snd⟩ := by
  induction e with
  | call t args => rfl
  | matmul e f ihe ihf => simp [Expr.build, Expr.leaves, NconBuilder.matmul, ihe, ihf]

theorem leaves_ne_nil (e : Expr R) : e.leaves ≠ [] := by
  induction e with
  | call t args => simp [Expr.leaves]
  | matmul e f ihe _ => simp [Expr.leaves, ihe]

/-- **C84**, `finalize` of an expression `a(...) @ b(...) @ ...`: the brackets do not matter, tensors of
different backends are refused, and a result is the Einstein sum of the tensors with their labels. -/
theorem C84_finalize [CommSemiring R] (so : SetOrder) (e : Expr R) :
    (∀ f : Expr R, f.leaves = e.leaves → finalize so f.build = finalize so e.build) ∧
    ((∃ p ∈ e.leaves, ∃ q ∈ e.leaves, p.1.backend ≠ q.1.backend) → finalize so e.build = .error .valueError) ∧
    ∀ r, finalize so e.build = .ok r → (∀ p ∈ e.leaves, p.1.backend = r.backend) ∧
      (NoInnerRepeats (e.leaves.map Prod.snd) →
        OpenDimsAgree (e.leaves.map fun p => p.1.array) (e.leaves.map Prod.snd) →
        ∃ dim : Lab → Nat, (∀ p ∈ e.leaves, p.1.array.shape = p.2.map dim) ∧
        ∃ o, OutputOrder (e.leaves.flatMap Prod.snd) none o ∧
        ∀ closed, Enumerates closed (fun l => l ∈ e.leaves.flatMap Prod.snd ∧ l.isOpen = false) →
          IsEinsum dim (e.leaves.map fun p => (p.1.array, p.2)) closed o r.array) := by
  have hfin : ∀ p l, e.leaves = p :: l → finalize so e.build =
      nconTensors so (e.leaves.map Prod.fst) (e.leaves.map Prod.snd) p.1.backend := by
    intro p l h
    rw [build_eq, h]; rfl
  obtain ⟨p, l, hpl⟩ := List.exists_cons_of_ne_nil (leaves_ne_nil e)
  have hf := hfin p l hpl
  refine ⟨fun f h => by rw [build_eq, build_eq, h], fun hne => ?_, fun r h => ?_⟩
  · rw [hf, nconTensors, if_neg]
    intro hall
    simp only [List.all_eq_true, decide_eq_true_eq, List.mem_map, forall_exists_index, and_imp,
      forall_apply_eq_imp_iff₂] at hall
    obtain ⟨x, hx, y, hy, hxy⟩ := hne
    exact hxy ((hall x hx).trans (hall y hy).symm)
  · rw [hf, nconTensors] at h
    split_ifs at h with hall
    simp only [py_bind_ok, py_pure_ok] at h
    obtain ⟨arr, hn, rfl⟩ := h
    simp only [List.all_eq_true, decide_eq_true_eq, List.mem_map, forall_exists_index, and_imp,
      forall_apply_eq_imp_iff₂] at hall
    refine ⟨hall, fun hrep hopen => ?_⟩
    rw [List.map_map] at hn
    have hz : (e.leaves.map ((fun t : Tensor R => t.array) ∘ Prod.fst)).zip (e.leaves.map Prod.snd) =
        e.leaves.map fun p => (p.1.array, p.2) := by
      rw [List.zip_map']; rfl
    obtain ⟨dim, hd, o, ho, hv⟩ := C01_ncon_is_einsum so hn hrep hopen
    rw [hz] at hd hv
    have hfl : (e.leaves.map Prod.snd).flatMap id = e.leaves.flatMap Prod.snd := by
      rw [List.flatMap_map]; rfl
    rw [hfl] at ho hv
    exact ⟨dim, fun p hp => hd (p.1.array, p.2) (List.mem_map.2 ⟨p, hp, rfl⟩), o, ho, hv⟩

/-! ### Concrete cases -/

section examples

/-- A column of two entries. -/
def exCol : Tensor ℚ := ⟨⟨[2, 1], fun i => i.getD 0 0 + 1⟩, "numpy"⟩

/-- A row of three entries. -/
def exRow : Tensor ℚ := ⟨⟨[3], fun i => 10 * i.getD 0 0⟩, "numpy"⟩

/-- A column and a row make a matrix: the entry `(1, 2)` of the sum is `2 + 20`. -/
example : ∃ c, tensorOp .add exCol (.tensor exRow) = .ok c ∧ c.array.shape.length = 2 ∧
    (InB c.array.shape [1, 2] → c.array.get [1, 2] = 22) := by
  obtain ⟨c, hc, -, hf, hv⟩ := ((C84_tensor_op .add exCol exRow).2 rfl).2 (fun k => by
    match k with
    | 0 => exact .inr (.inl rfl)
    | 1 => exact .inr (.inr rfl)
    | k + 2 => exact .inr (.inl (by simp [axisFromEnd, exCol])))
  refine ⟨c, hc, hf.2.1, fun hi => ?_⟩
  rw [(hv _ hi).2 [1, 0] [2] ⟨by simp [exCol], fun k hk => ?_⟩ ⟨by simp [exRow], fun k hk => ?_⟩]
  · simp [Op.eval, exCol, exRow]; norm_num
  · match k with
    | 0 => exact absurd rfl hk
    | 1 => rfl
    | k + 2 => exact absurd (by simp [axisFromEnd, exCol]) hk
  · match k with
    | 0 => rfl
    | k + 1 => exact absurd (by simp [axisFromEnd, exRow]) hk

example : tensorOp .mul exCol (.tensor ⟨⟨[3, 1], fun _ => 1⟩, "numpy"⟩) = .error .valueError :=
  ((C84_tensor_op .mul exCol ⟨⟨[3, 1], fun _ => 1⟩, "numpy"⟩).2 rfl).1 ⟨1, by simp [axisFromEnd, exCol]⟩

example : tensorOp .sub exCol (.tensor ⟨⟨[2, 1], fun _ => 1⟩, "jax"⟩) = .error .valueError :=
  (C84_tensor_op .sub exCol ⟨⟨[2, 1], fun _ => 1⟩, "jax"⟩).1 (by simp [exCol])

example : ∃ c, numberOp .sub 7 exRow = .ok c ∧ c.array.get [2] = -13 := by
  obtain ⟨c, hc, -, -, hv⟩ := (C84_number .sub exRow 7).2 (by decide)
  refine ⟨c, hc, ?_⟩
  rw [hv [2] (by simp [exRow])]
  simp [Op.eval, exRow]; norm_num

example : (add exCol (.tensor exRow) >>= fun y => add y (.tensor exCol)) =
    (add exRow (.tensor exCol) >>= fun y => add exCol (.tensor y)) := (C84_laws exCol exRow exCol 0).2.2.1

/-- Axes `(a, b, c)` to `(c, a, b)` and back. -/
example : ∃ c d, hconj (⟨⟨[2, 3, 4], fun i => i.getD 2 0⟩, "numpy"⟩ : Tensor ℤ) (some [2, 0, 1]) = .ok c ∧
    hconj c (some [1, 2, 0]) = .ok d ∧ d.backend = "numpy" ∧
    d.array.Same ⟨[2, 3, 4], fun i => i.getD 2 0⟩ := by
  refine C84_hconj_inverse _ (by decide) rfl ?_
  decide

example : ∃ r, squeeze (⟨⟨[1, 2, 1, 3], fun i => i.getD 1 0 * 3 + i.getD 3 0⟩, "numpy"⟩ : Tensor ℤ) = .ok r ∧
    r.array.shape = [2, 3] ∧ r.array.get [1, 2] = 5 := by
  obtain ⟨r, hr, -, hs, hv⟩ := C84_squeeze (⟨⟨[1, 2, 1, 3], fun i => i.getD 1 0 * 3 + i.getD 3 0⟩, "numpy"⟩ : Tensor ℤ)
  exact ⟨r, hr, hs, (hv [0, 1, 0, 2] (by simp)).2⟩

/-- Three matrices, the middle one with a batch axis. -/
def exM : Tensor ℤ := ⟨⟨[2, 2], fun i => i.getD 0 0⟩, "numpy"⟩

@[inherit_doc exM] def exBatch : Tensor ℤ := ⟨⟨[5, 2, 3], fun i => i.getD 0 0⟩, "numpy"⟩

@[inherit_doc exM] def exN : Tensor ℤ := ⟨⟨[3, 2], fun i => i.getD 1 0⟩, "numpy"⟩

example : ∃ r r', (matmul exM exBatch >>= fun x => matmul x exN) = .ok r ∧
    (matmul exBatch exN >>= fun x => matmul exM x) = .ok r' ∧ r.backend = r'.backend ∧ r.array.Same r'.array := by
  rcases C84_matmul_assoc exM exBatch exN (ba := []) (bb := [5]) (bc := []) rfl rfl rfl with ⟨h, -⟩ | h
  · exact absurd h (by
      simp [exM, exBatch, exN, matmul, matmulArray, ndim, bshape, bshapeR, bind, Except.bind, pure, Except.pure])
  · exact h

example : ∃ l r, (matmul exN exM >>= H) = .ok l ∧ (H exM >>= fun y => H exN >>= fun x => matmul y x) = .ok r ∧
    l.backend = r.backend ∧ l.array.Same r.array := C84_matmul_H exN exM (m := 3) (k := 2) (n := 2) rfl rfl rfl

example : ∃ r, broadcastLeft (⟨[2], fun i => i.getD 0 0 + 1⟩ : NDArray ℤ) ⟨[2, 3], fun i => i.getD 1 0⟩ = .ok r ∧
    r.get [1, 2] = 4 := by
  obtain ⟨r, hr, -, hv⟩ := (C84_broadcast_left (⟨[2, 3], fun i => i.getD 1 0⟩ : NDArray ℤ)
    ⟨[2], fun i => i.getD 0 0 + 1⟩).2 (s := [3]) (n := 2) rfl rfl
  exact ⟨r, hr, hv [2] 1 (by simp) (by decide)⟩

/-- A product of two matrices, written with labels: it has a result, which is the Einstein sum. -/
example (so : SetOrder) : ∃ r, finalize so (Expr.matmul (.call exN [.num (-1), .num 1])
    (.call exM [.num 1, .num (-2)])).build = .ok r ∧ r.backend = "numpy" := by
  have h : ∃ r, ncon so [exN.array, exM.array] [[.num (-1), .num 1], [.num 1, .num (-2)]] none none true = .ok r := by
    refine C03_ordinary_network so (by simp) ?_ (by simp) (by simp) ?_
    · refine ⟨rfl, by decide, ?_, by simp, by simp, by decide⟩
      intro l hl
      simp only [List.flatMap_cons, id, List.flatMap_nil, List.append_nil, List.cons_append,
        List.nil_append, List.mem_cons, List.not_mem_nil, or_false] at hl
      rcases hl with rfl | rfl | rfl | rfl <;> simp only [Lab.Allowed] <;> decide
    · decide
  obtain ⟨r, hr⟩ := h
  refine ⟨⟨r, "numpy"⟩, ?_, rfl⟩
  rw [build_eq]
  show nconTensors so [exN, exM] [[.num (-1), .num 1], [.num 1, .num (-2)]] "numpy" = _
  rw [nconTensors, if_pos (by simp [exN, exM])]
  simp only [List.map_cons, List.map_nil, hr]
  rfl

/-- Two backends are refused. -/
example (so : SetOrder) : finalize so (Expr.matmul (.call exN [.num (-1), .num 1])
    (.call ⟨exM.array, "jax"⟩ [.num 1, .num (-2)])).build = .error .valueError :=
  (C84_finalize so _).2.1 ⟨_, .head _, _, .tail _ (.head _), by simp [exN]⟩

end examples

end TN.TensorCls
