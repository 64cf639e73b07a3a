import Verif.NconOps
import Verif.Decomp
import Mathlib.Data.List.Sort

/-!
# The tensordot of the TensorFlow backend

`backends/tensorflow/tensordot2.py`: a tensordot that permutes the axes of its arguments as
little as possible, and multiplies two matrices, each of them possibly transposed.

The TensorFlow operations `transpose`, `reshape` and `matmul` are modelled on arrays; whether
the rank of an argument is known when the graph is built is a parameter.  Simplifications: exceptions raised inside TensorFlow are
`valueError`; axes given as tensors are not modelled.
-/

namespace TN.Tf

open TN NDArray Finset Decomp

variable {R : Type}

/-- The argument `axes`: a number, or one list of axes for each tensor (tensordot2.py:46-51). -/
inductive Axes
  | num (k : Int)
  | lists (a b : List Int)

/-- `_tensordot_should_flip` (tensordot2.py:64-81): the mean of the contracted axes is less than
the mean of the free ones. -/
def shouldFlip (axes free : List Nat) : Bool :=
  if axes ≠ [] ∧ free ≠ [] then axes.sum * free.length < free.sum * axes.length else false

/-- `_tranpose_if_necessary` (tensordot2.py:83-91). -/
def transposeIf (t : NDArray R) (perm : List Nat) : Py (NDArray R) :=
  if perm = List.range perm.length then .ok t else t.transpose perm

/-- `_reshape_if_necessary` (tensordot2.py:93-102). -/
def reshapeIf (t : NDArray R) (s : List Nat) : Py (NDArray R) :=
  if s.length = t.shape.length ∧ (t.shape.zip s).all (fun d => d.1 == d.2) then .ok t
  else t.reshape s

/-- `[i if i >= 0 else i + len(shape_a) for i in axes]` and the look-up of `shape_a[i]`
(tensordot2.py:132-140). -/
def normAxes (n : Nat) (axes : List Int) : Py (List Nat) :=
  axes.mapM fun i =>
    let j : Int := if 0 ≤ i then i else i + n
    if 0 ≤ j ∧ j < n then .ok j.toNat else .error .indexError

/-- `_tensordot_reshape` (tensordot2.py:104-189).  `known`: the rank is known. -/
def tensordotReshape (known isRight : Bool) (a : NDArray R) (axes : List Int) :
    Py (NDArray R × List Nat × Bool) := do
  let axes ← normAxes a.ndim axes
  let free := (List.range a.ndim).filter (fun i => i ∉ axes)
  let flipped := if known then shouldFlip axes free else isRight
  let freeDims := free.map (fun i => a.shape.getD i 0)
  let prodFree := freeDims.prod
  let prodAxes := (axes.map (fun i => a.shape.getD i 0)).prod
  let perm := if flipped then axes ++ free else free ++ axes
  let newShape := if flipped then [prodAxes, prodFree] else [prodFree, prodAxes]
  let t ← transposeIf a perm
  let m ← reshapeIf t newShape
  pure (m, freeDims, if isRight then !flipped else flipped)

/-- `sorted(zip(a_axes, b_axes))` (tensordot2.py:224). -/
def sortAxes (l1 l2 : List Int) : List (Int × Int) :=
  (l1.zip l2).mergeSort (fun x y => x.1 < y.1 || (x.1 == y.1 && x.2 ≤ y.2))

/-- `_tensordot_axes` (tensordot2.py:191-229). -/
def tensordotAxes (known : Bool) (ndim : Nat) : Axes → Py (List Int × List Int)
  | .num k =>
    if k < 0 then .error .valueError
    else if known ∧ (ndim : Int) < k then .error .valueError
    else .ok ((List.range k.toNat).map (fun i : Nat => (ndim : Int) - k + (i : Int)),
      (List.range k.toNat).map (fun i : Nat => (i : Int)))
  | .lists l1 l2 =>
    if l1.length ≠ l2.length then .error .valueError
    else .ok ((sortAxes l1 l2).map Prod.fst, (sortAxes l1 l2).map Prod.snd)

/-- `tf.matmul(a, b, transpose_a, transpose_b)` of two matrices. -/
def matmul [NonUnitalNonAssocSemiring R] (a b : NDArray R) (ta tb : Bool) : Py (NDArray R) :=
  match a.shape, b.shape with
  | [a0, a1], [b0, b1] =>
    let (m, k1) := if ta then (a1, a0) else (a0, a1)
    let (k2, n) := if tb then (b1, b0) else (b0, b1)
    if k1 = k2 then
      .ok { shape := [m, n]
            get := fun i => ∑ x ∈ range k1,
              (if ta then a.get [x, i.getD 0 0] else a.get [i.getD 0 0, x]) *
              (if tb then b.get [i.getD 1 0, x] else b.get [x, i.getD 1 0]) }
    else .error .valueError
  | _, _ => .error .valueError

/-- `tensordot` (tensordot2.py:23-249).  `knownA`, `knownB`: the ranks are known. -/
def tensordot [NonUnitalNonAssocSemiring R] (knownA knownB : Bool) (a b : NDArray R) (axes : Axes) :
    Py (NDArray R) := do
  let (ax1, ax2) ← tensordotAxes knownA a.ndim axes
  let (ma, fa, ta) ← tensordotReshape knownA false a ax1
  let (mb, fb, tb) ← tensordotReshape knownB true b ax2
  let m ← matmul ma mb ta tb
  m.reshape (fa ++ fb)

/-! ### One argument -/

theorem mergeIdx_left {n : Nat} {axes c i : List Nat} (hc : c.length = axes.length) :
    ((List.range n).map fun p => (c ++ i).getD ((axes ++ freeAxes n axes).idxOf p) 0) =
      mergeIdx n axes c i := by
  refine List.map_congr_left fun p hp => ?_
  by_cases h : p ∈ axes
  · rw [if_pos h, List.idxOf_append_of_mem h, List.getD_append _ _ _ _ (by
      rw [hc]; exact List.idxOf_lt_length_of_mem h)]
  · rw [if_neg h, List.idxOf_append_of_notMem h, List.getD_append_right _ _ _ _ (by omega), ← hc]
    congr 1
    omega

theorem mergeIdx_right {n : Nat} {axes c i : List Nat} (hi : i.length = (freeAxes n axes).length) :
    ((List.range n).map fun p => (i ++ c).getD ((freeAxes n axes ++ axes).idxOf p) 0) =
      mergeIdx n axes c i := by
  refine List.map_congr_left fun p hp => ?_
  by_cases h : p ∈ axes
  · have hf : p ∉ freeAxes n axes := by simp [freeAxes, h]
    rw [if_pos h, List.idxOf_append_of_notMem hf, List.getD_append_right _ _ _ _ (by omega), ← hi]
    congr 1
    omega
  · have hf : p ∈ freeAxes n axes := by
      simp only [freeAxes, List.mem_filter, decide_not]
      exact ⟨hp, by simpa using h⟩
    rw [if_neg h, List.idxOf_append_of_mem hf, List.getD_append _ _ _ _ (by
      rw [hi]; exact List.idxOf_lt_length_of_mem hf)]

/-- The two shortcuts do not change the result. -/
theorem transposeIf_eq {t : NDArray R} {perm : List Nat} (h : perm.Perm (List.range t.ndim)) :
    ∃ t', transposeIf t perm = .ok t' ∧ t'.shape = perm.map (fun p => t.shape.getD p 0) ∧
      ∀ i, InB t'.shape i →
        t'.get i = t.get ((List.range t.ndim).map fun a => i.getD (perm.idxOf a) 0) := by
  unfold transposeIf
  by_cases hp : perm = List.range perm.length
  · have hl : perm.length = t.ndim := by simpa using h.length_eq
    have hs : t.shape = perm.map (fun p => t.shape.getD p 0) := by
      rw [hp, hl, NDArray.ndim]
      apply List.ext_getElem (by simp)
      intro k h1 h2
      simp [h1]
    refine ⟨t, by rw [if_pos hp], hs, fun i hi => ?_⟩
    congr 1
    have hil : i.length = t.ndim := hi.length
    apply List.ext_getElem (by simp [hil])
    intro k h1 h2
    have hk : k < t.ndim := by omega
    simp only [List.getElem_map, List.getElem_range]
    have : perm.idxOf k = k := by
      rw [hp, hl]
      have := (List.nodup_range (n := t.ndim)).idxOf_getElem k (by simpa using hk)
      simpa using this
    rw [this, List.getD_eq_getElem _ _ h1]
  · exact ⟨_, by rw [if_neg hp, NDArray.transpose, if_pos h], rfl, fun _ _ => rfl⟩

theorem reshapeIf_eq {t : NDArray R} {s : List Nat} (h : s.prod = t.shape.prod) :
    ∃ t', reshapeIf t s = .ok t' ∧ t'.shape = s ∧
      ∀ i, InB s i → t'.get i = t.get (unravel t.shape (ravel s i)) := by
  unfold reshapeIf
  by_cases hp : s.length = t.shape.length ∧ (t.shape.zip s).all (fun d => d.1 == d.2)
  · have hs : t.shape = s := by
      obtain ⟨h1, h2⟩ := hp
      apply List.ext_getElem h1.symm
      intro k k1 k2
      rw [List.all_eq_true] at h2
      have := h2 (t.shape[k], s[k]) (by
        rw [List.mem_iff_getElem]
        exact ⟨k, by simp; omega, by simp⟩)
      simpa using this
    exact ⟨t, by rw [if_pos hp], hs, fun i hi => by rw [hs, unravel_ravel hi]⟩
  · exact ⟨_, by rw [if_neg hp, NDArray.reshape, if_pos h], rfl, fun _ _ => rfl⟩

/-- What `_tensordot_reshape` returns. -/
theorem reshape_ok (known isRight : Bool) {a : NDArray R} {axes : List Int} {ax : List Nat}
    (hn : normAxes a.ndim axes = .ok ax) (hd : ax.Nodup) (hlt : ∀ p ∈ ax, p < a.ndim) :
    ∃ m tr, tensordotReshape known isRight a axes =
        .ok (m, (freeAxes a.ndim ax).map (fun p => a.shape.getD p 0), tr) ∧
      m.shape = (if tr = isRight then
        [((freeAxes a.ndim ax).map (fun p => a.shape.getD p 0)).prod,
          (ax.map (fun p => a.shape.getD p 0)).prod]
        else [(ax.map (fun p => a.shape.getD p 0)).prod,
          ((freeAxes a.ndim ax).map (fun p => a.shape.getD p 0)).prod]) ∧
      ∀ i c, InB ((freeAxes a.ndim ax).map (fun p => a.shape.getD p 0)) i →
        InB (ax.map (fun p => a.shape.getD p 0)) c →
        m.get (if tr = isRight then
          [ravel ((freeAxes a.ndim ax).map (fun p => a.shape.getD p 0)) i,
            ravel (ax.map (fun p => a.shape.getD p 0)) c]
          else [ravel (ax.map (fun p => a.shape.getD p 0)) c,
            ravel ((freeAxes a.ndim ax).map (fun p => a.shape.getD p 0)) i]) =
        a.get (mergeIdx a.ndim ax c i) := by
  have hp : (freeAxes a.ndim ax ++ ax).Perm (List.range a.ndim) := freeAxes_append_perm hd hlt
  unfold tensordotReshape
  simp only [hn, bind, Except.bind]
  rw [show (List.range a.ndim).filter (fun i => i ∉ ax) = freeAxes a.ndim ax from rfl]
  obtain ⟨F, hF⟩ : ∃ F, F = (freeAxes a.ndim ax).map (fun p => a.shape.getD p 0) := ⟨_, rfl⟩
  obtain ⟨A, hA⟩ : ∃ A, A = ax.map (fun p => a.shape.getD p 0) := ⟨_, rfl⟩
  rw [← hF, ← hA]
  have key : ∀ fl : Bool, ∃ t m, transposeIf a (if fl then ax ++ freeAxes a.ndim ax
        else freeAxes a.ndim ax ++ ax) = .ok t ∧
      reshapeIf t (if fl then [A.prod, F.prod] else [F.prod, A.prod]) = .ok m ∧
      m.shape = (if fl then [A.prod, F.prod] else [F.prod, A.prod]) ∧
      ∀ i c, InB F i → InB A c → m.get (if fl then [ravel A c, ravel F i] else
        [ravel F i, ravel A c]) = a.get (mergeIdx a.ndim ax c i) := by
    intro fl
    cases fl
    · obtain ⟨t, t1, t2, t3⟩ := transposeIf_eq (t := a) hp
      rw [List.map_append, ← hF, ← hA] at t2
      obtain ⟨m, m1, m2, m3⟩ := reshapeIf_eq (t := t) (s := [F.prod, A.prod]) (by
        rw [t2, List.prod_append]; simp)
      refine ⟨t, m, t1, m1, m2, fun i c hi hc => ?_⟩
      simp only [Bool.false_eq_true, if_false]
      have e : ravel [F.prod, A.prod] [ravel F i, ravel A c] = ravel (F ++ A) (i ++ c) := by
        rw [ravel_append hi.length]; simp [ravel]
      rw [m3 _ (by simp [ravel_lt hi, ravel_lt hc]), e, t2, unravel_ravel (inB_append hi hc),
        t3 _ (by rw [t2]; exact inB_append hi hc), mergeIdx_right (by rw [hi.length, hF]; simp)]
    · obtain ⟨t, t1, t2, t3⟩ := transposeIf_eq (t := a) (List.perm_append_comm.trans hp)
      rw [List.map_append, ← hF, ← hA] at t2
      obtain ⟨m, m1, m2, m3⟩ := reshapeIf_eq (t := t) (s := [A.prod, F.prod]) (by
        rw [t2, List.prod_append]; simp)
      refine ⟨t, m, t1, m1, m2, fun i c hi hc => ?_⟩
      simp only [if_true]
      have e : ravel [A.prod, F.prod] [ravel A c, ravel F i] = ravel (A ++ F) (c ++ i) := by
        rw [ravel_append hc.length]; simp [ravel]
      rw [m3 _ (by simp [ravel_lt hi, ravel_lt hc]), e, t2, unravel_ravel (inB_append hc hi),
        t3 _ (by rw [t2]; exact inB_append hc hi), mergeIdx_left (by rw [hc.length, hA]; simp)]
  obtain ⟨fl, hfl⟩ : ∃ fl, fl = (if known = true then shouldFlip ax (freeAxes a.ndim ax)
    else isRight) := ⟨_, rfl⟩
  rw [← hfl]
  obtain ⟨t, m, k1, k2, k3, k4⟩ := key fl
  rw [k1]
  simp only [k2]
  refine ⟨m, _, rfl, ?_, ?_⟩
  · rw [k3]
    cases isRight <;> cases fl <;> simp
  · intro i c hi hc
    rw [← k4 i c hi hc]
    cases isRight <;> cases fl <;> simp

/-! ### The axes -/

/-- The axis `p` of an array of rank `n` is meant by `i`, counted from the end if negative. -/
def Denotes (n : Nat) (i : Int) (p : Nat) : Prop :=
  p < n ∧ ((0 ≤ i ∧ i = p) ∨ (i < 0 ∧ i + n = p))

theorem normAxes_iff {n : Nat} {l : List Int} {ax : List Nat} :
    normAxes n l = .ok ax ↔ List.Forall₂ (Denotes n) l ax := by
  induction l generalizing ax with
  | nil =>
    simp only [normAxes, List.mapM_nil, List.forall₂_nil_left_iff]
    constructor
    · intro h; exact (Except.ok.inj h).symm
    · rintro rfl; rfl
  | cons i l ih =>
    rw [List.forall₂_cons_left_iff]
    simp only [normAxes, List.mapM_cons, py_bind_ok, py_pure_ok]
    constructor
    · rintro ⟨p, hp, t, ht, rfl⟩
      refine ⟨p, t, ?_, ih.1 ht, rfl⟩
      unfold Denotes
      by_cases h0 : 0 ≤ i
      · simp only [if_pos h0] at hp
        split_ifs at hp with h1
        obtain rfl := Except.ok.inj hp
        omega
      · simp only [if_neg h0] at hp
        split_ifs at hp with h1
        obtain rfl := Except.ok.inj hp
        omega
    · rintro ⟨p, t, hp, ht, rfl⟩
      refine ⟨p, ?_, t, ih.2 ht, rfl⟩
      unfold Denotes at hp
      rcases hp with ⟨h1, ⟨h2, h3⟩ | ⟨h2, h3⟩⟩
      · simp only [if_pos h2]
        rw [if_pos (by omega)]
        congr 1
        omega
      · simp only [if_neg (show ¬ 0 ≤ i by omega)]
        rw [if_pos (by omega)]
        congr 1
        omega

theorem Denotes.eq {n p : Nat} {i : Int} (h : Denotes n i p) :
    p = (if 0 ≤ i then i else i + (n : Int)).toNat := by
  rcases h with ⟨h1, ⟨h2, h3⟩ | ⟨h2, h3⟩⟩
  · rw [if_pos h2]; omega
  · rw [if_neg (by omega)]; omega

theorem denotes_map {n : Nat} {l : List Int} {ax : List Nat} (h : List.Forall₂ (Denotes n) l ax) :
    ax = l.map (fun i => (if 0 ≤ i then i else i + (n : Int)).toNat) := by
  induction h with
  | nil => rfl
  | cons h _ ih => rw [List.map_cons, ← ih, ← h.eq]

theorem denotes_of_map {n : Nat} {l : List Int}
    (h : ∀ i ∈ l, Denotes n i (if 0 ≤ i then i else i + (n : Int)).toNat) :
    List.Forall₂ (Denotes n) l (l.map (fun i => (if 0 ≤ i then i else i + (n : Int)).toNat)) := by
  rw [List.forall₂_map_right_iff, List.forall₂_same]
  exact h

/-- The order in which the pairs of axes are given does not matter. -/
theorem tensordot_perm [CommSemiring R] {a b : NDArray R} {P Q : List (Nat × Nat)} (h : Q.Perm P)
    {r : NDArray R} (hr : a.tensordot b (P.map Prod.fst) (P.map Prod.snd) = .ok r) :
    ∃ r', a.tensordot b (Q.map Prod.fst) (Q.map Prod.snd) = .ok r' ∧ r'.Same r := by
  have hr0 := hr
  rw [NDArray.tensordot] at hr0
  split_ifs at hr0 with hc
  obtain ⟨_, c2, c3, c4, c5, c6⟩ := hc
  obtain ⟨lab, hlab⟩ : ∃ lab : Nat → Nat, lab = fun q => match P.find? (fun x => x.2 = q) with
    | some x => x.1 | none => a.ndim + q := ⟨_, rfl⟩
  have lab1 : ∀ x ∈ P, lab x.2 = x.1 := by
    intro x hx
    rw [hlab]
    have : P.find? (fun y => y.2 = x.2) = some x := by
      cases hf : P.find? (fun y => y.2 = x.2) with
      | none =>
        rw [List.find?_eq_none] at hf
        simpa using hf x hx
      | some y =>
        have h1 := List.mem_of_find?_eq_some hf
        have h2 := List.find?_some hf
        rw [List.inj_on_of_nodup_map c3 h1 hx (by simpa using h2)]
    simp [this]
  have lab2 : ∀ q, q ∉ P.map Prod.snd → lab q = a.ndim + q := by
    intro q hq
    rw [hlab]
    have : P.find? (fun y => y.2 = q) = none := by
      rw [List.find?_eq_none]
      intro y hy e
      exact hq (List.mem_map.2 ⟨y, hy, by simpa using e⟩)
    simp [this]
  obtain ⟨l1, hl1⟩ : ∃ l1, l1 = List.range a.ndim := ⟨_, rfl⟩
  obtain ⟨l2, hl2⟩ : ∃ l2, l2 = (List.range b.ndim).map lab := ⟨_, rfl⟩
  obtain ⟨dim, hdim⟩ : ∃ dim : Nat → Nat, dim = fun l => if l < a.ndim then a.shape.getD l 0
    else b.shape.getD (l - a.ndim) 0 := ⟨_, rfl⟩
  have inj : ∀ q q', lab q = lab q' → q = q' := by
    intro q q' e
    by_cases h1 : q ∈ P.map Prod.snd <;> by_cases h2 : q' ∈ P.map Prod.snd
    · obtain ⟨x, hx, rfl⟩ := List.mem_map.1 h1
      obtain ⟨y, hy, rfl⟩ := List.mem_map.1 h2
      rw [lab1 x hx, lab1 y hy] at e
      rw [List.inj_on_of_nodup_map c2 hx hy e]
    · obtain ⟨x, hx, rfl⟩ := List.mem_map.1 h1
      rw [lab1 x hx, lab2 _ h2] at e
      have := c4 x.1 (List.mem_map.2 ⟨x, hx, rfl⟩)
      omega
    · obtain ⟨y, hy, rfl⟩ := List.mem_map.1 h2
      rw [lab1 y hy, lab2 _ h1] at e
      have := c4 y.1 (List.mem_map.2 ⟨y, hy, rfl⟩)
      omega
    · rw [lab2 _ h1, lab2 _ h2] at e
      omega
  have s1 : Shaped dim a l1 := by
    rw [Shaped, hl1, NDArray.ndim]
    apply List.ext_getElem (by simp)
    intro k k1 k2
    simp only [List.getElem_map, List.getElem_range, hdim, NDArray.ndim]
    rw [if_pos k1, List.getD_eq_getElem _ _ k1]
  have s2 : Shaped dim b l2 := by
    rw [Shaped, hl2, NDArray.ndim]
    apply List.ext_getElem (by simp)
    intro k k1 k2
    simp only [List.getElem_map, List.getElem_range]
    rw [← List.getD_eq_getElem _ 0 k1]
    by_cases hk : k ∈ P.map Prod.snd
    · obtain ⟨x, hx, rfl⟩ := List.mem_map.1 hk
      rw [lab1 x hx, hdim]
      simp only
      rw [if_pos (c4 _ (List.mem_map.2 ⟨x, hx, rfl⟩))]
      simp only [List.map_map] at c6
      exact ((List.map_inj_left.1 c6) x hx).symm
    · rw [lab2 k hk, hdim]
      simp
  have n1 : l1.Nodup := by rw [hl1]; exact List.nodup_range
  have n2 : l2.Nodup := by rw [hl2]; exact List.nodup_range.map (fun x y e => inj x y e)
  have i1 : ∀ p < a.ndim, l1.idxOf p = p := by
    intro p hp
    have := n1.idxOf_getElem p (by rw [hl1]; simpa using hp)
    simpa [hl1] using this
  have i2 : ∀ x ∈ P, l2.idxOf x.1 = x.2 := by
    intro x hx
    have hx2 := c5 _ (List.mem_map.2 ⟨x, hx, rfl⟩)
    have := n2.idxOf_getElem x.2 (by rw [hl2]; simpa using hx2)
    have e : l2[x.2]'(by rw [hl2]; simpa using hx2) = x.1 := by
      simp only [hl2, List.getElem_map, List.getElem_range]
      exact lab1 x hx
    rwa [e] at this
  have main : ∀ S : List (Nat × Nat), S.Perm P → ∃ t', a.tensordot b (S.map Prod.fst) (S.map Prod.snd) = .ok t' ∧
      Shaped dim t' (l1.filter (· ∉ P.map Prod.fst) ++ l2.filter (· ∉ P.map Prod.fst)) ∧
      ∀ σ, val t' (l1.filter (· ∉ P.map Prod.fst) ++ l2.filter (· ∉ P.map Prod.fst)) σ =
        sumOver dim (P.map Prod.fst) (fun τ => val a l1 τ * val b l2 τ) σ := by
    intro S hS
    have hSf : (S.map Prod.fst).Perm (P.map Prod.fst) := hS.map _
    have m1 : ∀ l ∈ S.map Prod.fst, l1.count l = 1 := by
      intro l hl
      exact List.count_eq_one_of_mem n1 (by
        rw [hl1]; simpa using c4 l (hSf.mem_iff.1 hl))
    have m2 : ∀ l ∈ S.map Prod.fst, l2.count l = 1 := by
      intro l hl
      refine List.count_eq_one_of_mem n2 ?_
      obtain ⟨x, hx, rfl⟩ := List.mem_map.1 (hSf.mem_iff.1 hl)
      rw [hl2]
      exact List.mem_map.2 ⟨x.2, by simpa using c5 _ (List.mem_map.2 ⟨x, hx, rfl⟩), lab1 x hx⟩
    obtain ⟨t, t1, t2, t3⟩ := tensordot_val s1 s2 (hSf.nodup_iff.2 c2) m1 m2
    have e1 : (S.map Prod.fst).map l1.idxOf = S.map Prod.fst := by
      conv_rhs => rw [← List.map_id (S.map Prod.fst)]
      exact List.map_congr_left fun p hp => i1 p (c4 p (hSf.mem_iff.1 hp))
    have e2 : (S.map Prod.fst).map l2.idxOf = S.map Prod.snd := by
      rw [List.map_map]
      exact List.map_congr_left fun x hx => i2 x (hS.mem_iff.1 hx)
    rw [e1, e2] at t1
    have e3 : ∀ l : List Nat, l.filter (· ∉ S.map Prod.fst) = l.filter (· ∉ P.map Prod.fst) :=
      fun l => List.filter_congr fun p _ => by simp only [hSf.mem_iff]
    rw [e3, e3] at t2
    refine ⟨t, t1, t2, fun σ => ?_⟩
    rw [← e3 l1, ← e3 l2, t3, sumOver_perm hSf]
  obtain ⟨r0, p1, p2, p3⟩ := main P (List.Perm.refl _)
  obtain rfl : r0 = r := Except.ok.inj (p1.symm.trans hr)
  obtain ⟨r', q1, q2, q3⟩ := main Q h
  refine ⟨r', q1, q2.trans p2.symm, fun i hi => ?_⟩
  obtain ⟨F, hF⟩ : ∃ F, F = l1.filter (· ∉ P.map Prod.fst) ++ l2.filter (· ∉ P.map Prod.fst) :=
    ⟨_, rfl⟩
  rw [← hF] at q2 q3 p3
  have hFn : F.Nodup := by
    rw [hF]
    refine List.nodup_append.2 ⟨n1.filter _, n2.filter _, ?_⟩
    intro x hx y hy e
    subst e
    simp only [List.mem_filter, decide_not, Bool.not_eq_true', decide_eq_false_iff_not] at hx hy
    obtain ⟨hx1, hx2⟩ := hx
    obtain ⟨hy1, -⟩ := hy
    rw [hl1] at hx1
    rw [hl2] at hy1
    obtain ⟨q, hq, e⟩ := List.mem_map.1 hy1
    by_cases h1 : q ∈ P.map Prod.snd
    · obtain ⟨x', hx', rfl⟩ := List.mem_map.1 h1
      rw [lab1 x' hx'] at e
      exact hx2 (List.mem_map.2 ⟨x', hx', e⟩)
    · rw [lab2 q h1] at e
      simp only [List.mem_range] at hx1
      omega
  have hiF : i.length = F.length := by rw [hi.length, q2]; simp
  have := (q3 (assign (fun _ => 0) F i)).trans (p3 (assign (fun _ => 0) F i)).symm
  simpa only [val, assign_map_self hFn hiF] using this

/-! ### The product -/

/-- The matrix product of the two reshaped arguments. -/
theorem matmul_ok [NonUnitalNonAssocSemiring R] {ma mb : NDArray R} {ta tb : Bool} {f g k k' : Nat}
    (h1 : ma.shape = if ta = false then [f, k] else [k, f])
    (h2 : mb.shape = if tb = true then [g, k'] else [k', g]) :
    (k ≠ k' → matmul ma mb ta tb = .error .valueError) ∧
    (k = k' → ∃ m, matmul ma mb ta tb = .ok m ∧ m.shape = [f, g] ∧
      ∀ i j, m.get [i, j] = ∑ x ∈ range k, ma.get (if ta = false then [i, x] else [x, i]) *
        mb.get (if tb = true then [j, x] else [x, j])) := by
  unfold matmul
  cases ta <;> cases tb <;> simp only [if_true, if_false, Bool.false_eq_true,
    reduceCtorEq] at h1 h2 <;> rw [h1, h2] <;>
    simp only [if_true, if_false, Bool.false_eq_true, reduceCtorEq] <;>
    exact ⟨fun h => by rw [if_neg h], fun h => ⟨_, by rw [if_pos h], rfl, fun i j => rfl⟩⟩

/-- After the axes are sorted the result is that of numpy, with the axes as given. -/
theorem core [CommSemiring R] (kA kB : Bool) {a b : NDArray R} {l1 l2 : List Int}
    {ax1 ax2 : List Nat} (n1 : normAxes a.ndim l1 = .ok ax1) (n2 : normAxes b.ndim l2 = .ok ax2)
    {r : NDArray R} (hr : a.tensordot b ax1 ax2 = .ok r) :
    ∃ ma fa ta mb fb tb m r', tensordotReshape kA false a l1 = .ok (ma, fa, ta) ∧
      tensordotReshape kB true b l2 = .ok (mb, fb, tb) ∧ matmul ma mb ta tb = .ok m ∧
      m.reshape (fa ++ fb) = .ok r' ∧ r'.Same r := by
  rw [NDArray.tensordot] at hr
  split_ifs at hr with hc
  obtain ⟨_, c2, c3, c4, c5, c6⟩ := hc
  obtain ⟨ma, ta, a1, a2, a3⟩ := reshape_ok kA false n1 c2 c4
  obtain ⟨mb, tb, b1, b2, b3⟩ := reshape_ok kB true n2 c3 c5
  obtain ⟨F, hF⟩ : ∃ F, F = (freeAxes a.ndim ax1).map (fun p => a.shape.getD p 0) := ⟨_, rfl⟩
  obtain ⟨G, hG⟩ : ∃ G, G = (freeAxes b.ndim ax2).map (fun p => b.shape.getD p 0) := ⟨_, rfl⟩
  obtain ⟨A, hA⟩ : ∃ A, A = ax1.map (fun p => a.shape.getD p 0) := ⟨_, rfl⟩
  rw [← hF] at a1 a2 a3
  rw [← hA] at a2 a3
  rw [← hG] at b1 b2 b3
  rw [← c6, ← hA] at b2 b3
  obtain ⟨m, m1, m2, m3⟩ := (matmul_ok a2 b2).2 rfl
  obtain ⟨r', r1, r2, r3⟩ := reshape_tensor (m := m) (A := F) (B := G) m2
  refine ⟨ma, F, ta, mb, G, tb, m, r', a1, b1, m1, r1, ?_⟩
  obtain rfl := Except.ok.inj hr
  refine ⟨by rw [r2, hF, hG], fun i hi => ?_⟩
  rw [r2] at hi
  obtain ⟨i1, i2, hi1, hi2, rfl⟩ : ∃ i1 i2, InB F i1 ∧ InB G i2 ∧ i = i1 ++ i2 := by
    refine ⟨i.take F.length, i.drop F.length, ?_, ?_, (List.take_append_drop ..).symm⟩
    all_goals
      have hl : (i.take F.length).length = F.length := by
        rw [List.length_take, hi.length, List.length_append]; omega
      have := (inB_append_iff (i := i.take F.length) (j := i.drop F.length) hl).1
        (by rw [List.take_append_drop]; exact hi)
    · exact this.1
    · exact this.2
  have hlen : (freeAxes a.ndim ax1).length = i1.length := by rw [hi1.length, hF]; simp
  show r'.get (i1 ++ i2) = sumIdx (ax1.map fun p => a.shape.getD p 0) (fun c =>
    a.get (mergeIdx a.ndim ax1 c ((i1 ++ i2).take (freeAxes a.ndim ax1).length)) *
      b.get (mergeIdx b.ndim ax2 c ((i1 ++ i2).drop (freeAxes a.ndim ax1).length)))
  rw [r3 i1 i2 hi1 hi2, m3, hlen, List.take_left, List.drop_left, ← hA, sum_range_ravel]
  refine sumIdx_congr fun c hc => ?_
  rw [a3 i1 c hi1 hc, b3 i2 c hi2 hc]

theorem axes_lists {known : Bool} {n : Nat} {l1 l2 : List Int} (h : l1.length = l2.length) :
    tensordotAxes known n (.lists l1 l2) =
      .ok ((sortAxes l1 l2).map Prod.fst, (sortAxes l1 l2).map Prod.snd) := by
  simp only [tensordotAxes]
  rw [if_neg (by omega)]

/-- **C61** (lists of axes).  Whenever `numpy.tensordot` is defined, the function returns the
same array, whatever is known about the ranks and whichever way the axes are moved. -/
theorem C61_lists [CommSemiring R] (kA kB : Bool) {a b : NDArray R} {l1 l2 : List Int}
    {ax1 ax2 : List Nat} (h1 : List.Forall₂ (Denotes a.ndim) l1 ax1)
    (h2 : List.Forall₂ (Denotes b.ndim) l2 ax2) {r : NDArray R}
    (hr : a.tensordot b ax1 ax2 = .ok r) :
    ∃ r', tensordot kA kB a b (.lists l1 l2) = .ok r' ∧ r'.Same r := by
  have hlen : l1.length = l2.length := by
    have hr0 := hr
    rw [NDArray.tensordot] at hr0
    split_ifs at hr0 with hc
    rw [h1.length_eq, h2.length_eq]
    exact hc.1
  have hp : (sortAxes l1 l2).Perm (l1.zip l2) := List.mergeSort_perm ..
  obtain ⟨f, hf⟩ : ∃ f : Int × Int → Nat × Nat, f = fun x =>
    ((if 0 ≤ x.1 then x.1 else x.1 + (a.ndim : Int)).toNat,
      (if 0 ≤ x.2 then x.2 else x.2 + (b.ndim : Int)).toNat) := ⟨_, rfl⟩
  have e1 : ((l1.zip l2).map f).map Prod.fst = ax1 := by
    rw [denotes_map h1, List.map_map, hf]
    conv_rhs => rw [← List.map_fst_zip (l₁ := l1) (l₂ := l2) hlen.le, List.map_map]
    rfl
  have e2 : ((l1.zip l2).map f).map Prod.snd = ax2 := by
    rw [denotes_map h2, List.map_map, hf]
    conv_rhs => rw [← List.map_snd_zip (l₁ := l1) (l₂ := l2) hlen.ge, List.map_map]
    rfl
  rw [← e1, ← e2] at hr
  obtain ⟨r', hr', hs'⟩ := tensordot_perm (hp.map f) hr
  have g1 : normAxes a.ndim ((sortAxes l1 l2).map Prod.fst) =
      .ok (((sortAxes l1 l2).map f).map Prod.fst) := by
    rw [normAxes_iff, List.map_map, List.forall₂_map_right_iff, List.forall₂_map_left_iff,
      List.forall₂_same, hf]
    intro x hx
    have hx1 := (List.of_mem_zip (hp.mem_iff.1 hx)).1
    obtain ⟨k, hk, e⟩ := List.mem_iff_getElem.1 hx1
    have := List.Forall₂.get h1 hk (by rw [← h1.length_eq]; exact hk)
    simp only [List.get_eq_getElem, e] at this
    have e3 := this.eq
    rw [e3] at this
    exact this
  have g2 : normAxes b.ndim ((sortAxes l1 l2).map Prod.snd) =
      .ok (((sortAxes l1 l2).map f).map Prod.snd) := by
    rw [normAxes_iff, List.map_map, List.forall₂_map_right_iff, List.forall₂_map_left_iff,
      List.forall₂_same, hf]
    intro x hx
    have hx1 := (List.of_mem_zip (hp.mem_iff.1 hx)).2
    obtain ⟨k, hk, e⟩ := List.mem_iff_getElem.1 hx1
    have := List.Forall₂.get h2 hk (by rw [← h2.length_eq]; exact hk)
    simp only [List.get_eq_getElem, e] at this
    have e3 := this.eq
    rw [e3] at this
    exact this
  obtain ⟨ma, fa, ta, mb, fb, tb, m, r'', k1, k2, k3, k4, k5⟩ := core kA kB g1 g2 hr'
  refine ⟨r'', ?_, k5.trans hs'⟩
  unfold tensordot
  rw [axes_lists hlen]
  simp only [bind, Except.bind, k1, k2, k3, k4]

/-- **C61** (a number of axes).  The last `k` axes of the first array are contracted with the first
`k` of the second, in order. -/
theorem C61_number [CommSemiring R] (kA kB : Bool) {a b : NDArray R} {k : Nat} {r : NDArray R}
    (hk : k ≤ a.ndim)
    (hr : a.tensordot b (List.range' (a.ndim - k) k) (List.range k) = .ok r) :
    ∃ r', tensordot kA kB a b (.num k) = .ok r' ∧ r'.Same r := by
  have hk2 : ∀ p < k, p < b.ndim := by
    have hr0 := hr
    rw [NDArray.tensordot] at hr0
    split_ifs at hr0 with hc
    exact fun p hp => hc.2.2.2.2.1 p (by simpa using hp)
  have g1 : normAxes a.ndim ((List.range k).map (fun i : Nat => (a.ndim : Int) - k + (i : Int))) =
      .ok (List.range' (a.ndim - k) k) := by
    rw [normAxes_iff, List.range'_eq_map_range, List.forall₂_map_right_iff,
      List.forall₂_map_left_iff, List.forall₂_same]
    intro i hi
    have : i < k := by simpa using hi
    refine ⟨by omega, Or.inl ⟨by omega, by omega⟩⟩
  have g2 : normAxes b.ndim ((List.range k).map (fun i : Nat => (i : Int))) = .ok (List.range k) := by
    rw [normAxes_iff, List.forall₂_map_left_iff, List.forall₂_same]
    intro i hi
    exact ⟨hk2 i (by simpa using hi), Or.inl ⟨by omega, rfl⟩⟩
  obtain ⟨ma, fa, ta, mb, fb, tb, m, r'', k1, k2, k3, k4, k5⟩ := core kA kB g1 g2 hr
  refine ⟨r'', ?_, k5⟩
  unfold tensordot
  simp only [tensordotAxes]
  rw [if_neg (by omega), if_neg (by omega)]
  simp only [bind, Except.bind, Int.toNat_natCast, k1, k2, k3, k4]

theorem perm_of_transposeIf {t t' : NDArray R} {perm : List Nat} (h : transposeIf t perm = .ok t') :
    perm.Nodup := by
  unfold transposeIf at h
  split_ifs at h with h1
  · rw [h1]; exact List.nodup_range
  · rw [NDArray.transpose] at h
    split_ifs at h with h2
    exact h2.nodup_iff.2 List.nodup_range

theorem reshape_inv {known isRight : Bool} {a : NDArray R} {axes : List Int}
    {x : NDArray R × List Nat × Bool} (h : tensordotReshape known isRight a axes = .ok x) :
    ∃ ax, normAxes a.ndim axes = .ok ax ∧ ax.Nodup := by
  unfold tensordotReshape at h
  simp only [py_bind_ok] at h
  obtain ⟨ax, h1, t, h2, _⟩ := h
  refine ⟨ax, h1, ?_⟩
  have := perm_of_transposeIf h2
  split_ifs at this
  all_goals
    rw [List.nodup_append] at this
    first | exact this.1 | exact this.2.1

/-- **C61** (what is accepted).  Apart from the axes, only the total number of contracted entries
is compared. -/
theorem C61_accepts [CommSemiring R] (kA kB : Bool) {a b : NDArray R} {l1 l2 : List Int} :
    (∃ r, tensordot kA kB a b (.lists l1 l2) = .ok r) ↔
      ∃ ax1 ax2, List.Forall₂ (Denotes a.ndim) l1 ax1 ∧ List.Forall₂ (Denotes b.ndim) l2 ax2 ∧
        ax1.length = ax2.length ∧ ax1.Nodup ∧ ax2.Nodup ∧
        (ax1.map (fun p => a.shape.getD p 0)).prod = (ax2.map (fun p => b.shape.getD p 0)).prod := by
  by_cases hlen : l1.length = l2.length
  swap
  · constructor
    · rintro ⟨r, hr⟩
      unfold tensordot at hr
      simp only [tensordotAxes] at hr
      rw [if_pos hlen] at hr
      exact absurd hr (by simp [bind, Except.bind])
    · rintro ⟨ax1, ax2, h1, h2, h3, _⟩
      exact absurd (h1.length_eq.trans (h3.trans h2.length_eq.symm)) hlen
  have hp : (sortAxes l1 l2).Perm (l1.zip l2) := List.mergeSort_perm ..
  have p1 : ((sortAxes l1 l2).map Prod.fst).Perm l1 := by
    have := hp.map Prod.fst
    rwa [List.map_fst_zip hlen.le] at this
  have p2 : ((sortAxes l1 l2).map Prod.snd).Perm l2 := by
    have := hp.map Prod.snd
    rwa [List.map_snd_zip hlen.ge] at this
  have key : ∀ {n : Nat} {l l' : List Int} {ax : List Nat}, l.Perm l' →
      List.Forall₂ (Denotes n) l ax → ∃ ax', List.Forall₂ (Denotes n) l' ax' ∧ ax.Perm ax' := by
    intro n l l' ax h h1
    have e := denotes_map h1
    refine ⟨l'.map (fun i => (if 0 ≤ i then i else i + (n : Int)).toNat), denotes_of_map ?_, ?_⟩
    · intro i hi
      obtain ⟨k, hk, e'⟩ := List.mem_iff_getElem.1 (h.mem_iff.2 hi)
      have := List.Forall₂.get h1 hk (by rw [← h1.length_eq]; exact hk)
      simp only [List.get_eq_getElem, e'] at this
      have e3 := this.eq
      rw [e3] at this
      exact this
    · rw [e]; exact h.map _
  have unf : tensordot kA kB a b (.lists l1 l2) = (do
      let (ma, fa, ta) ← tensordotReshape kA false a ((sortAxes l1 l2).map Prod.fst)
      let (mb, fb, tb) ← tensordotReshape kB true b ((sortAxes l1 l2).map Prod.snd)
      let m ← matmul ma mb ta tb
      m.reshape (fa ++ fb)) := by
    unfold tensordot
    rw [axes_lists hlen]
    rfl
  rw [unf]
  constructor
  · rintro ⟨r, hr⟩
    simp only [py_bind_ok] at hr
    obtain ⟨⟨ma, fa, ta⟩, h1, ⟨mb, fb, tb⟩, h2, m, h3, _⟩ := hr
    obtain ⟨ax1, n1, d1⟩ := reshape_inv h1
    obtain ⟨ax2, n2, d2⟩ := reshape_inv h2
    have n1' := normAxes_iff.1 n1
    have n2' := normAxes_iff.1 n2
    obtain ⟨bx1, b1, q1⟩ := key p1 n1'
    obtain ⟨bx2, b2, q2⟩ := key p2 n2'
    refine ⟨bx1, bx2, b1, b2, ?_, q1.nodup_iff.1 d1, q2.nodup_iff.1 d2, ?_⟩
    · rw [← b1.length_eq, ← b2.length_eq]; exact hlen
    · have lt1 : ∀ p ∈ ax1, p < a.ndim := by
        intro p hp
        obtain ⟨k, hk, e⟩ := List.mem_iff_getElem.1 hp
        have := List.Forall₂.get n1' (by rw [n1'.length_eq]; exact hk) hk
        simp only [List.get_eq_getElem, e] at this
        exact this.1
      have lt2 : ∀ p ∈ ax2, p < b.ndim := by
        intro p hp
        obtain ⟨k, hk, e⟩ := List.mem_iff_getElem.1 hp
        have := List.Forall₂.get n2' (by rw [n2'.length_eq]; exact hk) hk
        simp only [List.get_eq_getElem, e] at this
        exact this.1
      obtain ⟨ma', ta', a1, a2, -⟩ := reshape_ok kA false n1 d1 lt1
      obtain ⟨mb', tb', c1, c2, -⟩ := reshape_ok kB true n2 d2 lt2
      obtain ⟨rfl, _, rfl⟩ : ma' = ma ∧ _ ∧ ta' = ta := by
        simpa using (a1.symm.trans h1)
      obtain ⟨rfl, _, rfl⟩ : mb' = mb ∧ _ ∧ tb' = tb := by
        simpa using (c1.symm.trans h2)
      rw [← (q1.map _).prod_eq, ← (q2.map _).prod_eq]
      by_contra hne
      rw [(matmul_ok a2 c2).1 hne] at h3
      exact absurd h3 (by simp)
  · rintro ⟨ax1, ax2, h1, h2, _, d1, d2, hprod⟩
    obtain ⟨bx1, b1, q1⟩ := key p1.symm h1
    obtain ⟨bx2, b2, q2⟩ := key p2.symm h2
    have lt1 : ∀ p ∈ bx1, p < a.ndim := by
      intro p hp
      obtain ⟨k, hk, e⟩ := List.mem_iff_getElem.1 hp
      have := List.Forall₂.get b1 (by rw [b1.length_eq]; exact hk) hk
      simp only [List.get_eq_getElem, e] at this
      exact this.1
    have lt2 : ∀ p ∈ bx2, p < b.ndim := by
      intro p hp
      obtain ⟨k, hk, e⟩ := List.mem_iff_getElem.1 hp
      have := List.Forall₂.get b2 (by rw [b2.length_eq]; exact hk) hk
      simp only [List.get_eq_getElem, e] at this
      exact this.1
    obtain ⟨ma, ta, a1, a2, -⟩ := reshape_ok kA false (normAxes_iff.2 b1) (q1.nodup_iff.1 d1) lt1
    obtain ⟨mb, tb, c1, c2, -⟩ := reshape_ok kB true (normAxes_iff.2 b2) (q2.nodup_iff.1 d2) lt2
    rw [(q1.map _).prod_eq, (q2.map _).prod_eq] at hprod
    obtain ⟨m, m1, m2, -⟩ := (matmul_ok a2 c2).2 hprod
    obtain ⟨r, r1, -⟩ := reshape_tensor m2
    exact ⟨r, by simp only [a1, c1, m1, r1, bind, Except.bind]⟩

/-- **C61** fails: contracted axes of different dimensions are accepted if the products of the
dimensions agree, where numpy raises and the documentation promises `ValueError`. -/
theorem C61_shapes_false (kA kB : Bool) :
    ∃ (a b : NDArray ℤ) (r : NDArray ℤ), a.shape = [2, 3] ∧ b.shape = [3, 2] ∧
      a.tensordot b [0, 1] [0, 1] = .error .valueError ∧
      tensordot kA kB a b (.lists [0, 1] [0, 1]) = .ok r := by
  obtain ⟨r, hr⟩ := (C61_accepts kA kB (a := (⟨[2, 3], fun _ => 1⟩ : NDArray ℤ))
    (b := ⟨[3, 2], fun _ => 1⟩) (l1 := [0, 1]) (l2 := [0, 1])).2
    ⟨[0, 1], [0, 1], by simp [Denotes, NDArray.ndim], by simp [Denotes, NDArray.ndim], rfl, by simp, by simp,
      by simp⟩
  exact ⟨_, _, r, rfl, rfl, by simp [NDArray.tensordot, NDArray.ndim], hr⟩

/-- The hypotheses are met: two axes out of three, one counted from the end, unsorted. -/
example (kA kB : Bool) (f g : List Nat → ℤ) :
    ∃ r', tensordot kA kB ⟨[2, 3, 4], f⟩ ⟨[4, 5, 2], g⟩ (.lists [-1, 0] [0, 2]) = .ok r' ∧
      r'.shape = [3, 5] ∧
      r'.get [2, 4] = ∑ i ∈ range 4, ∑ j ∈ range 2, f [j, 2, i] * g [i, 4, j] := by
  obtain ⟨r, h1, h2⟩ := C61_lists kA kB (a := ⟨[2, 3, 4], f⟩) (b := ⟨[4, 5, 2], g⟩)
    (l1 := [-1, 0]) (l2 := [0, 2]) (ax1 := [2, 0]) (ax2 := [0, 2])
    (by simp [Denotes, NDArray.ndim]) (by simp [Denotes, NDArray.ndim])
    (by rw [NDArray.tensordot, if_pos (by simp [NDArray.ndim])])
  have hs : r.shape = [3, 5] := h2.1.trans (by simp [freeAxes, NDArray.ndim, List.range_succ])
  refine ⟨r, h1, hs, ?_⟩
  rw [h2.2 _ (by rw [hs]; simp)]
  simp [sumIdx, mergeIdx, freeAxes, NDArray.ndim, List.range_succ, List.idxOf_cons]

/-- Two axes of a number, the second array being moved. -/
example (kA kB : Bool) (f g : List Nat → ℤ) :
    ∃ r', tensordot kA kB ⟨[2, 3, 4], f⟩ ⟨[3, 4, 5], g⟩ (.num 2) = .ok r' ∧ r'.shape = [2, 5] := by
  obtain ⟨r, h1, h2⟩ := C61_number kA kB (a := ⟨[2, 3, 4], f⟩) (b := ⟨[3, 4, 5], g⟩) (k := 2)
    (by simp [NDArray.ndim])
    (by rw [NDArray.tensordot, if_pos (by simp [NDArray.ndim, List.range_succ, List.range'])])
  exact ⟨r, h1, h2.1.trans (by simp [freeAxes, NDArray.ndim, List.range_succ, List.range'])⟩

end TN.Tf
