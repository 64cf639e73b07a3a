import Verif.TensorDiag

/-!
# Traces and diagonals of tensors in the three backends (C77), the proofs
-/

set_option linter.unusedSectionVars false
set_option linter.unusedVariables false

namespace TN.TensorOps

open TN NDArray Finset

variable {R : Type} [CommSemiring R]

/-! ### The letters of the trace -/

/-- The letters of the operand, as a map. -/
def insOf (n a b : Nat) : List Nat := (List.range n).map fun p => if p = a ∨ p = b then 97 else 98 + p

/-- The letters of the result. -/
def outsOf (n a b : Nat) : List Nat := (freeAxes n [a, b]).map fun p => 98 + p

theorem set_insOf (n a b : Nat) : ((List.range' 98 n).set a 97).set b 97 = insOf n a b := by
  apply List.ext_getElem (by simp [insOf])
  intro p h1 h2
  simp only [insOf, List.getElem_set, List.getElem_map, List.getElem_range, List.getElem_range']
  split_ifs <;> omega

theorem insOf_length (n a b : Nat) : (insOf n a b).length = n := by simp [insOf]

theorem insOf_getD {n a b p : Nat} (hp : p < n) :
    (insOf n a b).getD p 0 = if p = a ∨ p = b then 97 else 98 + p := by
  rw [List.getD_eq_getElem _ _ (by simpa [insOf] using hp)]
  simp [insOf]

theorem mem_insOf {n a b l : Nat} : l ∈ insOf n a b ↔
    (l = 97 ∧ (a < n ∨ b < n)) ∨ (∃ p < n, p ≠ a ∧ p ≠ b ∧ l = 98 + p) := by
  simp only [insOf, List.mem_map, List.mem_range]
  constructor
  · rintro ⟨p, hp, rfl⟩
    split_ifs with h
    · left; refine ⟨rfl, ?_⟩; omega
    · right; exact ⟨p, hp, by omega, by omega, rfl⟩
  · rintro (⟨rfl, h | h⟩ | ⟨p, hp, h1, h2, rfl⟩)
    · exact ⟨a, h, by simp⟩
    · exact ⟨b, h, by simp⟩
    · exact ⟨p, hp, by simp [h1, h2]⟩

theorem mem_outsOf {n a b l : Nat} : l ∈ outsOf n a b ↔ ∃ p < n, p ≠ a ∧ p ≠ b ∧ l = 98 + p := by
  simp only [outsOf, freeAxes, List.mem_map, List.mem_filter, List.mem_range]
  constructor
  · rintro ⟨p, ⟨hp, h⟩, rfl⟩
    simp at h
    exact ⟨p, hp, h.1, h.2, rfl⟩
  · rintro ⟨p, hp, h1, h2, rfl⟩
    exact ⟨p, ⟨hp, by simp [h1, h2]⟩, rfl⟩

theorem eq_singleton_of_mem {l : List Nat} {c : Nat} (hn : l.Nodup) (h : ∀ x, x ∈ l ↔ x = c) : l = [c] := by
  have : l.Perm [c] := (List.perm_ext_iff_of_nodup hn (by simp)).2 (by simpa using h)
  exact List.perm_singleton.1 this

theorem closed_insOf {n a b : Nat} (ha : a < n) :
    (insOf n a b).dedup.filter (fun l => l ∉ outsOf n a b) = [97] := by
  apply eq_singleton_of_mem ((List.nodup_dedup _).filter _)
  intro x
  simp only [List.mem_filter, List.mem_dedup, decide_eq_true_eq, mem_insOf, mem_outsOf]
  constructor
  · rintro ⟨⟨h, -⟩ | h, h2⟩
    · exact h
    · exact absurd h h2
  · rintro rfl
    refine ⟨.inl ⟨rfl, .inl ha⟩, ?_⟩
    rintro ⟨p, -, -, -, h⟩
    omega

theorem freeAxes_nodup (n : Nat) (l : List Nat) : (freeAxes n l).Nodup := List.nodup_range.filter _

theorem outsOf_nodup (n a b : Nat) : (outsOf n a b).Nodup :=
  (freeAxes_nodup n _).map (fun x y h => by simpa using h)

theorem idxOf_map_add (l : List Nat) (p : Nat) : (l.map (fun q => 98 + q)).idxOf (98 + p) = l.idxOf p := by
  induction l with
  | nil => simp
  | cons x l ih =>
    by_cases h : x = p
    · subst h; simp
    · rw [List.map_cons, List.idxOf_cons_ne _ (by omega), List.idxOf_cons_ne _ h, ih]

theorem posOf_insOf {n a b : Nat} (i : List Nat) (m : Nat) :
    (insOf n a b).map (posOf (outsOf n a b) i [97] [m]) = mergeIdx n [a, b] [m, m] i := by
  simp only [insOf, mergeIdx, List.map_map]
  refine List.map_congr_left fun p hp => ?_
  rw [List.mem_range] at hp
  simp only [Function.comp]
  by_cases h : p = a ∨ p = b
  · have h97 : (97 : Nat) ∉ outsOf n a b := by
      rw [mem_outsOf]; rintro ⟨q, -, -, -, h⟩; omega
    rw [if_pos h, if_pos (by simpa using h), posOf, if_neg h97]
    by_cases h1 : a = p
    · simp [h1]
    · have h2 : b = p := by omega
      simp [List.idxOf_cons_ne _ h1, h2]
  · have hm : 98 + p ∈ outsOf n a b := mem_outsOf.2 ⟨p, hp, by omega, by omega, rfl⟩
    rw [if_neg h, if_neg (by simpa using h), posOf, if_pos hm, outsOf, idxOf_map_add]

theorem idxOf_of_getElem {l : List Nat} {p x : Nat} (hp : p < l.length) (hx : l[p] = x)
    (hmin : ∀ q < p, ∀ hq : q < l.length, l[q] ≠ x) : l.idxOf x = p := by
  have hmem : x ∈ l := hx ▸ List.getElem_mem hp
  have hlt := List.idxOf_lt_length_of_mem hmem
  have hge : l[l.idxOf x] = x := List.getElem_idxOf hlt
  rcases Nat.lt_trichotomy (l.idxOf x) p with h | h | h
  · exact absurd hge (hmin _ h hlt)
  · exact h
  · exfalso
    have := List.not_of_lt_findIdx (p := (· == x)) (xs := l) (i := p) (by simpa [List.idxOf] using h)
    simp [hx] at this

theorem letterDim_a (t : NDArray R) {n a b : Nat} (ha : a < n) (hb : b < n) :
    letterDim t (insOf n a b) 97 = t.shape.getD (min a b) 0 := by
  rw [letterDim]
  congr 1
  apply idxOf_of_getElem (by simp [insOf]; omega)
  · simp only [insOf, List.getElem_map, List.getElem_range]
    rw [if_pos (by omega)]
  · intro q hq hq'
    simp only [insOf, List.getElem_map, List.getElem_range]
    rw [if_neg (by omega)]
    omega

theorem letterDim_free (t : NDArray R) {n a b p : Nat} (hp : p < n) (h1 : p ≠ a) (h2 : p ≠ b) :
    letterDim t (insOf n a b) (98 + p) = t.shape.getD p 0 := by
  rw [letterDim]
  congr 1
  apply idxOf_of_getElem (by simp [insOf]; omega)
  · simp only [insOf, List.getElem_map, List.getElem_range]
    rw [if_neg (by omega)]
  · intro q hq hq'
    simp only [insOf, List.getElem_map, List.getElem_range]
    split_ifs <;> omega

theorem dims_insOf (t : NDArray R) {n a b : Nat} (ha : a < n) (hb : b < n) :
    (∀ p < (insOf n a b).length, t.shape.getD p 0 = letterDim t (insOf n a b) ((insOf n a b).getD p 0)) ↔
      t.shape.getD a 0 = t.shape.getD b 0 := by
  rw [insOf_length]
  constructor
  · intro h
    have h1 := h a ha
    have h2 := h b hb
    rw [insOf_getD ha, if_pos (by simp)] at h1
    rw [insOf_getD hb, if_pos (by simp)] at h2
    rw [h1, h2]
  · intro h p hp
    rw [insOf_getD hp]
    split_ifs with hpq
    · rw [letterDim_a t ha hb]
      rcases Nat.le_total a b with hab | hab
      · rw [min_eq_left hab]; rcases hpq with rfl | rfl
        · rfl
        · exact h.symm
      · rw [min_eq_right hab]; rcases hpq with rfl | rfl
        · exact h
        · rfl
    · rw [letterDim_free t hp (by omega) (by omega)]

/-- The array that the `einsum` of a trace gives for the positions `a`, `b`. -/
def diagSum (t : NDArray R) (a b : Nat) : NDArray R where
  shape := (freeAxes t.ndim [a, b]).map (fun p => t.shape.getD p 0)
  get := fun i => ∑ m ∈ range (t.shape.getD a 0), t.get (mergeIdx t.ndim [a, b] [m, m] i)

theorem einsum1_trace (t : NDArray R) {a b : Nat} (ha : a < t.ndim) (hb : b < t.ndim)
    (h : t.shape.getD a 0 = t.shape.getD b 0) :
    einsum1 t (insOf t.ndim a b) (outsOf t.ndim a b) = .ok (diagSum t a b) := by
  have hsub : ∀ l ∈ outsOf t.ndim a b, l ∈ insOf t.ndim a b := by
    intro l hl
    obtain ⟨p, hp, h1, h2, rfl⟩ := mem_outsOf.1 hl
    exact mem_insOf.2 (.inr ⟨p, hp, h1, h2, rfl⟩)
  rw [einsum1, if_pos ⟨insOf_length _ _ _, outsOf_nodup _ _ _, hsub, (dims_insOf t ha hb).2 h⟩]
  have hs : (outsOf t.ndim a b).map (letterDim t (insOf t.ndim a b)) = (diagSum t a b).shape := by
    simp only [outsOf, diagSum, List.map_map]
    refine List.map_congr_left fun p hp => ?_
    simp only [freeAxes, List.mem_filter, List.mem_range] at hp
    have hp2 : p ≠ a ∧ p ≠ b := by simpa using hp.2
    exact letterDim_free t hp.1 hp2.1 hp2.2
  have hmin : t.shape.getD (min a b) 0 = t.shape.getD a 0 := by
    rcases Nat.le_total a b with hab | hab
    · rw [min_eq_left hab]
    · rw [min_eq_right hab, h]
  simp only [hs, closed_insOf ha]
  simp only [diagSum, Except.ok.injEq, NDArray.mk.injEq, true_and]
  funext i
  simp only [List.map_cons, List.map_nil, sumIdx, letterDim_a t ha hb, hmin]
  refine Finset.sum_congr rfl fun m _ => ?_
  rw [posOf_insOf]

theorem einsum1_trace_error (t : NDArray R) {a b : Nat} (ha : a < t.ndim) (hb : b < t.ndim)
    (h : t.shape.getD a 0 ≠ t.shape.getD b 0) (outs : List Nat) :
    einsum1 t (insOf t.ndim a b) outs = .error .valueError := by
  rw [einsum1, if_neg]
  rintro ⟨-, -, -, h4⟩
  exact h ((dims_insOf t ha hb).1 h4)

/-! ### The axes -/

theorem axisOf_lt {n : Nat} {x : Int} {a : Nat} (h : axisOf n x = .ok a) : a < n := by
  unfold axisOf at h
  split_ifs at h with h1 h2
  · cases h; omega
  · cases h; omega

theorem axisOf_wrap {n : Nat} {x : Int} {a : Nat} (h : axisOf n x = .ok a) : wrapAxis n x = a := by
  unfold axisOf at h
  unfold wrapAxis
  split_ifs at h with h1 h2
  · cases h; rw [if_neg (by omega)]; omega
  · cases h; rw [if_pos (by omega)]; omega

theorem setItem_eq (l : List Nat) (a : Int) (x : Nat) :
    setItem l a x = match axisOf l.length a with
      | .ok p => .ok (l.set p x)
      | .error _ => .error .indexError := by
  unfold setItem axisOf
  split_ifs <;> rfl

theorem axisOf_natCast {n a : Nat} (h : a < n) : axisOf n (a : Int) = .ok a := by
  rw [axisOf, if_pos (by omega)]; simp

/-- The letters of the result, as the code writes them. -/
theorem indsout_eq (n : Nat) (a b : Int) :
    ((List.range n).filter (fun (p : Nat) => (p : Int) ≠ a ∧ (p : Int) ≠ b)).map
      (fun p => (List.range' 98 n).getD p 0) =
    ((List.range n).filter (fun (p : Nat) => (p : Int) ≠ a ∧ (p : Int) ≠ b)).map (fun p => 98 + p) := by
  refine List.map_congr_left fun p hp => ?_
  have hp' : p < n := by simpa using (List.mem_filter.1 hp).1
  rw [List.getD_eq_getElem _ _ (by simpa using hp')]
  simp

/-- What the code does after its checks. -/
theorem traceEinsum_eq (t : NDArray R) {axis1 axis2 : Int} (hn : t.ndim ≤ 25) (hne : axis1 ≠ axis2) {a b : Nat}
    (ha : axisOf t.ndim (wrapAxis t.ndim axis1) = .ok a) (hb : axisOf t.ndim (wrapAxis t.ndim axis2) = .ok b) :
    traceEinsum t 0 axis1 axis2 = einsum1 t (insOf t.ndim a b)
      (((List.range t.ndim).filter (fun (p : Nat) => (p : Int) ≠ wrapAxis t.ndim axis1 ∧
        (p : Int) ≠ wrapAxis t.ndim axis2)).map (fun p => 98 + p)) := by
  unfold traceEinsum
  rw [if_neg (by simp), if_neg hne, if_neg (by omega)]
  simp only [setItem_eq, List.length_range', ha]
  rw [← set_insOf, ← indsout_eq]
  show ((match axisOf ((List.range' 98 t.ndim).set a 97).length (wrapAxis t.ndim axis2) with
      | .ok p => .ok (((List.range' 98 t.ndim).set a 97).set p 97)
      | .error _ => .error .indexError : Py (List Nat)) >>= _) = _
  rw [List.length_set, List.length_range', hb]
  rfl

/-- The free letters when the two positions are the wrapped axes, or the same position. -/
theorem filter_outsOf {n a b : Nat} {x y : Int} (h : ∀ p < n, ((p : Int) ≠ x ∧ (p : Int) ≠ y) ↔ (p ≠ a ∧ p ≠ b)) :
    ((List.range n).filter (fun (p : Nat) => (p : Int) ≠ x ∧ (p : Int) ≠ y)).map (fun p => 98 + p) =
      outsOf n a b := by
  unfold outsOf freeAxes
  congr 1
  apply List.filter_congr
  intro p hp
  have := h p (by simpa using hp)
  simp only [List.mem_cons, List.not_mem_nil, or_false, not_or]
  exact decide_eq_decide.2 this

theorem sum_same (t : NDArray R) {a : Nat} (ha : a < t.ndim) :
    ∃ s, t.sum [a] = .ok s ∧ diagSum t a a = s := by
  refine ⟨_, by rw [NDArray.sum, if_pos ⟨by simp, by simpa using ha⟩], ?_⟩
  have hf : freeAxes t.ndim [a, a] = freeAxes t.ndim [a] := by
    unfold freeAxes; apply List.filter_congr; intro p _; simp
  simp only [diagSum, hf, NDArray.mk.injEq, true_and]
  funext i
  simp only [List.map_cons, List.map_nil, sumIdx]
  refine Finset.sum_congr rfl fun m _ => ?_
  congr 1
  unfold mergeIdx
  rw [hf]
  refine List.map_congr_left fun p _ => ?_
  by_cases h : p = a
  · subst h; simp
  · simp [h]

theorem traceNp_eq (t : NDArray R) (hn : 2 ≤ t.ndim) {k axis1 axis2 : Int} {a b : Nat}
    (ha : axisOf t.ndim axis1 = .ok a) (hb : axisOf t.ndim axis2 = .ok b) (hab : a ≠ b) :
    traceNp t k axis1 axis2 =
      .ok { shape := (freeAxes t.ndim [a, b]).map (fun p => t.shape.getD p 0)
            get := fun i => ∑ m ∈ range (diagLen (t.shape.getD a 0) (t.shape.getD b 0) k),
              t.get (mergeIdx t.ndim [a, b] [m + (-k).toNat, m + k.toNat] i) } := by
  unfold traceNp
  rw [if_neg (by omega), ha, hb]
  show (if a = b then _ else _) = _
  rw [if_neg hab]

end TN.TensorOps
