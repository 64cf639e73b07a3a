import Verif.BsTrace
import Verif.BsGroup

/-!
# C89: indices of block-sparse tensors and `compare_shapes`

block_sparse/index.py and `compare_shapes` of blocksparsetensor.py.  An `Index` is its list of legs: the pairs of `_charges` and `flow`.
Simplification: the constructor does not compare the lengths of the two lists; here they are equal.
-/

set_option linter.unusedSectionVars false

namespace TN.Bs

section
variable {Q : Type} [AddCommGroup Q] [LinearOrder Q] {R : Type}

/-! ### The model -/

/-- `Index.dim`, `Index.__len__` (index.py:39-40, 50-52) -/
def indexDim (I : List (Leg Q)) : Nat := (I.map fun l => l.1.dim).prod

/-- `Index.charges` (index.py:117-123) -/
def indexCharges (I : List (Leg Q)) : Py (Charge Q) := fuseCharges I

/-- `Index.flip_flow` (index.py:98-106) -/
def flipFlow (I : List (Leg Q)) : List (Leg Q) := flipFlows I

/-- `fuse_index_pair`, `Index.__mul__` (index.py:108-115, 126-139) -/
def fusePair (I J : List (Leg Q)) : List (Leg Q) := I ++ J

/-- `fuse_indices` (index.py:142-155) -/
def fuseIndices : List (List (Leg Q)) → Py (List (Leg Q))
  | [] => .error .indexError
  | I :: Is => .ok (Is.foldl fusePair I)

/-- `compare_shapes` (blocksparsetensor.py:446-465) -/
def compareShapes (S O : BST Q R) : Py Bool := do
  let s ← S.shape
  let o ← O.shape
  if s ≠ o then .ok false
  else if S.legs.length ≠ O.legs.length then .ok false
  else if ¬ ∀ p ∈ S.legs.zip O.legs, chargeEq p.1.1 p.2.1 then .ok false
  else if ¬ ∀ p ∈ S.legs.zip O.legs, p.1.2 = p.2.2 then .ok false
  else .ok true

/-! ### Specification -/

/-- The charges of an index at its positions. -/
def IsCharges (I : List (Leg Q)) (q : List Q) : Prop := ∃ c, indexCharges I = .ok c ∧ c.charges = q

/-- What a user sees of an index: for every leg the charges and the flow. -/
def view (I : List (Leg Q)) : List (List Q × Bool) := I.map fun l => (l.1.charges, l.2)

/-! ### Fusion -/

theorem isCharges {I : List (Leg Q)} (h : LegsWF I) (hne : I ≠ []) : IsCharges I (fuseL (eff I)) := by
  obtain ⟨c, h1, -, h3⟩ := fuseCharges_spec h hne
  exact ⟨c, h1, h3⟩

theorem IsCharges.eq {I : List (Leg Q)} {q : List Q} (h : LegsWF I) (hne : I ≠ []) (hq : IsCharges I q) : q = fuseL (eff I) := by
  obtain ⟨c, h1, rfl⟩ := hq
  obtain ⟨c', h1', h3⟩ := isCharges h hne
  rw [h1] at h1'
  cases h1'
  exact h3

theorem fuse_length (I : List (Leg Q)) : (fuseL (eff I)).length = indexDim I := by
  rw [fuseL_length, dims_eff, indexDim]

/-- **C89.**  The dimension of a fused index is the product of the dimensions, and the charge at the position of a pair is the sum of the
charges, for the flows of both indices. -/
theorem C89_fuse {I J : List (Leg Q)} (hI : LegsWF I) (hJ : LegsWF J) (hI0 : I ≠ []) (hJ0 : J ≠ []) {p q : List Q} (hp : IsCharges I p)
    (hq : IsCharges J q) : indexDim (fusePair I J) = indexDim I * indexDim J ∧ p.length = indexDim I ∧ q.length = indexDim J ∧
      ∃ r, IsCharges (fusePair I J) r ∧ r.length = indexDim I * indexDim J ∧
        ∀ a (ha : a < p.length) b (hb : b < q.length), r[a * indexDim J + b]? = some (p[a] + q[b]) := by
  obtain rfl := hp.eq hI hI0
  obtain rfl := hq.eq hJ hJ0
  have hd : indexDim (fusePair I J) = indexDim I * indexDim J := by simp [indexDim, fusePair]
  have hw : LegsWF (fusePair I J) := fun l hl => (List.mem_append.1 hl).elim (hI l) (hJ l)
  refine ⟨hd, fuse_length I, fuse_length J, fuseL (eff (fusePair I J)), isCharges hw (by simp [fusePair, hI0]), ?_, ?_⟩
  · rw [fuse_length, hd]
  · intro a ha b hb
    rw [fusePair, eff_append, fuseL_append, ← fuse_length J, outerRavel_getElem? _ _ _ hb]
    simp [ha, hb]

theorem foldl_fuse (Is : List (List (Leg Q))) (I : List (Leg Q)) : Is.foldl fusePair I = I ++ Is.flatten := by
  induction Is generalizing I with
  | nil => simp
  | cons J Is ih => simp [ih, fusePair]

theorem fuse_flatten (Is : List (List (Leg Q))) (i : List Nat) (hi : InB (Is.map indexDim) i) :
    (fuseL (eff Is.flatten))[ravel (Is.map indexDim) i]? = some ((List.zipWith (fun I k => (fuseL (eff I)).getD k 0) Is i).sum) := by
  induction Is generalizing i with
  | nil =>
    have : i = [] := by simpa [InB] using hi
    subst this
    rfl
  | cons I Is ih =>
    rw [List.map_cons] at hi
    obtain ⟨k, is, rfl, hk, his⟩ := inB_cons_iff.1 hi
    have h1 := ih is his
    have hp : (Is.map indexDim).prod = (fuseL (eff Is.flatten)).length := by
      rw [fuse_length, indexDim, List.map_flatten, List.prod_flatten, List.map_map]
      rfl
    have hlt : ravel (Is.map indexDim) is < (fuseL (eff Is.flatten)).length := hp ▸ ravel_lt his
    have hk' : k < (fuseL (eff I)).length := by rw [fuse_length]; exact hk
    rw [List.flatten_cons, eff_append, fuseL_append, List.map_cons, ravel, hp, outerRavel_getElem? _ _ _ hlt, h1]
    simp [hk']

/-- **C89.**  `fuse_indices` raises for an empty list; otherwise the positions of the result are the positions of the indices, row-major, and the
charge of a position is the sum of the charges of the indices there. -/
theorem C89_fuse_indices {Is : List (List (Leg Q))} (h : ∀ I ∈ Is, LegsWF I ∧ I ≠ []) :
    (Is = [] → fuseIndices Is = .error .indexError) ∧
    (Is ≠ [] → ∃ F q, fuseIndices Is = .ok F ∧ IsCharges F q ∧ indexDim F = (Is.map indexDim).prod ∧ q.length = indexDim F ∧
      ∀ qs, List.Forall₂ IsCharges Is qs → ∀ i, InB (Is.map indexDim) i →
        q[ravel (Is.map indexDim) i]? = some ((List.zipWith (fun q k => q.getD k 0) qs i).sum)) := by
  refine ⟨fun h0 => by rw [h0]; rfl, fun h0 => ?_⟩
  have hf : fuseIndices Is = .ok Is.flatten := by
    cases Is with
    | nil => exact absurd rfl h0
    | cons I Is => rw [fuseIndices, foldl_fuse]; rfl
  have hw : LegsWF Is.flatten := by
    intro l hl
    obtain ⟨I, hI, hl⟩ := List.mem_flatten.1 hl
    exact (h I hI).1 l hl
  have hne : Is.flatten ≠ [] := by
    obtain ⟨I, Is', rfl⟩ := List.exists_cons_of_ne_nil h0
    simp [(h I (by simp)).2]
  have hd : indexDim Is.flatten = (Is.map indexDim).prod := by
    rw [indexDim, List.map_flatten, List.prod_flatten, List.map_map]
    rfl
  refine ⟨_, _, hf, isCharges hw hne, hd, fuse_length _, fun qs hq i hi => ?_⟩
  have hqs : qs = Is.map fun I => fuseL (eff I) := by
    clear hi hf hw hne hd h0
    induction hq with
    | nil => rfl
    | cons hab _ ih =>
      rw [List.map_cons, ← ih fun I hI => h I (by simp [hI]), hab.eq (h _ (by simp)).1 (h _ (by simp)).2]
  rw [fuse_flatten Is i hi, hqs, List.zipWith_map_left]

/-- Two indices: one of two legs, one of one leg with outgoing flow. -/
example : ∃ r : List Int, IsCharges (fusePair (legsEx.take 2) (legsEx.drop 2)) r ∧ r.length = 12 * 2 := by
  have h1 : LegsWF (legsEx.take 2) := fun l hl => legsEx_wf l (List.mem_of_mem_take hl)
  have h2 : LegsWF (legsEx.drop 2) := fun l hl => legsEx_wf l (List.mem_of_mem_drop hl)
  obtain ⟨-, -, -, r, h, hr, -⟩ := C89_fuse h1 h2 (by decide) (by decide) (isCharges h1 (by decide)) (isCharges h2 (by decide))
  exact ⟨r, h, hr⟩

example : ∃ F, fuseIndices [legsEx.take 2, legsEx.drop 2] = .ok F ∧ indexDim F = 24 := by
  obtain ⟨F, q, h, -, hd, -⟩ := (C89_fuse_indices (Is := [legsEx.take 2, legsEx.drop 2]) (by
    intro I hI
    simp only [List.mem_cons, List.not_mem_nil, or_false] at hI
    rcases hI with rfl | rfl
    · exact ⟨fun l hl => legsEx_wf l (List.mem_of_mem_take hl), by decide⟩
    · exact ⟨fun l hl => legsEx_wf l (List.mem_of_mem_drop hl), by decide⟩)).2 (by simp)
  exact ⟨F, h, hd.trans (by rfl)⟩

/-! ### The flow -/

/-- **C89.**  `flip_flow` keeps the dimension and takes the charge at every position to its inverse; twice is the same index; the flip of a fused
index is the fusion of the flips; and no index with legs is equal to its flip. -/
theorem C89_flip {I : List (Leg Q)} (h : LegsWF I) (hne : I ≠ []) {q : List Q} (hq : IsCharges I q) :
    IsCharges (flipFlow I) (q.map fun x => -x) ∧ indexDim (flipFlow I) = indexDim I ∧ flipFlow (flipFlow I) = I ∧
      (∀ J, flipFlow (fusePair I J) = fusePair (flipFlow I) (flipFlow J)) ∧ ¬ indexEq (flipFlow I) I := by
  obtain rfl := hq.eq h hne
  refine ⟨?_, ?_, ?_, ?_, ?_⟩
  · have := isCharges (flipFlows_wf h) (by simpa [flipFlows] using hne)
    rw [eff_flip h] at this
    have e : fuseL ((eff I).map fun A => A.map fun q => -q) = (fuseL (eff I)).map fun x => -x := by
      rw [fuseL, fuseL, List.map_map]
      have hd : dims ((eff I).map fun A => A.map fun q => -q) = dims (eff I) := by simp [dims, Function.comp_def]
      rw [hd]
      exact List.map_congr_left fun i hi => total_neg _ _ (mem_grid.1 hi)
    rwa [e] at this
  · simp [indexDim, flipFlow, flipFlows, Function.comp_def]
  · simp [flipFlow, flipFlows, Function.comp_def]
  · intro J; simp [flipFlow, flipFlows, fusePair]
  · obtain ⟨l, ls, rfl⟩ := List.exists_cons_of_ne_nil hne
    rintro ⟨-, h2⟩
    simp [flipFlow, flipFlows] at h2

example := C89_flip legsEx_wf (by decide) (isCharges legsEx_wf (by decide))

/-! ### Equality -/

/-- **C89.**  Equal indices have equal charges and flows. -/
theorem C89_index_eq_partial {I J : List (Leg Q)} (hI : LegsWF I) (hJ : LegsWF J) (h : indexEq I J) : view I = view J := by
  have key : ∀ {I : List (Leg Q)}, LegsWF I → view I =
      (I.map fun l => (l.1.uniq, l.1.labels, l.2)).map fun t => (t.2.1.map fun k => t.1.getD k 0, t.2.2) := by
    intro I h
    rw [view, List.map_map]
    exact List.map_congr_left fun l hl => by rw [Charge.charges_eq (h l hl)]; rfl
  rw [key hI, key hJ, h.2]

/-- **C89**, what fails: the same charges with the same flow are not always equal, for example if one of them is a dual. -/
theorem C89_index_eq_false : ∃ c d : Charge Int, c.WF ∧ (d.dual true).WF ∧ view [(c, false)] = view [(d.dual true, false)] ∧
    ¬ indexEq [(c, false)] [(d.dual true, false)] :=
  ⟨.raw [0, -1], .lab [0, 1] [0, 1], trivial, ⟨by decide, by intro i; simp; omega⟩, rfl, by decide⟩

/-! ### `compare_shapes` -/

theorem compareShapes_true {S O : BST Q R} (h : compareShapes S O = .ok true) :
    S.shape = O.shape ∧ S.legs.length = O.legs.length ∧ view S.legs = view O.legs := by
  unfold compareShapes at h
  cases hs : S.shape with
  | error e => rw [hs] at h; cases h
  | ok s =>
    cases ho : O.shape with
    | error e => rw [hs, ho] at h; cases h
    | ok o =>
      rw [hs, ho] at h
      change (if s ≠ o then _ else _) = _ at h
      by_cases h1 : s = o
      swap
      · rw [if_pos h1] at h; simp at h
      rw [if_neg (not_not.2 h1)] at h
      by_cases h2 : S.legs.length = O.legs.length
      swap
      · rw [if_pos h2] at h; simp at h
      rw [if_neg (not_not.2 h2)] at h
      by_cases h3 : ∀ p ∈ S.legs.zip O.legs, chargeEq p.1.1 p.2.1
      swap
      · rw [if_pos h3] at h; simp at h
      rw [if_neg (not_not.2 h3)] at h
      by_cases h4 : ∀ p ∈ S.legs.zip O.legs, p.1.2 = p.2.2
      swap
      · rw [if_pos h4] at h; simp at h
      · refine ⟨by rw [h1], h2, ?_⟩
        refine List.ext_getElem (by simp [view, h2]) fun k k1 k2 => ?_
        simp only [view, List.length_map] at k1 k2
        have hm : (S.legs[k], O.legs[k]) ∈ S.legs.zip O.legs := by
          rw [← List.getElem_zip (h := by simp [k1, k2])]
          exact List.getElem_mem _
        simp only [view, List.getElem_map]
        rw [chargeEq_charges (h3 _ hm), h4 _ hm]

/-- **C89.**  If `compare_shapes` holds and the tensors have no different transpositions, the sparse shapes are the same. -/
theorem C89_compare_partial {S O : BST Q R} (h : compareShapes S O = .ok true) (ho : S.order = O.order) :
    S.shape = O.shape ∧ S.sparseShape.map view = O.sparseShape.map view := by
  obtain ⟨h1, h2, h3⟩ := compareShapes_true h
  refine ⟨h1, ?_⟩
  rw [BST.sparseShape, BST.sparseShape, List.map_map, List.map_map, ho]
  refine List.map_congr_left fun g _ => ?_
  simp only [Function.comp_apply, view, pick, List.map_map]
  refine List.map_congr_left fun n _ => ?_
  have hg : ∀ L : List (Leg Q), (view L).getD n ([], false) =
      ((L.getD n (.raw [], false)).1.charges, (L.getD n (.raw [], false)).2) := by
    intro L
    simp only [view, List.getD_eq_getElem?_getD, List.getElem?_map]
    cases L[n]? <;> rfl
  exact (hg S.legs).symm.trans ((congrArg (fun l => l.getD n ([], false)) h3).trans (hg O.legs))

/-- **C89.**  `compare_shapes` holds for every two tensors with the same legs in the storage, whatever their transpositions, if only the dense
shapes agree. -/
theorem C89_compare_order {S O : BST Q R} {s : List Nat} (hs : S.shape = .ok s) (ho : O.shape = .ok s) (hl : S.legs = O.legs) :
    compareShapes S O = .ok true := by
  unfold compareShapes
  rw [hs, ho, hl]
  have hz : ∀ p ∈ O.legs.zip O.legs, p.1 = p.2 := by
    intro p hp
    obtain ⟨k, hk, rfl⟩ := List.getElem_of_mem hp
    simp
  change (if s ≠ s then _ else _) = _
  rw [if_neg (by simp), if_neg (by simp), if_neg, if_neg]
  · exact not_not.2 fun p hp => by rw [hz p hp]
  · exact not_not.2 fun p hp => by rw [hz p hp]; exact chargeEq_refl _

/-- A matrix whose rows and columns have different charges. -/
def cmpEx : BST Int Int := ⟨[5, 6], [(.raw [0, 1], false), (.raw [1, 0], true)], [[0], [1]]⟩

theorem cmpEx_valid : cmpEx.Valid :=
  ⟨by intro l hl; simp [cmpEx] at hl; rcases hl with rfl | rfl <;> trivial, by decide, by decide, by decide⟩

example := C89_compare_partial (S := cmpEx) (O := cmpEx) (C89_compare_order rfl rfl rfl) rfl

/-- **C89**, what fails: `compare_shapes` holds for a tensor and its transpose although their sparse shapes differ. -/
theorem C89_compare_true_false : ∃ T T' : BST Int Int, T.Valid ∧ T.transpose [1, 0] = .ok T' ∧ compareShapes T T' = .ok true ∧
    T.sparseShape.map view ≠ T'.sparseShape.map view :=
  ⟨cmpEx, ⟨[5, 6], cmpEx.legs, [[1], [0]]⟩, cmpEx_valid, rfl, C89_compare_order rfl rfl rfl, by decide⟩

/-- **C89**, what fails: `compare_shapes` does not hold for a transposed tensor and its contiguous copy although their sparse shapes are the same. -/
theorem C89_compare_contiguous_false : ∃ T T' : BST Int Int, T.Valid ∧ T.contiguous argsortI (fun n => List.replicate n 0) none = .ok T' ∧
    T.sparseShape = T'.sparseShape ∧ compareShapes T T' = .ok false := by
  refine ⟨⟨[5, 6], cmpEx.legs, [[1], [0]]⟩, ⟨[6, 5], [(.raw [1, 0], true), (.raw [0, 1], false)], [[0], [1]]⟩,
    ⟨cmpEx_valid.wf, by decide, by decide, by decide⟩, ?_, rfl, by rfl⟩
  rfl

end
end TN.Bs
