import Verif.BsRep
import Mathlib.Data.List.Lex
import Mathlib.Tactic.IntervalCases
import Mathlib.Tactic.Positivity

/-!
# `unique` and `intersect` of arrays of charges (block_sparse/utils.py)

The rows of an array of charges are packed into one integer each, if they have at most eight bytes;
then the `numpy` functions for one-dimensional arrays are applied, and the result is unpacked.
-/

namespace TN.Bs

/-! ## Model -/

/-- `get_dtype(n)` (utils.py:166-178): the number of bytes of the type. -/
def dtypeBytes (n : Nat) : Nat := if n > 4 then 8 else if n > 2 then 4 else if n > 1 then 2 else 1

/-- The number of columns after padding (utils.py:197-207). -/
def padWidth (w : Nat) : Nat :=
  if w = 1 ∨ w = 2 ∨ w = 4 ∨ w = 8 then w else if w = 3 then 3 + 1 else w + (8 - w)

/-- The bytes of a row as a natural number; each entry is one digit to the base `B`, the first is
the least significant (little-endian memory). -/
def packDigits (B : Int) : List Int → Int
  | [] => 0
  | a :: l => a % B + B * packDigits B l

/-- Reading memory as `n` signed digits to the base `B`. -/
def unpackDigits (B : Int) : Nat → Int → List Int
  | 0, _ => []
  | n + 1, v => (v % B).bmod B.toNat :: unpackDigits B n (v / B)

/-- One row of `collapse` (utils.py:181-208) for entries of `k` bytes and `w` columns, if
`k * w ≤ 8`: padded with zeros, and viewed as one signed integer. -/
def collapseRow (k w : Nat) (r : List Int) : Int :=
  (packDigits (256 ^ k) (r ++ List.replicate (padWidth w - w) 0)).bmod (256 ^ dtypeBytes (k * w))

/-- One row of `expand` (utils.py:211-243): the integer is viewed as entries of `k` bytes; if
columns were padded they are removed. -/
def expandRow (k w : Nat) (v : Int) : List Int :=
  let r := unpackDigits (256 ^ k) (dtypeBytes (k * w) / k) (v % 256 ^ dtypeBytes (k * w))
  if w = 3 ∨ w = 5 ∨ w = 6 ∨ w = 7 then r.take w else r

/-- An array with two axes: bytes of one entry, number of columns, and the rows. -/
structure Arr where
  bytes : Nat
  width : Nat
  rows : List (List Int)

/-- The result of `unique` with all of its optional outputs. -/
structure UniqueOut where
  uniq : List (List Int)
  index : List Nat
  inverse : List Int
  counts : List Nat

/-- `unique(array, True, True, True)` for an array with two axes (utils.py:246-312).  The labels
are converted to `label_dtype`, by default `np.int16`. -/
def uniqueArr (a : Arr) : UniqueOut :=
  if a.bytes * a.width > 8 then
    ⟨npUnique a.rows, uniqueIndex a.rows, (uniqueInverse a.rows).map (fun l : Nat => wrap (l : Int)),
      uniqueCounts a.rows⟩
  else
    let c := a.rows.map (collapseRow a.bytes a.width)
    ⟨(npUnique c).map (expandRow a.bytes a.width), uniqueIndex c,
      (uniqueInverse c).map (fun l : Nat => wrap (l : Int)), uniqueCounts c⟩

/-- `A.T` -/
def Arr.T (a : Arr) : Arr :=
  ⟨a.bytes, a.rows.length, (List.range a.width).map (fun j => a.rows.map (fun r => r.getD j 0))⟩

/-- `intersect(A, B, axis=0, return_indices=True)` (utils.py:315-386): the common rows and their
positions. -/
def intersectRows (a b : Arr) : Py (List (List Int) × List Nat × List Nat) :=
  if a.bytes ≠ b.bytes then .error .valueError
  else if a.width ≠ b.width then .error .valueError
  else if a.bytes * a.width > 8 then .ok (intersect a.rows b.rows)
  else
    let i := intersect (a.rows.map (collapseRow a.bytes a.width))
      (b.rows.map (collapseRow b.bytes b.width))
    .ok (i.1.map (expandRow a.bytes a.width), i.2)

/-- `intersect(A, B, axis, return_indices=True)`: for `axis=1` the arrays are transposed
(utils.py:332-345). -/
def intersectArr (a b : Arr) (axis : Nat) : Py (Arr × List Nat × List Nat) :=
  if a.bytes ≠ b.bytes then .error .valueError
  else if axis = 1 then
    if a.rows.length ≠ b.rows.length then .error .valueError
    else do
      let out ← intersectRows a.T b.T
      .ok (Arr.T ⟨a.bytes, a.rows.length, out.1⟩, out.2)
  else if axis = 0 then do
    let out ← intersectRows a b
    .ok (⟨a.bytes, a.width, out.1⟩, out.2)
  else .error .valueError

/-! ## Packing -/

/-- The entries of a row fit into `k` bytes. -/
def RowOK (k w : Nat) (r : List Int) : Prop :=
  r.length = w ∧ ∀ x ∈ r, -(256 ^ k / 2 : Int) ≤ x ∧ x < 256 ^ k / 2

/-- An array as `numpy` has them: the entries are integers of 1, 2, 4 or 8 bytes, and there is at
least one column. -/
structure Arr.OK (a : Arr) : Prop where
  bytes : a.bytes = 1 ∨ a.bytes = 2 ∨ a.bytes = 4 ∨ a.bytes = 8
  width : 0 < a.width
  rows : ∀ r ∈ a.rows, RowOK a.bytes a.width r

theorem packDigits_bounds {B : Int} (hB : 0 < B) (l : List Int) :
    0 ≤ packDigits B l ∧ packDigits B l < B ^ l.length := by
  induction l with
  | nil => simp [packDigits]
  | cons a l ih =>
    have h1 := Int.emod_nonneg a hB.ne'
    have h2 := Int.emod_lt_of_pos a hB
    simp only [packDigits, List.length_cons, pow_succ]
    constructor
    · have := mul_nonneg hB.le ih.1; omega
    · have : B * (packDigits B l + 1) ≤ B * B ^ l.length := mul_le_mul_of_nonneg_left ih.2 hB.le
      nlinarith

theorem unpack_pack {B : Nat} (hB : 0 < B) (l : List Int)
    (h : ∀ x ∈ l, -((B : Int) / 2) ≤ x ∧ x < (B : Int) / 2) :
    unpackDigits B l.length (packDigits B l) = l := by
  induction l with
  | nil => rfl
  | cons a l ih =>
    have hB' : (0 : Int) < B := by omega
    have h1 := Int.emod_nonneg a hB'.ne'
    have h2 := Int.emod_lt_of_pos a hB'
    simp only [List.length_cons, unpackDigits, packDigits, Int.toNat_natCast]
    congr 1
    · rw [Int.add_mul_emod_self_left, Int.emod_emod, Int.emod_bmod]
      have := h a (by simp)
      apply Int.bmod_eq_of_le <;> omega
    · rw [Int.add_mul_ediv_left _ _ hB'.ne', Int.ediv_eq_zero_of_lt h1 h2, Int.zero_add]
      exact ih (fun x hx => h x (by simp [hx]))

/-- Unpacking a packed row gives the row back. -/
theorem expand_collapse {k w : Nat} (hk : k = 1 ∨ k = 2 ∨ k = 4 ∨ k = 8) (hw : 0 < w)
    (h : k * w ≤ 8) {r : List Int} (hr : RowOK k w r) : expandRow k w (collapseRow k w r) = r := by
  obtain ⟨hl, hx⟩ := hr
  have hpad : padWidth w = dtypeBytes (k * w) / k ∧ k * padWidth w = dtypeBytes (k * w) ∧
      w ≤ padWidth w ∧ (¬ (w = 3 ∨ w = 5 ∨ w = 6 ∨ w = 7) → padWidth w = w) := by
    have hw8 : w ≤ 8 := by rcases hk with rfl | rfl | rfl | rfl <;> omega
    rcases hk with rfl | rfl | rfl | rfl <;> interval_cases w <;> first | omega | decide
  obtain ⟨p1, p2, p3, p4⟩ := hpad
  obtain ⟨pr, hpr⟩ : ∃ pr, pr = r ++ List.replicate (padWidth w - w) (0 : Int) := ⟨_, rfl⟩
  have hprl : pr.length = padWidth w := by rw [hpr]; simp [hl]; omega
  have hcast : (256 ^ k : Int) = ((256 ^ k : Nat) : Int) := by push_cast; rfl
  have hk2 : (2 : Int) ≤ 256 ^ k := by
    rcases hk with rfl | rfl | rfl | rfl <;> norm_num
  have hprx : ∀ x ∈ pr, -(((256 ^ k : Nat) : Int) / 2) ≤ x ∧ x < ((256 ^ k : Nat) : Int) / 2 := by
    intro x hm
    rw [← hcast]
    rw [hpr, List.mem_append] at hm
    rcases hm with hm | hm
    · exact hx x hm
    · rw [(List.mem_replicate.1 hm).2]; omega
  have hb := packDigits_bounds (B := 256 ^ k) (by omega) pr
  have hM : (256 ^ k : Int) ^ pr.length = 256 ^ dtypeBytes (k * w) := by
    rw [hprl, ← pow_mul, p2]
  rw [hM] at hb
  have hv : (collapseRow k w r) % 256 ^ dtypeBytes (k * w) = packDigits (256 ^ k) pr := by
    unfold collapseRow
    rw [← hpr]
    have := Int.bmod_emod (x := packDigits (256 ^ k) pr) (m := 256 ^ dtypeBytes (k * w))
    push_cast at this
    rw [this, Int.emod_eq_of_lt hb.1 hb.2]
  have hu : unpackDigits (256 ^ k) (dtypeBytes (k * w) / k)
      (collapseRow k w r % 256 ^ dtypeBytes (k * w)) = pr := by
    rw [hv, ← p1, ← hprl, hcast]
    exact unpack_pack (by positivity) pr hprx
  unfold expandRow
  simp only
  rw [hu, hpr]
  by_cases h3 : w = 3 ∨ w = 5 ∨ w = 6 ∨ w = 7
  · rw [if_pos h3, ← hl, List.take_left]
  · rw [if_neg h3, p4 h3]; simp

theorem wrap_label {l n : Nat} (h : l < n) (hn : n ≤ 32768) : wrap (l : Int) = l :=
  wrap_of_range (by omega) (by omega)

/-! ## Specification -/

/-- What `unique` promises, for any ordering `lt` of the rows. -/
structure IsUnique (lt : List Int → List Int → Prop) (A : List (List Int)) (o : UniqueOut) :
    Prop where
  /-- every row occurs once, in increasing order -/
  sorted : o.uniq.Pairwise lt
  nodup : o.uniq.Nodup
  mem : ∀ x, x ∈ o.uniq ↔ x ∈ A
  /-- the first positions -/
  index_length : o.index.length = o.uniq.length
  index : ∀ (j i : Nat), o.index[j]? = some i → i < A.length ∧ A[i]? = o.uniq[j]? ∧
    ∀ i' < i, A[i']? ≠ o.uniq[j]?
  /-- the labels reconstruct the array -/
  inverse_length : o.inverse.length = A.length
  inverse : ∀ i < A.length, ∃ j : Nat, o.inverse[i]? = some (j : Int) ∧ o.uniq[j]? = A[i]?
  counts : o.counts = o.uniq.map (fun x => A.count x)

/-- Rows are compared by the packed integer, or from left to right if there is no packing. -/
def rowLt (k w : Nat) (r s : List Int) : Prop :=
  if k * w > 8 then r < s else collapseRow k w r < collapseRow k w s

/-- `IsUnique`, with the labels as they are after the conversion. -/
structure UniqueParts (wr : Nat → Int) (lt : List Int → List Int → Prop) (A : List (List Int)) (o : UniqueOut) :
    Prop where
  sorted : o.uniq.Pairwise lt
  nodup : o.uniq.Nodup
  mem : ∀ x, x ∈ o.uniq ↔ x ∈ A
  index_length : o.index.length = o.uniq.length
  index : ∀ (j i : Nat), o.index[j]? = some i → i < A.length ∧ A[i]? = o.uniq[j]? ∧
    ∀ i' < i, A[i']? ≠ o.uniq[j]?
  inverse_length : o.inverse.length = A.length
  inverse : ∀ i < A.length, ∃ j : Nat, o.inverse[i]? = some (wr j) ∧ o.uniq[j]? = A[i]?
  counts : o.counts = o.uniq.map (fun x => A.count x)

theorem UniqueParts.length {wr : Nat → Int} {lt : List Int → List Int → Prop} {A : List (List Int)} {o : UniqueOut}
    (h : UniqueParts wr lt A o) : o.uniq.length = A.dedup.length :=
  List.Perm.length_eq ((List.perm_ext_iff_of_nodup h.nodup (List.nodup_dedup A)).2
    (fun x => by rw [h.mem, List.mem_dedup]))

theorem UniqueParts.isUnique {lt : List Int → List Int → Prop} {A : List (List Int)}
    {o : UniqueOut} (h : UniqueParts (fun l => wrap (l : Int)) lt A o) (hn : A.dedup.length ≤ 32768) : IsUnique lt A o where
  sorted := h.sorted
  nodup := h.nodup
  mem := h.mem
  index_length := h.index_length
  index := h.index
  inverse_length := h.inverse_length
  inverse := by
    intro i hi
    obtain ⟨j, h1, h2⟩ := h.inverse i hi
    refine ⟨j, ?_, h2⟩
    have hj : j < o.uniq.length := by
      by_contra hj
      rw [List.getElem?_eq_none (by omega), List.getElem?_eq_getElem hi] at h2
      exact absurd h2 (by simp)
    rw [h1, wrap_label hj (by rw [h.length]; exact hn)]
  counts := h.counts

theorem unique_transfer {β : Type} [LinearOrder β] {A : List (List Int)} {f : List Int → β}
    {g : β → List Int} (wr : Nat → Int) (hg : ∀ r ∈ A, g (f r) = r) {lt : List Int → List Int → Prop}
    (hlt : ∀ r ∈ A, ∀ s ∈ A, f r < f s → lt r s) :
    UniqueParts wr lt A ⟨(npUnique (A.map f)).map g, uniqueIndex (A.map f),
      (uniqueInverse (A.map f)).map wr, uniqueCounts (A.map f)⟩ := by
  have hinj : ∀ r ∈ A, ∀ s ∈ A, f r = f s → r = s := by
    intro r hr s hs h
    rw [← hg r hr, ← hg s hs, h]
  obtain ⟨u, hu⟩ : ∃ u, u = npUnique (A.map f) := ⟨_, rfl⟩
  have hmem : ∀ y, y ∈ u ↔ ∃ r ∈ A, f r = y := by
    intro y; rw [hu, mem_npUnique, List.mem_map]
  have hgf : ∀ y ∈ u, f (g y) = y ∧ g y ∈ A := by
    intro y hy
    obtain ⟨r, hr, rfl⟩ := (hmem y).1 hy
    rw [hg r hr]; exact ⟨rfl, hr⟩
  have hcount : ∀ y ∈ u, (A.map f).count y = A.count (g y) := by
    intro y hy
    rw [List.count, List.countP_map, List.count]
    apply List.countP_congr
    intro r hr
    simp only [Function.comp_apply, beq_iff_eq]
    constructor
    · intro h; rw [← h, hg r hr]
    · intro h; rw [h, (hgf y hy).1]
  simp only [uniqueIndex, uniqueInverse, uniqueCounts, ← hu]
  refine ⟨?_, ?_, ?_, by simp, ?_, by simp, ?_, ?_⟩
  · rw [List.pairwise_map]
    refine List.Pairwise.imp_of_mem (R := (· < ·)) ?_ (by rw [hu]; exact npUnique_lt _)
    intro x y hx hy h
    apply hlt _ (hgf x hx).2 _ (hgf y hy).2
    rwa [(hgf x hx).1, (hgf y hy).1]
  · simp only
    rw [List.nodup_map_iff_inj_on (by rw [hu]; exact npUnique_nodup _)]
    intro x hx y hy h
    rw [← (hgf x hx).1, ← (hgf y hy).1, h]
  · intro x
    simp only [List.mem_map]
    constructor
    · rintro ⟨y, hy, rfl⟩; exact (hgf y hy).2
    · intro hx; exact ⟨f x, (hmem _).2 ⟨x, hx, rfl⟩, hg x hx⟩
  · intro j i h
    simp only [List.getElem?_map, Option.map_eq_some_iff] at h ⊢
    obtain ⟨y, hy, rfl⟩ := h
    have hyu := List.mem_of_getElem? hy
    have hyA : y ∈ A.map f := by rw [hu, mem_npUnique] at hyu; exact hyu
    have hl := List.idxOf_lt_length_iff.2 hyA
    refine ⟨by simpa using hl, ?_, ?_⟩
    · rw [hy]
      have h1 : (A.map f)[(A.map f).idxOf y]? = some y := by
        rw [List.getElem?_eq_getElem hl, List.getElem_idxOf]
      rw [List.getElem?_map, Option.map_eq_some_iff] at h1
      obtain ⟨r, h1, rfl⟩ := h1
      rw [h1, Option.map_some, hg r (List.mem_of_getElem? h1)]
    · intro i' hi' h
      rw [hy, Option.map_some] at h
      have h1 : (A.map f)[i']? = some y := by
        rw [List.getElem?_map, h, Option.map_some, (hgf y hyu).1]
      have h2 := List.not_of_lt_findIdx (p := (· == y)) (xs := A.map f) hi'
      obtain ⟨h3, h4⟩ := List.getElem?_eq_some_iff.1 h1
      rw [h4] at h2
      simp at h2
  · intro i hi
    have hm : f A[i] ∈ u := (hmem _).2 ⟨_, List.getElem_mem hi, rfl⟩
    have hl := List.idxOf_lt_length_iff.2 hm
    refine ⟨u.idxOf (f A[i]), ?_, ?_⟩
    · simp only [List.map_map, List.getElem?_map, List.getElem?_eq_getElem hi, Option.map_some,
        Function.comp_apply]
    · rw [List.getElem?_map, List.getElem?_eq_getElem hl, List.getElem_idxOf, Option.map_some,
        hg _ (List.getElem_mem hi), List.getElem?_eq_getElem hi]
  · simp only [List.map_map]
    apply List.map_congr_left
    intro y hy
    exact hcount y hy

theorem uniqueArr_parts {a : Arr} (ha : a.OK) :
    UniqueParts (fun l => wrap (l : Int)) (rowLt a.bytes a.width) a.rows (uniqueArr a) := by
  unfold uniqueArr
  by_cases h : a.bytes * a.width > 8
  · rw [if_pos h]
    have := unique_transfer (A := a.rows) (f := id) (g := id)
      (fun l => wrap (l : Int)) (fun _ _ => rfl) (lt := rowLt a.bytes a.width) (fun r _ s _ hrs => by simpa [rowLt, h] using hrs)
    simpa using this
  · rw [if_neg h]
    exact unique_transfer _ (fun r hr => expand_collapse ha.bytes ha.width (by omega) (ha.rows r hr))
      (fun r _ s _ hrs => by simpa [rowLt, h] using hrs)

/-- **C28** (`unique`).  For every array of charges, with any number of columns and entries of any
size, `unique` returns the distinct rows in an increasing order, with their first positions, their
counts, and labels from which the array can be reconstructed.  Missing: this needs at most `32768`
distinct rows, see `C28_labels_false`. -/
theorem C28_unique_partial {a : Arr} (ha : a.OK) (hn : a.rows.dedup.length ≤ 32768) :
    IsUnique (rowLt a.bytes a.width) a.rows (uniqueArr a) :=
  (uniqueArr_parts ha).isUnique hn

/-- A small array with three symmetries; the rows are padded and packed. -/
def arrEx : Arr := ⟨2, 3, [[1, 0, -1], [-1, 0, 0], [1, 0, -1], [2, 1, 0]]⟩

theorem arrEx_ok : arrEx.OK := ⟨by decide, by decide, by unfold RowOK; decide⟩

example : IsUnique (rowLt 2 3) arrEx.rows (uniqueArr arrEx) ∧
    (uniqueArr arrEx).uniq = [[-1, 0, 0], [2, 1, 0], [1, 0, -1]] ∧
    (uniqueArr arrEx).inverse = [2, 0, 2, 1] :=
  ⟨C28_unique_partial arrEx_ok (by decide), by decide +kernel, by decide +kernel⟩

/-- For one column the order is the order of the integers. -/
theorem C28_one_column {a : Arr} (ha : a.OK) (hw : a.width = 1) :
    ((uniqueArr a).uniq.map (fun r => r.getD 0 0)).Pairwise (· < ·) := by
  have h := uniqueArr_parts ha
  rw [List.pairwise_map]
  refine List.Pairwise.imp_of_mem ?_ h.sorted
  intro r s hr hs hlt
  have key : ∀ r ∈ a.rows, collapseRow a.bytes 1 r = r.getD 0 0 := by
    intro r hr
    obtain ⟨h1, h2⟩ := ha.rows r hr
    rw [hw] at h1
    obtain ⟨x, rfl⟩ := List.length_eq_one_iff.1 h1
    have h3 := h2 x (by simp)
    have hb : dtypeBytes (a.bytes * 1) = a.bytes := by
      rcases ha.bytes with h | h | h | h <;> rw [h] <;> rfl
    simp only [collapseRow, hb, padWidth, Nat.sub_self, List.replicate_zero, List.append_nil,
      packDigits, Int.mul_zero, Int.add_zero, true_or, if_true]
    have h4 := Int.emod_bmod x (256 ^ a.bytes)
    push_cast at h4
    rw [h4]
    simp only [List.getD_cons_zero]
    apply Int.bmod_eq_of_le <;> push_cast <;> rcases ha.bytes with h | h | h | h <;>
      rw [h] at h3 ⊢ <;> omega
  have hb : ¬ a.bytes * 1 > 8 := by rcases ha.bytes with h | h | h | h <;> omega
  rw [rowLt, hw, if_neg hb, key r ((h.mem r).1 hr), key s ((h.mem s).1 hs)] at hlt
  exact hlt

example : ((uniqueArr ⟨2, 1, [[5], [-7], [5], [300]]⟩).uniq.map (fun r => r.getD 0 0)).Pairwise
    (· < ·) :=
  C28_one_column ⟨by decide, by decide, by unfold RowOK; decide⟩ rfl

/-- The order does not depend on the array: two arrays with the same rows in any order and any
multiplicity have the same list of distinct rows. -/
theorem C28_order {a b : Arr} (ha : a.OK) (hb : b.OK) (hk : a.bytes = b.bytes)
    (hw : a.width = b.width) (h : ∀ r, r ∈ a.rows ↔ r ∈ b.rows) :
    (uniqueArr a).uniq = (uniqueArr b).uniq := by
  have h1 := uniqueArr_parts ha
  have h2 := uniqueArr_parts hb
  rw [← hk, ← hw] at h2
  have hasymm : ∀ r s, rowLt a.bytes a.width r s → rowLt a.bytes a.width s r → False := by
    intro r s h3 h4
    unfold rowLt at h3 h4
    split_ifs at h3 h4
    · exact absurd h3 (lt_asymm h4)
    · omega
  have hp : (uniqueArr a).uniq.Perm (uniqueArr b).uniq :=
    (List.perm_ext_iff_of_nodup h1.nodup h2.nodup).2 (fun x => by rw [h1.mem, h2.mem, h])
  exact List.Perm.eq_of_pairwise (fun x y _ _ h3 h4 => (hasymm x y h3 h4).elim) h1.sorted
    h2.sorted hp

example : (uniqueArr arrEx).uniq =
    (uniqueArr ⟨2, 3, [[2, 1, 0], [-1, 0, 0], [2, 1, 0], [1, 0, -1]]⟩).uniq :=
  C28_order arrEx_ok ⟨by decide, by decide, by unfold RowOK; decide⟩ rfl rfl (by
    intro r; simp [arrEx]; tauto)

/-- Indexing of a `numpy` array along the first axis: negative numbers count from the end. -/
def pyGet {α : Type} (l : List α) (i : Int) : Option α :=
  if 0 ≤ i then l[i.toNat]? else if 0 ≤ l.length + i then l[(l.length + i).toNat]? else none

/-- `unique_charges[charge_labels, :]` (charge.py:98-102), which `BaseCharge.charges` computes
after `unique_charges` or `charge_labels` was used. -/
def reconstruct (o : UniqueOut) : List (Option (List Int)) := o.inverse.map (pyGet o.uniq)

/-- **C28**, second part: up to `32768` different charges the array is reconstructed. -/
theorem C28_reconstruct_partial {a : Arr} (ha : a.OK) (hn : a.rows.dedup.length ≤ 32768) :
    reconstruct (uniqueArr a) = a.rows.map some := by
  have h := C28_unique_partial ha hn
  apply List.ext_getElem?
  intro i
  simp only [reconstruct, List.getElem?_map]
  by_cases hi : i < a.rows.length
  · obtain ⟨j, h1, h2⟩ := h.inverse i hi
    rw [h1, Option.map_some, pyGet, if_pos (by omega), Int.toNat_natCast, h2,
      List.getElem?_eq_getElem hi, Option.map_some]
  · rw [List.getElem?_eq_none (by rw [h.inverse_length]; omega), List.getElem?_eq_none (by omega)]
    rfl

example : reconstruct (uniqueArr arrEx) = arrEx.rows.map some :=
  C28_reconstruct_partial arrEx_ok (by decide)

/-- **The claim is false for many charges**: with more than `32768` (and fewer than `65536`)
different rows, some labels overflow `np.int16`, and the charges reconstructed from the labels are
not the charges of the array. -/
theorem C28_labels_false {a : Arr} (ha : a.OK) (hn : 32768 < a.rows.dedup.length)
    (hn' : a.rows.dedup.length < 65536) : reconstruct (uniqueArr a) ≠ a.rows.map some := by
  intro hrec
  have h := uniqueArr_parts ha
  have hl := h.length
  have hlt : 32768 < (uniqueArr a).uniq.length := by omega
  obtain ⟨i, hi, hy⟩ := List.mem_iff_getElem.1 ((h.mem _).1 (List.getElem_mem hlt))
  obtain ⟨j, h1, h2⟩ := h.inverse i hi
  have hj : j = 32768 := by
    rw [List.getElem?_eq_getElem hi, hy, List.getElem?_eq_some_iff] at h2
    obtain ⟨h3, h4⟩ := h2
    exact (h.nodup.getElem_inj_iff).1 h4
  subst hj
  have h3 := congrArg (fun l => l[i]?) hrec
  simp only [reconstruct, List.getElem?_map, h1, Option.map_some, List.getElem?_eq_getElem hi]
    at h3
  have hw : wrap ((32768 : Nat) : Int) = -32768 := by decide
  rw [hw, pyGet, if_neg (by omega), if_pos (by omega), hy] at h3
  have h4 := Option.some.inj h3
  rw [List.getElem?_eq_some_iff] at h4
  obtain ⟨h5, h6⟩ := h4
  have := (h.nodup.getElem_inj_iff).1 h6
  omega

/-- An array with `n` different charges of one symmetry. -/
def arrOf (n : Nat) : Arr := ⟨2, 1, (List.range n).map (fun i : Nat => [(i : Int) - 20000])⟩

theorem arrOf_ok {n : Nat} (hn : n ≤ 50000) : (arrOf n).OK := by
  refine ⟨Or.inr (Or.inl rfl), Nat.one_pos, ?_⟩
  intro r hr
  obtain ⟨i, hi, rfl⟩ := List.mem_map.1 hr
  have hi := List.mem_range.1 hi
  refine ⟨rfl, fun x hx => ?_⟩
  rw [List.mem_singleton.1 hx]
  simp only [arrOf]
  omega

theorem arrOf_length (n : Nat) : (arrOf n).rows.dedup.length = n := by
  rw [List.dedup_eq_self.2]
  · simp [arrOf]
  · refine (List.nodup_range).map ?_
    intro x y h
    simpa using h

example : reconstruct (uniqueArr (arrOf 40000)) ≠ (arrOf 40000).rows.map some :=
  C28_labels_false (arrOf_ok (by norm_num)) (by rw [arrOf_length]; norm_num)
    (by rw [arrOf_length]; norm_num)

/-! ## Intersection -/

/-- What `intersect` promises. -/
structure IsIntersection (A B C : List (List Int)) (ia ib : List Nat) : Prop where
  nodup : C.Nodup
  mem : ∀ x, x ∈ C ↔ x ∈ A ∧ x ∈ B
  lengths : ia.length = C.length ∧ ib.length = C.length
  /-- the first positions in both arguments -/
  posA : ∀ (j i : Nat), ia[j]? = some i → A[i]? = C[j]? ∧ ∀ i' < i, A[i']? ≠ C[j]?
  posB : ∀ (j i : Nat), ib[j]? = some i → B[i]? = C[j]? ∧ ∀ i' < i, B[i']? ≠ C[j]?

theorem pos_transfer {β : Type} [DecidableEq β] {A : List (List Int)} {f : List Int → β}
    {g : β → List Int} (hg : ∀ r ∈ A, g (f r) = r) {C : List β}
    (hC : ∀ y ∈ C, y ∈ A.map f) (j i : Nat)
    (h : (C.map (fun y => (A.map f).idxOf y))[j]? = some i) :
    A[i]? = (C.map g)[j]? ∧ ∀ i' < i, A[i']? ≠ (C.map g)[j]? := by
  simp only [List.getElem?_map, Option.map_eq_some_iff] at h ⊢
  obtain ⟨y, hy, rfl⟩ := h
  have hyA := hC y (List.mem_of_getElem? hy)
  have hl := List.idxOf_lt_length_iff.2 hyA
  have hgy : f (g y) = y := by
    obtain ⟨r, hr, rfl⟩ := List.mem_map.1 hyA
    rw [hg r hr]
  constructor
  · rw [hy]
    have h1 : (A.map f)[(A.map f).idxOf y]? = some y := by
      rw [List.getElem?_eq_getElem hl, List.getElem_idxOf]
    rw [List.getElem?_map, Option.map_eq_some_iff] at h1
    obtain ⟨r, h1, rfl⟩ := h1
    rw [h1, Option.map_some, hg r (List.mem_of_getElem? h1)]
  · intro i' hi' h
    rw [hy, Option.map_some] at h
    have h1 : (A.map f)[i']? = some y := by
      rw [List.getElem?_map, h, Option.map_some, hgy]
    have h2 := List.not_of_lt_findIdx (p := (· == y)) (xs := A.map f) hi'
    obtain ⟨h3, h4⟩ := List.getElem?_eq_some_iff.1 h1
    rw [h4] at h2
    simp at h2

theorem intersect_transfer {β : Type} [LinearOrder β] {A B : List (List Int)} {f : List Int → β}
    {g : β → List Int} (hA : ∀ r ∈ A, g (f r) = r) (hB : ∀ r ∈ B, g (f r) = r) :
    IsIntersection A B ((intersect (A.map f) (B.map f)).1.map g)
      (intersect (A.map f) (B.map f)).2.1 (intersect (A.map f) (B.map f)).2.2 := by
  have hm := fun y => intersect_mem (A := A.map f) (B := B.map f) (x := y)
  have hgf : ∀ y ∈ (intersect (A.map f) (B.map f)).1, f (g y) = y := by
    intro y hy
    obtain ⟨r, hr, rfl⟩ := List.mem_map.1 ((hm y).1 hy).1
    rw [hA r hr]
  refine ⟨?_, ?_, by simp [intersect], ?_, ?_⟩
  · rw [List.nodup_map_iff_inj_on (intersect_nodup _ _)]
    intro x hx y hy h
    rw [← hgf x hx, ← hgf y hy, h]
  · intro x
    constructor
    · intro hx
      obtain ⟨y, hy, rfl⟩ := List.mem_map.1 hx
      obtain ⟨h1, h2⟩ := (hm y).1 hy
      obtain ⟨r, hr, rfl⟩ := List.mem_map.1 h1
      obtain ⟨s, hs, hsr⟩ := List.mem_map.1 h2
      have : s = r := by rw [← hB s hs, hsr, hA r hr]
      rw [hA r hr]
      exact ⟨hr, this ▸ hs⟩
    · rintro ⟨h1, h2⟩
      exact List.mem_map.2 ⟨f x, (hm _).2 ⟨List.mem_map_of_mem h1, List.mem_map_of_mem h2⟩,
        hA x h1⟩
  · intro j i h
    exact pos_transfer hA (fun y hy => ((hm y).1 hy).1) j i h
  · intro j i h
    exact pos_transfer hB (fun y hy => ((hm y).1 hy).2) j i h

/-- **C28** (`intersect`, rows).  For arrays of the same type and width `intersect` returns
exactly the common rows, each once, with the first positions in both arrays; otherwise it
raises. -/
theorem C28_intersect {a b : Arr} (ha : a.OK) (hb : b.OK) :
    (a.bytes = b.bytes ∧ a.width = b.width →
      ∃ C ia ib, intersectArr a b 0 = .ok (⟨a.bytes, a.width, C⟩, ia, ib) ∧
        IsIntersection a.rows b.rows C ia ib) ∧
    (¬ (a.bytes = b.bytes ∧ a.width = b.width) → intersectArr a b 0 = .error .valueError) := by
  constructor
  · rintro ⟨hk, hw⟩
    unfold intersectArr intersectRows
    rw [if_neg (by simpa using hk), if_neg (by decide), if_pos rfl, if_neg (by simpa using hk),
      if_neg (by simpa using hw)]
    by_cases h : a.bytes * a.width > 8
    · rw [if_pos h]
      refine ⟨_, _, _, rfl, ?_⟩
      have h1 := intersect_transfer (A := a.rows) (B := b.rows) (f := id) (g := id)
        (fun _ _ => rfl) (fun _ _ => rfl)
      rw [List.map_id, List.map_id, List.map_id] at h1
      exact h1
    · rw [if_neg h, ← hk, ← hw]
      refine ⟨_, _, _, rfl, ?_⟩
      exact intersect_transfer
        (fun r hr => expand_collapse ha.bytes ha.width (by omega) (ha.rows r hr))
        (fun r hr => expand_collapse ha.bytes ha.width (by omega)
          (by rw [hk, hw]; exact hb.rows r hr))
  · intro h
    unfold intersectArr intersectRows
    by_cases hk : a.bytes = b.bytes
    · have hw : a.width ≠ b.width := fun hw => h ⟨hk, hw⟩
      rw [if_neg (by simpa using hk), if_neg (by decide), if_pos rfl, if_neg (by simpa using hk),
        if_pos hw]
      rfl
    · rw [if_pos hk]

example : ∃ C ia ib, intersectArr arrEx ⟨2, 3, [[2, 1, 0], [7, 7, 7], [1, 0, -1]]⟩ 0 =
    .ok (⟨2, 3, C⟩, ia, ib) ∧
    IsIntersection arrEx.rows [[2, 1, 0], [7, 7, 7], [1, 0, -1]] C ia ib :=
  (C28_intersect arrEx_ok ⟨by decide, by decide, by unfold RowOK; decide⟩).1 ⟨rfl, rfl⟩

/-- The columns of an array. -/
def Arr.columns (a : Arr) : List (List Int) :=
  (List.range a.width).map (fun j => a.rows.map (fun r => r.getD j 0))

theorem Arr.T_ok {a : Arr} (ha : a.OK) (hne : a.rows ≠ []) : a.T.OK where
  bytes := ha.bytes
  width := by
    simp only [Arr.T]
    exact List.length_pos_iff.2 hne
  rows := by
    intro r hr
    obtain ⟨j, hj, rfl⟩ := List.mem_map.1 hr
    have hj := List.mem_range.1 hj
    refine ⟨by simp [Arr.T], fun x hx => ?_⟩
    obtain ⟨s, hs, rfl⟩ := List.mem_map.1 hx
    have h1 := ha.rows s hs
    rw [List.getD_eq_getElem _ _ (by rw [h1.1]; exact hj)]
    exact h1.2 _ (List.getElem_mem _)

/-- **C28** (`intersect`, columns).  With `axis=1` the columns of the result are exactly the common
columns. -/
theorem C28_intersect_columns {a b : Arr} (ha : a.OK) (hb : b.OK) (hk : a.bytes = b.bytes)
    (hne : a.rows ≠ []) (hl : a.rows.length = b.rows.length) :
    ∃ out ia ib, intersectArr a b 1 = .ok (out, ia, ib) ∧ out.rows.length = a.rows.length ∧
      IsIntersection a.columns b.columns out.columns ia ib := by
  have hneb : b.rows ≠ [] := by
    intro h; rw [h] at hl; exact hne (List.length_eq_zero_iff.1 hl)
  obtain ⟨C, ia, ib, h1, h2⟩ := (C28_intersect (Arr.T_ok ha hne) (Arr.T_ok hb hneb)).1
    ⟨hk, hl⟩
  have h3 : intersectRows a.T b.T = .ok (C, ia, ib) := by
    have hk' : a.T.bytes = b.T.bytes := hk
    unfold intersectArr at h1
    rw [if_neg (by simpa using hk'), if_neg (by decide), if_pos rfl] at h1
    cases h4 : intersectRows a.T b.T with
    | error e => rw [h4] at h1; simp [bind, Except.bind] at h1
    | ok v =>
      rw [h4] at h1
      simp only [bind, Except.bind, Except.ok.injEq, Prod.mk.injEq, Arr.mk.injEq] at h1
      obtain ⟨⟨_, _, h5⟩, h6⟩ := h1
      rw [← h5]
      exact congrArg _ (Prod.ext rfl h6)
  refine ⟨Arr.T ⟨a.bytes, a.rows.length, C⟩, ia, ib, ?_, by simp [Arr.T], ?_⟩
  · unfold intersectArr
    rw [if_neg (by simpa using hk), if_pos rfl, if_neg (by simpa using hl), h3]
    rfl
  · have hC : (Arr.T ⟨a.bytes, a.rows.length, C⟩).columns = C := by
      have hlen : ∀ c ∈ C, c.length = a.rows.length := by
        intro c hc
        have h4 := ((h2.mem c).1 hc).1
        obtain ⟨j, _, rfl⟩ := List.mem_map.1 h4
        simp
      apply List.ext_getElem
      · simp [Arr.columns, Arr.T]
      · intro j h5 h6
        have h7 : C[j].length = a.rows.length := hlen _ (List.getElem_mem h6)
        apply List.ext_getElem
        · simp [Arr.columns, Arr.T, h7]
        · intro i h8 h9
          simp only [Arr.columns, Arr.T, List.getElem_map, List.getElem_range]
          simp [h6, h9]
    rw [hC]
    exact h2

example : ∃ out ia ib, intersectArr ⟨2, 3, [[1, 2, 3], [4, 5, 6]]⟩ ⟨2, 2, [[3, 1], [6, 0]]⟩ 1 =
    .ok (out, ia, ib) ∧ out.rows.length = 2 ∧
    IsIntersection [[1, 4], [2, 5], [3, 6]] [[3, 6], [1, 0]] out.columns ia ib :=
  C28_intersect_columns (a := ⟨2, 3, [[1, 2, 3], [4, 5, 6]]⟩) (b := ⟨2, 2, [[3, 1], [6, 0]]⟩)
    ⟨by decide, by decide, by unfold RowOK; decide⟩
    ⟨by decide, by decide, by unfold RowOK; decide⟩ rfl (by simp) rfl

end TN.Bs
