import Verif.BsLegs
import Mathlib.Data.List.MinMax

/-!
# Partitions and strides (block_sparse/utils.py)
-/

set_option linter.unusedSectionVars false

namespace TN.Bs

/-- `np.min` of a list that is not empty. -/
def npMin : List Nat → Nat
  | [] => 0
  | [x] => x
  | x :: l => min x (npMin l)

/-- `np.argmax`: the first position of the largest entry. -/
def npArgmax (l : List Nat) : Nat := l.idxOf (l.foldr max 0)

/-- `|np.prod(dims[0:n]) - np.prod(dims[n::])|` -/
def imbalance (ds : List Nat) (n : Nat) : Nat :=
  ((ds.take n).prod - (ds.drop n).prod) + ((ds.drop n).prod - (ds.take n).prod)

/-- `_find_best_partition` (utils.py:137-162); `np.min` of an empty list raises `ValueError`.
Integers do not overflow here. -/
def bestPartition (ds : List Nat) : Py Nat :=
  if ds.length = 1 then .error .valueError
  else
    let diffs := (List.range (ds.length - 1)).map (fun k => imbalance ds (k + 1))
    if diffs = [] then .error .valueError
    else
      let minInds := (List.range diffs.length).filter (fun k => diffs.getD k 0 = npMin diffs)
      if 1 < minInds.length then
        let right := minInds.map (fun k => (ds.drop (k + 1)).prod)
        .ok (minInds.getD (npArgmax right) 0 + 1)
      else .ok (minInds.getD 0 0 + 1)

theorem npMin_mem {l : List Nat} (h : l ≠ []) : npMin l ∈ l := by
  induction l with
  | nil => exact absurd rfl h
  | cons x l ih =>
    cases l with
    | nil => simp [npMin]
    | cons y l =>
      have := ih (by simp)
      simp only [npMin]
      rcases min_choice x (npMin (y :: l)) with h | h <;> rw [h]
      · simp
      · exact List.mem_cons_of_mem _ this

theorem npMin_le {l : List Nat} {x : Nat} (h : x ∈ l) : npMin l ≤ x := by
  induction l with
  | nil => simp at h
  | cons y l ih =>
    cases l with
    | nil => simp at h; simp [npMin, h]
    | cons z l =>
      simp only [npMin]
      rcases List.mem_cons.1 h with rfl | h
      · exact min_le_left _ _
      · exact (min_le_right _ _).trans (ih h)

theorem npArgmax_lt {l : List Nat} (h : l ≠ []) : npArgmax l < l.length := by
  apply List.idxOf_lt_length_iff.2
  induction l with
  | nil => exact absurd rfl h
  | cons x l ih =>
    cases l with
    | nil => simp
    | cons y l =>
      have := ih (by simp)
      rw [List.foldr_cons]
      rcases max_choice x ((y :: l).foldr max 0) with h | h <;> rw [h]
      · simp
      · exact List.mem_cons_of_mem _ this

theorem npArgmax_max {l : List Nat} (h : l ≠ []) : ∀ x ∈ l, x ≤ l.getD (npArgmax l) 0 := by
  intro x hx
  have h1 := npArgmax_lt h
  have h2 : l.getD (npArgmax l) 0 = l.foldr max 0 := by
    rw [List.getD_eq_getElem?_getD, List.getElem?_eq_getElem h1, Option.getD_some]
    exact List.getElem_idxOf (x := l.foldr max 0) h1
  rw [h2]
  clear * - hx
  induction l with
  | nil => simp at hx
  | cons y l ih =>
    rw [List.foldr_cons]
    rcases List.mem_cons.1 hx with rfl | hx
    · exact le_max_left _ _
    · exact (ih hx).trans (le_max_right _ _)

/-- The best partition is an interior split that is as level as possible; among equally level
splits the one with the largest right part is chosen. -/
theorem bestPartition_spec {ds : List Nat} (h : 2 ≤ ds.length) :
    ∃ p, bestPartition ds = .ok p ∧ 0 < p ∧ p < ds.length ∧
      (∀ q, 0 < q → q < ds.length → imbalance ds p ≤ imbalance ds q) ∧
      (∀ q, 0 < q → q < ds.length → imbalance ds q = imbalance ds p →
        (ds.drop q).prod ≤ (ds.drop p).prod) := by
  obtain ⟨diffs, hd⟩ : ∃ d, d = (List.range (ds.length - 1)).map (fun k => imbalance ds (k + 1)) :=
    ⟨_, rfl⟩
  have hlen : diffs.length = ds.length - 1 := by simp [hd]
  have hne : diffs ≠ [] := by
    intro h0; rw [h0] at hlen; simp at hlen; omega
  have hget : ∀ k, k < ds.length - 1 → diffs.getD k 0 = imbalance ds (k + 1) := by
    intro k hk; simp [hd, List.getD_eq_getElem?_getD, hk]
  obtain ⟨M, hM⟩ : ∃ m, m = (List.range diffs.length).filter
    (fun k => decide (diffs.getD k 0 = npMin diffs)) := ⟨_, rfl⟩
  have hmem : ∀ k, k ∈ M ↔ k < ds.length - 1 ∧ imbalance ds (k + 1) = npMin diffs := by
    intro k
    rw [hM, List.mem_filter, List.mem_range, hlen, decide_eq_true_eq]
    constructor
    · rintro ⟨h1, h2⟩; exact ⟨h1, hget k h1 ▸ h2⟩
    · rintro ⟨h1, h2⟩; exact ⟨h1, (hget k h1).trans h2⟩
  have hle : ∀ q, 0 < q → q < ds.length → npMin diffs ≤ imbalance ds q := by
    intro q h0 hq
    refine npMin_le ?_
    rw [hd, List.mem_map]
    exact ⟨q - 1, by simp; omega, by rw [Nat.sub_add_cancel h0]⟩
  have hMne : M ≠ [] := by
    have := npMin_mem hne
    rw [hd, List.mem_map] at this
    obtain ⟨k, hk, hk2⟩ := this
    rw [← hd] at hk2
    have : k ∈ M := (hmem k).2 ⟨by simpa using hk, hk2⟩
    intro h0; rw [h0] at this; simp at this
  have key : ∀ k ∈ M, (∀ j ∈ M, (ds.drop (j + 1)).prod ≤ (ds.drop (k + 1)).prod) →
      0 < k + 1 ∧ k + 1 < ds.length ∧
      (∀ q, 0 < q → q < ds.length → imbalance ds (k + 1) ≤ imbalance ds q) ∧
      (∀ q, 0 < q → q < ds.length → imbalance ds q = imbalance ds (k + 1) →
        (ds.drop q).prod ≤ (ds.drop (k + 1)).prod) := by
    intro k hk hmax
    obtain ⟨h1, h2⟩ := (hmem k).1 hk
    refine ⟨by omega, by omega, fun q h0 hq => h2 ▸ hle q h0 hq, fun q h0 hq he => ?_⟩
    have := hmax (q - 1) ((hmem _).2 ⟨by omega, by rw [Nat.sub_add_cancel h0, he, h2]⟩)
    rwa [Nat.sub_add_cancel h0] at this
  rw [bestPartition, if_neg (by omega)]
  simp only [← hd]
  rw [if_neg hne]
  simp only [← hM]
  split_ifs with hc
  · refine ⟨_, rfl, key _ ?_ ?_⟩
    · have hlt := npArgmax_lt (l := M.map (fun k => (ds.drop (k + 1)).prod)) (by simpa using hMne)
      rw [List.length_map] at hlt
      rw [List.getD_eq_getElem?_getD, List.getElem?_eq_getElem hlt, Option.getD_some]
      exact List.getElem_mem hlt
    · intro j hj
      have hlt := npArgmax_lt (l := M.map (fun k => (ds.drop (k + 1)).prod)) (by simpa using hMne)
      have := npArgmax_max (l := M.map (fun k => (ds.drop (k + 1)).prod)) (by simpa using hMne)
        _ (List.mem_map_of_mem hj)
      rw [List.length_map] at hlt
      rw [List.getD_eq_getElem?_getD, List.getElem?_map, List.getElem?_eq_getElem hlt] at this
      rw [List.getD_eq_getElem?_getD, List.getElem?_eq_getElem hlt]
      simpa using this
  · obtain ⟨k, rfl⟩ : ∃ k, M = [k] := by
      rw [← List.length_eq_one_iff]
      have := List.length_pos_iff.2 hMne
      omega
    exact ⟨_, rfl, key _ (by simp) (by simp)⟩

theorem bestPartition_err {ds : List Nat} (h : ds.length ≤ 1) :
    bestPartition ds = .error .valueError := by
  rw [bestPartition]
  by_cases h1 : ds.length = 1
  · rw [if_pos h1]
  · rw [if_neg h1, if_pos (by simp; omega)]

/-! ## Strides -/

/-- `np.cumprod`, started with `a` -/
def cumprod : Nat → List Nat → List Nat
  | _, [] => []
  | a, x :: l => a * x :: cumprod (a * x) l

/-- `_get_strides` (utils.py:130-134), and `strides` in `_find_transposed_diagonal_sparse_blocks`
(blocksparse_utils.py:475). -/
def getStrides (ds : List Nat) : List Nat := (1 :: cumprod 1 ds.tail.reverse).reverse

/-- `fuse_stride_arrays` and `fuse_ndarrays` (utils.py:79-109): the positions `np.arange(0, s * d,
s)` are fused from left to right.  The strides are positive; `arrays[0]` of an empty list
raises. -/
def fuseStrides : List Nat → List Nat → Py (List Nat)
  | d :: ds, s :: ss =>
    .ok ((ds.zip ss).foldl (fun acc p => outerRavel (· + ·) acc ((List.range p.1).map (p.2 * ·)))
      ((List.range d).map (s * ·)))
  | _, _ => .error .indexError

/-- The row-major strides. -/
def rowMajor : List Nat → List Nat
  | [] => []
  | _ :: ds => ds.prod :: rowMajor ds

/-- Scalar product. -/
def dot : List Nat → List Nat → Nat
  | s :: ss, i :: is => s * i + dot ss is
  | _, _ => 0

theorem cumprod_append (a : Nat) (l : List Nat) (x : Nat) :
    cumprod a (l ++ [x]) = cumprod a l ++ [a * l.prod * x] := by
  induction l generalizing a with
  | nil => simp [cumprod]
  | cons y l ih => simp [cumprod, ih, Nat.mul_assoc]

theorem getStrides_eq {ds : List Nat} (h : ds ≠ []) : getStrides ds = rowMajor ds := by
  induction ds with
  | nil => exact absurd rfl h
  | cons d ds ih =>
    cases ds with
    | nil => rfl
    | cons e ds =>
      have h1 := ih (by simp)
      rw [getStrides, List.tail_cons] at h1
      rw [rowMajor, ← h1, getStrides, List.tail_cons, List.reverse_cons (a := e), cumprod_append]
      simp [List.prod_reverse, Nat.mul_comm]

theorem dot_rowMajor {ds i : List Nat} : dot (rowMajor ds) i = ravel ds i := by
  induction ds generalizing i with
  | nil => cases i <;> rfl
  | cons d ds ih =>
    cases i with
    | nil => rfl
    | cons a i => simp [rowMajor, dot, ravel, ih, Nat.mul_comm]

theorem fuseStrides_fold {ds ss : List Nat} (h : ds.length = ss.length) (acc : List Nat)
    (ds0 ss0 : List Nat) (h0 : ds0.length = ss0.length)
    (ha : acc = (grid ds0).map (dot ss0)) :
    (ds.zip ss).foldl (fun acc p => outerRavel (· + ·) acc ((List.range p.1).map (p.2 * ·))) acc =
      (grid (ds0 ++ ds)).map (dot (ss0 ++ ss)) := by
  induction ds generalizing ss acc ds0 ss0 with
  | nil =>
    have : ss = [] := List.length_eq_zero_iff.1 (by simpa using h.symm)
    subst this; simpa using ha
  | cons d ds ih =>
    cases ss with
    | nil => simp at h
    | cons s ss =>
      rw [List.zip_cons_cons, List.foldl_cons,
        ih (by simpa using h) _ (ds0 ++ [d]) (ss0 ++ [s]) (by simp [h0])]
      · simp
      · rw [ha, grid_append]
        simp only [outerRavel, List.flatMap_map, List.map_flatMap, List.map_map]
        apply List.flatMap_congr
        intro i hi
        have hl := (mem_grid.1 hi).length
        have hdot : ∀ (a b : List Nat) (x y : Nat), a.length = b.length →
            dot (a ++ [x]) (b ++ [y]) = dot a b + x * y := by
          intro a
          induction a with
          | nil => intro b x y hb; cases b with
            | nil => simp [dot]
            | cons => simp at hb
          | cons c a iha => intro b x y hb; cases b with
            | nil => simp at hb
            | cons e b => simp [dot, iha b x y (by simpa using hb), Nat.add_assoc]
        simp [grid_single, Function.comp_def, hdot ss0 i s _ (by omega)]

/-- `fuse_stride_arrays` lists, for all positions in row-major order, the scalar product with the
strides. -/
theorem fuseStrides_spec {ds ss : List Nat} (h : ds.length = ss.length) (hne : ds ≠ []) :
    fuseStrides ds ss = .ok ((grid ds).map (dot ss)) := by
  cases ds with
  | nil => exact absurd rfl hne
  | cons d ds =>
    cases ss with
    | nil => simp at h
    | cons s ss =>
      rw [fuseStrides, fuseStrides_fold (by simpa using h) _ [d] [s] rfl]
      · simp
      · simp [grid_single, Function.comp_def, dot]

/-- C46.  For all dimension lists with at least two entries `_find_best_partition` returns an
interior split, the most level one; with the strides of `_get_strides` `fuse_stride_arrays` counts
the dense positions in row-major order. -/
theorem C46_partition_strides (ds : List Nat) (h : 2 ≤ ds.length) :
    (∃ p, bestPartition ds = .ok p ∧ 0 < p ∧ p < ds.length ∧
      ∀ q, 0 < q → q < ds.length → imbalance ds p ≤ imbalance ds q) ∧
    fuseStrides ds (getStrides ds) = .ok (List.range ds.prod) := by
  constructor
  · obtain ⟨p, h1, h2, h3, h4, _⟩ := bestPartition_spec h
    exact ⟨p, h1, h2, h3, h4⟩
  · have hne : ds ≠ [] := by intro h0; simp [h0] at h
    have hl : ∀ ds : List Nat, (rowMajor ds).length = ds.length := by
      intro ds; induction ds with
      | nil => rfl
      | cons d ds ih => simp [rowMajor, ih]
    rw [getStrides_eq hne, fuseStrides_spec (hl ds).symm hne]
    congr 1
    apply List.ext_getElem
    · simp [grid_length]
    · intro k h1 h2
      have hk : k < ds.prod := by simpa using h2
      simp [grid_getElem, dot_rowMajor, ravel_unravel hk]

/-- Permuted strides: the linear position in the original array of every position of the
transposed one, as used by `reduce_charges`. -/
theorem C46_permuted_strides (ds ss : List Nat) (h : ds.length = ss.length) (hne : ds ≠ [])
    (i : List Nat) (hi : InB ds i) :
    ∃ l, fuseStrides ds ss = .ok l ∧ l.length = ds.prod ∧ l.getD (ravel ds i) 0 = dot ss i := by
  refine ⟨_, fuseStrides_spec h hne, by simp [grid_length], ?_⟩
  have hl : ravel ds i < (grid ds).length := by rw [grid_length]; exact ravel_lt hi
  simp [List.getD_eq_getElem?_getD, hl, grid_getElem, unravel_ravel hi]

example : bestPartition [2, 3, 6] = .ok 2 ∧ bestPartition [4, 1, 4] = .ok 1 := by decide
example : fuseStrides [2, 3] (getStrides [2, 3]) = .ok [0, 1, 2, 3, 4, 5] ∧
    fuseStrides [3, 2] [1, 3] = .ok [0, 3, 1, 4, 2, 5] := by decide

end TN.Bs
