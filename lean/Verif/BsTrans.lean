import Verif.BsBlocks
import Mathlib.Algebra.BigOperators.Group.List.Lemmas

/-!
# Diagonal blocks of a transposed tensor (block_sparse/blocksparse_utils.py)
-/

set_option linter.unusedSectionVars false

namespace TN.Bs

section
variable {Q : Type} [AddCommGroup Q] [LinearOrder Q]

/-- The entries `l[n]` for `n` in `order` (`[charges[n] for n in order]`). -/
def pick {α : Type} (order : List Nat) (l : List α) (d : α) : List α := order.map (fun n => l.getD n d)

/-- `a[mask] = np.arange(count)`, where `locs` are the positions at which the mask is true. -/
def fillRange (a : List Int) (locs : List Nat) : List Int :=
  locs.zipIdx.foldl (fun a p => a.set p.1 (p.2 : Int)) a

/-- The tables of `_find_transposed_diagonal_sparse_blocks` that refer to the original tensor
(blocksparse_utils.py:477-525): the number of stored elements in the rows above, and the position
of a column among those of its charge.  `none` if there are no blocks.  Entries of `np.empty` that
are never set are zero here. -/
def origTables (argsort : List Nat → List Nat) (legs : List (Leg Q)) :
    Py (Option (Nat × List Nat × List Int)) := do
  let ds := legs.map (fun l => l.1.dim)
  let op ← bestPartition ds
  let width := (ds.drop op).prod
  let uRow ← uniqueFused (legs.take op)
  let col ← fusedDegens argsort (flipFlows (legs.drop op))
  let i := intersect uRow.uniq col.1.uniq
  let num := i.1.length
  if num = 0 then pure none
  else do
    let rowInd ← fuseCharges (legs.take op)
    let colInd ← fuseCharges (flipFlows (legs.drop op))
    let inv := scatter uRow.uniq.length i.2.1
    let degs := i.2.2.map (fun k => col.2.getD k 0)
    let allDegens := rowInd.labels.map (fun l =>
      let k := inv.getD l 0
      -- `np.append(.., 0)[k]` with `k = -1` for charges that are not in a block
      if k < 0 then 0 else degs.getD k.toNat 0)
    let cumul := cumsum 0 (0 :: allDegens.dropLast)
    let dts := i.2.2.foldl (fun a m => fillRange a
      ((List.range colInd.labels.length).filter (fun k => colInd.labels.getD k 0 = m)))
      (List.replicate width 0)
    pure (some (width, cumul, dts))

/-- `all_cumul_degens[row] + dense_to_sparse[col]` -/
def lookup (cumul : List Nat) (dts : List Int) (row col : Nat) : Nat :=
  cumul.getD row 0 + (dts.getD col 0).toNat

/-- The locations in `r` whose label is `n` (`row_locs[row_ind.charge_labels == n]`). -/
def select (r : Charge Q × List Nat) (n : Nat) : List Nat :=
  ((List.range r.1.labels.length).filter (fun k => r.1.labels.getD k 0 = n)).map
    (fun k => r.2.getD k 0)

/-- The second half of `_find_transposed_diagonal_sparse_blocks` (blocksparse_utils.py:527-630):
the blocks of the legs `new` with strides `ns` in the original tensor.  `np.array([[1], degens])`
needs two rows of the same length. -/
def transposedMaps (argsort : List Nat → List Nat) (new : List (Leg Q)) (ns : List Nat) (p : Nat)
    (width : Nat) (cumul : List Nat) (dts : List Int) : Py (Blocks Q) :=
  if p = 0 then do
    let col ← fusedDegens argsort (flipFlows (new.drop p))
    let i := intersect [0] col.1.uniq
    let r ← reduceCharges (flipFlows (new.drop p)) i.1 (some (ns.drop p))
    if i.1.length = 1 then
      pure ⟨[(select r 0).map (fun x => lookup cumul dts (x / width) (x % width))],
        .lab i.1 (List.range i.1.length), [1], i.2.2.map (fun k => col.2.getD k 0)⟩
    else .error .valueError
  else if p = new.length then do
    let row ← fusedDegens argsort (new.take p)
    let i := intersect row.1.uniq [0]
    let r ← reduceCharges (new.take p) i.1 (some (ns.take p))
    if i.1.length = 1 then
      pure ⟨[(select r 0).map (fun x => lookup cumul dts (x / width) (x % width))],
        .lab i.1 (List.range i.1.length), i.2.1.map (fun k => row.2.getD k 0), [1]⟩
    else .error .valueError
  else do
    let row ← fusedDegens argsort (new.take p)
    let col ← fusedDegens argsort (flipFlows (new.drop p))
    let i := intersect row.1.uniq col.1.uniq
    let rl ← reduceCharges (new.take p) i.1 (some (ns.take p))
    let cl ← reduceCharges (flipFlows (new.drop p)) i.1 (some (ns.drop p))
    pure ⟨(List.range i.1.length).map (fun n =>
        outerRavel (fun x y => lookup cumul dts (x / width + y / width) (x % width + y % width))
          (select rl n) (select cl n)),
      .lab i.1 (List.range i.1.length), i.2.1.map (fun k => row.2.getD k 0),
      i.2.2.map (fun k => col.2.getD k 0)⟩

/-- `_find_transposed_diagonal_sparse_blocks` (blocksparse_utils.py:430-634) without the cache.
`order` is a list of all legs; `None` is the trivial order. -/
def findTransposed (argsort : List Nat → List Nat) (legs : List (Leg Q)) (p : Nat)
    (order : List Nat) : Py (Blocks Q) :=
  if order = List.range legs.length then findDiagonal argsort legs p
  else do
    let strides := getStrides (legs.map (fun l => l.1.dim))
    match ← origTables argsort legs with
    | none => pure ⟨[], .lab [] [], [], []⟩
    | some (width, cumul, dts) =>
      transposedMaps argsort (pick order legs (.raw [], false)) (pick order strides 0) p width cumul dts

/-! ## The tables -/

theorem fillRange_length (a : List Int) (locs : List Nat) : (fillRange a locs).length = a.length := by
  rw [fillRange]
  generalize locs.zipIdx = z
  induction z generalizing a with
  | nil => rfl
  | cons x z ih => rw [List.foldl_cons, ih]; simp

theorem fillRange_getD {a : List Int} {locs : List Nat} {i : Nat} (hi : i < a.length) (hn : locs.Nodup) :
    (fillRange a locs).getD i 0 = if i ∈ locs then ((locs.idxOf i : Nat) : Int) else a.getD i 0 := by
  rw [fillRange, scatter_aux _ _ _ _ hi hn]
  simp

theorem fill_all (labels : List Nat) (ms : List Nat) (a : List Int) (hl : labels.length = a.length)
    (k : Nat) (hk : k < a.length) :
    (ms.foldl (fun a m => fillRange a
      ((List.range labels.length).filter (fun k => labels.getD k 0 = m))) a).getD k 0 =
      if labels.getD k 0 ∈ ms then
        (((List.range labels.length).filter (fun j => labels.getD j 0 = labels.getD k 0)).idxOf k : Int)
      else a.getD k 0 := by
  induction ms generalizing a with
  | nil => simp
  | cons m ms ih =>
    rw [List.foldl_cons, ih _ (by rw [fillRange_length]; exact hl) (by rw [fillRange_length]; exact hk)]
    have hnd : ((List.range labels.length).filter (fun k => decide (labels.getD k 0 = m))).Nodup :=
      List.nodup_range.filter _
    rw [fillRange_getD hk hnd]
    by_cases h1 : labels.getD k 0 ∈ ms
    · rw [if_pos h1, if_pos (List.mem_cons_of_mem _ h1)]
    · rw [if_neg h1]
      by_cases h2 : labels.getD k 0 = m
      · rw [if_pos (by rw [List.mem_filter]; exact ⟨by simp; omega, by simpa using h2⟩),
          if_pos (List.mem_cons.2 (Or.inl h2)), h2]
      · rw [if_neg (by rw [List.mem_filter]; rintro ⟨_, h3⟩; exact h2 (by simpa using h3)),
          if_neg (by simp only [List.mem_cons, not_or]; exact ⟨h2, h1⟩)]

/-- The unique charges of a fusion of several legs are sorted. -/
theorem uniqueFused_uniq {legs : List (Leg Q)} (h : LegsWF legs) {r c : Charge Q}
    (hr : uniqueFused legs = .ok r) (hc : fuseCharges legs = .ok c) : r.uniq = c.uniq := by
  have hne : legs ≠ [] := by rintro rfl; simp [fuseCharges] at hc
  obtain ⟨r', h1, h2, _, h4⟩ := uniqueFused_spec h hne
  obtain ⟨c', k1, k2, k3⟩ := fuseCharges_spec h hne
  rw [hr] at h1; rw [hc] at k1
  simp only [Except.ok.injEq] at h1 k1
  subst h1 k1
  match legs, hr, hc with
  | [l], hr, hc =>
    simp only [uniqueFused, fuseCharges, List.foldl_nil, Except.ok.injEq] at hr hc
    subst hr hc
    exact (Charge.uniqueC_spec k2).2.1
  | l :: m :: ls, hr, hc =>
    have hraw : ∀ (ls : List (Leg Q)) (x : Charge Q), ∃ cs,
        (ls ++ [m]).foldl (fun acc m => acc.add (m.1.dual m.2)) x = .raw cs := by
      intro ls x
      rw [List.foldl_append]
      exact ⟨_, rfl⟩
    have hsort : ∀ (ls : List (Leg Q)) (x : Charge Q), ls ≠ [] → ∃ cs,
        ls.foldl (fun acc m => acc.add (m.1.dual m.2)) x = .raw cs := by
      intro ls x hls
      obtain ⟨ls', y, rfl⟩ := List.eq_nil_or_concat ls |>.resolve_left hls
      rw [List.concat_eq_append, List.foldl_append]
      exact ⟨_, rfl⟩
    have hsort2 : ∀ (ls : List (Leg Q)) (x : Charge Q), ls ≠ [] → ∃ cs,
        (ls.foldl (fun acc m => (acc.add (m.1.uniqueC.1.dual m.2)).uniqueC.1) x).uniq =
          npUnique cs := by
      intro ls x hls
      obtain ⟨ls', y, rfl⟩ := List.eq_nil_or_concat ls |>.resolve_left hls
      rw [List.concat_eq_append, List.foldl_append]
      exact ⟨_, rfl⟩
    simp only [uniqueFused, fuseCharges, Except.ok.injEq] at hr hc
    obtain ⟨cs, e1⟩ := hsort (m :: ls) (l.1.dual l.2) (by simp)
    obtain ⟨cs2, e2⟩ := hsort2 (m :: ls) (l.1.dual l.2).uniqueC.1 (by simp)
    rw [hc] at e1
    rw [hr] at e2
    subst e1
    rw [e2]
    refine npUnique_eq (npUnique_lt _) (fun x => ?_)
    rw [← mem_npUnique (l := cs2), ← e2, h4, ← k3]
    exact mem_npUnique

/-- `fusedDegens` lists the unique charges in the same order as the labels of `fuse_charges`. -/
theorem fusedDegens_uniq {argsort : List Nat → List Nat} {legs : List (Leg Q)} (h : LegsWF legs)
    {r : Charge Q × List Nat} {c : Charge Q} (ha : ArgsortOK argsort)
    (hr : fusedDegens argsort legs = .ok r) (hc : fuseCharges legs = .ok c) : r.1.uniq = c.uniq := by
  have hne : legs ≠ [] := by rintro rfl; simp [fuseCharges] at hc
  obtain ⟨r', h1, hd⟩ := fusedDegens_spec ha h hne
  obtain ⟨c', k1, k2, k3⟩ := fuseCharges_spec h hne
  rw [hr] at h1; rw [hc] at k1
  simp only [Except.ok.injEq] at h1 k1
  subst h1 k1
  match legs, hr, hc with
  | [l], hr, hc =>
    simp only [fusedDegens, fuseCharges, List.foldl_nil, Except.ok.injEq] at hr hc
    subst hr hc
    exact (Charge.uniqueC_spec k2).2.1
  | l :: m :: ls, hr, hc =>
    rw [fusedDegens.eq_2 (x := by intro l hl; simp at hl)] at hr
    split_ifs at hr with hp
    · rw [hc] at hr
      simp only [bind, Except.bind, pure, Except.pure, Except.ok.injEq] at hr
      subst hr
      exact (Charge.uniqueC_spec k2).2.1
    · simp only [py_bind_ok, py_pure_ok] at hr
      obtain ⟨p, _, left, _, right, _, rfl⟩ := hr
      have hraw : ∃ cs, c = .raw cs := by
        obtain ⟨ls', y, e⟩ := List.eq_nil_or_concat (m :: ls) |>.resolve_left (by simp)
        rw [fuseCharges, e, List.concat_eq_append, List.foldl_append] at hc
        simp only [Except.ok.injEq] at hc
        exact ⟨_, hc.symm⟩
      obtain ⟨cs, rfl⟩ := hraw
      obtain ⟨cs2, e2⟩ : ∃ cs2, (combineDegens argsort left.uniqueC right.uniqueC).1.uniq =
          npUnique cs2 := ⟨_, rfl⟩
      rw [e2]
      refine npUnique_eq (npUnique_lt _) (fun x => ?_)
      rw [← mem_npUnique (l := cs2), ← e2, hd.mem, ← k3]
      exact mem_npUnique

/-- The tables give the position in the data vector of every stored element. -/
theorem origTables_spec {argsort : List Nat → List Nat} (ha : ArgsortOK argsort)
    {legs : List (Leg Q)} (h : LegsWF legs) (hl : 2 ≤ legs.length) :
    ∃ tab op, origTables argsort legs = .ok tab ∧ 0 < op ∧ op < legs.length ∧
      match tab with
      | none => stored (eff legs) = []
      | some (width, cumul, dts) =>
        stored (eff legs) ≠ [] ∧
        width = ((dims (eff legs)).drop op).prod ∧
        ∀ i, i ∈ stored (eff legs) →
          lookup cumul dts (ravel ((dims (eff legs)).take op) (i.take op))
            (ravel ((dims (eff legs)).drop op) (i.drop op)) = (stored (eff legs)).idxOf i := by
  obtain ⟨p, h1, h2, h3, _⟩ := bestPartition_spec (ds := legs.map (fun l => l.1.dim))
    (by simpa using hl)
  rw [List.length_map] at h3
  have hwA : LegsWF (legs.take p) := fun l hl => h l (List.mem_of_mem_take hl)
  have hwB : LegsWF (legs.drop p) := fun l hl => h l (List.mem_of_mem_drop hl)
  have hneA : legs.take p ≠ [] := by
    intro h0; have := congrArg List.length h0
    rw [List.length_take, List.length_nil] at this
    omega
  have hneB : flipFlows (legs.drop p) ≠ [] := by
    intro h0; have := congrArg List.length h0; simp [flipFlows] at this; omega
  obtain ⟨A, hA⟩ : ∃ A, A = eff (legs.take p) := ⟨_, rfl⟩
  obtain ⟨B, hB⟩ : ∃ B, B = eff (legs.drop p) := ⟨_, rfl⟩
  have hAB : eff legs = A ++ B := by rw [hA, hB, ← eff_append, List.take_append_drop]
  have hAl : A.length = p := by rw [hA]; simp [eff]; omega
  obtain ⟨uRow, u1, u2, u3, u4⟩ := uniqueFused_spec hwA hneA
  obtain ⟨col, c1, cd⟩ := fusedDegens_spec ha (flipFlows_wf hwB) hneB
  obtain ⟨rowInd, r1, r2, r3⟩ := fuseCharges_spec hwA hneA
  obtain ⟨colInd, d1, d2, d3⟩ := fuseCharges_spec (flipFlows_wf hwB) hneB
  have hur := uniqueFused_uniq hwA u1 r1
  have huc := fusedDegens_uniq (flipFlows_wf hwB) ha c1 d1
  rw [← hA] at u4 r3
  have hcolc : ∀ q, (fuseL (eff (flipFlows (legs.drop p)))).count q = (colsOf B q).length := by
    intro q; rw [count_fuseL, hB, colsOf_eq hwB]
  have hcol : ∀ q, q ∈ fuseL (eff (flipFlows (legs.drop p))) ↔ colsOf B q ≠ [] := by
    intro q; rw [mem_fuseL, hB, colsOf_eq hwB]
  obtain ⟨qs, hqs⟩ : ∃ qs, qs = (intersect uRow.uniq col.1.uniq).1 := ⟨_, rfl⟩
  have hi1 : (intersect uRow.uniq col.1.uniq).2.1 = qs.map (fun x => uRow.uniq.idxOf x) := by
    rw [hqs]; rfl
  have hi2 : (intersect uRow.uniq col.1.uniq).2.2 = qs.map (fun x => col.1.uniq.idxOf x) := by
    rw [hqs]; rfl
  have hqm : ∀ q, q ∈ qs ↔ rowsOf A q ≠ [] ∧ colsOf B q ≠ [] := by
    intro q; rw [hqs, intersect_mem, u4, cd.mem, hcol, mem_fuseL]
  have hqn : qs.Nodup := hqs ▸ intersect_nodup _ _
  -- the stored elements
  have hst : ∀ i, i ∈ stored (A ++ B) ↔ ∃ r c, i = r ++ c ∧ r ∈ grid (dims A) ∧
      c ∈ colsOf B (total A r) := by
    intro i
    rw [stored_append, List.mem_flatMap]
    constructor
    · rintro ⟨r, hr, hi⟩
      obtain ⟨c, hc, rfl⟩ := List.mem_map.1 hi
      exact ⟨r, c, rfl, hr, hc⟩
    · rintro ⟨r, c, rfl, hr, hc⟩
      exact ⟨r, hr, List.mem_map.2 ⟨c, hc, rfl⟩⟩
  have hrow : ∀ r ∈ grid (dims A), rowsOf A (total A r) ≠ [] := by
    intro r hr h0
    have : r ∈ rowsOf A (total A r) := by rw [rowsOf, List.mem_filter]; exact ⟨hr, by simp⟩
    rw [h0] at this; simp at this
  by_cases hq0 : qs = []
  · refine ⟨none, p, ?_, h2, h3, ?_⟩
    · rw [origTables]
      simp only [h1, u1, c1, bind, Except.bind, ← hqs, hq0]
      rfl
    · rw [hAB, List.eq_nil_iff_forall_not_mem]
      intro i hi
      obtain ⟨r, c, rfl, hr, hc⟩ := (hst i).1 hi
      have : total A r ∈ qs := (hqm _).2 ⟨hrow r hr, List.ne_nil_of_mem hc⟩
      rw [hq0] at this; simp at this
  · obtain ⟨cumul, hcum⟩ : ∃ c, c = cumsum 0 (0 :: ((rowInd.labels.map (fun l =>
      if (scatter uRow.uniq.length (intersect uRow.uniq col.1.uniq).2.1).getD l 0 < 0 then 0 else
        ((intersect uRow.uniq col.1.uniq).2.2.map (fun k => col.2.getD k 0)).getD
          ((scatter uRow.uniq.length (intersect uRow.uniq col.1.uniq).2.1).getD l 0).toNat 0))).dropLast) :=
      ⟨_, rfl⟩
    obtain ⟨dts, hdts⟩ : ∃ d, d = (intersect uRow.uniq col.1.uniq).2.2.foldl (fun a m => fillRange a
      ((List.range colInd.labels.length).filter (fun k => colInd.labels.getD k 0 = m)))
      (List.replicate ((legs.map (fun l => l.1.dim)).drop p).prod 0) := ⟨_, rfl⟩
    have hdd : ((legs.map (fun l => l.1.dim)).drop p) = (dims (eff legs)).drop p := by rw [dims_eff]
    refine ⟨some (((dims (eff legs)).drop p).prod, cumul, dts), p, ?_, h2, h3, ?_, rfl, ?_⟩
    · rw [origTables]
      simp only [h1, u1, c1, r1, d1, bind, Except.bind, ← hqs]
      rw [if_neg (by simpa using hq0), hcum, hdts, hdd]
      rfl
    · obtain ⟨q, hq⟩ := List.exists_mem_of_ne_nil _ hq0
      obtain ⟨k1, k2⟩ := (hqm q).1 hq
      obtain ⟨r, hr⟩ := List.exists_mem_of_ne_nil _ k1
      obtain ⟨c, hc⟩ := List.exists_mem_of_ne_nil _ k2
      have hr1 := (List.mem_filter.1 hr).1
      have hr2 : total A r = q := by simpa using (List.mem_filter.1 hr).2
      have : r ++ c ∈ stored (A ++ B) := (hst _).2 ⟨r, c, rfl, hr1, by rw [hr2]; exact hc⟩
      rw [hAB]
      exact List.ne_nil_of_mem this
    · have hdims : dims (eff legs) = dims A ++ dims B := by rw [hAB]; simp [dims]
      have hdl : (dims A).length = p := by simpa using hAl
      intro i hi
      rw [hAB] at hi
      obtain ⟨r, c, rfl, hr, hc⟩ := (hst i).1 hi
      have hrl : r.length = p := by rw [(mem_grid.1 hr).length, hdl]
      have hcB : c ∈ grid (dims B) := (List.mem_filter.1 hc).1
      rw [hdims, ← hdl, List.take_left, List.drop_left, hdl, ← hrl, List.take_left, List.drop_left,
        hAB, stored_idxOf (mem_grid.1 hr) hc, lookup]
      have hrowlab : rowInd.labels.map (fun l =>
        if (scatter uRow.uniq.length (intersect uRow.uniq col.1.uniq).2.1).getD l 0 < 0 then 0 else
          ((intersect uRow.uniq col.1.uniq).2.2.map (fun k => col.2.getD k 0)).getD
            ((scatter uRow.uniq.length (intersect uRow.uniq col.1.uniq).2.1).getD l 0).toNat 0) =
          (grid (dims A)).map (fun i => (colsOf B (total A i)).length) := by
        rw [Charge.labels_eq r2, r3, fuseL, List.map_map, List.map_map]
        apply List.map_congr_left
        intro x hx
        have hxq : total A x ∈ uRow.uniq := (u4 _).2 (mem_fuseL.2 (hrow x hx))
        have hsc := Charge.scatter_labels (u := uRow.uniq) (C := qs) (n := uRow.uniq.length) hqn
          (fun y hy => (u4 _).2 (mem_fuseL.2 ((hqm y).1 hy).1)) (le_refl _) hxq
        simp only [Function.comp_apply]
        rw [← hur, hi1, hsc]
        by_cases hxm : total A x ∈ qs
        · have hlt := List.idxOf_lt_length_iff.2 hxm
          rw [if_pos hxm, if_neg (by omega), Int.toNat_natCast, hi2, List.map_map,
            List.getD_eq_getElem?_getD, List.getElem?_map, List.getElem?_eq_getElem hlt,
            List.getElem_idxOf]
          simp only [Option.map_some, Option.getD_some, Function.comp_apply]
          rw [degens_getD cd, hcolc]
          rw [cd.mem, hcol]; exact ((hqm _).1 hxm).2
        · rw [if_neg hxm, if_pos (by simp)]
          have : colsOf B (total A x) = [] := by
            by_contra h0; exact hxm ((hqm _).2 ⟨hrow x hx, h0⟩)
          simp [this]
      have hcq : total A r ∈ qs := (hqm _).2 ⟨hrow r hr, List.ne_nil_of_mem hc⟩
      congr 1
      · have hpc := pre_cumsum (fun i => (colsOf B (total A i)).length) (grid (dims A)) r hr 0
        rw [grid_idxOf (mem_grid.1 hr), Nat.zero_add] at hpc
        rw [hcum, hrowlab, cumsum, Nat.add_zero, hpc]
      · have hcl : colInd.charges = (grid (dims B)).map
            (fun j => total (eff (flipFlows (legs.drop p))) j) := by
          rw [d3, fuseL]
          have hd : dims (eff (flipFlows (legs.drop p))) = dims B := by
            rw [dims_eff, hB, dims_eff]; simp [flipFlows, Function.comp_def]
          rw [hd]
        have htot : ∀ j ∈ grid (dims B), total (eff (flipFlows (legs.drop p))) j = - total B j := by
          intro j hj
          rw [eff_flip hwB, total_neg _ _ (by rw [← hB]; exact mem_grid.1 hj), hB]
        have hlabl : colInd.labels = (grid (dims B)).map (fun j => col.1.uniq.idxOf (- total B j)) := by
          rw [Charge.labels_eq d2, hcl, List.map_map]
          apply List.map_congr_left
          intro j hj
          simp only [Function.comp_apply]
          rw [htot j hj, huc]
        have hlen : colInd.labels.length = (grid (dims B)).length := by rw [hlabl, List.length_map]
        have hw : ((legs.map (fun l => l.1.dim)).drop p).prod = (grid (dims B)).length := by
          rw [grid_length, hdd, hdims, ← hdl, List.drop_left]
        have hk : ravel (dims B) c < (grid (dims B)).length := by
          rw [grid_length]; exact ravel_lt (mem_grid.1 hcB)
        have hgk : (grid (dims B))[ravel (dims B) c] = c := by
          rw [grid_getElem, unravel_ravel (mem_grid.1 hcB)]
        rw [hdts, fill_all _ _ _ (by rw [List.length_replicate, hlen, hw]) _
          (by rw [List.length_replicate, hw]; exact hk)]
        have hlabc : colInd.labels.getD (ravel (dims B) c) 0 = col.1.uniq.idxOf (- total B c) := by
          rw [hlabl, List.getD_eq_getElem?_getD, List.getElem?_map, List.getElem?_eq_getElem hk, hgk]
          rfl
        have hcc : - total B c = total A r := by
          have : total A r + total B c = 0 := by simpa using (List.mem_filter.1 hc).2
          exact (eq_neg_of_add_eq_zero_left this).symm
        rw [hlabc, hcc, hi2, if_pos (List.mem_map_of_mem hcq), hlen]
        have hcu : ∀ j ∈ grid (dims B), - total B j ∈ col.1.uniq := by
          intro j hj
          rw [cd.mem, ← d3, hcl, ← htot j hj]
          exact List.mem_map_of_mem hj
        have hfl : (List.range (grid (dims B)).length).filter
            (fun j => decide (colInd.labels.getD j 0 = col.1.uniq.idxOf (total A r))) =
            (List.range (grid (dims B)).length).filter
              (fun j => decide (total A r + total B ((grid (dims B)).getD j default) = 0)) := by
          apply List.filter_congr
          intro k hk1
          have hk2 : k < (grid (dims B)).length := by simpa using hk1
          rw [hlabl, List.getD_eq_getElem?_getD, List.getElem?_map, List.getElem?_eq_getElem hk2,
            List.getD_eq_getElem _ _ hk2]
          simp only [Option.map_some, Option.getD_some, decide_eq_decide]
          have hm := hcu _ (List.getElem_mem hk2)
          rw [List.idxOf_inj hm]
          constructor
          · intro h0; rw [← h0]; abel
          · intro h0; exact (eq_neg_of_add_eq_zero_left h0).symm
        rw [hfl]
        have hfr := filter_range_map (grid (dims B)) (grid_nodup _)
          (fun j => decide (total A r + total B j = 0)) id
        rw [List.map_id] at hfr
        rw [hfr, show (grid (dims B)).filter (fun j => decide (total A r + total B j = 0)) =
          colsOf B (total A r) from rfl]
        rw [← grid_idxOf (mem_grid.1 hcB)]
        simp only [id]
        rw [Charge.idxOf_map_inj (f := fun x => (grid (dims B)).idxOf x)]
        · simp
        · intro y hy hyc
          exact (List.idxOf_inj (List.mem_filter.1 hy).1).1 hyc

/-! ## Permuted multi-indices -/

theorem total_map {ι : Type} (ls : List ι) (F : ι → List Q) (σ : ι → Nat) :
    total (ls.map F) (ls.map σ) = (ls.map (fun a => (F a).getD (σ a) 0)).sum := by
  induction ls with
  | nil => rfl
  | cons a ls ih => simp only [List.map_cons, total, List.sum_cons, ih]

theorem map_range_getD {α : Type} (l : List α) (d : α) :
    (List.range l.length).map (fun k => l.getD k d) = l := by
  apply List.ext_getElem
  · simp
  · intro k h1 h2; simp [h2]

theorem unperm_map {order j : List Nat} {n : Nat} (ho : order.Perm (List.range n)) (hj : j.length = n) :
    order.map (fun a => (unperm order j).getD a 0) = j := by
  have hol : order.length = n := by simpa using ho.length_eq
  have hon : order.Nodup := ho.nodup_iff.2 List.nodup_range
  apply List.ext_getElem
  · simp [hol, hj]
  · intro k h1 h2
    have hk : k < order.length := by omega
    have hlt : order[k] < order.length := by
      have := ho.mem_iff.1 (List.getElem_mem hk); rw [hol]; simpa using this
    simp only [List.getElem_map, unperm]
    rw [List.getD_eq_getElem?_getD, List.getElem?_map, List.getElem?_range hlt]
    simp only [Option.map_some, Option.getD_some]
    rw [List.Nodup.idxOf_getElem hon, List.getD_eq_getElem _ _ h2]

theorem unperm_length (order j : List Nat) : (unperm order j).length = order.length := by simp [unperm]

theorem unperm_inB {order j : List Nat} {L : List (List Q)} (ho : order.Perm (List.range L.length)) :
    InB (dims (permL order L)) j ↔ j.length = L.length ∧ InB (dims L) (unperm order j) := by
  have hol : order.length = L.length := by simpa using ho.length_eq
  constructor
  · intro h
    have hj : j.length = L.length := by have := h.length; simpa [permL, hol] using this
    refine ⟨hj, ?_⟩
    have e1 : dims (permL order L) = order.map (fun a => (L.getD a []).length) := by
      simp [dims, permL, Function.comp_def]
    rw [e1, ← unperm_map ho hj, inB_map] at h
    have e2 : dims L = (List.range L.length).map (fun a => (L.getD a []).length) := by
      conv_lhs => rw [← map_range_getD L []]
      simp [dims, Function.comp_def]
    have e3 : unperm order j = (List.range L.length).map (fun a => (unperm order j).getD a 0) := by
      conv_lhs => rw [← map_range_getD (unperm order j) 0, unperm_length, hol]
    rw [e2, e3, inB_map]
    intro a hal
    exact h a (ho.mem_iff.2 hal)
  · rintro ⟨hj, h⟩
    have e1 : dims (permL order L) = order.map (fun a => (L.getD a []).length) := by
      simp [dims, permL, Function.comp_def]
    rw [e1, ← unperm_map ho hj, inB_map]
    have e2 : dims L = (List.range L.length).map (fun a => (L.getD a []).length) := by
      conv_lhs => rw [← map_range_getD L []]
      simp [dims, Function.comp_def]
    have e3 : unperm order j = (List.range L.length).map (fun a => (unperm order j).getD a 0) := by
      conv_lhs => rw [← map_range_getD (unperm order j) 0, unperm_length, hol]
    rw [e2, e3, inB_map] at h
    intro a hal
    exact h a (ho.mem_iff.1 hal)

theorem total_unperm {order j : List Nat} {L : List (List Q)} (ho : order.Perm (List.range L.length))
    (hj : j.length = L.length) : total (permL order L) j = total L (unperm order j) := by
  have hol : order.length = L.length := by simpa using ho.length_eq
  have e3 : unperm order j = (List.range L.length).map (fun a => (unperm order j).getD a 0) := by
    conv_lhs => rw [← map_range_getD (unperm order j) 0, unperm_length, hol]
  conv_lhs => rw [← unperm_map ho hj]
  conv_rhs => rw [← map_range_getD L [], e3]
  rw [permL, total_map, total_map]
  exact (ho.map _).sum_eq

/-- Transposing maps stored elements to stored elements. -/
theorem mem_stored_unperm {order j : List Nat} {L : List (List Q)}
    (ho : order.Perm (List.range L.length)) (hj : j.length = L.length) :
    unperm order j ∈ stored L ↔ j ∈ stored (permL order L) := by
  rw [stored, stored, List.mem_filter, List.mem_filter, mem_grid, mem_grid, unperm_inB ho,
    total_unperm ho hj]
  simp [hj]

/-! ## Dividing the linear position -/

theorem dot_sum {s i : List Nat} {n : Nat} (hs : s.length = n) (hi : i.length = n) :
    dot s i = ((List.range n).map (fun a => s.getD a 0 * i.getD a 0)).sum := by
  induction n generalizing s i with
  | zero =>
    have := List.length_eq_zero_iff.1 hs
    subst this; simp [dot]
  | succ n ih =>
    match s, i, hs, hi with
    | x :: s, y :: i, hs, hi =>
      rw [dot, ih (s := s) (i := i) (by simpa using hs) (by simpa using hi), List.range_succ_eq_map]
      simp [Function.comp_def]

theorem dot_map {ι : Type} (ls : List ι) (f g : ι → Nat) :
    dot (ls.map f) (ls.map g) = (ls.map (fun a => f a * g a)).sum := by
  induction ls with
  | nil => rfl
  | cons a ls ih => simp [dot, ih]

theorem rowMajor_append (x y : List Nat) :
    rowMajor (x ++ y) = (rowMajor x).map (· * y.prod) ++ rowMajor y := by
  induction x with
  | nil => rfl
  | cons d x ih => simp [rowMajor, ih]

/-- The position of an element of the transposed tensor is the sum of a part from the rows and a
part from the columns; both can be divided by the width of the original matrix without carry. -/
theorem no_carry {ds : List Nat} {op : Nat} (hop : op ≤ ds.length) {i : List Nat} (hi : InB ds i)
    {ax1 ax2 : List Nat} (ho : (ax1 ++ ax2).Perm (List.range ds.length)) :
    ∀ x y w, x = dot (ax1.map (fun a => (rowMajor ds).getD a 0)) (ax1.map (fun a => i.getD a 0)) →
      y = dot (ax2.map (fun a => (rowMajor ds).getD a 0)) (ax2.map (fun a => i.getD a 0)) →
      w = (ds.drop op).prod →
      x / w + y / w = ravel (ds.take op) (i.take op) ∧
      x % w + y % w = ravel (ds.drop op) (i.drop op) ∧
      (ax1 = [] → y / w = ravel (ds.take op) (i.take op) ∧ y % w = ravel (ds.drop op) (i.drop op)) ∧
      (ax2 = [] → x / w = ravel (ds.take op) (i.take op) ∧ x % w = ravel (ds.drop op) (i.drop op)) := by
  intro x y w hx hy hw
  have hil := hi.length
  have hi2 : InB (ds.take op) (i.take op) ∧ InB (ds.drop op) (i.drop op) := by
    have h1 : InB (ds.take op ++ ds.drop op) (i.take op ++ i.drop op) := by
      rwa [List.take_append_drop, List.take_append_drop]
    exact (inB_append_iff (by simp [hil])).1 h1
  obtain ⟨sR, hsR⟩ : ∃ s, s = rowMajor (ds.take op) ++ List.replicate (ds.length - op) 0 := ⟨_, rfl⟩
  obtain ⟨sC, hsC⟩ : ∃ s, s = List.replicate op 0 ++ rowMajor (ds.drop op) := ⟨_, rfl⟩
  have hRl : sR.length = ds.length := by rw [hsR]; simp [rowMajor_length]; omega
  have hCl : sC.length = ds.length := by rw [hsC]; simp [rowMajor_length]; omega
  have hdot0 : ∀ (n : Nat) (j : List Nat), dot (List.replicate n 0) j = 0 := by
    intro n
    induction n with
    | zero => intro j; simp [dot]
    | succ n ih => intro j; cases j <;> simp [List.replicate_succ, dot, ih]
  have hR : dot sR i = ravel (ds.take op) (i.take op) := by
    conv_lhs => rw [hsR, ← List.take_append_drop op i]
    rw [dot_append (by rw [rowMajor_length]; simp [hil]), hdot0, dot_rowMajor, Nat.add_zero]
  have hC : dot sC i = ravel (ds.drop op) (i.drop op) := by
    conv_lhs => rw [hsC, ← List.take_append_drop op i]
    rw [dot_append (by simp; omega), hdot0, dot_rowMajor, Nat.zero_add]
  have hs : ∀ a, (rowMajor ds).getD a 0 = w * sR.getD a 0 + sC.getD a 0 := by
    intro a
    have e : rowMajor ds = (rowMajor (ds.take op)).map (· * w) ++ rowMajor (ds.drop op) := by
      conv_lhs => rw [← List.take_append_drop op ds, rowMajor_append]
      rw [hw]
    have l1 : (rowMajor (ds.take op)).length = op := by rw [rowMajor_length]; simp [hop]
    rw [e, hsR, hsC]
    by_cases ha : a < op
    · rw [List.getD_append _ _ _ _ (by rw [List.length_map, l1]; exact ha),
        List.getD_append _ _ _ _ (by rw [l1]; exact ha),
        List.getD_append _ _ _ _ (by simpa using ha)]
      have : a < (rowMajor (ds.take op)).length := by omega
      simp [this, ha, Nat.mul_comm]
    · rw [List.getD_append_right _ _ _ _ (by rw [List.length_map, l1]; omega),
        List.getD_append_right _ _ _ _ (by rw [l1]; omega),
        List.getD_append_right _ _ _ _ (by simpa using ha)]
      rw [List.length_map, l1, List.length_replicate]
      have : (List.replicate (ds.length - op) 0).getD (a - op) 0 = 0 := by
        rw [List.getD_eq_getElem?_getD, List.getElem?_replicate]
        split_ifs <;> rfl
      rw [this]; omega
  have hsum : ∀ ax : List Nat, dot (ax.map (fun a => (rowMajor ds).getD a 0)) (ax.map (fun a => i.getD a 0)) =
      w * (ax.map (fun a => sR.getD a 0 * i.getD a 0)).sum +
        (ax.map (fun a => sC.getD a 0 * i.getD a 0)).sum := by
    intro ax
    rw [dot_map]
    induction ax with
    | nil => simp
    | cons a ax ih =>
      simp only [List.map_cons, List.sum_cons, ih, hs a]
      ring
  have tR : (ax1.map (fun a => sR.getD a 0 * i.getD a 0)).sum +
      (ax2.map (fun a => sR.getD a 0 * i.getD a 0)).sum = ravel (ds.take op) (i.take op) := by
    rw [← hR, dot_sum hRl hil, ← List.sum_append, ← List.map_append]
    exact (ho.map _).sum_eq
  have tC : (ax1.map (fun a => sC.getD a 0 * i.getD a 0)).sum +
      (ax2.map (fun a => sC.getD a 0 * i.getD a 0)).sum = ravel (ds.drop op) (i.drop op) := by
    rw [← hC, dot_sum hCl hil, ← List.sum_append, ← List.map_append]
    exact (ho.map _).sum_eq
  have hlt : ravel (ds.drop op) (i.drop op) < w := hw ▸ ravel_lt hi2.2
  have hdm : ∀ a b, b < w → (w * a + b) / w = a ∧ (w * a + b) % w = b := by
    intro a b hb
    constructor
    · rw [Nat.mul_add_div (by omega), Nat.div_eq_of_lt hb, Nat.add_zero]
    · rw [Nat.mul_add_mod, Nat.mod_eq_of_lt hb]
  have d1 := hdm (ax1.map (fun a => sR.getD a 0 * i.getD a 0)).sum
    (ax1.map (fun a => sC.getD a 0 * i.getD a 0)).sum (by omega)
  have d2 := hdm (ax2.map (fun a => sR.getD a 0 * i.getD a 0)).sum
    (ax2.map (fun a => sC.getD a 0 * i.getD a 0)).sum (by omega)
  rw [← hsum, ← hx] at d1
  rw [← hsum, ← hy] at d2
  refine ⟨by rw [d1.1, d2.1, tR], by rw [d1.2, d2.2, tC], ?_, ?_⟩
  · rintro rfl
    simp only [List.map_nil, List.sum_nil, Nat.zero_add] at tR tC
    exact ⟨by rw [d2.1, tR], by rw [d2.2, tC]⟩
  · rintro rfl
    simp only [List.map_nil, List.sum_nil, Nat.add_zero] at tR tC
    exact ⟨by rw [d1.1, tR], by rw [d1.2, tC]⟩

/-! ## The blocks -/

theorem filter_sorted {qs l : List Q} (h : qs.Pairwise (· < ·)) (hs : ∀ x ∈ qs, x ∈ l) :
    (npUnique l).filter (· ∈ qs) = qs := by
  have h1 : npUnique qs = qs := npUnique_eq h (fun _ => Iff.rfl)
  have h2 : npUnique qs = (npUnique l).filter (· ∈ qs) :=
    npUnique_eq ((npUnique_lt l).filter _) (fun x => by
      rw [List.mem_filter, mem_npUnique, decide_eq_true_eq]
      exact ⟨fun h => h.2, fun h => ⟨hs x h, h⟩⟩)
  rw [← h2, h1]

theorem intersect_sorted (A B : List Q) : (intersect A B).1.Pairwise (· < ·) :=
  (npUnique_lt A).filter _

/-- Reducing to the charges of the blocks and selecting one block. -/
theorem select_spec {legs : List (Leg Q)} (h : LegsWF legs) (hne : legs ≠ []) {qs : List Q}
    (hq : qs.Pairwise (· < ·)) (hs : ∀ x ∈ qs, x ∈ fuseL (eff legs)) {ss : List Nat}
    (hss : ss.length = legs.length) :
    ∃ r, reduceCharges legs qs (some ss) = .ok r ∧ ∀ n (hn : n < qs.length),
      select r n = (rowsOf (eff legs) qs[n]).map (dot ss) := by
  obtain ⟨b, b1, b2, b3, b4⟩ := reduceCharges_spec h hne qs (some ss)
    (fun s hs => by simp only [Option.some.injEq] at hs; rw [← hs, hss])
  have hbu : b.uniq = qs := by rw [b4, filter_sorted hq hs]
  have hqn : qs.Nodup := hq.imp (fun h => ne_of_lt h)
  obtain ⟨A, hA⟩ : ∃ A, A = eff legs := ⟨_, rfl⟩
  rw [← hA] at b1 b3
  rw [← hA]
  obtain ⟨kept, hk⟩ : ∃ k, k = (grid (dims A)).filter (fun i => total A i ∈ qs) := ⟨_, rfl⟩
  have hkn : kept.Nodup := hk ▸ (grid_nodup _).filter _
  have hkl : b.labels = kept.map (fun i => qs.idxOf (total A i)) := by
    rw [Charge.labels_eq b2, b3, hbu, fuseL, hk, List.filter_map, List.map_map]; rfl
  rw [← hk] at b1
  refine ⟨_, b1, fun n hn => ?_⟩
  simp only [select, Option.getD_some, hkl, List.length_map]
  have hflt : (List.range kept.length).filter (fun k => decide
      ((kept.map (fun i => qs.idxOf (total A i))).getD k 0 = n)) =
      (List.range kept.length).filter (fun k => decide (total A (kept.getD k default) = qs[n])) := by
    apply List.filter_congr
    intro k hk1
    have hk2 : k < kept.length := by simpa using hk1
    rw [List.getD_eq_getElem?_getD, List.getElem?_map, List.getElem?_eq_getElem hk2,
      List.getD_eq_getElem _ _ hk2]
    simp only [Option.map_some, Option.getD_some, decide_eq_decide]
    have hm : total A kept[k] ∈ qs := by
      have h4 : ∀ x ∈ kept, total A x ∈ qs := by
        intro x hx; rw [hk] at hx; simpa using (List.mem_filter.1 hx).2
      exact h4 _ (List.getElem_mem hk2)
    constructor
    · intro h3
      subst h3
      exact (List.getElem_idxOf _).symm
    · intro h3; rw [h3]; exact Charge.idxOf_getElem_nodup hqn hn
  rw [hflt, filter_range_map kept hkn (fun i => decide (total A i = qs[n]))
    (fun k => (kept.map (dot ss)).getD k 0)]
  have hkr : kept.filter (fun i => decide (total A i = qs[n])) = rowsOf A qs[n] := by
    rw [hk, List.filter_filter, rowsOf]
    apply List.filter_congr
    intro i _
    by_cases h3 : total A i = qs[n]
    · simp [h3]
    · simp [h3]
  rw [hkr]
  apply List.map_congr_left
  intro r hr
  have hrk : r ∈ kept := by rw [← hkr] at hr; exact (List.mem_filter.1 hr).1
  have := List.idxOf_lt_length_iff.2 hrk
  rw [List.getD_eq_getElem?_getD, List.getElem?_map, List.getElem?_eq_getElem this,
    List.getElem_idxOf]
  rfl

/-- An element of a block is stored. -/
theorem mem_stored_block {L : List (List Q)} {order : List Nat} {p : Nat} {q : Q} {r c : List Nat}
    (ho : order.Perm (List.range L.length)) (hp : p ≤ L.length)
    (hr : r ∈ rowsOf ((permL order L).take p) q) (hc : c ∈ colsOf ((permL order L).drop p) q) :
    (r.length = p ∧ (r ++ c).length = L.length) ∧ unperm order (r ++ c) ∈ stored L := by
  have hol : order.length = L.length := by simpa using ho.length_eq
  rw [rowsOf, List.mem_filter, mem_grid] at hr
  rw [colsOf, List.mem_filter, mem_grid] at hc
  have hr1 : r.length = p := by rw [hr.1.length]; simp [dims, permL, hol, hp]
  have hc1 : c.length = L.length - p := by rw [hc.1.length]; simp [dims, permL, hol]
  have hrc : (r ++ c).length = L.length := by rw [List.length_append, hr1, hc1]; omega
  refine ⟨⟨hr1, hrc⟩, (mem_stored_unperm ho hrc).2 ?_⟩
  rw [stored, List.mem_filter, mem_grid]
  have e1 : total ((permL order L).take p) r = q := by simpa using hr.2
  have e2 : q + total ((permL order L).drop p) c = 0 := by simpa using hc.2
  have hd : dims (permL order L) = dims ((permL order L).take p) ++ dims ((permL order L).drop p) := by
    rw [dims, dims, dims, ← List.map_append, List.take_append_drop]
  have ht := total_append (A := (permL order L).take p) (B := (permL order L).drop p) (i := r)
    (j := c) (by rw [hr1]; simp [permL, hol, hp])
  rw [List.take_append_drop] at ht
  refine ⟨?_, ?_⟩
  · rw [hd]
    exact (inB_append_iff (by rw [hr.1.length])).2 ⟨hr.1, hc.1⟩
  · rw [ht, e1, e2]; simp

/-- The listed charges are those with rows and columns, and the trivial charge for a partition without
row or column legs. -/
def Tight (L : List (List Q)) (order : List Nat) (p : Nat) (qs : List Q) : Prop :=
  ∀ q ∈ qs, ((p = 0 ∨ p = L.length) → q = 0) ∧ (p ≠ 0 → p ≠ L.length →
    rowsOf ((permL order L).take p) q ≠ [] ∧ colsOf ((permL order L).drop p) q ≠ [])

theorem transposedMaps_spec {argsort : List Nat → List Nat} (ha : ArgsortOK argsort)
    {legs : List (Leg Q)} (h : LegsWF legs) (hl : 2 ≤ legs.length) {p : Nat} (hp : p ≤ legs.length)
    {order : List Nat} (ho : order.Perm (List.range legs.length)) {op w : Nat} {cumul : List Nat}
    {dts : List Int} (hop : op < legs.length) (hs : stored (eff legs) ≠ [])
    (hw : w = ((dims (eff legs)).drop op).prod)
    (hlook : ∀ i, i ∈ stored (eff legs) →
      lookup cumul dts (ravel ((dims (eff legs)).take op) (i.take op))
        (ravel ((dims (eff legs)).drop op) (i.drop op)) = (stored (eff legs)).idxOf i) :
    ∃ b qs, transposedMaps argsort (pick order legs (.raw [], false))
      (pick order (rowMajor (dims (eff legs))) 0) p w cumul dts = .ok b ∧
      IsBlocks (eff legs) order p b qs ∧ Tight (eff legs) order p qs := by
  have hll : (eff legs).length = legs.length := by simp [eff]
  have hol : order.length = legs.length := by simpa using ho.length_eq
  obtain ⟨L, hL⟩ : ∃ L, L = eff legs := ⟨_, rfl⟩
  rw [← hL] at hs hw hlook hll ⊢
  have hdl : (dims L).length = legs.length := by simp [dims, hll]
  obtain ⟨new, hnew⟩ : ∃ n, n = pick order legs (Charge.raw [], false) := ⟨_, rfl⟩
  rw [← hnew]
  have hnl : new.length = legs.length := by rw [hnew]; simp [pick, hol]
  have hnw : LegsWF new := by
    intro l hl
    rw [hnew, pick, List.mem_map] at hl
    obtain ⟨n, hn, rfl⟩ := hl
    have hn' : n < legs.length := by simpa using ho.mem_iff.1 hn
    rw [List.getD_eq_getElem _ _ hn']
    exact h _ (List.getElem_mem hn')
  have hne : permL order L = eff new := by
    rw [hL, permL_eff _ _ (fun n hn => by simpa using ho.mem_iff.1 hn), hnew, pick]
  obtain ⟨ns, hns⟩ : ∃ n, n = pick order (rowMajor (dims L)) 0 := ⟨_, rfl⟩
  rw [← hns]
  have hnsl : ns.length = legs.length := by rw [hns]; simp [pick, hol]
  obtain ⟨A, hA⟩ : ∃ A, A = (permL order L).take p := ⟨_, rfl⟩
  obtain ⟨B, hB⟩ : ∃ B, B = (permL order L).drop p := ⟨_, rfl⟩
  have hA' : A = eff (new.take p) := by rw [hA, hne]; simp [eff]
  have hB' : B = eff (new.drop p) := by rw [hB, hne]; simp [eff]
  have hAB : permL order L = A ++ B := by rw [hA, hB, List.take_append_drop]
  have hAl : A.length = p := by rw [hA']; simp [eff, hnl]; omega
  have hBl : B.length = legs.length - p := by rw [hB']; simp [eff, hnl]
  have hwA : LegsWF (new.take p) := fun l hl => hnw l (List.mem_of_mem_take hl)
  have hwB : LegsWF (new.drop p) := fun l hl => hnw l (List.mem_of_mem_drop hl)
  have hoL : order.Perm (List.range L.length) := by rwa [hll]
  have hcolE : ∀ q, rowsOf (eff (flipFlows (new.drop p))) q = colsOf B q := by
    intro q; rw [hB', colsOf_eq hwB]
  -- an element of a block is stored
  have hmem : ∀ q r c, r ∈ rowsOf A q → c ∈ colsOf B q →
      r.length = p ∧ (r ++ c).length = L.length ∧ unperm order (r ++ c) ∈ stored L := by
    intro q r c hr hc
    rw [hA] at hr; rw [hB] at hc
    have := mem_stored_block hoL (by omega) hr hc
    exact ⟨this.1.1, this.1.2, this.2⟩
  -- positions
  have hpos : ∀ q r c, r ∈ rowsOf A q → c ∈ colsOf B q →
      ∀ x y, x = dot (ns.take p) r → y = dot (ns.drop p) c →
      lookup cumul dts (x / w + y / w) (x % w + y % w) = (stored L).idxOf (unperm order (r ++ c)) ∧
      (p = 0 → lookup cumul dts (y / w) (y % w) = (stored L).idxOf (unperm order (r ++ c))) ∧
      (p = legs.length → lookup cumul dts (x / w) (x % w) =
        (stored L).idxOf (unperm order (r ++ c))) := by
    intro q r c hr hc x y hx hy
    obtain ⟨m1, m2, m3⟩ := hmem q r c hr hc
    have hib : InB (dims L) (unperm order (r ++ c)) := by
      rw [stored, List.mem_filter, mem_grid] at m3; exact m3.1
    have hmap := unperm_map hoL m2
    have hr2 : (order.take p).map (fun a => (unperm order (r ++ c)).getD a 0) = r := by
      have := congrArg (List.take p) hmap
      rwa [← List.map_take, List.take_left' m1] at this
    have hc2 : (order.drop p).map (fun a => (unperm order (r ++ c)).getD a 0) = c := by
      have := congrArg (List.drop p) hmap
      rwa [← List.map_drop, List.drop_left' m1] at this
    obtain ⟨n1, n2, n3, n4⟩ := no_carry (op := op) (by omega) hib
      (ax1 := order.take p) (ax2 := order.drop p)
      (by rw [List.take_append_drop, hdl]; exact ho) x y w
      (by rw [hx, hns, hr2, pick, List.map_take]) (by rw [hy, hns, hc2, pick, List.map_drop]) hw
    have hl := hlook _ m3
    refine ⟨by rw [n1, n2, hl], ?_, ?_⟩
    · intro hp0
      have := n3 (by rw [hp0]; rfl)
      rw [this.1, this.2, hl]
    · intro hp0
      have := n4 (by rw [hp0, ← hol]; exact List.drop_length)
      rw [this.1, this.2, hl]
  -- a stored element
  obtain ⟨o, hos⟩ := List.exists_mem_of_ne_nil _ hs
  have h00 : ∃ r c, r ∈ grid (dims A) ∧ c ∈ grid (dims B) ∧ total A r + total B c = 0 := by
    obtain ⟨j, hj⟩ : ∃ j, j = order.map (fun a => o.getD a 0) := ⟨_, rfl⟩
    have hob : InB (dims L) o ∧ total L o = 0 := by
      rw [stored, List.mem_filter, mem_grid] at hos; exact ⟨hos.1, by simpa using hos.2⟩
    have hjl : j.length = L.length := by rw [hj]; simp [hol, hll]
    have hon : order.Nodup := ho.nodup_iff.2 List.nodup_range
    have huj : unperm order j = o := by
      have hole : o.length = order.length := by rw [hob.1.length, hdl, hol]
      rw [unperm, hj]
      conv_rhs => rw [← map_range_getD o 0, hole]
      apply List.map_congr_left
      intro a hal
      have hao : a ∈ order := ho.mem_iff.2 (by rw [← hol]; exact hal)
      have hlt := List.idxOf_lt_length_iff.2 hao
      rw [List.getD_eq_getElem?_getD, List.getElem?_map, List.getElem?_eq_getElem hlt,
        List.getElem_idxOf]
      rfl
    have hjs : j ∈ stored (permL order L) := (mem_stored_unperm hoL hjl).1 (by rw [huj]; exact hos)
    rw [hAB, stored, List.mem_filter, mem_grid] at hjs
    have hd : dims (A ++ B) = dims A ++ dims B := by simp [dims]
    have hdA : (dims A).length = p := by simp [dims, hAl]
    have hjt : (j.take p).length = p := by rw [List.length_take, hjl, hll]; omega
    rw [hd, ← List.take_append_drop p j] at hjs
    refine ⟨j.take p, j.drop p, ?_⟩
    have hib := (inB_append_iff (by rw [hjt, hdA])).1 hjs.1
    refine ⟨mem_grid.2 hib.1, mem_grid.2 hib.2, ?_⟩
    have := hjs.2
    rw [total_append (by rw [hjt, hAl])] at this
    simpa using this
  obtain ⟨r0, c0, hr0, hc0, hrc0⟩ := h00
  by_cases hp0 : p = 0
  · have hA0 : A = [] := List.length_eq_zero_iff.1 (by omega)
    have hneB : flipFlows (new.drop p) ≠ [] := by
      intro h0; have := congrArg List.length h0; simp [flipFlows] at this; omega
    obtain ⟨col, c1, cd⟩ := fusedDegens_spec ha (flipFlows_wf hwB) hneB
    have hcol : ∀ q, q ∈ fuseL (eff (flipFlows (new.drop p))) ↔ colsOf B q ≠ [] := by
      intro q; rw [mem_fuseL, hcolE]
    have hr00 : r0 = [] := by rw [hA0] at hr0; simpa [dims, grid] using hr0
    have hcol0 : colsOf B 0 ≠ [] := by
      apply List.ne_nil_of_mem (a := c0)
      rw [colsOf, List.mem_filter]
      refine ⟨hc0, ?_⟩
      rw [hr00, hA0] at hrc0
      simpa [total] using hrc0
    have hc0m : (0 : Q) ∈ col.1.uniq := (cd.mem 0).2 ((hcol 0).2 hcol0)
    have hi1 : (intersect [0] col.1.uniq).1 = [0] := by
      have : npUnique [(0 : Q)] = [0] := npUnique_eq (by simp) (fun _ => Iff.rfl)
      rw [intersect, this]; simp [hc0m]
    have hi2 : (intersect [0] col.1.uniq).2.2 = [col.1.uniq.idxOf 0] := by
      have : (intersect [0] col.1.uniq).2.2 =
        (intersect [0] col.1.uniq).1.map (fun x => col.1.uniq.idxOf x) := rfl
      rw [this, hi1]; rfl
    obtain ⟨cl, cl1, cl2⟩ := select_spec (flipFlows_wf hwB) hneB (qs := [0]) (by simp)
      (fun x hx => by rw [hcol]; simp only [List.mem_singleton] at hx; rw [hx]; exact hcol0)
      (ss := ns.drop p) (by simp [hnsl, hnl, flipFlows])
    have hr : rowsOf ([] : List (List Q)) 0 = [[]] := by simp [rowsOf, grid, dims, total]
    refine ⟨⟨[(select cl 0).map (fun x => lookup cumul dts (x / w) (x % w))],
      .lab [0] (List.range 1), [1], [col.2.getD (col.1.uniq.idxOf 0) 0]⟩, [0], ?_, ?_, by
        intro q hq
        exact ⟨fun _ => List.mem_singleton.1 hq, fun h => absurd hp0 h⟩⟩
    · rw [transposedMaps, if_pos hp0, c1]
      simp only [bind, Except.bind, hi1]
      rw [cl1]
      simp only [List.length_singleton, if_true, hi2]
      rfl
    · have hl0 := lab_range (C := [(0 : Q)]) (by simp)
      refine ⟨hl0.1, rfl, hl0.2, ?_, ?_, ?_, ?_⟩
      · intro q hq _
        rw [← hA, hA0] at hq
        by_contra hq0
        apply hq
        have : ¬ (0 : Q) = q := fun h0 => hq0 (by simp [← h0])
        simp [rowsOf, grid, dims, total, this]
      · have := cl2 0 (by simp)
        simp only [List.getElem_singleton] at this
        simp only [List.map_cons, List.map_nil]
        rw [this, hcolE, blockMap, ← hA, ← hB, hA0, hr, List.flatMap_singleton, List.map_map]
        congr 1
        apply List.map_congr_left
        intro c hc
        exact (hpos 0 [] c (by rw [hA0, hr]; simp) hc _ _ rfl rfl).2.1 hp0
      · simp only [List.map_cons, List.map_nil]
        rw [← hA, hA0, hr]; rfl
      · simp only [List.map_cons, List.map_nil]
        rw [degens_getD cd hc0m, count_fuseL, hcolE, ← hB]
  · by_cases hpl : p = legs.length
    · have hB0 : B = [] := List.length_eq_zero_iff.1 (by omega)
      have hneA : new.take p ≠ [] := by
        intro h0; have := congrArg List.length h0
        rw [List.length_take, List.length_nil] at this
        omega
      obtain ⟨row, r1, rd⟩ := fusedDegens_spec ha hwA hneA
      rw [← hA'] at rd
      have hc00 : c0 = [] := by rw [hB0] at hc0; simpa [dims, grid] using hc0
      have hrow0 : rowsOf A 0 ≠ [] := by
        apply List.ne_nil_of_mem (a := r0)
        rw [rowsOf, List.mem_filter]
        refine ⟨hr0, ?_⟩
        rw [hc00, hB0] at hrc0
        simpa [total] using hrc0
      have hr0m : (0 : Q) ∈ row.1.uniq := (rd.mem 0).2 (mem_fuseL.2 hrow0)
      have hi1 : (intersect row.1.uniq [0]).1 = [0] := by
        have h3 : npUnique [(0 : Q)] = [0] := npUnique_eq (by simp) (fun _ => Iff.rfl)
        have h4 : npUnique [(0 : Q)] = (intersect row.1.uniq [0]).1 :=
          npUnique_eq (intersect_sorted _ _) (fun x => by
            rw [intersect_mem, List.mem_singleton]
            constructor
            · rintro ⟨_, h⟩; exact h
            · rintro rfl; exact ⟨hr0m, rfl⟩)
        rw [← h4, h3]
      have hi2 : (intersect row.1.uniq [0]).2.1 = [row.1.uniq.idxOf 0] := by
        have : (intersect row.1.uniq [0]).2.1 =
          (intersect row.1.uniq [0]).1.map (fun x => row.1.uniq.idxOf x) := rfl
        rw [this, hi1]; rfl
      obtain ⟨rl, rl1, rl2⟩ := select_spec hwA hneA (qs := [0]) (by simp)
        (fun x hx => by
          rw [← hA', mem_fuseL]; simp only [List.mem_singleton] at hx; rw [hx]; exact hrow0)
        (ss := ns.take p) (by simp [hnsl, hnl])
      have hc : colsOf ([] : List (List Q)) 0 = [[]] := by simp [colsOf, grid, dims, total]
      refine ⟨⟨[(select rl 0).map (fun x => lookup cumul dts (x / w) (x % w))],
        .lab [0] (List.range 1), [row.2.getD (row.1.uniq.idxOf 0) 0], [1]⟩, [0], ?_, ?_, by
          intro q hq
          exact ⟨fun _ => List.mem_singleton.1 hq, fun _ h => absurd (hpl.trans hll.symm) h⟩⟩
      · rw [transposedMaps, if_neg hp0, if_pos (by rw [hnl]; exact hpl), r1]
        simp only [bind, Except.bind, hi1]
        rw [rl1]
        simp only [List.length_singleton, if_true, hi2]
        rfl
      · have hl0 := lab_range (C := [(0 : Q)]) (by simp)
        refine ⟨hl0.1, rfl, hl0.2, ?_, ?_, ?_, ?_⟩
        · intro q _ hq
          rw [← hB, hB0] at hq
          by_contra hq0
          apply hq
          have : ¬ q = 0 := fun h0 => hq0 (by simp [h0])
          simp [colsOf, grid, dims, total, this]
        · have := rl2 0 (by simp)
          simp only [List.getElem_singleton] at this
          simp only [List.map_cons, List.map_nil]
          rw [this, ← hA', blockMap, ← hA, ← hB, hB0, hc, List.map_map]
          simp only [List.map_cons, List.map_nil]
          rw [List.map_eq_flatMap]
          congr 1
          apply List.flatMap_congr
          intro r hr
          rw [Function.comp_apply]
          congr 1
          exact (hpos 0 r [] hr (by rw [hB0, hc]; simp) _ _ rfl rfl).2.2 hpl
        · simp only [List.map_cons, List.map_nil]
          rw [degens_getD rd hr0m, count_fuseL, ← hA]
        · simp only [List.map_cons, List.map_nil]
          rw [← hB, hB0, hc]; rfl
    · have hneA : new.take p ≠ [] := by
        intro h0; have := congrArg List.length h0
        rw [List.length_take, List.length_nil] at this
        omega
      have hneB : flipFlows (new.drop p) ≠ [] := by
        intro h0; have := congrArg List.length h0; simp [flipFlows] at this; omega
      obtain ⟨row, r1, rd⟩ := fusedDegens_spec ha hwA hneA
      obtain ⟨col, c1, cd⟩ := fusedDegens_spec ha (flipFlows_wf hwB) hneB
      have hcol : ∀ q, q ∈ fuseL (eff (flipFlows (new.drop p))) ↔ colsOf B q ≠ [] := by
        intro q; rw [mem_fuseL, hcolE]
      obtain ⟨qs, hqs⟩ : ∃ qs, qs = (intersect row.1.uniq col.1.uniq).1 := ⟨_, rfl⟩
      have hi1 : (intersect row.1.uniq col.1.uniq).2.1 = qs.map (fun x => row.1.uniq.idxOf x) := by
        rw [hqs]; rfl
      have hi2 : (intersect row.1.uniq col.1.uniq).2.2 = qs.map (fun x => col.1.uniq.idxOf x) := by
        rw [hqs]; rfl
      rw [← hA'] at rd
      have hqm : ∀ q, q ∈ qs ↔ rowsOf A q ≠ [] ∧ colsOf B q ≠ [] := by
        intro q; rw [hqs, intersect_mem, rd.mem, cd.mem, hcol, mem_fuseL]
      have hqn : qs.Nodup := hqs ▸ intersect_nodup _ _
      have hqp : qs.Pairwise (· < ·) := hqs ▸ intersect_sorted _ _
      obtain ⟨rl, rl1, rl2⟩ := select_spec hwA hneA hqp
        (fun x hx => by rw [← hA', mem_fuseL]; exact ((hqm x).1 hx).1) (ss := ns.take p)
        (by simp [hnsl, hnl])
      obtain ⟨cl, cl1, cl2⟩ := select_spec (flipFlows_wf hwB) hneB hqp
        (fun x hx => by rw [hcol]; exact ((hqm x).1 hx).2) (ss := ns.drop p)
        (by simp [hnsl, hnl, flipFlows])
      refine ⟨⟨(List.range qs.length).map (fun n =>
          outerRavel (fun x y => lookup cumul dts (x / w + y / w) (x % w + y % w))
            (select rl n) (select cl n)), .lab qs (List.range qs.length),
        (intersect row.1.uniq col.1.uniq).2.1.map (fun k => row.2.getD k 0),
        (intersect row.1.uniq col.1.uniq).2.2.map (fun k => col.2.getD k 0)⟩, qs, ?_, ?_, by
          intro q hq
          refine ⟨fun h => ?_, fun _ _ => by rw [← hA, ← hB]; exact (hqm q).1 hq⟩
          rw [hll] at h
          exact absurd h (by tauto)⟩
      · rw [transposedMaps, if_neg hp0, if_neg (by rw [hnl]; exact hpl), r1, c1]
        simp only [bind, Except.bind, ← hqs]
        rw [rl1, cl1]
        rfl
      · have hl0 := lab_range hqn
        refine ⟨hl0.1, rfl, hl0.2, ?_, ?_, ?_, ?_⟩
        · intro q h1 h2
          rw [← hA] at h1; rw [← hB] at h2
          exact (hqm q).2 ⟨h1, h2⟩
        · apply List.ext_getElem
          · simp
          · intro n h1 h2
            have hn : n < qs.length := by simpa using h2
            simp only [List.getElem_map, List.getElem_range]
            rw [rl2 n hn, cl2 n hn, hcolE, ← hA', outerRavel, blockMap, ← hA, ← hB, List.flatMap_map]
            apply List.flatMap_congr
            intro r hr
            rw [List.map_map]
            apply List.map_congr_left
            intro c hc
            exact (hpos _ r c hr hc _ _ rfl rfl).1
        · rw [hi1, List.map_map]
          apply List.map_congr_left
          intro q hq
          simp only [Function.comp_apply]
          rw [degens_getD rd ((rd.mem q).2 (mem_fuseL.2 ((hqm q).1 hq).1)), count_fuseL, ← hA]
        · rw [hi2, List.map_map]
          apply List.map_congr_left
          intro q hq
          simp only [Function.comp_apply]
          rw [degens_getD cd ((cd.mem q).2 ((hcol q).2 ((hqm q).1 hq).2)), count_fuseL, hcolE, ← hB]

theorem findDiagonal_edge {argsort : List Nat → List Nat} (ha : ArgsortOK argsort) {legs : List (Leg Q)}
    (h : LegsWF legs) (hne : legs ≠ []) {p : Nat} (hp : p = 0 ∨ p = legs.length) {b : Blocks Q}
    (hb : findDiagonal argsort legs p = .ok b) : b.qnums.uniq = [0] := by
  rw [findDiagonal, if_pos hp, C22_num_nonzero ha h hne] at hb
  cases legs with
  | nil => exact absurd rfl hne
  | cons l legs =>
    cases hb
    rfl

/-- `_find_transposed_diagonal_sparse_blocks` returns a complete block decomposition of the tensor
transposed by `order`, whatever the order and the partition. -/
theorem findTransposed_spec {argsort : List Nat → List Nat} (ha : ArgsortOK argsort)
    {legs : List (Leg Q)} (h : LegsWF legs) (hne : legs ≠ []) {p : Nat} (hp : p ≤ legs.length)
    {order : List Nat} (ho : order.Perm (List.range legs.length)) :
    ∃ b qs, findTransposed argsort legs p order = .ok b ∧ IsBlocks (eff legs) order p b qs ∧
      Tight (eff legs) order p qs := by
  have hll : (eff legs).length = legs.length := by simp [eff]
  by_cases htriv : order = List.range legs.length
  · obtain ⟨b, qs, h1, h2, h3⟩ := findDiagonal_spec ha h hne hp
    refine ⟨b, qs, by rw [findTransposed, if_pos htriv, h1], by rw [htriv, ← hll]; exact h2, ?_⟩
    intro q hq
    refine ⟨fun hp0 => ?_, fun hp0 hp1 => ?_⟩
    · rw [hll] at hp0
      have hu := findDiagonal_edge ha h hne hp0 h1
      rw [h2.uniq] at hu
      rw [hu] at hq
      exact List.mem_singleton.1 hq
    · rw [hll] at hp1
      have := (h3 hp0 hp1 q).1 hq
      rw [htriv, ← hll, permL_range]
      simpa [eff] using this
  · have hol : order.length = legs.length := by simpa using ho.length_eq
    have hl2 : 2 ≤ legs.length := by
      by_contra hlt
      have h1 : legs.length = 1 := by have := List.length_pos_iff.2 hne; omega
      rw [h1] at ho htriv
      exact htriv (List.perm_singleton.1 ho)
    obtain ⟨tab, op, t1, t2, t3, t4⟩ := origTables_spec ha h hl2
    have hst : getStrides (legs.map (fun l => l.1.dim)) = rowMajor (dims (eff legs)) := by
      rw [getStrides_eq (by simpa using hne), dims_eff]
    rw [findTransposed, if_neg htriv, t1]
    match tab, t4 with
    | none, t4 =>
      refine ⟨⟨[], .lab [] [], [], []⟩, [], rfl, ?_, fun q hq => by simp at hq⟩
      have hl0 := lab_range (C := ([] : List Q)) (by simp)
      refine ⟨hl0.1, rfl, rfl, ?_, rfl, rfl, rfl⟩
      intro q h1 h2
      exfalso
      obtain ⟨r, hr⟩ := List.exists_mem_of_ne_nil _ h1
      obtain ⟨c, hc⟩ := List.exists_mem_of_ne_nil _ h2
      have := (mem_stored_block (L := eff legs) (by rwa [hll]) (by rw [hll]; exact hp) hr hc).2
      rw [t4] at this
      simp at this
    | some (w, cumul, dts), t4 =>
      obtain ⟨s1, s2, s3⟩ := t4
      obtain ⟨b, qs, b1, b2⟩ := transposedMaps_spec ha h hl2 hp ho t3 s1 s2 s3
      refine ⟨b, qs, ?_, b2⟩
      rw [← b1, hst]
      rfl

/-! ## C24: the blocks cover the stored elements -/

theorem stored_nodup (L : List (List Q)) : (stored L).Nodup := (grid_nodup _).filter _

theorem unperm_inj {order i j : List Nat} {n : Nat} (ho : order.Perm (List.range n))
    (hi : i.length = n) (hj : j.length = n) (h : unperm order i = unperm order j) : i = j := by
  rw [← unperm_map ho hi, ← unperm_map ho hj, h]

theorem perm_unperm {order o : List Nat} {n : Nat} (ho : order.Perm (List.range n))
    (hl : o.length = n) : unperm order (order.map (fun a => o.getD a 0)) = o := by
  have hol : order.length = n := by simpa using ho.length_eq
  rw [unperm]
  conv_rhs => rw [← map_range_getD o 0, hl, ← hol]
  apply List.map_congr_left
  intro a hal
  have hao : a ∈ order := ho.mem_iff.2 (by rw [← hol]; exact hal)
  have hlt := List.idxOf_lt_length_iff.2 hao
  rw [List.getD_eq_getElem?_getD, List.getElem?_map, List.getElem?_eq_getElem hlt,
    List.getElem_idxOf]
  rfl

/-- The rows and columns of all blocks are the stored elements of the transposed tensor. -/
theorem blocks_perm {A B : List (List Q)} {qs : List Q} (hn : qs.Nodup)
    (hc : ∀ q, rowsOf A q ≠ [] → colsOf B q ≠ [] → q ∈ qs) :
    (qs.flatMap (fun q => (rowsOf A q).flatMap (fun r => (colsOf B q).map (fun c => r ++ c)))).Perm
      (stored (A ++ B)) := by
  have hrl : ∀ q, ∀ r ∈ rowsOf A q, r.length = A.length := by
    intro q r hr
    rw [rowsOf, List.mem_filter, mem_grid] at hr
    rw [hr.1.length]; simp [dims]
  rw [List.perm_ext_iff_of_nodup ?_ (stored_nodup _)]
  · intro x
    simp only [List.mem_flatMap, List.mem_map]
    have hd : dims (A ++ B) = dims A ++ dims B := by simp [dims]
    constructor
    · rintro ⟨q, hq, r, hr, c, hc, rfl⟩
      have hl := hrl q r hr
      rw [rowsOf, List.mem_filter, mem_grid] at hr
      rw [colsOf, List.mem_filter, mem_grid] at hc
      rw [stored, List.mem_filter, mem_grid, hd, inB_append_iff (by rw [hr.1.length]),
        total_append hl]
      refine ⟨⟨hr.1, hc.1⟩, ?_⟩
      have e1 : total A r = q := by simpa using hr.2
      have e2 : q + total B c = 0 := by simpa using hc.2
      rw [e1, e2]; simp
    · intro hx
      rw [stored, List.mem_filter, mem_grid, hd] at hx
      have hxl : A.length ≤ x.length := by rw [hx.1.length]; simp [dims]
      have htl : (x.take A.length).length = A.length := by rw [List.length_take]; omega
      rw [← List.take_append_drop A.length x, inB_append_iff (by rw [htl]; simp [dims]),
        total_append htl] at hx
      have e : total A (x.take A.length) + total B (x.drop A.length) = 0 := by simpa using hx.2
      have hr : x.take A.length ∈ rowsOf A (total A (x.take A.length)) := by
        rw [rowsOf, List.mem_filter, mem_grid]; exact ⟨hx.1.1, by simp⟩
      have hc' : x.drop A.length ∈ colsOf B (total A (x.take A.length)) := by
        rw [colsOf, List.mem_filter, mem_grid]; exact ⟨hx.1.2, by simp [e]⟩
      exact ⟨_, hc _ (List.ne_nil_of_mem hr) (List.ne_nil_of_mem hc'), _, hr, _, hc',
        List.take_append_drop _ _⟩
  · rw [List.nodup_flatMap]
    refine ⟨fun q _ => ?_, ?_⟩
    · rw [List.nodup_flatMap]
      refine ⟨fun r _ => ?_, ?_⟩
      · exact ((grid_nodup _).filter _).map (fun a b h => List.append_cancel_left h)
      · apply List.Pairwise.imp_of_mem (R := (· ≠ ·)) _ ((grid_nodup _).filter _)
        intro r r' hr hr' hne x hx hx'
        obtain ⟨c, _, rfl⟩ := List.mem_map.1 hx
        obtain ⟨c', _, h2⟩ := List.mem_map.1 hx'
        exact hne (List.append_inj_left h2 (by rw [hrl q r' hr', hrl q r hr])).symm
    · apply List.Pairwise.imp_of_mem (R := (· ≠ ·)) _ hn
      intro q q' _ _ hne x hx hx'
      obtain ⟨r, hr, h1⟩ := List.mem_flatMap.1 hx
      obtain ⟨c, _, rfl⟩ := List.mem_map.1 h1
      obtain ⟨r', hr', h2⟩ := List.mem_flatMap.1 hx'
      obtain ⟨c', _, h2⟩ := List.mem_map.1 h2
      have := List.append_inj_left h2 (by rw [hrl q' r' hr', hrl q r hr])
      subst this
      rw [rowsOf, List.mem_filter] at hr hr'
      apply hne
      have e1 : total A r' = q := by simpa using hr.2
      have e2 : total A r' = q' := by simpa using hr'.2
      rw [← e1, e2]

theorem stored_unperm_perm {L : List (List Q)} {order : List Nat}
    (ho : order.Perm (List.range L.length)) :
    ((stored (permL order L)).map (unperm order)).Perm (stored L) := by
  have hol : order.length = L.length := by simpa using ho.length_eq
  have hsl : ∀ x ∈ stored (permL order L), x.length = L.length := by
    intro x hx
    rw [stored, List.mem_filter, mem_grid] at hx
    rw [hx.1.length]; simp [dims, permL, hol]
  rw [List.perm_ext_iff_of_nodup ?_ (stored_nodup _)]
  · intro x
    rw [List.mem_map]
    constructor
    · rintro ⟨j, hj, rfl⟩
      exact (mem_stored_unperm ho (hsl j hj)).2 hj
    · intro hx
      have hxl : x.length = L.length := by
        rw [stored, List.mem_filter, mem_grid] at hx
        rw [hx.1.length]; simp [dims]
      refine ⟨order.map (fun a => x.getD a 0), ?_, perm_unperm ho hxl⟩
      rw [← mem_stored_unperm ho (by simp [hol]), perm_unperm ho hxl]
      exact hx
  · apply List.Nodup.map_on _ ((grid_nodup _).filter _)
    intro x hx y hy h
    exact unperm_inj ho (hsl x hx) (hsl y hy) h

theorem IsBlocks.cover {L : List (List Q)} {order : List Nat} {p : Nat} {b : Blocks Q} {qs : List Q}
    (hb : IsBlocks L order p b qs) (ho : order.Perm (List.range L.length)) :
    b.maps.flatten.Perm (List.range (stored L).length) := by
  have hn : qs.Nodup := by rw [← hb.uniq]; exact Charge.uniq_nodup hb.wf
  have h1 := blocks_perm hn hb.complete
  rw [List.take_append_drop] at h1
  have h2 := (h1.map (unperm order)).trans (stored_unperm_perm ho)
  have h3 := h2.map (fun i => (stored L).idxOf i)
  rw [range_idxOf (stored_nodup _)] at h3
  have e : b.maps.flatten = List.map (fun i => (stored L).idxOf i) (List.map (unperm order)
      (qs.flatMap (fun q => (rowsOf ((permL order L).take p) q).flatMap (fun r =>
        (colsOf ((permL order L).drop p) q).map (fun c => r ++ c))))) := by
    rw [hb.maps, ← List.flatMap_def, List.map_flatMap, List.map_flatMap]
    apply List.flatMap_congr
    intro q _
    rw [blockMap, List.map_flatMap, List.map_flatMap]
    apply List.flatMap_congr
    intro r _
    rw [List.map_map, List.map_map]
    rfl
  rw [e]; exact h3

/-- C24.  For every order of the legs and every partition, the block maps of
`_find_transposed_diagonal_sparse_blocks` together contain every position of the data vector exactly
once.  There is one block for each charge in a list of different charges.  The block of charge `q`
has as many rows (columns) as there are multi-indices of the row (column) legs with total charge
`q` (`-q`).  The entry in row `i` and column `j` is the rank, among the charge-conserving positions
in row-major order, of the position that the `i`-th such row and the `j`-th such column make up
when put back into the original order of the legs. -/
theorem C24_block_decomposition {argsort : List Nat → List Nat} (ha : ArgsortOK argsort)
    {legs : List (Leg Q)} (h : LegsWF legs) (hne : legs ≠ []) {p : Nat} (hp : p ≤ legs.length)
    {order : List Nat} (ho : order.Perm (List.range legs.length)) :
    ∃ b, findTransposed argsort legs p order = .ok b ∧
      b.maps.flatten.Perm (List.range ((grid (dims (eff legs))).countP (fun i => total (eff legs) i = 0))) ∧
      b.qnums.charges.Nodup ∧
      b.maps.length = b.qnums.charges.length ∧ b.rows.length = b.qnums.charges.length ∧
      b.cols.length = b.qnums.charges.length ∧
      ∀ k (hk : k < b.qnums.charges.length), ∃ R C : List (List Nat),
        R = (grid (dims ((permL order (eff legs)).take p))).filter
          (fun r => total ((permL order (eff legs)).take p) r = b.qnums.charges[k]) ∧
        C = (grid (dims ((permL order (eff legs)).drop p))).filter
          (fun c => total ((permL order (eff legs)).drop p) c = -b.qnums.charges[k]) ∧
        b.rows.getD k 0 = R.length ∧ b.cols.getD k 0 = C.length ∧
        (b.maps.getD k []).length = R.length * C.length ∧
        ∀ i j (hi : i < R.length) (hj : j < C.length), ∃ o,
          o ∈ grid (dims (eff legs)) ∧ total (eff legs) o = 0 ∧
          order.map (fun a => o.getD a 0) = R[i] ++ C[j] ∧
          (b.maps.getD k [])[i * C.length + j]? =
            some (((grid (dims (eff legs))).filter (fun i => total (eff legs) i = 0)).idxOf o) := by
  have hll : (eff legs).length = legs.length := by simp [eff]
  have hoL : order.Perm (List.range (eff legs).length) := by rwa [hll]
  obtain ⟨b, qs, b1, b2, _⟩ := findTransposed_spec ha h hne hp ho
  refine ⟨b, b1, ?_, ?_, ?_, ?_, ?_, ?_⟩
  · rw [List.countP_eq_length_filter]; exact b2.cover hoL
  · rw [b2.charges, ← b2.uniq]; exact Charge.uniq_nodup b2.wf
  · rw [b2.charges, b2.maps, List.length_map]
  · rw [b2.charges, b2.rows, List.length_map]
  · rw [b2.charges, b2.cols, List.length_map]
  · intro k hk
    obtain ⟨q, hq⟩ : ∃ q, q = b.qnums.charges[k] := ⟨_, rfl⟩
    rw [← hq]
    have hk' : k < qs.length := by rwa [b2.charges] at hk
    have hqk : qs[k] = q := by rw [hq]; simp only [b2.charges]
    have hC : (grid (dims ((permL order (eff legs)).drop p))).filter
          (fun c => total ((permL order (eff legs)).drop p) c = -q) =
        colsOf ((permL order (eff legs)).drop p) q := by
      rw [colsOf]
      apply List.filter_congr
      intro c _
      rw [decide_eq_decide]
      rw [add_comm q, ← eq_neg_iff_add_eq_zero]
    have hmk : b.maps.getD k [] = blockMap (eff legs) order p q := by
      rw [b2.maps, List.getD_eq_getElem?_getD, List.getElem?_map, List.getElem?_eq_getElem hk', hqk]
      rfl
    refine ⟨rowsOf ((permL order (eff legs)).take p) q, colsOf ((permL order (eff legs)).drop p) q,
      rfl, hC.symm, ?_, ?_, ?_, ?_⟩
    · rw [b2.rows, List.getD_eq_getElem?_getD, List.getElem?_map, List.getElem?_eq_getElem hk', hqk]
      rfl
    · rw [b2.cols, List.getD_eq_getElem?_getD, List.getElem?_map, List.getElem?_eq_getElem hk', hqk]
      rfl
    · rw [hmk, show blockMap (eff legs) order p q = outerRavel (fun r c =>
        (stored (eff legs)).idxOf (unperm order (r ++ c))) (rowsOf ((permL order (eff legs)).take p) q)
        (colsOf ((permL order (eff legs)).drop p) q) from rfl, outerRavel_length]
    · intro i j hi hj
      have hm := mem_stored_block hoL (by rw [hll]; exact hp) (List.getElem_mem hi) (List.getElem_mem hj)
      have hs := hm.2
      rw [stored, List.mem_filter] at hs
      refine ⟨_, hs.1, by simpa using hs.2, unperm_map hoL hm.1.2, ?_⟩
      rw [hmk, show blockMap (eff legs) order p q = outerRavel (fun r c =>
        (stored (eff legs)).idxOf (unperm order (r ++ c))) (rowsOf ((permL order (eff legs)).take p) q)
        (colsOf ((permL order (eff legs)).drop p) q) from rfl, outerRavel_getElem? _ _ _ hj,
        List.getElem?_eq_getElem hi, List.getElem?_eq_getElem hj]
      rfl

end

/-! ## Concrete cases -/

/-- The 7 stored elements of `legsEx`, with the legs in the order 2, 0, 1, cut after the first two
legs: three blocks with charges -1, 0 and 1. -/
example : (findTransposed argsortI legsEx 2 [2, 0, 1]).toOption.map 
    (fun b => (b.maps, b.rows, b.cols, b.qnums.charges)) =
    some ([[1, 3, 4, 6], [0], [2, 5]], [2, 1, 2], [2, 1, 1], [-1, 0, 1]) := by
  decide +kernel

example := C24_block_decomposition argsortI_ok legsEx_wf (by decide) (p := 2) (by decide)
  (order := [2, 0, 1]) (by decide)

end TN.Bs
