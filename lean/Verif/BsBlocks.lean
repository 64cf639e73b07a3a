import Verif.BsReduce

/-!
# Positions of the stored elements and the diagonal blocks (block_sparse/blocksparse_utils.py)
-/

set_option linter.unusedSectionVars false

namespace TN.Bs

section
variable {Q : Type} [AddCommGroup Q] [LinearOrder Q]

/-! ## Specification -/

/-- The positions whose charges add up to zero, in row-major order: the order in which the data
vector of a symmetric tensor is stored. -/
def stored (L : List (List Q)) : List (List Nat) := (grid (dims L)).filter (fun i => total L i = 0)

/-- The rows with charge `q`. -/
def rowsOf (A : List (List Q)) (q : Q) : List (List Nat) :=
  (grid (dims A)).filter (fun i => total A i = q)

/-- The columns that go with rows of charge `q`. -/
def colsOf (B : List (List Q)) (q : Q) : List (List Nat) :=
  (grid (dims B)).filter (fun j => q + total B j = 0)

/-- The legs in the order `order`. -/
def permL (order : List Nat) (L : List (List Q)) : List (List Q) := order.map (fun n => L.getD n [])

/-- The original multi-index of the multi-index `i` of the transposed tensor. -/
def unperm (order i : List Nat) : List Nat :=
  (List.range order.length).map (fun a => i.getD (order.idxOf a) 0)

/-- The positions in the data vector of the block with charge `q`: the matrix elements in row-major
order, of the tensor transposed by `order` and cut after `p` legs. -/
def blockMap (L : List (List Q)) (order : List Nat) (p : Nat) (q : Q) : List Nat :=
  (rowsOf ((permL order L).take p) q).flatMap (fun r =>
    (colsOf ((permL order L).drop p) q).map (fun c => (stored L).idxOf (unperm order (r ++ c))))

/-- Block maps, charges of the blocks, numbers of rows and numbers of columns. -/
structure Blocks (Q : Type) where
  maps : List (List Nat)
  qnums : Charge Q
  rows : List Nat
  cols : List Nat

/-- A complete decomposition into the diagonal blocks: for different charges `qs`, among them
every charge with rows and columns, the block maps and the matrix dimensions. -/
structure IsBlocks (L : List (List Q)) (order : List Nat) (p : Nat) (b : Blocks Q) (qs : List Q) :
    Prop where
  wf : b.qnums.WF
  uniq : b.qnums.uniq = qs
  charges : b.qnums.charges = qs
  complete : ∀ q, rowsOf ((permL order L).take p) q ≠ [] →
    colsOf ((permL order L).drop p) q ≠ [] → q ∈ qs
  maps : b.maps = qs.map (blockMap L order p)
  rows : b.rows = qs.map (fun q => (rowsOf ((permL order L).take p) q).length)
  cols : b.cols = qs.map (fun q => (colsOf ((permL order L).drop p) q).length)

/-! ## Offsets -/

/-- The sum of `f` over the elements before `r`. -/
def pre {α : Type} [DecidableEq α] (f : α → Nat) : List α → α → Nat
  | [], _ => 0
  | x :: l, r => if x = r then 0 else f x + pre f l r

theorem pre_filter {α : Type} [DecidableEq α] (f : α → Nat) (p : α → Bool) (l : List α) (r : α)
    (hr : p r = true) (h0 : ∀ x ∈ l, p x = false → f x = 0) : pre f (l.filter p) r = pre f l r := by
  induction l with
  | nil => rfl
  | cons x l ih =>
    have ih' := ih (fun y hy => h0 y (by simp [hy]))
    by_cases hx : p x = true
    · rw [List.filter_cons_of_pos hx, pre, pre, ih']
    · have hx' : p x = false := by simpa using hx
      rw [List.filter_cons_of_neg hx, ih', pre]
      have hne : x ≠ r := by rintro rfl; exact hx hr
      rw [if_neg hne, h0 x (by simp) hx', Nat.zero_add]

theorem pre_cumsum {α : Type} [DecidableEq α] [BEq α] [LawfulBEq α] (f : α → Nat) (l : List α) (r : α) (h : r ∈ l) (a : Nat) :
    (a :: cumsum a (l.map f).dropLast).getD (l.idxOf r) 0 = a + pre f l r := by
  induction l generalizing a with
  | nil => simp at h
  | cons x l ih =>
    by_cases hx : x = r
    · subst hx; simp [pre]
    · have hl : r ∈ l := by simpa [Ne.symm hx] using h
      obtain ⟨y, l', rfl⟩ : ∃ y l', l = y :: l' := by
        cases l with
        | nil => simp at hl
        | cons y l' => exact ⟨y, l', rfl⟩
      have := ih hl (a + f x)
      rw [List.idxOf_cons_ne _ hx, List.map_cons, List.map_cons, List.dropLast_cons_cons, cumsum,
        List.getD_cons_succ, pre, if_neg hx, ← Nat.add_assoc]
      simpa using this

theorem idxOf_flatMap (l : List (List Nat)) (g : List Nat → List (List Nat)) (n : Nat) (r c : List Nat)
    (hn : ∀ x ∈ l, x.length = n) (hr : r ∈ l) (hc : c ∈ g r) :
    (l.flatMap (fun x => (g x).map (fun y => x ++ y))).idxOf (r ++ c) =
      pre (fun x => (g x).length) l r + (g r).idxOf c := by
  induction l with
  | nil => simp at hr
  | cons x l ih =>
    rw [List.flatMap_cons, pre]
    have hx := hn x (by simp)
    by_cases hxr : x = r
    · subst hxr
      rw [if_pos rfl, Nat.zero_add,
        List.idxOf_append_of_mem (List.mem_map_of_mem hc)]
      exact Charge.idxOf_map_inj (f := fun y => x ++ y) (fun y _ h => List.append_cancel_left h)
    · have hr' : r ∈ l := by simpa [Ne.symm hxr] using hr
      have hnm : r ++ c ∉ (g x).map (fun y => x ++ y) := by
        intro hm
        obtain ⟨y, _, hy⟩ := List.mem_map.1 hm
        exact hxr (List.append_inj_left hy (by rw [hx, hn r (by simp [hr'])]))
      rw [if_neg hxr, List.idxOf_append_of_notMem hnm, ih (fun y hy => hn y (by simp [hy])) hr',
        List.length_map]
      omega

theorem stored_append (A B : List (List Q)) :
    stored (A ++ B) = (grid (dims A)).flatMap (fun r => (colsOf B (total A r)).map (fun c => r ++ c)) := by
  rw [stored, show dims (A ++ B) = dims A ++ dims B by simp [dims], grid_append, List.filter_flatMap]
  apply List.flatMap_congr
  intro r hr
  rw [List.filter_map, colsOf]
  congr 1
  apply List.filter_congr
  intro c _
  have : r.length = A.length := by have := (mem_grid.1 hr).length; simpa using this
  simp [total_append this]

/-- The position of an element in the data vector: the elements in the rows above, and the
columns of the same charge to the left. -/
theorem stored_idxOf {A B : List (List Q)} {r c : List Nat} (hr : InB (dims A) r)
    (hc : c ∈ colsOf B (total A r)) :
    (stored (A ++ B)).idxOf (r ++ c) =
      pre (fun r => (colsOf B (total A r)).length) (grid (dims A)) r +
        (colsOf B (total A r)).idxOf c := by
  rw [stored_append]
  exact idxOf_flatMap _ (fun r => colsOf B (total A r)) (dims A).length r c
    (fun x hx => (mem_grid.1 hx).length) (mem_grid.2 hr) hc

theorem colsOf_eq {B : List (Leg Q)} (h : LegsWF B) (q : Q) :
    colsOf (eff B) q = rowsOf (eff (flipFlows B)) q := by
  have hd : dims (eff (flipFlows B)) = dims (eff B) := by
    rw [eff_flip h]; simp [dims, Function.comp_def]
  rw [colsOf, rowsOf, hd]
  apply List.filter_congr
  intro j hj
  rw [eff_flip h, total_neg _ _ (mem_grid.1 hj)]
  simp only [decide_eq_decide]
  constructor
  · intro h1; exact (eq_neg_of_add_eq_zero_left h1).symm
  · rintro rfl; abel

theorem count_fuseL (A : List (List Q)) (q : Q) : (fuseL A).count q = (rowsOf A q).length := by
  rw [fuseL, List.count, List.countP_map, rowsOf, List.countP_eq_length_filter]
  rfl

theorem mem_fuseL {A : List (List Q)} {q : Q} : q ∈ fuseL A ↔ rowsOf A q ≠ [] := by
  rw [← List.count_pos_iff, count_fuseL, List.length_pos_iff]

theorem unperm_range {n : Nat} {i : List Nat} (h : i.length = n) : unperm (List.range n) i = i := by
  apply List.ext_getElem
  · simp [unperm, h]
  · intro k h1 h2
    have hk : k < n := by omega
    have : (List.range n).idxOf k = k := by
      conv_lhs => rw [← List.getElem_range (n := n) (j := k) (by simpa using hk)]
      exact List.Nodup.idxOf_getElem List.nodup_range _ _
    simp [unperm, this, h2]

theorem permL_range (L : List (List Q)) : permL (List.range L.length) L = L := by
  apply List.ext_getElem
  · simp [permL]
  · intro k h1 h2; simp [permL, h2]

theorem permL_eff (order : List Nat) (legs : List (Leg Q)) (h : ∀ n ∈ order, n < legs.length) :
    permL order (eff legs) = eff (order.map (fun n => legs.getD n (.raw [], false))) := by
  simp only [permL, eff, List.map_map]
  apply List.map_congr_left
  intro n hn
  have := h n hn
  simp [this]

/-! ## `_find_diagonal_sparse_blocks` -/

/-- `_find_diagonal_sparse_blocks` (blocksparse_utils.py:330-427) without the cache.  The two
branches that compute `row_locs` give the same matrix; here its rows are the lists of positions. -/
def findDiagonal (argsort : List Nat → List Nat) (legs : List (Leg Q)) (p : Nat) :
    Py (Blocks Q) :=
  if p = 0 ∨ p = legs.length then do
    let n ← numNonzero argsort legs
    match legs with
    | [] => .error .indexError
    | _ :: _ =>
      pure ⟨[List.range n], .lab [0] [0], if p = legs.length then [n] else [1],
        if p = legs.length then [1] else [n]⟩
  else do
    let row ← fusedDegens argsort (legs.take p)
    let col ← fusedDegens argsort (flipFlows (legs.drop p))
    let i := intersect row.1.uniq col.1.uniq
    let num := i.1.length
    if num = 0 then pure ⟨[], .lab [] [], [], []⟩
    else do
      let r ← reduceCharges (legs.take p) i.1 none
      let rowInd := r.1
      let rowNz := rowInd.labels.map (fun l => col.2.getD (i.2.2.getD l 0) 0)
      let cum := 0 :: cumsum 0 rowNz.dropLast
      let locs := fun n => (List.range rowInd.dim).filter (fun k => rowInd.labels.getD k 0 = n)
      let rows := (List.range num).map (fun n => row.2.getD (i.2.1.getD n 0) 0)
      let cols := (List.range num).map (fun n => col.2.getD (i.2.2.getD n 0) 0)
      let maps := (List.range num).map (fun n =>
        outerRavel (· + ·) ((locs n).map (fun k => cum.getD k 0)) (List.range (cols.getD n 0)))
      pure ⟨maps, .lab i.1 (List.range i.1.length), rows, cols⟩

theorem filter_range_map {α β : Type} [BEq α] [LawfulBEq α] [Inhabited α] (l : List α) (hn : l.Nodup)
    (P : α → Bool) (F : Nat → β) :
    ((List.range l.length).filter (fun k => P (l.getD k default))).map F =
      (l.filter P).map (fun x => F (l.idxOf x)) := by
  have h1 : ∀ k, k < l.length → l.idxOf (l.getD k default) = k := by
    intro k hk
    rw [List.getD_eq_getElem _ _ hk]
    exact Charge.idxOf_getElem_nodup hn hk
  have h2 : l = (List.range l.length).map (fun k => l.getD k default) := by
    apply List.ext_getElem
    · simp
    · intro k h1 h2; simp [h1]
  conv_rhs => rw [h2, List.filter_map, List.map_map, ← h2]
  apply List.map_congr_left
  intro k hk
  have hk' : k < l.length := by simpa using (List.mem_filter.1 hk).1
  simp only [Function.comp_apply]
  rw [h1 k hk']

theorem lab_range {C : List Q} (hC : C.Nodup) :
    (Charge.lab C (List.range C.length)).WF ∧ (Charge.lab C (List.range C.length)).charges = C := by
  refine ⟨⟨hC, by simp⟩, ?_⟩
  apply List.ext_getElem
  · simp [Charge.charges]
  · intro i h1 h2; simp [Charge.charges, h2]

theorem degens_getD {l : List Q} {r : Charge Q × List Nat} (h : Degens l r) {q : Q} (hq : q ∈ r.1.uniq) :
    r.2.getD (r.1.uniq.idxOf q) 0 = l.count q := by
  have := List.idxOf_lt_length_iff.2 hq
  rw [h.counts, List.getD_eq_getElem?_getD, List.getElem?_map, List.getElem?_eq_getElem this,
    List.getElem_idxOf]
  rfl

theorem blockMap_range (A B : List (List Q)) (q : Q) :
    blockMap (A ++ B) (List.range (A ++ B).length) A.length q =
      (rowsOf A q).flatMap (fun r => (colsOf B q).map (fun c => (stored (A ++ B)).idxOf (r ++ c))) := by
  rw [blockMap, permL_range, List.take_left, List.drop_left]
  apply List.flatMap_congr
  intro r hr
  apply List.map_congr_left
  intro c hc
  have h1 := (mem_grid.1 (List.mem_filter.1 hr).1).length
  have h2 := (mem_grid.1 (List.mem_filter.1 hc).1).length
  rw [unperm_range (by simp at h1 h2 ⊢; omega)]

theorem range_idxOf {α : Type} [BEq α] [LawfulBEq α] {l : List α} (h : l.Nodup) :
    l.map (fun x => l.idxOf x) = List.range l.length := by
  apply List.ext_getElem
  · simp
  · intro k h1 h2
    have hk : k < l.length := by simpa using h2
    simp only [List.getElem_map, List.getElem_range]
    exact Charge.idxOf_getElem_nodup h hk

theorem findDiagonal_spec {argsort : List Nat → List Nat} (ha : ArgsortOK argsort)
    {legs : List (Leg Q)} (h : LegsWF legs) (hne : legs ≠ []) {p : Nat} (hp : p ≤ legs.length) :
    ∃ b qs, findDiagonal argsort legs p = .ok b ∧
      IsBlocks (eff legs) (List.range (eff legs).length) p b qs ∧
      (p ≠ 0 → p ≠ legs.length → ∀ q, q ∈ qs ↔ rowsOf (eff (legs.take p)) q ≠ [] ∧
        colsOf (eff (legs.drop p)) q ≠ []) := by
  obtain ⟨A, hA⟩ : ∃ A, A = eff (legs.take p) := ⟨_, rfl⟩
  obtain ⟨B, hB⟩ : ∃ B, B = eff (legs.drop p) := ⟨_, rfl⟩
  have hAB : eff legs = A ++ B := by rw [hA, hB, ← eff_append, List.take_append_drop]
  have hAl : A.length = p := by rw [hA]; simp [eff]; omega
  have hperm : permL (List.range (A ++ B).length) (A ++ B) = A ++ B := permL_range _
  have hbm : ∀ q, blockMap (A ++ B) (List.range (A ++ B).length) p q =
      (rowsOf A q).flatMap (fun r => (colsOf B q).map (fun c => (stored (A ++ B)).idxOf (r ++ c))) := by
    intro q; rw [← hAl]; exact blockMap_range A B q
  rw [← hA, ← hB, hAB]
  by_cases hs : p = 0 ∨ p = legs.length
  · -- a single row or column
    have hn : numNonzero argsort legs = .ok (stored (eff legs)).length := by
      rw [C22_num_nonzero ha h hne, stored, ← List.countP_eq_length_filter, dims_eff]
    have hres : findDiagonal argsort legs p = .ok ⟨[List.range (stored (eff legs)).length],
        .lab [0] [0], if p = legs.length then [(stored (eff legs)).length] else [1],
        if p = legs.length then [1] else [(stored (eff legs)).length]⟩ := by
      rw [findDiagonal, if_pos hs, hn]
      cases legs with
      | nil => exact absurd rfl hne
      | cons l legs => rfl
    refine ⟨_, [0], hres, ?_, ?_⟩
    · have hnd := (grid_nodup (dims (eff legs))).filter (fun i => total (eff legs) i = 0)
      have hrng := range_idxOf hnd
      rw [show List.filter (fun i => decide (total (eff legs) i = 0)) (grid (dims (eff legs))) =
        stored (eff legs) from rfl] at hrng
      have hl0 := lab_range (C := [(0 : Q)]) (by simp)
      have hlpos : 0 < legs.length := List.length_pos_iff.2 hne
      by_cases hp0 : p = 0
      · have hA0 : A = [] := List.length_eq_zero_iff.1 (by omega)
        subst hA0
        have hB2 : B = eff legs := by rw [hAB]; rfl
        have hc : colsOf B 0 = stored (eff legs) := by rw [hB2, colsOf, stored]; simp
        have hr : rowsOf ([] : List (List Q)) 0 = [[]] := by simp [rowsOf, grid, dims, total]
        refine ⟨hl0.1, rfl, hl0.2, ?_, ?_, ?_, ?_⟩
        · intro q hq _
          rw [hperm, hp0] at hq
          by_contra hq0
          apply hq
          have : ¬ (0 : Q) = q := fun h0 => hq0 (by simp [← h0])
          simp [rowsOf, grid, dims, total, this]
        · simp only [List.map_cons, List.map_nil]
          rw [hbm, hr, List.flatMap_singleton]
          simp only [List.nil_append, hc]
          rw [show stored B = stored (eff legs) by rw [hB2], hrng]
        · rw [hperm, hp0]; simp only [if_neg (show ¬ 0 = legs.length by omega)]; simp [hr]
        · rw [hperm, hp0]; simp only [if_neg (show ¬ 0 = legs.length by omega)]; simp [hc]
      · have hpl : p = legs.length := by tauto
        have hB0 : B = [] := by rw [hB, hpl]; simp [eff]
        subst hB0
        have hA2 : A = eff legs := by rw [hAB]; simp
        have hr : rowsOf A 0 = stored (eff legs) := by rw [hA2]; rfl
        have hc : colsOf ([] : List (List Q)) 0 = [[]] := by simp [colsOf, grid, dims, total]
        refine ⟨hl0.1, rfl, hl0.2, ?_, ?_, ?_, ?_⟩
        · intro q _ hq
          rw [hperm, List.append_nil, ← hAl, List.drop_length] at hq
          by_contra hq0
          apply hq
          have : ¬ q = 0 := fun h0 => hq0 (by simp [h0])
          simp [colsOf, grid, dims, total, this]
        · simp only [List.map_cons, List.map_nil]
          rw [hbm, hr, hc]
          have hst : stored (A ++ []) = stored (eff legs) := by rw [List.append_nil, hA2]
          rw [hst, ← hrng]
          simp only [List.map_cons, List.map_nil, List.append_nil]
          congr 1
          exact (List.map_eq_flatMap ..)
        · rw [hperm, List.append_nil, ← hAl, List.take_length, hAl]; simp only [if_pos hpl]; simp [hr]
        · rw [hperm, List.append_nil, ← hAl, List.drop_length, hAl]; simp only [if_pos hpl]; simp [hc]
    · intro h1 h2; exact absurd hs (by tauto)
  · -- the general case
    have hp0 : p ≠ 0 := fun h => hs (Or.inl h)
    have hpl : p ≠ legs.length := fun h => hs (Or.inr h)
    have hwA : LegsWF (legs.take p) := fun l hl => h l (List.mem_of_mem_take hl)
    have hwB : LegsWF (legs.drop p) := fun l hl => h l (List.mem_of_mem_drop hl)
    have hneA : legs.take p ≠ [] := by
      intro h0; have := congrArg List.length h0
      rw [List.length_take, List.length_nil] at this
      have := List.length_pos_iff.2 hne
      omega
    have hneB : flipFlows (legs.drop p) ≠ [] := by
      intro h0; have := congrArg List.length h0; simp [flipFlows] at this; omega
    obtain ⟨row, r1, rd⟩ := fusedDegens_spec ha hwA hneA
    obtain ⟨col, c1, cd⟩ := fusedDegens_spec ha (flipFlows_wf hwB) hneB
    rw [← hA] at rd
    have hcol : ∀ q, q ∈ fuseL (eff (flipFlows (legs.drop p))) ↔ colsOf B q ≠ [] := by
      intro q; rw [mem_fuseL, hB, colsOf_eq hwB]
    have hcolc : ∀ q, (fuseL (eff (flipFlows (legs.drop p)))).count q = (colsOf B q).length := by
      intro q; rw [count_fuseL, hB, colsOf_eq hwB]
    obtain ⟨qs, hqs⟩ : ∃ qs, qs = (intersect row.1.uniq col.1.uniq).1 := ⟨_, rfl⟩
    have hi1 : (intersect row.1.uniq col.1.uniq).2.1 = qs.map (fun x => row.1.uniq.idxOf x) := by
      rw [hqs]; rfl
    have hi2 : (intersect row.1.uniq col.1.uniq).2.2 = qs.map (fun x => col.1.uniq.idxOf x) := by
      rw [hqs]; rfl
    have hqm : ∀ q, q ∈ qs ↔ rowsOf A q ≠ [] ∧ colsOf B q ≠ [] := by
      intro q; rw [hqs, intersect_mem, rd.mem, cd.mem, hcol, mem_fuseL]
    have hqn : qs.Nodup := hqs ▸ intersect_nodup _ _
    have htake : (permL (List.range (A ++ B).length) (A ++ B)).take p = A := by
      rw [hperm, ← hAl, List.take_left]
    have hdrop : (permL (List.range (A ++ B).length) (A ++ B)).drop p = B := by
      rw [hperm, ← hAl, List.drop_left]
    by_cases hq0 : qs = []
    · refine ⟨⟨[], .lab [] [], [], []⟩, [], ?_, ?_, ?_⟩
      · rw [findDiagonal, if_neg hs, r1, c1]
        simp only [bind, Except.bind, ← hqs, hq0, List.length_nil, if_true]
        rfl
      · have hl0 := lab_range (C := ([] : List Q)) (by simp)
        refine ⟨hl0.1, rfl, rfl, ?_, rfl, rfl, rfl⟩
        intro q h1 h2
        rw [htake] at h1; rw [hdrop] at h2
        rw [← hq0]; exact (hqm q).2 ⟨h1, h2⟩
      · intro _ _ q
        rw [← hqm q, hq0]
    · obtain ⟨rowInd, i1, i2, i3, i4⟩ := reduceCharges_spec hwA hneA qs none (by simp)
      rw [← hA] at i1 i3 i4
      have hru : rowInd.uniq = qs := by
        rw [i4]
        have e1 : npUnique row.1.uniq = npUnique (fuseL A) :=
          npUnique_eq (npUnique_lt _) (fun x => by rw [mem_npUnique, rd.mem])
        have e2 : qs = (npUnique (fuseL A)).filter (· ∈ col.1.uniq) := by
          rw [hqs, intersect, e1]
        conv_rhs => rw [e2]
        apply List.filter_congr
        intro x hx
        rw [mem_npUnique] at hx
        rw [e2]
        simp [hx]
      obtain ⟨kept, hk⟩ : ∃ k, k = (grid (dims A)).filter (fun i => total A i ∈ qs) := ⟨_, rfl⟩
      have hkn : kept.Nodup := hk ▸ (grid_nodup _).filter _
      have hkc : rowInd.charges = kept.map (total A) := by
        rw [i3, fuseL, hk, List.filter_map]; rfl
      have hkl : rowInd.labels = kept.map (fun i => qs.idxOf (total A i)) := by
        rw [Charge.labels_eq i2, hkc, hru, List.map_map]; rfl
      have hkd : rowInd.dim = kept.length := by rw [Charge.dim_eq, hkc, List.length_map]
      have hkq : ∀ i ∈ kept, total A i ∈ qs := by
        intro i hi; rw [hk] at hi; simpa using (List.mem_filter.1 hi).2
      have hgl : ∀ q ∈ qs, (qs.map (fun x => col.1.uniq.idxOf x)).getD (qs.idxOf q) 0 =
          col.1.uniq.idxOf q := by
        intro q hq
        have := List.idxOf_lt_length_iff.2 hq
        rw [List.getD_eq_getElem?_getD, List.getElem?_map, List.getElem?_eq_getElem this,
          List.getElem_idxOf]
        rfl
      have hcolmem : ∀ q ∈ qs, q ∈ col.1.uniq := by
        intro q hq; rw [cd.mem, hcol]; exact ((hqm q).1 hq).2
      have hrowmem : ∀ q ∈ qs, q ∈ row.1.uniq := by
        intro q hq; rw [rd.mem, mem_fuseL]; exact ((hqm q).1 hq).1
      have hnz : rowInd.labels.map (fun l => col.2.getD
          ((intersect row.1.uniq col.1.uniq).2.2.getD l 0) 0) =
          kept.map (fun i => (colsOf B (total A i)).length) := by
        rw [hkl, List.map_map]
        apply List.map_congr_left
        intro i hi
        simp only [Function.comp_apply]
        rw [hi2, hgl _ (hkq i hi), degens_getD cd (hcolmem _ (hkq i hi)), hcolc]
      have hrows : (List.range qs.length).map (fun n => row.2.getD
          ((intersect row.1.uniq col.1.uniq).2.1.getD n 0) 0) =
          qs.map (fun q => (rowsOf A q).length) := by
        apply List.ext_getElem
        · simp
        · intro k h1 h2
          have hk : k < qs.length := by simpa using h1
          simp only [List.getElem_map, List.getElem_range]
          rw [hi1, List.getD_eq_getElem?_getD (i := k), List.getElem?_map,
            List.getElem?_eq_getElem hk]
          simp only [Option.map_some, Option.getD_some]
          rw [degens_getD rd (hrowmem _ (List.getElem_mem hk)), count_fuseL]
      have hcols : (List.range qs.length).map (fun n => col.2.getD
          ((intersect row.1.uniq col.1.uniq).2.2.getD n 0) 0) =
          qs.map (fun q => (colsOf B q).length) := by
        apply List.ext_getElem
        · simp
        · intro k h1 h2
          have hk : k < qs.length := by simpa using h1
          simp only [List.getElem_map, List.getElem_range]
          rw [hi2, List.getD_eq_getElem?_getD (i := k), List.getElem?_map,
            List.getElem?_eq_getElem hk]
          simp only [Option.map_some, Option.getD_some]
          rw [degens_getD cd (hcolmem _ (List.getElem_mem hk)), hcolc]
      refine ⟨⟨qs.map (blockMap (A ++ B) (List.range (A ++ B).length) p),
        .lab qs (List.range qs.length), qs.map (fun q => (rowsOf A q).length),
        qs.map (fun q => (colsOf B q).length)⟩, qs, ?_, ?_, ?_⟩
      · rw [findDiagonal, if_neg hs, r1, c1]
        simp only [bind, Except.bind, pure, Except.pure, ← hqs]
        rw [if_neg (by simpa using hq0), i1]
        simp only [hnz, hrows, hcols]
        congr 2
        apply List.ext_getElem
        · simp
        · intro n h1 h2
          have hn : n < qs.length := by simpa using h2
          simp only [List.getElem_map, List.getElem_range]
          rw [List.getD_eq_getElem?_getD (l := qs.map (fun q => (colsOf B q).length)),
            List.getElem?_map, List.getElem?_eq_getElem hn]
          simp only [Option.map_some, Option.getD_some]
          obtain ⟨q, hq⟩ : ∃ q, q = qs[n] := ⟨_, rfl⟩
          rw [← hq, hbm, hkd]
          have hqmem : q ∈ qs := hq ▸ List.getElem_mem hn
          have hflt : (List.range kept.length).filter (fun k => rowInd.labels.getD k 0 = n) =
              (List.range kept.length).filter
                (fun k => decide (total A (kept.getD k default) = q)) := by
            apply List.filter_congr
            intro k hk1
            have hk2 : k < kept.length := by simpa using hk1
            rw [hkl, List.getD_eq_getElem?_getD, List.getElem?_map, List.getElem?_eq_getElem hk2,
              List.getD_eq_getElem _ _ hk2]
            simp only [Option.map_some, Option.getD_some, decide_eq_decide]
            have hm := hkq _ (List.getElem_mem hk2)
            rw [hq]
            constructor
            · intro h3
              subst h3
              exact (List.getElem_idxOf _).symm
            · intro h3; rw [h3]; exact Charge.idxOf_getElem_nodup hqn hn
          rw [hflt, filter_range_map kept hkn (fun i => decide (total A i = q))
            (fun k => (0 :: cumsum 0 (kept.map (fun i => (colsOf B (total A i)).length)).dropLast).getD k 0)]
          have hkr : kept.filter (fun i => decide (total A i = q)) = rowsOf A q := by
            rw [hk, List.filter_filter, rowsOf]
            apply List.filter_congr
            intro i _
            by_cases h3 : total A i = q
            · simp [h3, hqmem]
            · simp [h3]
          rw [hkr]
          simp only [outerRavel]
          rw [List.flatMap_map]
          apply List.flatMap_congr
          intro r hr
          have hr1 := (List.mem_filter.1 hr).1
          have hr2 : total A r = q := by simpa using (List.mem_filter.1 hr).2
          have hrk : r ∈ kept := by
            rw [hk, List.mem_filter]; exact ⟨hr1, by simp [hr2, hqmem]⟩
          have hpc := pre_cumsum (fun i => (colsOf B (total A i)).length) kept r hrk 0
          rw [Nat.zero_add] at hpc
          have hpf : pre (fun i => (colsOf B (total A i)).length) kept r =
              pre (fun i => (colsOf B (total A i)).length) (grid (dims A)) r := by
            rw [hk]
            refine pre_filter _ _ _ _ (by simp [hr2, hqmem]) ?_
            intro x hx hx2
            have hx3 : total A x ∉ qs := by simpa using hx2
            rw [hqm] at hx3
            have : rowsOf A (total A x) ≠ [] := by
              intro h0
              have : x ∈ rowsOf A (total A x) := by
                rw [rowsOf, List.mem_filter]; exact ⟨hx, by simp⟩
              rw [h0] at this; simp at this
            have : colsOf B (total A x) = [] := by
              by_contra h0; exact hx3 ⟨‹_›, h0⟩
            simp [this]
          have hcn : (colsOf B q).Nodup := (grid_nodup _).filter _
          rw [hpc, hpf, ← range_idxOf hcn, List.map_map]
          apply List.map_congr_left
          intro c hc
          rw [stored_idxOf (mem_grid.1 hr1) (by rw [hr2]; exact hc), hr2]
          rfl
      · have hl0 := lab_range hqn
        refine ⟨hl0.1, rfl, hl0.2, ?_, rfl, ?_, ?_⟩
        · intro q h1 h2
          rw [htake] at h1; rw [hdrop] at h2
          exact (hqm q).2 ⟨h1, h2⟩
        · rw [htake]
        · rw [hdrop]
      · intro _ _ q; exact hqm q

end
end TN.Bs
