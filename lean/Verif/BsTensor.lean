import Verif.BsTrans
import Verif.Group

/-!
# Block-sparse tensors (block_sparse/blocksparsetensor.py): storage, dense form, lazy operations
-/

set_option linter.unusedSectionVars false

namespace TN.Bs

open NDArray

section
variable {Q : Type} [AddCommGroup Q] [LinearOrder Q] {R : Type}

/-- `BlockSparseTensor` (blocksparsetensor.py:36-86, 466-522): the stored elements, the charge and
flow of every elementary leg, and the legs that make up every axis.  Entries are elements of an
abstract type; the dtype is not modelled. -/
structure BST (Q R : Type) where
  data : List R
  legs : List (Leg Q)
  order : List (List Nat)

namespace BST

/-- What `check_consistency=True` tests (blocksparsetensor.py:72-84, 515-522), and that no axis is
without legs. -/
structure Valid (T : BST Q R) : Prop where
  wf : LegsWF T.legs
  perm : T.order.flatten.Perm (List.range T.legs.length)
  groups : ∀ g ∈ T.order, g ≠ []
  size : T.data.length = (stored (eff T.legs)).length

/-- The dimension of leg `n` (`self._charges[n].dim`). -/
def ldim (T : BST Q R) (n : Nat) : Nat := (T.legs.map (fun l => l.1.dim)).getD n 0

/-- `ChargeArray.ndim` (blocksparsetensor.py:112-117) -/
def ndim (T : BST Q R) : Nat := T.order.length

/-- `ChargeArray.shape` (blocksparsetensor.py:126-134).  `reduce` of an empty list raises. -/
def shape (T : BST Q R) : Py (List Nat) :=
  if [] ∈ T.order then .error .typeError
  else .ok (T.order.map (fun g => (g.map T.ldim).prod))

end BST

/-- `a[locs] = vals` for an array of positions: the values are written one after the other.  A
single value is written to all positions; other differences in length raise, as do positions
outside. -/
def setAll (a : List R) (locs : List Nat) (vals : List R) : Py (List R) :=
  if ∀ k ∈ locs, k < a.length then
    if locs.length = vals.length then
      .ok ((locs.zip vals).foldl (fun a p => a.set p.1 p.2) a)
    else if vals.length = 1 then
      .ok (locs.foldl (fun a p => match vals with | v :: _ => a.set p v | [] => a) a)
    else .error .valueError
  else .error .indexError

namespace BST

/-- `BlockSparseTensor.todense` (blocksparsetensor.py:575-589).  The data of a tensor without
axes are returned as they are, a vector. -/
def todense [Zero R] (T : BST Q R) : Py (NDArray R) :=
  if T.order = [] then .ok ⟨[T.data.length], fun i => T.data.getD (i.getD 0 0) 0⟩
  else do
    let sh ← T.shape
    let c ← fuseCharges T.legs
    let out ← setAll (List.replicate sh.prod 0)
      ((List.range c.charges.length).filter (fun k => c.charges.getD k 0 = 0)) T.data
    let flat : NDArray R := ⟨[out.length], fun i => out.getD (i.getD 0 0) 0⟩
    let r ← flat.reshape (T.legs.map (fun l => l.1.dim))
    let r ← r.transpose T.order.flatten
    r.reshape sh

/-- The element at the multi-index `o` of the elementary legs. -/
def sval [Zero R] (T : BST Q R) (o : List Nat) : R :=
  if o ∈ stored (eff T.legs) then T.data.getD ((stored (eff T.legs)).idxOf o) 0 else 0

end BST

/-! ## Writing to positions -/

theorem foldl_set_getD [Zero R] {a : List R} {locs : List Nat} {vals : List R} (hl : locs.length = vals.length)
    (hlt : ∀ k ∈ locs, k < a.length) (hn : locs.Nodup) (k : Nat) :
    ((locs.zip vals).foldl (fun a p => a.set p.1 p.2) a).getD k 0 =
      if k ∈ locs then vals.getD (locs.idxOf k) 0 else a.getD k 0 := by
  induction locs generalizing a vals with
  | nil => simp
  | cons x locs ih =>
    match vals, hl with
    | v :: vals, hl =>
      have hlt' : ∀ k ∈ locs, k < (a.set x v).length := by
        intro k hk; rw [List.length_set]; exact hlt k (List.mem_cons_of_mem _ hk)
      rw [List.zip_cons_cons, List.foldl_cons, ih (by simpa using hl) hlt' (List.nodup_cons.1 hn).2]
      have hx : x ∉ locs := (List.nodup_cons.1 hn).1
      by_cases hk : k = x
      · subst hk
        have := hlt k (by simp)
        rw [if_neg hx, if_pos (by simp)]
        simp [this]
      · by_cases hkl : k ∈ locs
        · rw [if_pos hkl, if_pos (by simp [hkl]), List.idxOf_cons_ne _ (fun h => hk h.symm)]
          simp
        · rw [if_neg hkl, if_neg (by simp [hk, hkl])]
          simp [List.getElem?_set_ne (fun h => hk h.symm)]

theorem foldl_set_length {a : List R} (z : List (Nat × R)) :
    (z.foldl (fun a p => a.set p.1 p.2) a).length = a.length := by
  induction z generalizing a with
  | nil => rfl
  | cons x z ih => rw [List.foldl_cons, ih]; simp

theorem setAll_spec [Zero R] {a : List R} {locs : List Nat} {vals : List R}
    (hl : locs.length = vals.length) (hlt : ∀ k ∈ locs, k < a.length) (hn : locs.Nodup) :
    ∃ r, setAll a locs vals = .ok r ∧ r.length = a.length ∧
      ∀ k, r.getD k 0 = if k ∈ locs then vals.getD (locs.idxOf k) 0 else a.getD k 0 :=
  ⟨_, by rw [setAll, if_pos hlt, if_pos hl], foldl_set_length _, foldl_set_getD hl hlt hn⟩

/-! ## The dense form -/

/-- The positions of the stored elements in the dense vector. -/
theorem nonzero_locs (L : List (List Q)) :
    (List.range (fuseL L).length).filter (fun k => (fuseL L).getD k 0 = 0) =
      (stored L).map (ravel (dims L)) := by
  have h := filter_range_map (grid (dims L)) (grid_nodup _) (fun i => decide (total L i = 0)) id
  rw [List.map_id, grid_length] at h
  rw [fuseL_length]
  have e : (List.range (dims L).prod).filter (fun k => decide ((fuseL L).getD k 0 = 0)) =
      (List.range (dims L).prod).filter
        (fun k => decide (total L ((grid (dims L)).getD k default) = 0)) := by
    apply List.filter_congr
    intro k hk
    have hk' : k < (grid (dims L)).length := by rw [grid_length]; simpa using hk
    rw [fuseL, List.getD_eq_getElem?_getD, List.getElem?_map, List.getElem?_eq_getElem hk',
      List.getD_eq_getElem _ _ hk']
    rfl
  rw [e, h, stored]
  apply List.map_congr_left
  intro i hi
  exact grid_idxOf (mem_grid.1 (List.mem_filter.1 hi).1)

theorem stored_inB {L : List (List Q)} {o : List Nat} (h : o ∈ stored L) : InB (dims L) o :=
  mem_grid.1 (List.mem_filter.1 h).1

theorem mem_stored {L : List (List Q)} {o : List Nat} :
    o ∈ stored L ↔ InB (dims L) o ∧ total L o = 0 := by
  rw [stored, List.mem_filter, mem_grid, decide_eq_true_eq]

theorem stored_idxOf_ravel {L : List (List Q)} {o : List Nat} (h : InB (dims L) o) :
    ((stored L).map (ravel (dims L))).idxOf (ravel (dims L) o) = (stored L).idxOf o := by
  have : ∀ l : List (List Nat), (∀ x ∈ l, InB (dims L) x) →
      (l.map (ravel (dims L))).idxOf (ravel (dims L) o) = l.idxOf o := by
    intro l
    induction l with
    | nil => intro _; rfl
    | cons x l ih =>
      intro hl
      rw [List.map_cons]
      by_cases hx : x = o
      · subst hx; rw [List.idxOf_cons_self, List.idxOf_cons_self]
      · rw [List.idxOf_cons_ne _ hx, List.idxOf_cons_ne _
          (fun h2 => hx (ravel_inj (hl x (by simp)) h h2)), ih (fun y hy => hl y (by simp [hy]))]
  exact this _ (fun x hx => stored_inB hx)

namespace BST

variable {T : BST Q R}

theorem dims_range (T : BST Q R) :
    dims (eff T.legs) = (List.range T.legs.length).map T.ldim := by
  rw [dims_eff]
  conv_lhs => rw [← map_range_getD (T.legs.map (fun l => l.1.dim)) 0]
  rw [List.length_map]
  rfl

theorem inB_range (T : BST Q R) {σ : Nat → Nat} :
    InB (dims (eff T.legs)) ((List.range T.legs.length).map σ) ↔
      ∀ n, n < T.legs.length → σ n < T.ldim n := by
  rw [dims_range, inB_map]
  simp

theorem Valid.order_nodup (h : T.Valid) : T.order.flatten.Nodup :=
  h.perm.nodup_iff.2 List.nodup_range

theorem Valid.mem_order (h : T.Valid) {n : Nat} : n ∈ T.order.flatten ↔ n < T.legs.length := by
  rw [h.perm.mem_iff, List.mem_range]

theorem Valid.legs_ne (h : T.Valid) (ho : T.order ≠ []) : T.legs ≠ [] := by
  intro hl
  have h1 := h.perm
  rw [hl] at h1
  have h2 : T.order.flatten = [] := List.perm_nil.1 h1
  obtain ⟨g, gs, hg⟩ := List.exists_cons_of_ne_nil ho
  have : g ≠ [] := h.groups g (by simp [hg])
  rw [hg] at h2
  simp at h2
  exact this h2.1

theorem Valid.shape_eq (h : T.Valid) : T.shape = .ok (T.order.map (gdim T.ldim)) := by
  rw [shape, if_neg (fun hm => h.groups _ hm rfl)]
  rfl

/-- The dense form of a valid tensor: the entry at the position that `σ` gives along the axes is
the element at the multi-index `σ` of the legs. -/
theorem Valid.todense [Zero R] (h : T.Valid) (ho : T.order ≠ []) :
    ∃ d, T.todense = .ok d ∧ d.shape = T.order.map (gdim T.ldim) ∧
      ∀ σ : Nat → Nat, (∀ n, n < T.legs.length → σ n < T.ldim n) →
        d.get (T.order.map (fun g => gpos T.ldim g σ)) = T.sval ((List.range T.legs.length).map σ) := by
  obtain ⟨c, c1, c2, c3⟩ := fuseCharges_spec h.wf (h.legs_ne ho)
  have hdim : T.legs.map (fun l => l.1.dim) = (List.range T.legs.length).map T.ldim := by
    rw [← dims_eff, dims_range]
  have hprod : (T.order.map (gdim T.ldim)).prod = (dims (eff T.legs)).prod := by
    rw [gdim_prod, dims_range]
    exact (h.perm.map _).prod_eq
  obtain ⟨L, hL⟩ : ∃ L, L = eff T.legs := ⟨_, rfl⟩
  obtain ⟨out, o1, o2, o3⟩ := setAll_spec (a := List.replicate (dims L).prod (0 : R))
    (locs := (stored L).map (ravel (dims L))) (vals := T.data)
    (by rw [List.length_map, h.size, hL])
    (by
      intro k hk
      obtain ⟨o, ho, rfl⟩ := List.mem_map.1 hk
      rw [List.length_replicate]
      exact ravel_lt (stored_inB ho))
    (by
      apply List.Nodup.map_on _ (stored_nodup _)
      intro x hx y hy hxy
      exact ravel_inj (stored_inB hx) (stored_inB hy) hxy)
  rw [List.length_replicate] at o2
  obtain ⟨flat, hflat⟩ : ∃ f : NDArray R, f = ⟨[out.length], fun i => out.getD (i.getD 0 0) 0⟩ := ⟨_, rfl⟩
  obtain ⟨r1, e1⟩ : ∃ r1, r1 = (⟨T.legs.map (fun l => l.1.dim), fun i => flat.get (unravel flat.shape
    (ravel (T.legs.map (fun l => l.1.dim)) i))⟩ : NDArray R) := ⟨_, rfl⟩
  have er1 : flat.reshape (T.legs.map (fun l => l.1.dim)) = .ok r1 := by
    rw [NDArray.reshape, if_pos, e1]
    rw [hflat, ← dims_eff, ← hL]; simp [o2]
  have hs1 : Shaped T.ldim r1 (List.range T.legs.length) := by rw [Shaped, e1]; exact hdim
  obtain ⟨r2, er2, hs2, hv2⟩ := transpose_val hs1 (perm := T.order.flatten) (by simpa using h.perm)
  have hlab : T.order.flatten.map (fun p => (List.range T.legs.length).getD p default) =
      T.order.flatten := by
    conv_rhs => rw [← List.map_id T.order.flatten]
    apply List.map_congr_left
    intro p hp
    rw [h.mem_order] at hp
    rw [List.getD_eq_getElem _ _ (by simpa using hp), List.getElem_range, id]
  rw [hlab] at hs2 hv2
  obtain ⟨r3, er3, hs3, hv3⟩ := reshape_merge hs2
  refine ⟨r3, ?_, hs3, ?_⟩
  · rw [BST.todense, if_neg ho, h.shape_eq, c1]
    simp only [bind, Except.bind]
    rw [c3, nonzero_locs, hprod, ← hL, o1]
    simp only
    rw [← hflat, er1]
    simp only
    rw [er2]
    exact er3
  · intro σ hσ
    have hσ' : InB (dims L) ((List.range T.legs.length).map σ) := by rw [hL]; exact T.inB_range.2 hσ
    rw [hv3 σ (fun l hl => hσ l (h.mem_order.1 hl)), hv2, val, e1]
    simp only
    have hk := ravel_lt hσ'
    rw [hflat]
    simp only [← dims_eff, ← hL]
    rw [show unravel [out.length] (ravel (dims L) ((List.range T.legs.length).map σ)) =
      [ravel (dims L) ((List.range T.legs.length).map σ)] by
        have := unravel_ravel (s := [out.length]) (i := [ravel (dims L) ((List.range T.legs.length).map σ)])
          (by rw [o2]; simpa [inB_cons_iff, inB_nil_iff] using hk)
        simpa [ravel] using this]
    simp only [List.getD_cons_zero]
    rw [o3, sval, ← hL, stored_idxOf_ravel hσ']
    have hmem : ravel (dims L) ((List.range T.legs.length).map σ) ∈ (stored L).map (ravel (dims L)) ↔
        (List.range T.legs.length).map σ ∈ stored L := by
      rw [List.mem_map]
      constructor
      · rintro ⟨x, hx, hxe⟩; rwa [← ravel_inj (stored_inB hx) hσ' hxe]
      · intro hx; exact ⟨_, hx, rfl⟩
    by_cases hm : (List.range T.legs.length).map σ ∈ stored L
    · rw [if_pos (hmem.2 hm), if_pos hm]
    · rw [if_neg (fun h => hm (hmem.1 h)), if_neg hm]
      simp [List.getD_eq_getElem?_getD, List.getElem?_replicate]
      split_ifs; rfl

end BST

/-- Every position along merged axes comes from positions along the legs. -/
theorem exists_gpos {dim : Nat → Nat} {gs : List (List Nat)} (hn : gs.flatten.Nodup) {i : List Nat}
    (hi : InB (gs.map (gdim dim)) i) :
    ∃ σ : Nat → Nat, (∀ n ∈ gs.flatten, σ n < dim n) ∧ gs.map (fun g => gpos dim g σ) = i := by
  have hp : ravel (gs.map (gdim dim)) i < (gs.flatten.map dim).prod := by
    rw [← gdim_prod]; exact ravel_lt hi
  obtain ⟨o, ho⟩ : ∃ o, o = unravel (gs.flatten.map dim) (ravel (gs.map (gdim dim)) i) := ⟨_, rfl⟩
  have hob : InB (gs.flatten.map dim) o := ho ▸ unravel_inB hp
  obtain ⟨σ, hσ⟩ : ∃ σ, σ = assign (fun _ => 0) gs.flatten o := ⟨_, rfl⟩
  have hm : gs.flatten.map σ = o := by
    rw [hσ]; exact assign_map_self hn (by rw [hob.length, List.length_map])
  have hlt : ∀ n ∈ gs.flatten, σ n < dim n := by
    rw [← inB_map, hm]; exact hob
  refine ⟨σ, hlt, ?_⟩
  apply ravel_inj (s := gs.map (gdim dim)) (inB_groups hlt) hi
  rw [ravel_groups, hm, ho, ravel_unravel hp]

/-! ## From and to dense arrays -/

/-- `[list(np.arange(tmp[n], tmp[n + 1])) for n in ..]` with `tmp` the sums of the lengths
(blocksparsetensor.py:550-551): consecutive numbers, starting at `s`. -/
def consecutive : Nat → List Nat → List (List Nat)
  | _, [] => []
  | s, n :: ls => List.range' s n :: consecutive (s + n) ls

/-- `BlockSparseTensor.fromdense` (blocksparsetensor.py:534-573).  An `Index` (index.py:17-100) is
its list of legs. -/
def fromdense (indices : List (List (Leg Q))) (a : NDArray R) : Py (BST Q R) :=
  if indices.map (fun i => (i.map (fun l => l.1.dim)).prod) = a.shape then
    match indices.flatten with
    | [] => .error .indexError
    | l :: ls => do
      let r ← reduceCharges (l :: ls) [0] none
      .ok ⟨r.2.map (fun k => a.get (unravel a.shape k)), l :: ls,
        consecutive 0 (indices.map List.length)⟩
  else .error .valueError

/-- `ChargeArray.sparse_shape` (blocksparsetensor.py:185-197) -/
def BST.sparseShape (T : BST Q R) : List (List (Leg Q)) :=
  T.order.map (fun g => pick g T.legs (.raw [], false))

theorem consecutive_flatten (s : Nat) (ls : List Nat) :
    (consecutive s ls).flatten = List.range' s ls.sum := by
  induction ls generalizing s with
  | nil => rfl
  | cons n ls ih =>
    rw [consecutive, List.flatten_cons, ih, List.sum_cons, ← List.range'_append_1]

theorem consecutive_length (s : Nat) (ls : List Nat) : (consecutive s ls).map List.length = ls := by
  induction ls generalizing s with
  | nil => rfl
  | cons n ls ih => simp [consecutive, ih]

/-- The products over consecutive legs. -/
theorem consecutive_gdim {α : Type} (f : α → Nat) (pre : List α) (gs : List (List α)) (dim : Nat → Nat)
    (hd : ∀ n, n < (pre ++ gs.flatten).length → dim n = ((pre ++ gs.flatten).map f).getD n 0) :
    (consecutive pre.length (gs.map List.length)).map (gdim dim) = gs.map (fun g => (g.map f).prod) := by
  induction gs generalizing pre with
  | nil => rfl
  | cons g gs ih =>
    rw [List.map_cons, consecutive, List.map_cons, List.map_cons]
    have h2 := ih (pre ++ g) (by
      intro n hn; rw [List.append_assoc] at hn ⊢; exact hd n hn)
    rw [List.length_append] at h2
    rw [h2]
    congr 1
    rw [gdim]
    congr 1
    apply List.ext_getElem
    · simp
    · intro k h3 h4
      have hk : k < g.length := by simpa using h4
      rw [List.getElem_map, List.getElem_range', hd _ (by simp; omega)]
      rw [List.getD_eq_getElem?_getD, List.getElem?_map, List.flatten_cons,
        List.getElem?_append_right (by omega),
        List.getElem?_append_left (by omega)]
      simp [hk]

theorem fromdense_spec [Zero R] {indices : List (List (Leg Q))} {a : NDArray R}
    (hs : indices.map (fun i => (i.map (fun l => l.1.dim)).prod) = a.shape)
    (hne : indices ≠ []) (hg : ∀ i ∈ indices, i ≠ []) (hw : LegsWF indices.flatten) :
    ∃ T, fromdense indices a = .ok T ∧ T.Valid ∧ T.legs = indices.flatten ∧
      T.order = consecutive 0 (indices.map List.length) ∧
      T.order.map (gdim T.ldim) = a.shape ∧
      ∀ o, InB (dims (eff T.legs)) o → T.sval o = if total (eff T.legs) o = 0 then
        a.get (unravel a.shape (ravel (dims (eff T.legs)) o)) else 0 := by
  have hfl : indices.flatten ≠ [] := by
    obtain ⟨g, gs, hgs⟩ := List.exists_cons_of_ne_nil hne
    have h1 := hg g (by simp [hgs])
    rw [hgs]; simp [h1]
  obtain ⟨b, b1, b2, b3, b4⟩ := reduceCharges_spec hw hfl [0] none (by simp)
  obtain ⟨l, ls, hl⟩ := List.exists_cons_of_ne_nil hfl
  obtain ⟨L, hL⟩ : ∃ L, L = eff indices.flatten := ⟨_, rfl⟩
  have hlocs : ((grid (dims L)).filter (fun i => decide (total L i ∈ [(0 : Q)]))).map
      (dot ((none : Option (List Nat)).getD (rowMajor (dims L)))) = (stored L).map (ravel (dims L)) := by
    rw [stored]
    simp only [List.mem_singleton, Option.getD_none]
    apply List.map_congr_left
    intro i hi
    exact dot_rowMajor
  rw [← hL, hlocs] at b1
  obtain ⟨T, hT⟩ : ∃ T : BST Q R, T = ⟨((stored L).map (ravel (dims L))).map
    (fun k => a.get (unravel a.shape k)), indices.flatten,
    consecutive 0 (indices.map List.length)⟩ := ⟨_, rfl⟩
  have hcf : (consecutive 0 (indices.map List.length)).flatten = List.range indices.flatten.length := by
    rw [consecutive_flatten, List.length_flatten, List.range_eq_range']
  have hv : T.Valid := by
    rw [hT]
    refine ⟨hw, ?_, ?_, ?_⟩
    · simp only; rw [hcf]
    · intro g hgm hg0
      have h1 : g.length ∈ (consecutive 0 (indices.map List.length)).map List.length :=
        List.mem_map.2 ⟨g, hgm, rfl⟩
      rw [consecutive_length, hg0] at h1
      obtain ⟨i, hi, hi0⟩ := List.mem_map.1 h1
      exact hg i hi (List.length_eq_zero_iff.1 hi0)
    · simp [hL]
  have hTl : T.legs = indices.flatten := by rw [hT]
  refine ⟨T, ?_, hv, hTl, by rw [hT], ?_, ?_⟩
  · rw [fromdense, if_pos hs, hT]
    rw [hl] at b1 ⊢
    simp only
    rw [b1]
    rfl
  · rw [← hs, hT]
    apply consecutive_gdim (fun l : Leg Q => l.1.dim) []
    intro n hn
    rfl
  · intro o ho
    rw [BST.sval, hTl, ← hL] at *
    have hm := mem_stored (L := L) (o := o)
    by_cases h0 : total L o = 0
    · have hos : o ∈ stored L := hm.2 ⟨ho, h0⟩
      have hlt := List.idxOf_lt_length_iff.2 hos
      rw [if_pos hos, if_pos h0, hT]
      simp only [List.map_map]
      rw [List.getD_eq_getElem?_getD, List.getElem?_map, List.getElem?_eq_getElem hlt,
        List.getElem_idxOf]
      rfl
    · rw [if_neg (fun h => h0 (hm.1 h).2), if_neg h0]

/-- C23, first part: `fromdense` followed by `todense`.  The entries at charge-conserving positions
are kept, all others are zero.  The multi-index of a position along the elementary legs is obtained
by splitting its row-major number. -/
theorem C23_fromdense_todense [Zero R] {indices : List (List (Leg Q))} {a : NDArray R}
    (hs : indices.map (fun i => (i.map (fun l => l.1.dim)).prod) = a.shape)
    (hne : indices ≠ []) (hg : ∀ i ∈ indices, i ≠ []) (hw : LegsWF indices.flatten) :
    ∃ T d, fromdense indices a = .ok T ∧ T.Valid ∧ T.sparseShape = indices ∧
      T.todense = .ok d ∧ d.shape = a.shape ∧
      (∀ i, InB a.shape i → d.get i = if total (eff indices.flatten)
        (unravel (dims (eff indices.flatten)) (ravel a.shape i)) = 0 then a.get i else 0) ∧
      ((∀ i, InB a.shape i → total (eff indices.flatten)
        (unravel (dims (eff indices.flatten)) (ravel a.shape i)) ≠ 0 → a.get i = 0) → d.Same a) := by
  obtain ⟨T, t1, t2, t3, t4, t5, t6⟩ := fromdense_spec hs hne hg hw
  have hon : T.order ≠ [] := by
    intro h0
    have := congrArg List.length (consecutive_length 0 (indices.map List.length))
    rw [← t4, h0] at this
    simp at this
    exact hne (List.length_eq_zero_iff.1 this.symm)
  obtain ⟨d, d1, d2, d3⟩ := t2.todense hon
  have hval : ∀ i, InB a.shape i → d.get i = if total (eff indices.flatten)
        (unravel (dims (eff indices.flatten)) (ravel a.shape i)) = 0 then a.get i else 0 := by
    intro i hi
    have hi' : InB (T.order.map (gdim T.ldim)) i := by rwa [t5]
    obtain ⟨σ, hσ, hσi⟩ := exists_gpos t2.order_nodup hi'
    have hσ' : ∀ n, n < T.legs.length → σ n < T.ldim n := fun n hn => hσ n (t2.mem_order.2 hn)
    have hob := T.inB_range.2 hσ'
    have hfl : T.order.flatten = List.range T.legs.length := by
      rw [t4, consecutive_flatten, t3, List.length_flatten, List.range_eq_range']
    have hr : ravel a.shape i = ravel (dims (eff T.legs)) ((List.range T.legs.length).map σ) := by
      rw [← t5, ← hσi, ravel_groups, hfl, T.dims_range]
    rw [← hσi, d3 σ hσ', t6 _ hob, hσi, ← t3, hr, unravel_ravel hob, ← hr, unravel_ravel hi]
  refine ⟨T, d, t1, t2, ?_, d1, d2.trans t5, hval, ?_⟩
  · rw [BST.sparseShape, t4, t3]
    have : ∀ (pre : List (Leg Q)) (gs : List (List (Leg Q))),
        (consecutive pre.length (gs.map List.length)).map
          (fun g => pick g (pre ++ gs.flatten) (.raw [], false)) = gs := by
      intro pre gs
      induction gs generalizing pre with
      | nil => rfl
      | cons g gs ih =>
        rw [List.map_cons, consecutive, List.map_cons]
        have h2 := ih (pre ++ g)
        rw [List.length_append, List.append_assoc] at h2
        rw [List.flatten_cons, h2]
        congr 1
        rw [pick]
        apply List.ext_getElem
        · simp
        · intro k h3 h4
          rw [List.getElem_map, List.getElem_range', List.getD_eq_getElem?_getD,
            List.getElem?_append_right (by omega), List.getElem?_append_left (by omega)]
          simp [h4]
    exact this [] indices
  · intro hz
    refine ⟨d2.trans t5, fun i hi => ?_⟩
    rw [d2.trans t5] at hi
    rw [hval i hi]
    split_ifs with h0
    · rfl
    · exact (hz i hi h0).symm

theorem consecutive_eq {s n : Nat} {gs : List (List Nat)} (h : gs.flatten = List.range' s n) :
    consecutive s (gs.map List.length) = gs := by
  induction gs generalizing s n with
  | nil => rfl
  | cons g gs ih =>
    rw [List.flatten_cons] at h
    have hn : n = g.length + gs.flatten.length := by
      have := congrArg List.length h; simpa using this.symm
    rw [hn, ← List.range'_append_1] at h
    obtain ⟨h1, h2⟩ := List.append_inj h (by simp)
    rw [List.map_cons, consecutive, ih h2, ← h1]

theorem data_ext [Zero R] {T T' : BST Q R} (h : T.Valid) (h' : T'.Valid) (hl : T.legs = T'.legs)
    (hv : ∀ o ∈ stored (eff T.legs), T.sval o = T'.sval o) : T.data = T'.data := by
  apply List.ext_getElem
  · rw [h.size, h'.size, hl]
  · intro k h1 h2
    have hk : k < (stored (eff T.legs)).length := by rw [← h.size]; exact h1
    have hm := List.getElem_mem hk
    have hi : (stored (eff T.legs)).idxOf (stored (eff T.legs))[k] = k :=
      Charge.idxOf_getElem_nodup (stored_nodup _) hk
    have := hv _ hm
    rw [BST.sval, BST.sval, if_pos hm, ← hl, if_pos hm, hi] at this
    simpa [h1, h2] using this

theorem perm_unperm_map {order : List Nat} {n : Nat} (ho : order.Perm (List.range n)) (σ : Nat → Nat) :
    unperm order (order.map σ) = (List.range n).map σ := by
  rw [← perm_unperm ho (o := (List.range n).map σ) (by simp)]
  congr 1
  apply List.map_congr_left
  intro a hao
  have : a < n := by simpa using ho.mem_iff.1 hao
  simp [this]

theorem pick_dims (T : BST Q R) {g : List Nat} (h : ∀ n ∈ g, n < T.legs.length) :
    (pick g T.legs (.raw [], false)).map (fun l => l.1.dim) = g.map T.ldim := by
  rw [pick, List.map_map]
  apply List.map_congr_left
  intro n hn
  have := h n hn
  simp [BST.ldim, this]

namespace BST

variable {T : BST Q R}

theorem Valid.sparseShape_flatten (_h : T.Valid) :
    T.sparseShape.flatten = pick T.order.flatten T.legs (.raw [], false) := by
  rw [sparseShape, pick, List.map_flatten]; rfl

theorem Valid.sparseShape_dims (h : T.Valid) :
    T.sparseShape.map (fun i => (i.map (fun l => l.1.dim)).prod) = T.order.map (gdim T.ldim) := by
  rw [sparseShape, List.map_map]
  apply List.map_congr_left
  intro g hg
  rw [Function.comp_apply, pick_dims _ (fun n hn => h.mem_order.1 (List.mem_flatten.2 ⟨g, hg, hn⟩))]
  rfl

theorem Valid.pick_wf (h : T.Valid) {g : List Nat} (hg : ∀ n ∈ g, n < T.legs.length) :
    LegsWF (pick g T.legs (.raw [], false)) := by
  intro l hl
  rw [pick, List.mem_map] at hl
  obtain ⟨n, hn, rfl⟩ := hl
  rw [List.getD_eq_getElem _ _ (hg n hn)]
  exact h.wf _ (List.getElem_mem (hg n hn))

/-- The dense form is zero at positions that do not conserve charge. -/
theorem Valid.todense_zero [Zero R] (h : T.Valid) (ho : T.order ≠ []) {d : NDArray R}
    (hd : T.todense = .ok d) {i : List Nat} (hi : InB d.shape i)
    (hz : total (eff T.sparseShape.flatten)
      (unravel (dims (eff T.sparseShape.flatten)) (ravel d.shape i)) ≠ 0) : d.get i = 0 := by
  obtain ⟨d', d1, d2, d3⟩ := h.todense ho
  rw [hd] at d1
  cases d1
  rw [d2] at hi hz
  obtain ⟨σ, hσ, hσi⟩ := exists_gpos h.order_nodup hi
  have hσ' : ∀ n, n < T.legs.length → σ n < T.ldim n := fun n hn => hσ n (h.mem_order.2 hn)
  have hpe : eff T.sparseShape.flatten = permL T.order.flatten (eff T.legs) := by
    rw [h.sparseShape_flatten, permL_eff _ _ (fun n hn => h.mem_order.1 hn)]; rfl
  have hpd : dims (permL T.order.flatten (eff T.legs)) = T.order.flatten.map T.ldim := by
    rw [← hpe, dims_eff, h.sparseShape_flatten, pick_dims _ (fun n hn => h.mem_order.1 hn)]
  have hpo : T.order.flatten.Perm (List.range (eff T.legs).length) := by
    rw [show (eff T.legs).length = T.legs.length by simp [eff]]; exact h.perm
  rw [← hσi, hpe, hpd, ravel_groups, unravel_ravel ((inB_map _ _ _).2 hσ),
    total_unperm hpo (by rw [List.length_map, hpo.length_eq, List.length_range]),
    perm_unperm_map hpo] at hz
  rw [show (eff T.legs).length = T.legs.length by simp [eff]] at hz
  rw [← hσi, d3 σ hσ', sval, if_neg]
  intro hm
  exact hz (mem_stored.1 hm).2

end BST

/-- C23, second part: `todense` followed by `fromdense` with the same indices gives a tensor with
the same dense form; if no transposition is pending it is the same tensor, with the same data. -/
theorem C23_todense_fromdense [Zero R] {T : BST Q R} (h : T.Valid) (ho : T.order ≠ []) :
    ∃ d T' d', T.todense = .ok d ∧ fromdense T.sparseShape d = .ok T' ∧ T'.todense = .ok d' ∧
      d'.Same d ∧ T'.sparseShape = T.sparseShape ∧
      (∀ i, InB d.shape i → total (eff T.sparseShape.flatten)
        (unravel (dims (eff T.sparseShape.flatten)) (ravel d.shape i)) ≠ 0 → d.get i = 0) ∧
      (T.order.flatten = List.range T.legs.length → T' = T) := by
  obtain ⟨d, d1, d2, d3⟩ := h.todense ho
  have hz := fun i hi hz => h.todense_zero ho d1 (i := i) hi hz
  have hss : T.sparseShape ≠ [] := by
    intro h0; rw [BST.sparseShape] at h0; exact ho (List.map_eq_nil_iff.1 h0)
  have hg : ∀ i ∈ T.sparseShape, i ≠ [] := by
    intro i hi h0
    obtain ⟨g, hgm, rfl⟩ := List.mem_map.1 hi
    rw [pick] at h0
    exact h.groups g hgm (List.map_eq_nil_iff.1 h0)
  have hwf : LegsWF T.sparseShape.flatten := by
    rw [h.sparseShape_flatten]; exact h.pick_wf (fun n hn => h.mem_order.1 hn)
  have hsh := h.sparseShape_dims.trans d2.symm
  obtain ⟨T', d', t1, t2, t3, t4, t5, t6, t7⟩ := C23_fromdense_todense hsh hss hg hwf
  refine ⟨d, T', d', d1, t1, t4, t7 hz, t3, hz, ?_⟩
  intro htriv
  obtain ⟨T'', s1, s2, s3, s4, s5, s6⟩ := fromdense_spec hsh hss hg hwf
  rw [t1] at s1
  cases s1
  have hlegs : T'.legs = T.legs := by
    rw [s3, h.sparseShape_flatten, htriv, pick, map_range_getD]
  have horder : T'.order = T.order := by
    rw [s4, BST.sparseShape, List.map_map]
    have : (List.length ∘ fun g => pick g T.legs (Charge.raw [], false)) = List.length := by
      funext g; simp [pick]
    rw [this]
    exact consecutive_eq (n := T.legs.length) (by rw [htriv, List.range_eq_range'])
  have hdata : T'.data = T.data := by
    apply data_ext s2 h hlegs
    intro o hos
    have hob := stored_inB hos
    obtain ⟨σ, hσ, hσo⟩ : ∃ σ : Nat → Nat, (∀ n, n < T.legs.length → σ n < T.ldim n) ∧
        (List.range T.legs.length).map σ = o := by
      refine ⟨fun n => o.getD n 0, ?_, ?_⟩
      · rw [← T.inB_range]
        have hol : o.length = T.legs.length := by rw [hob.length]; simp [dims, eff, hlegs]
        rw [← hol, map_range_getD, ← hlegs]; exact hob
      · have hol : o.length = T.legs.length := by rw [hob.length]; simp [dims, eff, hlegs]
        rw [← hol, map_range_getD]
    rw [s6 o hob, if_pos (mem_stored.1 hos).2, ← hσo, ← d3 σ hσ]
    congr 1
    have hr : ravel (dims (eff T'.legs)) ((List.range T.legs.length).map σ) =
        ravel d.shape (T.order.map (fun g => gpos T.ldim g σ)) := by
      rw [d2, ravel_groups, htriv, hlegs, T.dims_range]
    rw [hr, unravel_ravel]
    rw [d2]
    exact inB_groups (fun n hn => hσ n (h.mem_order.1 hn))
  cases T'; cases T
  simp_all

/-! ## Transposition -/

namespace BST

variable {T : BST Q R}

/-- `ChargeArray.transpose` with `shuffle=False` (blocksparsetensor.py:340-367), for axes that are
not negative. -/
def transpose (T : BST Q R) (perm : List Nat) : Py (BST Q R) :=
  if perm.length ≠ T.ndim then .error .valueError
  else if ∀ p ∈ perm, p < T.ndim then .ok { T with order := perm.map (fun p => T.order.getD p []) }
  else .error .indexError

theorem perm_getD {α : Type} {l : List α} {perm : List Nat} (hp : perm.Perm (List.range l.length))
    (d : α) : (perm.map (fun p => l.getD p d)).Perm l := by
  have := hp.map (fun p => l.getD p d)
  rwa [map_range_getD] at this

theorem Valid.transpose (h : T.Valid) {perm : List Nat} (hp : perm.Perm (List.range T.ndim)) :
    ∃ T', T.transpose perm = .ok T' ∧ T'.Valid ∧ T'.legs = T.legs ∧ T'.data = T.data ∧
      T'.order = perm.map (fun p => T.order.getD p []) := by
  refine ⟨{ T with order := perm.map (fun p => T.order.getD p []) }, ?_, ?_, rfl, rfl, rfl⟩
  · rw [BST.transpose, if_neg (by simp [hp.length_eq]), if_pos (fun p hm => by
      simpa using hp.mem_iff.1 hm)]
  have hpo := perm_getD hp ([] : List Nat)
  exact ⟨h.wf, (hpo.flatten).trans h.perm, fun g hg => h.groups g (hpo.mem_iff.1 hg), h.size⟩

end BST

/-- C26, transposition: the dense form of the transposed tensor is the transposed dense form, whatever
operations are pending. -/
theorem C26_transpose [Zero R] {T : BST Q R} (h : T.Valid) (ho : T.order ≠ []) {perm : List Nat}
    (hp : perm.Perm (List.range T.ndim)) :
    ∃ T' d d' dt, T.transpose perm = .ok T' ∧ T'.Valid ∧ T.todense = .ok d ∧ T'.todense = .ok d' ∧
      d.transpose perm = .ok dt ∧ d'.Same dt := by
  obtain ⟨T', t1, t2, t3, t4, t5⟩ := h.transpose hp
  obtain ⟨d, d1, d2, d3⟩ := h.todense ho
  have ho' : T'.order ≠ [] := by
    rw [t5]; intro h0
    have := hp.length_eq
    rw [List.map_eq_nil_iff.1 h0, List.length_range] at this
    exact ho (List.length_eq_zero_iff.1 this.symm)
  obtain ⟨d', e1, e2, e3⟩ := t2.todense ho'
  have hld : T'.ldim = T.ldim := by funext n; rw [BST.ldim, BST.ldim, t3]
  have hnd : d.ndim = T.ndim := by rw [NDArray.ndim, d2, List.length_map]; rfl
  refine ⟨T', d, d', _, t1, t2, d1, e1, by rw [NDArray.transpose, if_pos (by rw [hnd]; exact hp)], ?_⟩
  have hsv : ∀ o, T'.sval o = T.sval o := by intro o; rw [BST.sval, BST.sval, t3, t4]
  have hlt : ∀ p ∈ perm, p < T.order.length := fun p hm => List.mem_range.1 (hp.mem_iff.1 hm)
  have hmapg : ∀ (F : List Nat → Nat), (perm.map (fun p => T.order.getD p [])).map F =
      perm.map (fun p => (T.order.map F).getD p 0) := by
    intro F
    rw [List.map_map]
    apply List.map_congr_left
    intro p hm
    have := hlt p hm
    simp [this]
  refine ⟨?_, ?_⟩
  · simp only
    rw [e2, d2, t5, hld, hmapg]
  · intro i hi
    simp only
    rw [e2] at hi
    obtain ⟨σ, hσ, hσi⟩ := exists_gpos t2.order_nodup hi
    have hσ' : ∀ n, n < T'.legs.length → σ n < T'.ldim n := fun n hn => hσ n (t2.mem_order.2 hn)
    have e4 := e3 σ hσ'
    rw [hσi] at e4
    rw [e4, hsv, t3, ← d3 σ (by rw [← t3, ← hld]; exact hσ'), hnd]
    congr 1
    rw [← hσi, t5, hmapg, hld]
    have := perm_unperm (order := perm) (n := T.ndim) hp
      (o := T.order.map (fun g => gpos T.ldim g σ)) (by simp [BST.ndim])
    rw [unperm] at this
    rw [show perm.length = T.ndim by simpa using hp.length_eq] at this
    exact this.symm

/-! ## Reshape -/

/-- The first number of legs whose dimensions multiply to `n`, at least one
(`np.nonzero(np.cumprod(flat_dims) == ns)[0][0] + 1`, blocksparsetensor.py:272-281; `acc` is the
product of the legs before).  Simplification: `np.cumprod` does not overflow. -/
def firstMatch (acc : Nat) : List Nat → Nat → Option Nat
  | [], _ => none
  | d :: ds, n => if acc * d = n then some 1 else (firstMatch (acc * d) ds n).map (· + 1)

/-- The loop over the new shape (blocksparsetensor.py:270-282): the lengths of the groups and the
remaining dimensions. -/
def partitionLoop : List Nat → List Nat → Option (List Nat × List Nat)
  | ds, [] => some ([], ds)
  | ds, n :: ns =>
    match firstMatch 1 ds n with
    | none => none
    | some k => (partitionLoop (ds.drop k) ns).map (fun r => (k :: r.1, r.2))

/-- Consecutive pieces of the given lengths. -/
def pieces {α : Type} : List α → List Nat → List (List α)
  | _, [] => []
  | l, n :: ns => l.take n :: pieces (l.drop n) ns

/-- `partitions[-1] += m` -/
def addLast : List Nat → Nat → List Nat
  | [], _ => []
  | [n], m => [n + m]
  | n :: n' :: ns, m => n :: addLast (n' :: ns) m

/-- `ChargeArray.reshape` (blocksparsetensor.py:205-308), for a shape of integers.  The test
`np.any(new_shape == 0)` compares a list with a number and never holds. -/
def BST.reshape (T : BST Q R) (s : List Nat) : Py (BST Q R) := do
  let sh ← T.shape
  if s = sh then .ok T
  else if s.prod ≠ sh.prod then .error .valueError
  else
    let flat := T.order.flatten.map T.ldim
    if s.length > T.legs.length then .error .valueError
    else if 0 ∈ flat then .error .valueError
    else match partitionLoop flat s with
      | none => .error .valueError
      | some (ks, rest) =>
        if ∀ d ∈ rest, d = 1 then
          .ok { T with order := pieces T.order.flatten (addLast ks rest.length) }
        else .error .valueError

theorem firstMatch_spec {acc n k : Nat} {ds : List Nat} (h : firstMatch acc ds n = some k) :
    1 ≤ k ∧ k ≤ ds.length ∧ acc * (ds.take k).prod = n := by
  induction ds generalizing acc k with
  | nil => simp [firstMatch] at h
  | cons d ds ih =>
    rw [firstMatch] at h
    split_ifs at h with h0
    · cases h; simp [h0]
    · rw [Option.map_eq_some_iff] at h
      obtain ⟨k', hk', rfl⟩ := h
      obtain ⟨h1, h2, h3⟩ := ih hk'
      refine ⟨by omega, by simpa using h2, ?_⟩
      rw [List.take_succ_cons, List.prod_cons, ← Nat.mul_assoc, h3]

theorem partitionLoop_spec {ds s ks rest : List Nat} (h : partitionLoop ds s = some (ks, rest)) :
    ks.length = s.length ∧ (∀ k ∈ ks, 1 ≤ k) ∧ ks.sum ≤ ds.length ∧ rest = ds.drop ks.sum ∧
      (pieces ds ks).map List.prod = s := by
  induction s generalizing ds ks with
  | nil =>
    rw [partitionLoop] at h
    cases h
    simp [pieces]
  | cons n s ih =>
    rw [partitionLoop] at h
    rcases hm : firstMatch 1 ds n with _ | k
    · rw [hm] at h; simp at h
    · rw [hm] at h
      simp only [Option.map_eq_some_iff] at h
      obtain ⟨⟨ks', r'⟩, hr, he⟩ := h
      cases he
      obtain ⟨h1, h2, h3⟩ := firstMatch_spec hm
      obtain ⟨i1, i2, i3, i4, i5⟩ := ih hr
      rw [List.length_drop] at i3
      refine ⟨by simp [i1], ?_, by simp only [List.sum_cons]; omega, ?_, ?_⟩
      · intro x hx
        rcases List.mem_cons.1 hx with rfl | hx
        · exact h1
        · exact i2 x hx
      · rw [i4, List.drop_drop, List.sum_cons]
      · rw [pieces, List.map_cons, i5]
        congr 1
        simpa using h3

theorem addLast_length (ks : List Nat) (m : Nat) : (addLast ks m).length = ks.length := by
  induction ks with
  | nil => rfl
  | cons n ks ih =>
    cases ks with
    | nil => rfl
    | cons n' ks => simp [addLast] at ih ⊢; exact ih

theorem addLast_sum {ks : List Nat} (h : ks ≠ []) (m : Nat) : (addLast ks m).sum = ks.sum + m := by
  induction ks with
  | nil => exact absurd rfl h
  | cons n ks ih =>
    cases ks with
    | nil => simp [addLast]
    | cons n' ks =>
      have := ih (by simp)
      rw [addLast, List.sum_cons, this, List.sum_cons (a := n)]
      omega

theorem addLast_pos {ks : List Nat} (h : ∀ k ∈ ks, 1 ≤ k) (m : Nat) : ∀ k ∈ addLast ks m, 1 ≤ k := by
  induction ks with
  | nil => simp [addLast]
  | cons n ks ih =>
    cases ks with
    | nil =>
      intro k hk
      simp only [addLast, List.mem_singleton] at hk
      have := h n (by simp)
      omega
    | cons n' ks =>
      intro k hk
      rw [addLast] at hk
      rcases List.mem_cons.1 hk with rfl | hk
      · exact h k (by simp)
      · exact ih (fun k hk => h k (List.mem_cons_of_mem _ hk)) k hk

/-- Dimensions one at the end do not change the products. -/
theorem pieces_addLast {ds ks : List Nat} {m : Nat} (hk : ks ≠ []) (hsum : ks.sum ≤ ds.length)
    (hrest : ∀ d ∈ ds.drop ks.sum, d = 1) :
    (pieces ds (addLast ks m)).map List.prod = (pieces ds ks).map List.prod := by
  induction ks generalizing ds with
  | nil => exact absurd rfl hk
  | cons n ks ih =>
    cases ks with
    | nil =>
      simp only [addLast, pieces, List.map_cons, List.map_nil]
      congr 1
      rw [List.sum_cons, List.sum_nil, Nat.add_zero] at hrest
      rw [List.take_add, List.prod_append]
      have : ((ds.drop n).take m).prod = 1 :=
        List.prod_eq_one (fun x hx => hrest x (List.mem_of_mem_take hx))
      rw [this, Nat.mul_one]
    | cons n' ks =>
      rw [addLast, pieces, pieces, List.map_cons, List.map_cons]
      rw [List.sum_cons] at hsum hrest
      rw [ih (by simp) (by rw [List.length_drop]; omega) (by rwa [List.drop_drop])]

theorem pieces_flatten {α : Type} {l : List α} {ks : List Nat} (h : ks.sum = l.length) :
    (pieces l ks).flatten = l := by
  induction ks generalizing l with
  | nil =>
    have : l = [] := List.length_eq_zero_iff.1 (by simpa using h.symm)
    rw [this]; rfl
  | cons n ks ih =>
    rw [List.sum_cons] at h
    rw [pieces, List.flatten_cons, ih (by rw [List.length_drop]; omega), List.take_append_drop]

theorem pieces_ne {α : Type} {l : List α} {ks : List Nat} (h : ks.sum ≤ l.length)
    (hk : ∀ k ∈ ks, 1 ≤ k) : ∀ g ∈ pieces l ks, g ≠ [] := by
  induction ks generalizing l with
  | nil => simp [pieces]
  | cons n ks ih =>
    intro g hg
    rw [List.sum_cons] at h
    have := hk n (by simp)
    rcases List.mem_cons.1 hg with rfl | hg
    · intro h0
      have := congrArg List.length h0
      rw [List.length_take, List.length_nil] at this
      omega
    · exact ih (by rw [List.length_drop]; omega) (fun k hk' => hk k (by simp [hk'])) g hg

theorem pieces_map {α β : Type} (f : α → β) (l : List α) (ks : List Nat) :
    (pieces l ks).map (List.map f) = pieces (l.map f) ks := by
  induction ks generalizing l with
  | nil => rfl
  | cons n ks ih => simp [pieces, ih, List.map_take, List.map_drop]

theorem pieces_length {α : Type} (l : List α) (ks : List Nat) : (pieces l ks).length = ks.length := by
  induction ks generalizing l with
  | nil => rfl
  | cons n ks ih => simp [pieces, ih]

/-- Tensors with the same legs, data and flat order differ by a reshape. -/
theorem regroup_same [Zero R] {T T' : BST Q R} (h : T.Valid) (h' : T'.Valid) (hl : T'.legs = T.legs)
    (hd : T'.data = T.data) (ho : T.order ≠ []) (ho' : T'.order ≠ [])
    (hf : T'.order.flatten = T.order.flatten) :
    ∃ d d' dr, T.todense = .ok d ∧ T'.todense = .ok d' ∧
      d.reshape (T'.order.map (gdim T'.ldim)) = .ok dr ∧ d'.Same dr := by
  obtain ⟨d, d1, d2, d3⟩ := h.todense ho
  obtain ⟨d', e1, e2, e3⟩ := h'.todense ho'
  have hld : T'.ldim = T.ldim := by funext n; rw [BST.ldim, BST.ldim, hl]
  have hsv : ∀ o, T'.sval o = T.sval o := by intro o; rw [BST.sval, BST.sval, hl, hd]
  refine ⟨d, d', _, d1, e1, by rw [NDArray.reshape, if_pos]; rw [d2, gdim_prod, gdim_prod, hf, hld], ?_⟩
  refine ⟨e2, fun i hi => ?_⟩
  rw [e2] at hi
  obtain ⟨σ, hσ, hσi⟩ := exists_gpos h'.order_nodup hi
  have hσ' : ∀ n, n < T'.legs.length → σ n < T'.ldim n := fun n hn => hσ n (h'.mem_order.2 hn)
  have e4 := e3 σ hσ'
  rw [hσi] at e4
  rw [hld, hl] at hσ'
  simp only
  rw [e4, hsv, hl, ← d3 σ hσ', ← hσi, ravel_groups, hf, hld, d2, ← ravel_groups, unravel_ravel]
  exact inB_groups (fun n hn => hσ' n (h.mem_order.1 hn))

/-- C26, reshape: if `reshape` to a shape with at least one axis returns, the result is valid, has
that shape, and its dense form is the reshaped dense form. -/
theorem C26_reshape_partial [Zero R] {T T' : BST Q R} (h : T.Valid) (ho : T.order ≠ []) {s : List Nat}
    (hs : s ≠ []) (hr : T.reshape s = .ok T') :
    T'.Valid ∧ ∃ d d' dr, T.todense = .ok d ∧ T'.todense = .ok d' ∧ d.reshape s = .ok dr ∧
      d'.Same dr := by
  rw [BST.reshape, h.shape_eq] at hr
  simp only [bind, Except.bind] at hr
  split_ifs at hr with h1 h2 h3 h4
  · cases hr
    refine ⟨h, ?_⟩
    rw [h1]
    exact regroup_same h h rfl rfl ho ho rfl
  · rcases hp : partitionLoop (T.order.flatten.map T.ldim) s with _ | ⟨ks, rest⟩
    · rw [hp] at hr; cases hr
    · rw [hp] at hr
      simp only at hr
      split_ifs at hr with h5
      cases hr
      obtain ⟨p1, p2, p3, p4, p5⟩ := partitionLoop_spec hp
      rw [List.length_map] at p3
      have hkne : ks ≠ [] := by
        intro h0; rw [h0] at p1; exact hs (List.length_eq_zero_iff.1 p1.symm)
      have hrl : rest.length = T.order.flatten.length - ks.sum := by
        rw [p4, List.length_drop, List.length_map]
      have hsum : (addLast ks rest.length).sum = T.order.flatten.length := by
        rw [addLast_sum hkne]; omega
      have hfl := pieces_flatten hsum
      have hv : (BST.mk T.data T.legs (pieces T.order.flatten (addLast ks rest.length))).Valid := by
        refine ⟨h.wf, ?_, pieces_ne hsum.le (addLast_pos p2 _), h.size⟩
        rw [hfl]; exact h.perm
      refine ⟨hv, ?_⟩
      have hone : pieces T.order.flatten (addLast ks rest.length) ≠ [] := by
        intro h0
        have := congrArg List.length h0
        rw [pieces_length, addLast_length, List.length_nil] at this
        exact hkne (List.length_eq_zero_iff.1 this)
      have := regroup_same h hv rfl rfl ho hone hfl
      have hsh : (pieces T.order.flatten (addLast ks rest.length)).map (gdim T.ldim) = s := by
        rw [← p5, ← pieces_addLast (m := rest.length) hkne (by rw [List.length_map]; exact p3) (by rw [← p4]; exact h5),
          ← pieces_map, List.map_map]
        rfl
      simp only at this
      rw [show (BST.mk T.data T.legs (pieces T.order.flatten (addLast ks rest.length))).ldim = T.ldim
        from rfl, hsh] at this
      exact this

/-- Shapes that group consecutive legs are found, whatever ones the search has skipped. -/
theorem partitionLoop_complete {ds : List Nat} (gs : List (List Nat)) (hd : ds = gs.flatten)
    (hne : ∀ g ∈ gs, g ≠ []) (h0 : 0 ∉ ds) (m : Nat) :
    ∃ ks rest, partitionLoop (List.replicate m 1 ++ ds) (gs.map List.prod) = some (ks, rest) ∧
      ∀ d ∈ rest, d = 1 := by
  induction gs generalizing ds m with
  | nil =>
    refine ⟨[], _, rfl, ?_⟩
    rw [hd]; simp
  | cons g gs ih =>
    -- the search stops inside the group, up to ones
    have key : ∀ (l : List Nat) (acc : Nat), l ≠ [] → 0 ∉ l → 0 < acc →
        ∃ k, (∀ tl, firstMatch acc (l ++ tl) (acc * l.prod) = some k) ∧ k ≤ l.length ∧
          ∀ d ∈ l.drop k, d = 1 := by
      intro l
      induction l with
      | nil => intro acc h; exact absurd rfl h
      | cons x l ih2 =>
        intro acc _ hx0 hacc
        have hx : 0 < x := by
          rcases Nat.eq_zero_or_pos x with h | h
          · exact absurd (by simp [h]) hx0
          · exact h
        have hl0 : 0 ∉ l := fun h => hx0 (by simp [h])
        by_cases h1 : l.prod = 1
        · refine ⟨1, fun tl => ?_, by simp, ?_⟩
          · rw [List.cons_append, firstMatch, if_pos (by rw [List.prod_cons, h1, Nat.mul_one])]
          · intro d hd
            rw [List.drop_one, List.tail_cons] at hd
            have := List.dvd_prod hd
            rw [h1] at this
            exact Nat.dvd_one.1 this
        · have hlne : l ≠ [] := by rintro rfl; simp at h1
          obtain ⟨k, k1, k2, k3⟩ := ih2 (acc * x) hlne hl0 (Nat.mul_pos hacc hx)
          refine ⟨k + 1, fun tl => ?_, by simpa using k2, by simpa using k3⟩
          rw [List.cons_append, firstMatch, if_neg, List.prod_cons, ← Nat.mul_assoc, k1 tl]
          · rfl
          · rw [List.prod_cons, ← Nat.mul_assoc]
            intro h2
            apply h1
            have hpos : 0 < acc * x := Nat.mul_pos hacc hx
            exact Nat.eq_of_mul_eq_mul_left hpos (by omega)
    have hg : g ≠ [] := hne g (by simp)
    have hg0 : 0 ∉ g := fun h => h0 (by rw [hd]; simp [h])
    obtain ⟨k, k1, k2, k3⟩ := key (List.replicate m 1 ++ g) 1 (by simp [hg])
      (by
        intro h
        rcases List.mem_append.1 h with h | h
        · exact absurd (List.eq_of_mem_replicate h) (by omega)
        · exact hg0 h) (by omega)
    have hprod : (List.replicate m 1 ++ g).prod = g.prod := by simp
    rw [hprod, Nat.one_mul] at k1
    obtain ⟨m', hm'⟩ : ∃ m', (List.replicate m 1 ++ g).drop k = List.replicate m' 1 :=
      ⟨_, List.eq_replicate_of_mem k3⟩
    obtain ⟨ks, rest, r1, r2⟩ := ih (ds := gs.flatten) rfl (fun g hg => hne g (by simp [hg]))
      (fun h => h0 (by rw [hd, List.flatten_cons]; exact List.mem_append_right _ h)) m'
    refine ⟨k :: ks, rest, ?_, r2⟩
    rw [hd, List.flatten_cons, ← List.append_assoc, List.map_cons, partitionLoop, k1]
    simp only
    rw [List.drop_append_of_le_length k2, hm', r1]
    rfl

/-- C26: `reshape` accepts every shape that groups consecutive elementary legs of the tensor in its
current order (when no dimension is zero). -/
theorem C26_reshape_accepts [Zero R] {T : BST Q R} (h : T.Valid) (hp : ∀ n < T.legs.length, T.ldim n ≠ 0)
    (gs : List (List Nat)) (hg : gs.flatten = T.order.flatten.map T.ldim) (hne : ∀ g ∈ gs, g ≠ []) :
    ∃ T', T.reshape (gs.map List.prod) = .ok T' := by
  rw [BST.reshape, h.shape_eq]
  simp only [bind, Except.bind]
  have h0 : 0 ∉ T.order.flatten.map T.ldim := by
    intro hm
    obtain ⟨n, hn, h1⟩ := List.mem_map.1 hm
    exact hp n (h.mem_order.1 hn) h1
  have hprod : (gs.map List.prod).prod = (T.order.map (gdim T.ldim)).prod := by
    rw [gdim_prod, ← hg, List.prod_flatten]
  have hlen : gs.length ≤ T.legs.length := by
    have h1 : (gs.flatten).length = T.legs.length := by
      rw [hg, List.length_map, h.perm.length_eq, List.length_range]
    rw [← h1]
    clear h1 hg hprod
    induction gs with
    | nil => simp
    | cons g gs ih =>
      have := List.length_pos_iff.2 (hne g (by simp))
      have := ih (fun g hg => hne g (by simp [hg]))
      rw [List.flatten_cons, List.length_append, List.length_cons]
      omega
  obtain ⟨ks, rest, r1, r2⟩ := partitionLoop_complete gs hg.symm hne h0 0
  rw [List.replicate_zero, List.nil_append] at r1
  split_ifs with c1 c2 c3
  · exact ⟨_, rfl⟩
  · exact absurd hprod c2
  · rw [List.length_map] at c3; omega
  · rw [r1]
    simp only
    rw [if_pos r2]
    exact ⟨_, rfl⟩

end

/-! ## Concrete cases and a counterexample -/

/-- Reshaping to a scalar is not right: a tensor with one leg of dimension one and charge 1 has one
entry, zero.  `reshape(())` is accepted and `todense` of the result is a vector without entries,
while the dense array can be reshaped to a scalar. -/
theorem C26_reshape_scalar_false : ∃ (T T' : BST Int Int) (d d' : NDArray Int), T.Valid ∧
    T.reshape [] = .ok T' ∧ T.todense = .ok d ∧ d.shape = [1] ∧ (∃ dr, d.reshape [] = .ok dr) ∧
    T'.todense = .ok d' ∧ d'.shape = [0] ∧ ¬ T'.Valid := by
  have hv : (BST.mk [] [(.raw [1], false)] [[0]] : BST Int Int).Valid := by
    refine ⟨?_, by decide, by decide, by decide⟩
    intro l hl; simp at hl; subst hl; trivial
  obtain ⟨d, d1, d2, d3⟩ := hv.todense (by simp)
  refine ⟨⟨[], [(.raw [1], false)], [[0]]⟩, ⟨[], [(.raw [1], false)], []⟩, d, _, hv, rfl, d1, d2,
    ?_, rfl, rfl, ?_⟩
  · rw [NDArray.reshape, if_pos (by rw [d2]; rfl)]; exact ⟨_, rfl⟩
  · intro h; have := h.perm.length_eq; simp at this

/-- Two indices, the first made of two legs: eight of the 24 entries conserve charge. -/
def denseEx : NDArray Int := ⟨[12, 2], fun i => 10 * i.getD 0 0 + i.getD 1 0⟩

example := C23_fromdense_todense (a := denseEx) (indices := [legsEx.take 2, legsEx.drop 2])
  rfl (by simp) (by decide) legsEx_wf

/-- A tensor with a pending transposition and fused legs. -/
def bstEx : BST Int Int := ⟨[1, 2, 3, 4, 5, 6, 7], legsEx, [[2, 0], [1]]⟩

theorem bstEx_valid : bstEx.Valid := ⟨legsEx_wf, by decide, by decide, by decide⟩

example := C23_todense_fromdense bstEx_valid (by decide)
example := C26_transpose bstEx_valid (by decide) (perm := [1, 0]) (by decide)
example := C26_reshape_partial bstEx_valid (by decide) (s := [2, 12]) (by decide)
  (T' := ⟨[1, 2, 3, 4, 5, 6, 7], legsEx, [[2], [0, 1]]⟩) rfl
example := C26_reshape_accepts bstEx_valid (by decide) [[2, 3], [4]] (by decide) (by decide)

end TN.Bs
