import Verif.BsTensor
import Mathlib.Data.List.Lex
import Mathlib.Order.Lattice.Nat

/-!
# The cache of block decompositions (C27)

`enable_caching`, `disable_caching`, `clear_cache`, `set_caching_status` and the lookups in
`_find_diagonal_sparse_blocks` and `_find_transposed_diagonal_sparse_blocks`.
-/

set_option linter.unusedSectionVars false

namespace TN.Bs

noncomputable section

/-! ## The decomposition depends on the charges only -/

section
variable {Q : Type} [AddCommGroup Q] [LinearOrder Q]

theorem intersect_lt (A B : List Q) : (intersect A B).1.Pairwise (· < ·) := (npUnique_lt A).filter _

theorem findDiagonal_lab {argsort : List Nat → List Nat} {legs : List (Leg Q)} {p : Nat} {b : Blocks Q}
    (h : findDiagonal argsort legs p = .ok b) :
    ∃ qs, b.qnums = .lab qs (List.range qs.length) ∧ qs.Pairwise (· < ·) := by
  rw [findDiagonal] at h
  by_cases h1 : p = 0 ∨ p = legs.length
  · rw [if_pos h1] at h
    rcases hn : numNonzero argsort legs with e | n
    · rw [hn] at h; cases h
    rw [hn] at h
    cases legs with
    | nil => cases h
    | cons l legs =>
      obtain rfl := Except.ok.inj h
      exact ⟨[0], rfl, by simp⟩
  · rw [if_neg h1] at h
    rcases hr : fusedDegens argsort (legs.take p) with e | row
    · rw [hr] at h; cases h
    rcases hc : fusedDegens argsort (flipFlows (legs.drop p)) with e | col
    · rw [hr, hc] at h; cases h
    rw [hr, hc] at h
    simp only [bind, Except.bind] at h
    split_ifs at h with h2
    · obtain rfl := Except.ok.inj h
      exact ⟨[], rfl, by simp⟩
    · rcases hd : reduceCharges (legs.take p) (intersect row.1.uniq col.1.uniq).1 none with e | r
      · rw [hd] at h; cases h
      rw [hd] at h
      obtain rfl := Except.ok.inj h
      exact ⟨_, rfl, intersect_lt _ _⟩

theorem findTransposed_lab {argsort : List Nat → List Nat} {legs : List (Leg Q)} {p : Nat} {order : List Nat}
    {b : Blocks Q} (h : findTransposed argsort legs p order = .ok b) :
    ∃ qs, b.qnums = .lab qs (List.range qs.length) ∧ qs.Pairwise (· < ·) := by
  rw [findTransposed] at h
  split_ifs at h with h1
  · exact findDiagonal_lab h
  rcases ht : origTables argsort legs with e | tab
  · rw [ht] at h; cases h
  rw [ht] at h
  simp only [bind, Except.bind] at h
  match tab, h with
  | none, h =>
    obtain rfl := Except.ok.inj h
    exact ⟨[], rfl, by simp⟩
  | some (w, cumul, dts), h =>
    simp only at h
    rw [transposedMaps] at h
    generalize pick order legs (Charge.raw [], false) = new at h
    generalize pick order (getStrides (legs.map (fun l => l.1.dim))) 0 = ns at h
    split_ifs at h with h2 h3
    · rcases hc : fusedDegens argsort (flipFlows (new.drop p)) with e | col
      · rw [hc] at h; cases h
      rw [hc] at h
      simp only [bind, Except.bind] at h
      rcases hr : reduceCharges (flipFlows (new.drop p)) (intersect [0] col.1.uniq).1 (some (ns.drop p)) with e | r
      · rw [hr] at h; cases h
      rw [hr] at h
      simp only at h
      split_ifs at h
      obtain rfl := Except.ok.inj h
      exact ⟨_, rfl, intersect_lt _ _⟩
    · rcases hc : fusedDegens argsort (new.take p) with e | row
      · rw [hc] at h; cases h
      rw [hc] at h
      simp only [bind, Except.bind] at h
      rcases hr : reduceCharges (new.take p) (intersect row.1.uniq [0]).1 (some (ns.take p)) with e | r
      · rw [hr] at h; cases h
      rw [hr] at h
      simp only at h
      split_ifs at h
      obtain rfl := Except.ok.inj h
      exact ⟨_, rfl, intersect_lt _ _⟩
    · rcases hr : fusedDegens argsort (new.take p) with e | row
      · rw [hr] at h; cases h
      rcases hc : fusedDegens argsort (flipFlows (new.drop p)) with e | col
      · rw [hr, hc] at h; cases h
      rw [hr, hc] at h
      simp only [bind, Except.bind] at h
      rcases h4 : reduceCharges (new.take p) (intersect row.1.uniq col.1.uniq).1 (some (ns.take p)) with e | r
      · rw [h4] at h; cases h
      rw [h4] at h
      simp only at h
      rcases h5 : reduceCharges (flipFlows (new.drop p)) (intersect row.1.uniq col.1.uniq).1
        (some (ns.drop p)) with e | r
      · rw [h5] at h; cases h
      rw [h5] at h
      obtain rfl := Except.ok.inj h
      exact ⟨_, rfl, intersect_lt _ _⟩

theorem sorted_ext {a b : List Q} (ha : a.Pairwise (· < ·)) (hb : b.Pairwise (· < ·)) (h : ∀ x, x ∈ a ↔ x ∈ b) : a = b :=
  (npUnique_eq ha (l := b) h).symm.trans (npUnique_eq hb (fun _ => Iff.rfl))

/-- The charges of the blocks. -/
theorem blocks_charges {argsort : List Nat → List Nat} (ha : ArgsortOK argsort)
    {legs : List (Leg Q)} (h : LegsWF legs) (hne : legs ≠ []) {p : Nat} (hp : p ≤ legs.length)
    {order : List Nat} (ho : order.Perm (List.range legs.length)) :
    ∃ qs, findTransposed argsort legs p order = .ok ⟨qs.map (blockMap (eff legs) order p),
        .lab qs (List.range qs.length), qs.map (fun q => (rowsOf ((permL order (eff legs)).take p) q).length),
        qs.map (fun q => (colsOf ((permL order (eff legs)).drop p) q).length)⟩ ∧ qs.Pairwise (· < ·) ∧
      ∀ q, q ∈ qs ↔ if p = 0 ∨ p = legs.length then
          q = 0 ∧ (order = List.range legs.length ∨ stored (eff legs) ≠ [])
        else rowsOf ((permL order (eff legs)).take p) q ≠ [] ∧ colsOf ((permL order (eff legs)).drop p) q ≠ [] := by
  have hll : (eff legs).length = legs.length := by simp [eff]
  obtain ⟨b, qs, b1, b2, b3⟩ := findTransposed_spec ha h hne hp ho
  obtain ⟨qs', l1, l2⟩ := findTransposed_lab b1
  have hq : qs = qs' := by rw [← b2.uniq, l1]; rfl
  subst hq
  refine ⟨qs, ?_, l2, ?_⟩
  · rw [b1]
    obtain ⟨maps, qn, rows, cols⟩ := b
    simp only at l1
    rw [l1, ← b2.maps, ← b2.rows, ← b2.cols]
  intro q
  split_ifs with hedge
  · constructor
    · intro hm
      refine ⟨(b3 q hm).1 (by rwa [hll]), ?_⟩
      by_contra hn
      push Not at hn
      have hl2 : 2 ≤ legs.length := by
        by_contra hlt
        have h1 : legs.length = 1 := by have := List.length_pos_iff.2 hne; omega
        apply hn.1
        rw [h1] at ho ⊢
        exact List.perm_singleton.1 ho
      obtain ⟨tab, op, t1, t2, t3, t4⟩ := origTables_spec ha h hl2
      rw [findTransposed, if_neg hn.1, t1] at b1
      match tab, t4 with
      | none, t4 =>
        obtain rfl := Except.ok.inj b1
        have := b2.uniq
        rw [← this] at hm
        exact absurd hm (by simp [Charge.uniq])
      | some _, t4 => exact t4.1 hn.2
    · rintro ⟨rfl, hor⟩
      by_cases htriv : order = List.range legs.length
      · rw [findTransposed, if_pos htriv] at b1
        have := findDiagonal_edge ha h hne hedge b1
        rw [b2.uniq] at this
        rw [this]; simp
      · have hs : stored (eff legs) ≠ [] := hor.resolve_left htriv
        have hs' : stored (permL order (eff legs)) ≠ [] := by
          obtain ⟨i, hi⟩ := List.exists_mem_of_ne_nil _ hs
          have hil : i.length = legs.length := by
            rw [(mem_stored.1 hi).1.length, dims, List.length_map, hll]
          have := perm_unperm ho hil
          rw [← this, mem_stored_unperm (by rwa [hll]) (by
            rw [List.length_map, hll]; simpa using ho.length_eq)] at hi
          exact List.ne_nil_of_mem hi
        have hpl : (permL order (eff legs)).length = legs.length := by
          rw [permL, List.length_map]; simpa using ho.length_eq
        apply b2.complete
        · rcases hedge with h0 | h0
          · rw [h0, List.take_zero]; simp [rowsOf, grid, dims, total]
          · rw [h0, ← hpl, List.take_length]; exact hs'
        · rcases hedge with h0 | h0
          · rw [h0, List.drop_zero]
            have : colsOf (permL order (eff legs)) 0 = stored (permL order (eff legs)) := by
              rw [colsOf, stored]; simp
            rw [this]; exact hs'
          · rw [h0, ← hpl, List.drop_length]; simp [colsOf, grid, dims, total]
  · push Not at hedge
    exact ⟨fun hm => (b3 q hm).2 hedge.1 (by rw [hll]; exact hedge.2), fun hm => b2.complete q hm.1 hm.2⟩

/-- The decomposition is the same for legs with the same charges, however they are represented. -/
theorem findTransposed_rep {argsort : List Nat → List Nat} (ha : ArgsortOK argsort)
    {legs legs' : List (Leg Q)} (h : LegsWF legs) (h' : LegsWF legs') (hne : legs ≠ []) {p : Nat}
    (hp : p ≤ legs.length) {order : List Nat} (ho : order.Perm (List.range legs.length)) (he : eff legs = eff legs') :
    findTransposed argsort legs p order = findTransposed argsort legs' p order := by
  have hl : legs'.length = legs.length := by
    have := congrArg List.length he; simpa [eff] using this.symm
  have hne' : legs' ≠ [] := by
    intro h0; rw [h0] at hl; exact hne (List.length_eq_zero_iff.1 hl.symm)
  obtain ⟨qs, a1, a2, a3⟩ := blocks_charges ha h hne hp ho
  obtain ⟨qs', b1, b2, b3⟩ := blocks_charges ha h' hne' (p := p) (by rwa [hl]) (order := order) (by rwa [hl])
  rw [← he, hl] at b3
  have : qs = qs' := sorted_ext a2 b2 (fun q => by rw [a3, b3])
  rw [a1, b1, this, he]

end

/-! ## The model -/

/-- The arguments of a lookup: charge types, legs, partition, order. -/
structure BArgs where
  ts : List CType
  ht : TypesOK ts
  legs : List (Leg (Row ts))
  p : Nat
  order : List Nat

/-- The result of a lookup: block maps, charges of the blocks with their types, block shapes. -/
structure RawBlocks where
  maps : List (List Nat)
  qnums : List (List Int)
  types : List CType
  rows : List Nat
  cols : List Nat
  deriving DecidableEq

/-- The charges of a row, one for each symmetry. -/
def Row.vals {ts : List CType} (r : Row ts) : List Int := r.1

def Blocks.raw {ts : List CType} (ht : TypesOK ts) (b : Blocks (Row ts)) : RawBlocks :=
  letI := rowGroup ts ht
  ⟨b.maps, b.qnums.charges.map Row.vals, ts, b.rows, b.cols⟩

/-- `np.argsort` and the order by which `np.unique` sorts charges. -/
structure Sorting where
  argsort : List Nat → List Nat
  ord : (ts : List CType) → LinearOrder (Row ts)

/-- `_find_transposed_diagonal_sparse_blocks` with the cache disabled. -/
def BArgs.trans (so : Sorting) (a : BArgs) : Py RawBlocks :=
  letI := rowGroup a.ts a.ht
  letI := so.ord a.ts
  (findTransposed so.argsort a.legs a.p a.order).map (Blocks.raw a.ht)

/-- `_find_diagonal_sparse_blocks` with the cache disabled (`order` is not an argument). -/
def BArgs.diag (so : Sorting) (a : BArgs) : Py RawBlocks :=
  letI := rowGroup a.ts a.ht
  letI := so.ord a.ts
  (findDiagonal so.argsort a.legs a.p).map (Blocks.raw a.ht)

/-- Whether `orig_num_blocks == 0` (blocksparse_utils.py:489-497). -/
def BArgs.noBlocks (so : Sorting) (a : BArgs) : Bool :=
  letI := rowGroup a.ts a.ht
  letI := so.ord a.ts
  match origTables so.argsort a.legs with
  | .ok none => true
  | _ => false

/-- `_to_string` (blocksparse_utils.py:636-659).  The bytes of the charges of every leg are listed
without the number of symmetries and without the charge types.  Simplification: the text is an
injective function of these data, and all charges have the default `np.int16`. -/
structure Key where
  charges : List (List Int)
  flows : List Bool
  p : Nat
  order : List Nat
  deriving DecidableEq

def BArgs.key (a : BArgs) (order : List Nat) : Key :=
  letI := rowGroup a.ts a.ht
  ⟨a.legs.map (fun l => l.1.charges.flatMap Row.vals), a.legs.map Prod.snd, a.p, order⟩

/-- `Cacher` (caching.py:22-37) -/
structure Cacher where
  cache : List (Key × RawBlocks)
  on : Bool

/-- The new object of `get_cacher` (caching.py:40-47). -/
def Cacher.init : Cacher := ⟨[], false⟩

/-- `_find_diagonal_sparse_blocks` (blocksparse_utils.py:352-356, 374, 395, 424-427) -/
def Cacher.lookupDiag (so : Sorting) (s : Cacher) (a : BArgs) : Py RawBlocks × Cacher :=
  if s.on then
    match s.cache.lookup (a.key (List.range a.legs.length)) with
    | some v => (.ok v, s)
    | none =>
      match a.diag so with
      | .error e => (.error e, s)
      | .ok b =>
        if (a.p = 0 ∨ a.p = a.legs.length) ∨ b.qnums = [] then (.ok b, s)
        else (.ok b, { s with cache := (a.key (List.range a.legs.length), b) :: s.cache })
  else (a.diag so, s)

/-- `_find_transposed_diagonal_sparse_blocks` (blocksparse_utils.py:458-468, 497, 631-634) -/
def Cacher.lookupTrans (so : Sorting) (s : Cacher) (a : BArgs) : Py RawBlocks × Cacher :=
  match (if s.on then s.cache.lookup (a.key a.order) else none) with
  | some v => (.ok v, s)
  | none =>
    if a.order = List.range a.legs.length then s.lookupDiag so a
    else
      match a.trans so with
      | .error e => (.error e, s)
      | .ok b =>
        if a.noBlocks so then (.ok b, s)
        else if s.on then (.ok b, { s with cache := (a.key a.order, b) :: s.cache })
        else (.ok b, s)

/-- The calls (caching.py:50-88 and the two lookups). -/
inductive COp
  | enable
  | disable
  | clear
  | setStatus (v : Bool)
  | diag (a : BArgs)
  | trans (a : BArgs)

def Cacher.step (so : Sorting) (s : Cacher) : COp → Option (Py RawBlocks) × Cacher
  | .enable => (none, { s with on := true })
  | .disable => (none, { s with on := false })
  | .clear => (none, { s with cache := [] })
  | .setStatus v => (none, { s with on := v })
  | .diag a => let r := s.lookupDiag so a; (some r.1, r.2)
  | .trans a => let r := s.lookupTrans so a; (some r.1, r.2)

/-- The results of a history. -/
def Cacher.run (so : Sorting) (s : Cacher) : List COp → List (Option (Py RawBlocks))
  | [] => []
  | op :: ops => (s.step so op).1 :: (s.step so op).2.run so ops

/-- The result of a call without a cache. -/
def COp.plain (so : Sorting) : COp → Option (Py RawBlocks)
  | .diag a => some (a.diag so)
  | .trans a => some (a.trans so)
  | _ => none

/-- Arguments which describe a tensor with charges of the types `ts`. -/
structure BArgs.Fine (ts : List CType) (a : BArgs) : Prop where
  types : a.ts = ts
  wf : LegsWF a.legs
  ne : a.legs ≠ []
  p : a.p ≤ a.legs.length
  order : a.order.Perm (List.range a.legs.length)

def COp.Fine (ts : List CType) : COp → Prop
  | .diag a => a.Fine ts ∧ a.order = List.range a.legs.length
  | .trans a => a.Fine ts
  | _ => True

/-! ## Transparency -/

theorem flatMap_inj {ts : List CType} (hts : ts ≠ []) {A B : List (Row ts)}
    (h : A.flatMap Row.vals = B.flatMap Row.vals) : A = B := by
  have hl : ∀ r : Row ts, r.vals.length = ts.length := fun r => (List.Forall₂.length_eq r.2).symm
  have hp : 0 < ts.length := List.length_pos_iff.2 hts
  induction A generalizing B with
  | nil =>
    cases B with
    | nil => rfl
    | cons b B =>
      have := congrArg List.length h
      simp only [List.flatMap_nil, List.flatMap_cons, List.length_append, List.length_nil, hl] at this
      omega
  | cons a A ih =>
    cases B with
    | nil =>
      have := congrArg List.length h
      simp only [List.flatMap_nil, List.flatMap_cons, List.length_append, List.length_nil, hl] at this
      omega
    | cons b B =>
      rw [List.flatMap_cons, List.flatMap_cons] at h
      obtain ⟨h1, h2⟩ := List.append_inj h (by rw [hl, hl])
      rw [Subtype.ext h1, ih h2]

/-- Equal keys, equal charge types: equal results. -/
theorem trans_of_key {so : Sorting} (ha : ArgsortOK so.argsort) {ts : List CType} (hts : ts ≠ []) {a b : BArgs}
    (fa : a.Fine ts) (fb : b.Fine ts) (h : a.key a.order = b.key b.order) : a.trans so = b.trans so := by
  obtain ⟨ta, hta, la, pa, oa⟩ := a
  obtain ⟨tb, htb, lb, pb, ob⟩ := b
  obtain rfl : ta = ts := fa.types
  obtain rfl : tb = ta := fb.types
  simp only [BArgs.key, Key.mk.injEq] at h
  obtain ⟨h1, h2, rfl, rfl⟩ := h
  simp only [BArgs.trans]
  let _ := rowGroup tb htb
  let _ := so.ord tb
  have hch : la.map (fun l => l.1.charges) = lb.map (fun l => l.1.charges) := by
    have hlen : la.length = lb.length := by simpa using congrArg List.length h1
    apply List.ext_getElem (by simpa using hlen)
    intro n n1 n2
    have k1 : n < la.length := by simpa using n1
    have k2 : n < lb.length := by simpa using n2
    rw [List.getElem_map, List.getElem_map]
    apply flatMap_inj hts
    have := List.getElem_of_eq h1 (i := n) (by simpa using k1)
    rwa [List.getElem_map, List.getElem_map] at this
  have heff : eff la = eff lb := by
    have hlen : la.length = lb.length := by simpa using congrArg List.length h1
    apply List.ext_getElem (by simpa [eff] using hlen)
    intro n n1 n2
    have k1 : n < la.length := by simpa [eff] using n1
    have k2 : n < lb.length := by simpa [eff] using n2
    simp only [eff, List.getElem_map]
    rw [Charge.dual_charges (fa.wf _ (List.getElem_mem k1)), Charge.dual_charges (fb.wf _ (List.getElem_mem k2))]
    have e1 := List.getElem_of_eq hch (i := n) (by simpa using k1)
    have e2 := List.getElem_of_eq h2 (i := n) (by simpa using k1)
    rw [List.getElem_map, List.getElem_map] at e1 e2
    rw [e1, e2]
  rw [findTransposed_rep ha fa.wf fb.wf fa.ne fa.p fa.order heff]

theorem trans_trivial {so : Sorting} {a : BArgs} (h : a.order = List.range a.legs.length) : a.trans so = a.diag so := by
  simp only [BArgs.trans, BArgs.diag, findTransposed, if_pos h]

/-- What the cache contains is correct for every tensor with the same key. -/
def Cacher.Sound (so : Sorting) (ts : List CType) (s : Cacher) : Prop :=
  ∀ k v, (k, v) ∈ s.cache → ∀ a : BArgs, a.Fine ts → a.key a.order = k → a.trans so = .ok v

theorem Cacher.Sound.hit {so : Sorting} {ts : List CType} {s : Cacher} (h : s.Sound so ts) {a : BArgs} (fa : a.Fine ts)
    {v : RawBlocks} (hv : s.cache.lookup (a.key a.order) = some v) : a.trans so = .ok v := by
  obtain ⟨l1, l2, hl, _⟩ := List.lookup_eq_some_iff.1 hv
  exact h _ v (by rw [hl]; simp) a fa rfl

theorem Cacher.Sound.add {so : Sorting} (ha : ArgsortOK so.argsort) {ts : List CType} (hts : ts ≠ []) {s : Cacher}
    (h : s.Sound so ts) {a : BArgs} (fa : a.Fine ts) {v : RawBlocks} (hv : a.trans so = .ok v) :
    Cacher.Sound so ts { s with cache := (a.key a.order, v) :: s.cache } := by
  intro k v' hm b fb hk
  rcases List.mem_cons.1 hm with h0 | hm
  · rw [Prod.mk.injEq] at h0
    rw [trans_of_key ha hts fb fa (hk.trans h0.1), hv, h0.2]
  · exact h k v' hm b fb hk

theorem lookupDiag_sound {so : Sorting} (ha : ArgsortOK so.argsort) {ts : List CType} (hts : ts ≠ []) {s : Cacher}
    (h : s.Sound so ts) {a : BArgs} (fa : a.Fine ts) (ht : a.order = List.range a.legs.length) :
    (s.lookupDiag so a).1 = a.diag so ∧ (s.lookupDiag so a).2.Sound so ts := by
  rw [Cacher.lookupDiag, ← ht, ← trans_trivial ht]
  split_ifs with hon
  · rcases hl : s.cache.lookup (a.key a.order) with _ | v
    · rcases hd : a.trans so with e | b
      · exact ⟨rfl, h⟩
      · simp only
        split_ifs
        · exact ⟨rfl, h⟩
        · exact ⟨rfl, h.add ha hts fa hd⟩
    · exact ⟨(h.hit fa hl).symm, h⟩
  · exact ⟨rfl, h⟩

theorem lookupTrans_sound {so : Sorting} (ha : ArgsortOK so.argsort) {ts : List CType} (hts : ts ≠ []) {s : Cacher}
    (h : s.Sound so ts) {a : BArgs} (fa : a.Fine ts) :
    (s.lookupTrans so a).1 = a.trans so ∧ (s.lookupTrans so a).2.Sound so ts := by
  rw [Cacher.lookupTrans]
  rcases hl : (if s.on = true then s.cache.lookup (a.key a.order) else none) with _ | v
  · simp only
    split_ifs with ht
    · rw [trans_trivial ht]
      exact lookupDiag_sound ha hts h fa ht
    all_goals
      rcases hd : a.trans so with e | b
      · exact ⟨rfl, h⟩
      · first | exact ⟨rfl, h⟩ | exact ⟨rfl, h.add ha hts fa hd⟩
  · split_ifs at hl
    exact ⟨(h.hit fa hl).symm, h⟩

theorem step_sound {so : Sorting} (ha : ArgsortOK so.argsort) {ts : List CType} (hts : ts ≠ []) {s : Cacher}
    (h : s.Sound so ts) {op : COp} (ho : op.Fine ts) :
    (s.step so op).1 = op.plain so ∧ (s.step so op).2.Sound so ts := by
  cases op with
  | enable => exact ⟨rfl, h⟩
  | disable => exact ⟨rfl, h⟩
  | clear => exact ⟨rfl, fun k v hm => absurd hm (by simp [Cacher.step])⟩
  | setStatus v => exact ⟨rfl, h⟩
  | diag a =>
    obtain ⟨h1, h2⟩ := lookupDiag_sound ha hts h ho.1 ho.2
    exact ⟨congrArg some h1, h2⟩
  | trans a =>
    obtain ⟨h1, h2⟩ := lookupTrans_sound ha hts h ho
    exact ⟨congrArg some h1, h2⟩

/-- C27: in every history all of whose tensors have the same charge types, every lookup returns what it
returns without a cache.  Partial: for tensors with different charge types this is false, see below. -/
theorem C27_cache_partial {so : Sorting} (ha : ArgsortOK so.argsort) {ts : List CType} (hts : ts ≠ [])
    (ops : List COp) (hf : ∀ op ∈ ops, op.Fine ts) :
    Cacher.init.run so ops = ops.map (COp.plain so) := by
  have : ∀ s : Cacher, s.Sound so ts → s.run so ops = ops.map (COp.plain so) := by
    induction ops with
    | nil => intro s _; rfl
    | cons op ops ih =>
      intro s hs
      obtain ⟨h1, h2⟩ := step_sound ha hts hs (hf op (by simp))
      rw [Cacher.run, List.map_cons, h1, ih (fun o ho => hf o (by simp [ho])) _ h2]
  exact this _ (fun k v hm => absurd hm (by simp [Cacher.init]))

/-- While caching is off the cache is not consulted: every lookup is a plain one, whatever the cache
contains. -/
theorem C27_disabled (so : Sorting) (s : Cacher) (h : s.on = false) (a : BArgs) :
    (s.lookupDiag so a).1 = a.diag so ∧ (s.lookupTrans so a).1 = a.trans so ∧
      (s.lookupDiag so a).2 = s ∧ (s.lookupTrans so a).2 = s := by
  have hd : s.lookupDiag so a = (a.diag so, s) := by rw [Cacher.lookupDiag, h]; rfl
  refine ⟨by rw [hd], ?_, by rw [hd], ?_⟩
  · rw [Cacher.lookupTrans, h]
    simp only [Bool.false_eq_true, if_false]
    split_ifs with ht
    · rw [hd, trans_trivial ht]
    all_goals rcases a.trans so with e | b <;> rfl
  · rw [Cacher.lookupTrans, h]
    simp only [Bool.false_eq_true, if_false]
    split_ifs with ht
    · rw [hd]
    all_goals rcases a.trans so with e | b <;> rfl

/-! ## Cases -/

/-- Lexicographic order of the charges. -/
def sortEx : Sorting := ⟨argsortI, fun _ => LinearOrder.lift' Subtype.val Subtype.val_injective⟩

def rowU (k : Int) (h : -32768 ≤ k ∧ k < 32768 := by decide) : Row [.u1] := ⟨[k], .cons h .nil⟩
def rowZ (k : Int) (h : k = 0 ∨ k = 1 := by decide) : Row [.z2] := ⟨[k], .cons h .nil⟩

/-- Two legs of charges 0 and 1, both incoming. -/
def legsU : List (Leg (Row [.u1])) := [(.raw [rowU 0, rowU 1], false), (.raw [rowU 0, rowU 1], false)]

theorem legsU_wf : LegsWF legsU := by
  intro l hl
  simp only [legsU, List.mem_cons, List.not_mem_nil, or_false] at hl
  rcases hl with rfl | rfl <;> trivial

def argsU : BArgs := ⟨[.u1], by simp [TypesOK, CType.OK], legsU, 1, [1, 0]⟩
def argsU' : BArgs := ⟨[.u1], by simp [TypesOK, CType.OK], legsU, 1, [0, 1]⟩
def argsZ : BArgs :=
  ⟨[.z2], by simp [TypesOK, CType.OK], [(.raw [rowZ 0, rowZ 1], false), (.raw [rowZ 0, rowZ 1], false)], 1, [1, 0]⟩

theorem argsU_fine : argsU.Fine [.u1] := ⟨rfl, legsU_wf, by simp [argsU, legsU], by decide, by decide⟩
theorem argsU'_fine : argsU'.Fine [.u1] := ⟨rfl, legsU_wf, by simp [argsU', legsU], by decide, by decide⟩

example := C27_cache_partial (so := sortEx) argsortI_ok (ts := [.u1]) (by simp)
  [.enable, .trans argsU, .trans argsU, .diag argsU', .trans argsU', .disable, .trans argsU, .clear, .setStatus true,
    .trans argsU] (by
    intro op hop
    simp only [List.mem_cons, List.not_mem_nil, or_false] at hop
    rcases hop with rfl | rfl | rfl | rfl | rfl | rfl | rfl | rfl | rfl | rfl <;>
      first | trivial | exact argsU_fine | exact ⟨argsU'_fine, by decide⟩ | exact argsU'_fine)

/-- C27, what fails: after a lookup for a `U1` tensor, the same lookup for a `Z2` tensor returns the
blocks of the `U1` tensor, which has one stored element instead of two. -/
theorem C27_types_false :
    Cacher.init.run sortEx [.enable, .trans argsU, .trans argsZ] =
      [none, some (.ok ⟨[[0]], [[0]], [.u1], [1], [1]⟩), some (.ok ⟨[[0]], [[0]], [.u1], [1], [1]⟩)] ∧
    argsZ.trans sortEx = .ok ⟨[[0], [1]], [[0], [1]], [.z2], [1, 1], [1, 1]⟩ := by
  constructor <;> decide +kernel

/-- Charges 0 and 1 of one symmetry, and the charge (0, 1) of two symmetries. -/
def argsOne : BArgs :=
  ⟨[.u1], by simp [TypesOK, CType.OK], [(.raw [rowU 0, rowU 1], false), (.raw [rowU 0, rowU 1], true)], 1, [1, 0]⟩
def argsTwo : BArgs :=
  ⟨[.u1, .u1], by simp [TypesOK, CType.OK],
    [(.raw [⟨[0, 1], .cons ⟨by decide, by decide⟩ (.cons ⟨by decide, by decide⟩ .nil)⟩], false),
      (.raw [⟨[0, 1], .cons ⟨by decide, by decide⟩ (.cons ⟨by decide, by decide⟩ .nil)⟩], true)], 1, [1, 0]⟩

/-- C27, what fails: the number of symmetries is not part of the key either; the second lookup returns
blocks for charges of one symmetry, with two elements for a tensor with a single one. -/
theorem C27_symmetries_false :
    Cacher.init.run sortEx [.enable, .trans argsOne, .trans argsTwo] =
      [none, some (.ok ⟨[[1], [0]], [[-1], [0]], [.u1], [1, 1], [1, 1]⟩),
        some (.ok ⟨[[1], [0]], [[-1], [0]], [.u1], [1, 1], [1, 1]⟩)] ∧
    argsTwo.trans sortEx = .ok ⟨[[0]], [[0, -1]], [.u1, .u1], [1], [1]⟩ := by
  constructor <;> decide +kernel

end
end TN.Bs
