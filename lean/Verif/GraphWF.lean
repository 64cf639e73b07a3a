import Verif.GraphOps
import Verif.Net

/-!
# Well-formed graphs

The consistency of the mutable graph: every edge listed by a node at an axis is alive and
its record names exactly the axes that list it, and the dimensions at its ends agree.
-/

namespace TN.Graph

open TN

variable {R : Type}

/-- An axis of a node. -/
abbrev Slot := NId × Nat

/-- The axes an edge record points to. -/
def EdgeRec.ends (r : EdgeRec) : Multiset Slot :=
  ((match r.node1 with | some n => [(n, r.axis1)] | none => []) ++
   (match r.node2, r.axis2 with | some n, some a => [(n, a)] | _, _ => []) : List Slot)

/-- The record of a live dangling edge. -/
abbrev EdgeRec.dang (n : NId) (a : Nat) : EdgeRec := ⟨some n, a, none, none, true, false⟩

/-- The record of a live connected edge. -/
abbrev EdgeRec.conn (n : NId) (a : Nat) (m : NId) (b : Nat) : EdgeRec :=
  ⟨some n, a, some m, some b, false, false⟩

/-- A live edge: dangling with one end, or connected with two ends. -/
def EdgeRec.Good (r : EdgeRec) : Prop :=
  (∃ n a, r = .dang n a) ∨ ∃ n a m b, r = .conn n a m b

@[simp] theorem ends_dang (n : NId) (a : Nat) : (EdgeRec.dang n a).ends = {(n, a)} := rfl

@[simp] theorem ends_conn (n : NId) (a : Nat) (m : NId) (b : Nat) :
    (EdgeRec.conn n a m b).ends = {(n, a), (m, b)} := rfl

theorem good_dang (n : NId) (a : Nat) : (EdgeRec.dang n a).Good := .inl ⟨n, a, rfl⟩

theorem good_conn (n : NId) (a : Nat) (m : NId) (b : Nat) : (EdgeRec.conn n a m b).Good :=
  .inr ⟨n, a, m, b, rfl⟩

theorem EdgeRec.Good.card {r : EdgeRec} (h : r.Good) :
    r.ends.card = if r.dangling then 1 else 2 := by
  rcases h with ⟨n, a, rfl⟩ | ⟨n, a, m, b, rfl⟩ <;> rfl

/-- Node `s.1` lists edge `e` at axis `s.2`. -/
def At (h : Heap R) (s : Slot) (e : EId) : Prop :=
  s.1 < h.nn ∧ (h.node s.1).edges[s.2]? = some e

/-- Some node lists the edge. -/
def InUse (h : Heap R) (e : EId) : Prop := ∃ s, At h s e

/-- The dimension of an axis. -/
def dimAt (h : Heap R) (s : Slot) : Nat := (h.shape s.1).getD s.2 0

/-- The edge `e` listed at `s` is alive, names exactly the axes that list it, and has one
dimension. -/
structure EdgeOK (h : Heap R) (s : Slot) (e : EId) : Prop where
  lt : e < h.ne
  good : (h.edge e).Good
  nodup : (h.edge e).ends.Nodup
  mem : s ∈ (h.edge e).ends
  listed : ∀ s' ∈ (h.edge e).ends, At h s' e
  dim : ∀ s' ∈ (h.edge e).ends, dimAt h s' = dimAt h s

/-- The graph is consistent. -/
structure WF (h : Heap R) : Prop where
  len : ∀ n < h.nn, (h.node n).edges.length = (h.node n).tensor.ndim
  edge : ∀ s e, At h s e → EdgeOK h s e

theorem At.unique {h : Heap R} {s : Slot} {e e' : EId} (h1 : At h s e) (h2 : At h s e') :
    e = e' := by
  have := h1.2.symm.trans h2.2
  exact Option.some.inj this

theorem WF.mem_ends {h : Heap R} (w : WF h) {e : EId} (hu : InUse h e) {s : Slot} :
    s ∈ (h.edge e).ends ↔ At h s e := by
  obtain ⟨s0, h0⟩ := hu
  exact ⟨(w.edge s0 e h0).listed s, fun hs => (w.edge s e hs).mem⟩

/-- The part of consistency that is about edge records only. -/
def Linked (h : Heap R) : Prop :=
  ∀ e, InUse h e → (h.edge e).Good ∧ (h.edge e).ends.Nodup ∧ ∀ s, s ∈ (h.edge e).ends ↔ At h s e

theorem WF.good {h : Heap R} (w : WF h) {e : EId} (hu : InUse h e) : (h.edge e).Good := by
  obtain ⟨s0, h0⟩ := hu
  exact (w.edge s0 e h0).good

theorem WF.nodup {h : Heap R} (w : WF h) {e : EId} (hu : InUse h e) : (h.edge e).ends.Nodup := by
  obtain ⟨s0, h0⟩ := hu
  exact (w.edge s0 e h0).nodup

theorem WF.lt {h : Heap R} (w : WF h) {e : EId} (hu : InUse h e) : e < h.ne := by
  obtain ⟨s0, h0⟩ := hu
  exact (w.edge s0 e h0).lt

theorem WF.linked {h : Heap R} (w : WF h) : Linked h :=
  fun _ hu => ⟨w.good hu, w.nodup hu, fun _ => w.mem_ends hu⟩

theorem At.inUse {h : Heap R} {s : Slot} {e : EId} (hs : At h s e) : InUse h e := ⟨s, hs⟩

theorem At.lt_len {h : Heap R} {s : Slot} {e : EId} (hs : At h s e) :
    s.2 < (h.node s.1).edges.length := by
  obtain ⟨h1, _⟩ := List.getElem?_eq_some_iff.1 hs.2
  exact h1

theorem At.mem {h : Heap R} {s : Slot} {e : EId} (hs : At h s e) : e ∈ (h.node s.1).edges := by
  obtain ⟨h1, h2⟩ := List.getElem?_eq_some_iff.1 hs.2
  exact h2 ▸ List.getElem_mem h1

theorem at_of_mem {h : Heap R} {n : NId} (hn : n < h.nn) {e : EId} (he : e ∈ (h.node n).edges) :
    At h (n, (h.node n).edges.idxOf e) e := by
  refine ⟨hn, ?_⟩
  have := List.idxOf_lt_length_of_mem he
  simp [List.getElem?_eq_getElem this]

/-- How an operation changes the graph: the axes move by `φ`, the edges in `dead` are
removed, other axes of the new graph are consistent by themselves. -/
structure Surgery (h h' : Heap R) (φ : Slot → Slot) (dead : EId → Prop) : Prop where
  len : ∀ n < h'.nn, (h'.node n).edges.length = (h'.node n).tensor.ndim
  ne : h.ne ≤ h'.ne
  live : ∀ s e, At h s e → ¬ dead e → At h' (φ s) e ∧ dimAt h' (φ s) = dimAt h s ∧
    (h'.edge e).Good ∧ (h'.edge e).ends = (h.edge e).ends.map φ
  inj : ∀ s s' e, At h s e → At h s' e → ¬ dead e → φ s = φ s' → s = s'
  cover : ∀ s e, At h' s e → (∃ s0, At h s0 e ∧ ¬ dead e ∧ φ s0 = s) ∨ EdgeOK h' s e

theorem Surgery.wf {h h' : Heap R} {φ : Slot → Slot} {dead : EId → Prop}
    (x : Surgery h h' φ dead) (w : WF h) : WF h' := by
  refine ⟨x.len, fun s e hs => ?_⟩
  rcases x.cover s e hs with ⟨s0, h0, hd, rfl⟩ | hok
  · have ok := w.edge s0 e h0
    obtain ⟨_, hdim, hgood, hends⟩ := x.live s0 e h0 hd
    refine ⟨lt_of_lt_of_le ok.lt x.ne, hgood, ?_, ?_, ?_, ?_⟩
    · rw [hends]
      exact Multiset.Nodup.map_on (fun s hs s' hs' => x.inj s s' e (ok.listed s hs)
        (ok.listed s' hs') hd) ok.nodup
    · rw [hends]; exact Multiset.mem_map_of_mem _ ok.mem
    · intro s' hs'
      rw [hends] at hs'
      obtain ⟨s1, h1, rfl⟩ := Multiset.mem_map.1 hs'
      exact (x.live s1 e (ok.listed s1 h1) hd).1
    · intro s' hs'
      rw [hends] at hs'
      obtain ⟨s1, h1, rfl⟩ := Multiset.mem_map.1 hs'
      rw [(x.live s1 e (ok.listed s1 h1) hd).2.1, hdim]
      exact ok.dim s1 h1
  · exact hok

/-! ### Values -/

/-- The labelled network of the nodes `ns`: the labels are the edges. -/
def netOf (h : Heap R) (ns : List NId) : List (NDArray R × List EId) :=
  ns.map fun n => ((h.node n).tensor, (h.node n).edges)

/-- The dimension of an edge. -/
def edim (h : Heap R) (e : EId) : Nat :=
  match (h.edge e).node1 with
  | some n => dimAt h (n, (h.edge e).axis1)
  | none => 0

theorem WF.edim_eq {h : Heap R} (w : WF h) {s : Slot} {e : EId} (hs : At h s e) :
    edim h e = dimAt h s := by
  have ok := w.edge s e hs
  have : ∃ s' ∈ (h.edge e).ends, edim h e = dimAt h s' := by
    unfold edim
    rcases ok.good with ⟨n, a, hr⟩ | ⟨n, a, m, b, hr⟩
    · exact ⟨(n, a), by rw [hr]; simp, by rw [hr]⟩
    · exact ⟨(n, a), by rw [hr]; simp, by rw [hr]⟩
  obtain ⟨s', h1, h2⟩ := this
  rw [h2, ok.dim s' h1]

theorem WF.shaped {h : Heap R} (w : WF h) {n : NId} (hn : n < h.nn) :
    Shaped (edim h) (h.node n).tensor (h.node n).edges := by
  apply List.ext_getElem
  · rw [List.length_map, w.len n hn]; rfl
  · intro k h1 h2
    have hk : k < (h.node n).edges.length := by simpa using h2
    rw [List.getElem_map, w.edim_eq (s := (n, k)) ⟨hn, by simp [hk]⟩]
    simp only [dimAt, Heap.shape]
    rw [List.getD_eq_getElem _ _ h1]

theorem WF.consistent {h : Heap R} (w : WF h) {ns : List NId} (hn : ∀ n ∈ ns, n < h.nn) :
    Consistent (edim h) (netOf h ns) := by
  intro p hp
  obtain ⟨n, hn', rfl⟩ := List.mem_map.1 hp
  exact w.shaped (hn n hn')

theorem netOf_append (h : Heap R) (a b : List NId) : netOf h (a ++ b) = netOf h a ++ netOf h b := by
  simp [netOf]

theorem netOf_congr {h h' : Heap R} {ns : List NId} (hn : ∀ n ∈ ns, h'.node n = h.node n) :
    netOf h' ns = netOf h ns :=
  List.map_congr_left fun n hm => by rw [hn n hm]

theorem netOf_perm (h : Heap R) {a b : List NId} (p : a.Perm b) : (netOf h a).Perm (netOf h b) :=
  p.map _

/-! ### Counting -/

theorem count_zipIdx {α : Type} [DecidableEq α] (l : List α) (e : α) (k : Nat) :
    l.count e = ((l.zipIdx k).filter (fun p => p.1 = e)).length := by
  induction l generalizing k with
  | nil => rfl
  | cons a l ih =>
    rw [List.count_cons, ih (k + 1), List.zipIdx_cons, List.filter_cons]
    by_cases h : a = e <;> simp [h]

theorem WF.ends_filter {h : Heap R} (w : WF h) {e : EId} (hu : InUse h e) {n : NId}
    (hn : n < h.nn) :
    (((h.node n).edges.zipIdx.filter (fun p => p.1 = e)).map (fun p => (n, p.2)) : Multiset Slot) =
      (h.edge e).ends.filter (fun s => s.1 = n) := by
  rw [Multiset.Nodup.ext]
  · intro s
    rw [Multiset.mem_filter, w.mem_ends hu, Multiset.mem_coe, List.mem_map]
    constructor
    · rintro ⟨⟨e', k⟩, hm, rfl⟩
      rw [List.mem_filter] at hm
      obtain ⟨hm, he⟩ := hm
      simp only [decide_eq_true_eq] at he
      subst he
      exact ⟨⟨hn, (List.mem_zipIdx_iff_getElem?.1 hm)⟩, rfl⟩
    · rintro ⟨⟨h1, h2⟩, h3⟩
      subst h3
      refine ⟨(e, s.2), ?_, rfl⟩
      rw [List.mem_filter]
      exact ⟨List.mem_zipIdx_iff_getElem?.2 h2, by simp⟩
  · rw [Multiset.coe_nodup]
    refine List.Nodup.map_on ?_ (List.Nodup.filter _ ?_)
    · intro x hx y hy hxy
      simp only [List.mem_filter, decide_eq_true_eq] at hx hy
      simp only [Prod.mk.injEq, true_and] at hxy
      exact Prod.ext (hx.2.trans hy.2.symm) hxy
    · exact List.Nodup.of_map Prod.snd (by
        rw [List.zipIdx_map_snd]; exact List.nodup_range')
  · exact (w.nodup hu).filter _

theorem WF.count {h : Heap R} (w : WF h) {e : EId} (hu : InUse h e) {n : NId} (hn : n < h.nn) :
    (h.node n).edges.count e = (h.edge e).ends.countP (fun s => s.1 = n) := by
  rw [Multiset.countP_eq_card_filter, ← w.ends_filter hu hn, count_zipIdx _ _ 0]
  simp

theorem WF.count_flat {h : Heap R} (w : WF h) {e : EId} (hu : InUse h e) {ns : List NId}
    (hns : ns.Nodup) (hn : ∀ n ∈ ns, n < h.nn) :
    (flatL (netOf h ns)).count e = (h.edge e).ends.countP (fun s => s.1 ∈ ns) := by
  induction ns with
  | nil => simp [netOf, flatL]
  | cons n ns ih =>
    rw [List.nodup_cons] at hns
    have e1 : netOf h (n :: ns) = ((h.node n).tensor, (h.node n).edges) :: netOf h ns := rfl
    rw [e1, flatL_cons, List.count_append, ih hns.2 (fun m hm => hn m (by simp [hm])),
      w.count hu (hn n (by simp))]
    rw [Multiset.countP_eq_card_filter, Multiset.countP_eq_card_filter,
      Multiset.countP_eq_card_filter, ← Multiset.card_add, Multiset.filter_add_filter]
    have e2 : (h.edge e).ends.filter (fun s => s.1 = n ∧ s.1 ∈ ns) = 0 := by
      rw [Multiset.filter_eq_nil]
      rintro s _ ⟨rfl, h2⟩
      exact hns.1 h2
    rw [e2, add_zero]
    congr 1
    refine Multiset.filter_congr fun s _ => ?_
    simp

theorem mem_flat_netOf {h : Heap R} {ns : List NId} {e : EId} :
    e ∈ flatL (netOf h ns) ↔ ∃ n ∈ ns, e ∈ (h.node n).edges := by
  simp [mem_flatL, netOf]

theorem inUse_of_mem {h : Heap R} {n : NId} (hn : n < h.nn) {e : EId}
    (he : e ∈ (h.node n).edges) : InUse h e := ⟨_, at_of_mem hn he⟩

theorem inUse_of_flat {h : Heap R} {ns : List NId} {e : EId} (hn : ∀ n ∈ ns, n < h.nn)
    (he : e ∈ flatL (netOf h ns)) : InUse h e := by
  obtain ⟨n, h1, h2⟩ := mem_flat_netOf.1 he
  exact inUse_of_mem (hn n h1) h2

end TN.Graph
