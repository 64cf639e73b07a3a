import Verif.GraphProps1

/-!
# C98: the picture of a network

`to_graphviz` (visualization/graphviz.py:22-69).  Simplifications: the result is the list of the statements of the graph; the names of the vertices,
`str(id(node))` and `"{}_{}".format(id(node), i)`, are the address and the pair; node and edge names are functions of the address; styles other than
`invis` and the engine are left out.
-/

namespace TN.Viz

open TN TN.Graph

variable {R : Type}

/-! ### The model -/

/-- The names of vertices: `str(id(node))` and `"{}_{}".format(id(node), i)` (graphviz.py:48, 63). -/
inductive Vtx
  | node (n : NId)
  | stub (n : NId) (i : Nat)
deriving DecidableEq

/-- `graph.node(v, label, style)` and `graph.edge(u, v, label)`. -/
inductive Stmt
  | vertex (v : Vtx) (label : String) (invis : Bool)
  | line (u v : Vtx) (label : String)
deriving DecidableEq

/-- An `Iterable`: a collection, or an iterator, which can be read once. -/
inductive Nodes
  | coll (l : List NId)
  | iter (l : List NId)

/-- What the first loop sees. -/
def Nodes.first : Nodes → List NId
  | .coll l => l
  | .iter l => l

/-- What the second loop sees. -/
def Nodes.second : Nodes → List NId
  | .coll l => l
  | .iter _ => []

/-- The label: the name, or the empty string (graphviz.py:44-47, 55-58). -/
def gvLabel (all : Bool) (s : String) : String := if !("__".toList.isPrefixOf s.toList) || all then s else ""

/-- The body of the inner loop for an edge not seen before (graphviz.py:55-68); `edge.name`, `node1` and `node2` raise for a disabled edge
(network_components.py:1035-1040, 1108-1126). -/
def gvEdge (h : Heap R) (lab : EId → String) (n i : Nat) (e : EId) : Py (List Stmt) :=
  if (h.edge e).disabled then .error .valueError
  else if (h.edge e).dangling then .ok [.vertex (.stub n i) "" true, .line (.stub n i) (.node n) (lab e)]
  else match (h.edge e).node1, (h.edge e).node2 with
    | some a, some b => .ok [.line (.node a) (.node b) (lab e)]
    | _, _ => .error .valueError

/-- The two inner loops as one over node, axis and edge (graphviz.py:49-68). -/
def gvEdges (h : Heap R) (lab : EId → String) : List (NId × Nat × EId) → List EId → Py (List Stmt)
  | [], _ => .ok []
  | (n, i, e) :: l, seen =>
    if e ∈ seen then gvEdges h lab l seen else do
      let s ← gvEdge h lab n i e
      let r ← gvEdges h lab l (e :: seen)
      .ok (s ++ r)

/-- `for node in nodes: for i, edge in enumerate(node.edges)` -/
def gvSlots (h : Heap R) (nodes : List NId) : List (NId × Nat × EId) :=
  nodes.flatMap fun n => (h.node n).edges.zipIdx.map fun p => (n, p.2, p.1)

/-- `to_graphviz(nodes, graph, include_all_names)` (graphviz.py:22-69). -/
def toGraphviz (h : Heap R) (nodeName : NId → String) (edgeName : EId → String) (all : Bool) (nodes : Nodes) (graph : List Stmt) : Py (List Stmt) := do
  let vs := nodes.first.map fun n => Stmt.vertex (.node n) (gvLabel all (nodeName n)) false
  let es ← gvEdges h (fun e => gvLabel all (edgeName e)) (gvSlots h nodes.second) []
  .ok (graph ++ (vs ++ es))

/-! ### Specification -/

/-- The label of an object with this name. -/
def Labelled (all : Bool) (name label : String) : Prop :=
  (all = true ∨ ¬ "__".toList <+: name.toList → label = name) ∧ (all = false → "__".toList <+: name.toList → label = "")

/-- The statement shows a line. -/
def Stmt.isLine : Stmt → Bool
  | .line .. => true
  | .vertex .. => false

/-- The statement shows a visible vertex. -/
def Stmt.isVisible : Stmt → Bool
  | .vertex _ _ invis => !invis
  | .line .. => false

/-- The vertex a statement declares. -/
def Stmt.declares : Stmt → Option Vtx
  | .vertex v _ _ => some v
  | .line .. => none

/-- The statement is a line for the edge: between its two nodes, or from the node to a vertex of its own. -/
def Draws (h : Heap R) (edgeName : EId → String) (all : Bool) (nodes : List NId) (e : EId) (s : Stmt) : Prop :=
  ∃ label, Labelled all (edgeName e) label ∧
    (((h.edge e).dangling = true ∧ ∃ n ∈ nodes, ∃ i, (h.node n).edges[i]? = some e ∧ s = .line (.stub n i) (.node n) label) ∨
     ((h.edge e).dangling = false ∧ ∃ a b, (h.edge e).node1 = some a ∧ (h.edge e).node2 = some b ∧ s = .line (.node a) (.node b) label))

/-! ### Proofs -/

theorem gvLabel_spec (all : Bool) (s : String) : Labelled all s (gvLabel all s) := by
  constructor
  · intro h
    rw [gvLabel, if_pos]
    rcases h with h | h
    · simp [h]
    · rw [← List.isPrefixOf_iff_prefix] at h
      simp only [Bool.not_eq_true] at h
      rw [h]; rfl
  · intro h1 h2
    rw [← List.isPrefixOf_iff_prefix] at h2
    rw [gvLabel, if_neg]
    rw [h1, h2]; decide

/-- The first slot of every edge not seen. -/
def gvKeep : List (NId × Nat × EId) → List EId → List (NId × Nat × EId)
  | [], _ => []
  | x :: l, seen => if x.2.2 ∈ seen then gvKeep l seen else x :: gvKeep l (x.2.2 :: seen)

theorem gvKeep_sublist (l : List (NId × Nat × EId)) (seen : List EId) : (gvKeep l seen).Sublist l := by
  induction l generalizing seen with
  | nil => exact .slnil
  | cons x l ih =>
    rw [gvKeep]
    by_cases hx : x.2.2 ∈ seen
    · rw [if_pos hx]; exact (ih _).cons _
    · rw [if_neg hx]; exact (ih _).cons_cons _

theorem gvKeep_mem (l : List (NId × Nat × EId)) (seen : List EId) (e : EId) :
    e ∈ (gvKeep l seen).map (fun x => x.2.2) ↔ e ∈ l.map (fun x => x.2.2) ∧ e ∉ seen := by
  induction l generalizing seen with
  | nil => simp [gvKeep]
  | cons x l ih =>
    rw [gvKeep]
    by_cases hx : x.2.2 ∈ seen
    · rw [if_pos hx, ih, List.map_cons, List.mem_cons]
      constructor
      · exact fun h => ⟨.inr h.1, h.2⟩
      · rintro ⟨rfl | h1, h2⟩
        · exact absurd hx h2
        · exact ⟨h1, h2⟩
    · rw [if_neg hx, List.map_cons, List.mem_cons, ih, List.map_cons, List.mem_cons, List.mem_cons]
      constructor
      · rintro (rfl | ⟨h1, h2⟩)
        · exact ⟨.inl rfl, hx⟩
        · exact ⟨.inr h1, fun h => h2 (.inr h)⟩
      · rintro ⟨h1, h2⟩
        by_cases he : e = x.2.2
        · exact .inl he
        · exact .inr ⟨h1.resolve_left he, fun h => h.elim he h2⟩

theorem gvKeep_nodup (l : List (NId × Nat × EId)) (seen : List EId) : ((gvKeep l seen).map fun x => x.2.2).Nodup := by
  induction l generalizing seen with
  | nil => exact List.nodup_nil
  | cons x l ih =>
    rw [gvKeep]
    by_cases hx : x.2.2 ∈ seen
    · rw [if_pos hx]; exact ih _
    · rw [if_neg hx, List.map_cons, List.nodup_cons]
      exact ⟨fun h => ((gvKeep_mem _ _ _).1 h).2 (by simp), ih _⟩

/-- The line of an edge. -/
def gvLine (h : Heap R) (lab : EId → String) (x : NId × Nat × EId) : Stmt :=
  if (h.edge x.2.2).dangling then .line (.stub x.1 x.2.1) (.node x.1) (lab x.2.2)
  else .line (.node ((h.edge x.2.2).node1.getD 0)) (.node ((h.edge x.2.2).node2.getD 0)) (lab x.2.2)

/-- The statements of an edge. -/
def gvStmts (h : Heap R) (lab : EId → String) (x : NId × Nat × EId) : List Stmt :=
  (if (h.edge x.2.2).dangling then [.vertex (.stub x.1 x.2.1) "" true] else []) ++ [gvLine h lab x]

theorem gvEdge_eq {h : Heap R} (lab : EId → String) (n i : Nat) {e : EId} (hg : (h.edge e).Good) :
    gvEdge h lab n i e = .ok (gvStmts h lab (n, i, e)) := by
  rcases hg with ⟨m, a, hr⟩ | ⟨m, a, m', b, hr⟩ <;> simp [gvEdge, gvStmts, gvLine, hr]

theorem gvEdges_eq {h : Heap R} (lab : EId → String) (l : List (NId × Nat × EId)) (hg : ∀ x ∈ l, (h.edge x.2.2).Good) (seen : List EId) :
    gvEdges h lab l seen = .ok ((gvKeep l seen).flatMap (gvStmts h lab)) := by
  induction l generalizing seen with
  | nil => rfl
  | cons x l ih =>
    obtain ⟨n, i, e⟩ := x
    have ih := ih fun y hy => hg y (List.mem_cons_of_mem _ hy)
    rw [gvEdges, gvKeep]
    by_cases hx : e ∈ seen
    · rw [if_pos hx, if_pos hx, ih]
    · rw [if_neg hx, if_neg hx, gvEdge_eq lab n i (hg _ List.mem_cons_self), ih, List.flatMap_cons]; rfl

theorem mem_gvSlots {h : Heap R} {nodes : List NId} {n i : Nat} {e : EId} :
    (n, i, e) ∈ gvSlots h nodes ↔ n ∈ nodes ∧ (h.node n).edges[i]? = some e := by
  simp only [gvSlots, List.mem_flatMap, List.mem_map, Prod.mk.injEq, Prod.exists, List.mem_zipIdx_iff_getElem?]
  constructor
  · rintro ⟨m, hm, a, b, h1, rfl, rfl, rfl⟩; exact ⟨hm, h1⟩
  · rintro ⟨hm, h1⟩; exact ⟨n, hm, e, i, h1, rfl, rfl, rfl⟩

theorem gvSlots_nodup (h : Heap R) {nodes : List NId} (hn : nodes.Nodup) : ((gvSlots h nodes).map fun x => Vtx.stub x.1 x.2.1).Nodup := by
  induction nodes with
  | nil => exact List.nodup_nil
  | cons n l ih =>
    rw [List.nodup_cons] at hn
    rw [gvSlots, List.flatMap_cons, List.map_append, List.nodup_append]
    refine ⟨?_, ih hn.2, ?_⟩
    · have e : List.map (fun x : NId × Nat × EId => Vtx.stub x.1 x.2.1) ((h.node n).edges.zipIdx.map fun p => (n, p.2, p.1)) =
          (List.range (h.node n).edges.length).map fun i => Vtx.stub n i := by
        rw [List.map_map, List.range_eq_range', ← List.zipIdx_map_snd 0, List.map_map]; rfl
      rw [e]
      exact List.nodup_range.map fun a b hab => by cases hab; rfl
    · intro a ha b hb hab
      simp only [List.mem_map] at ha hb
      obtain ⟨x, ⟨p, -, rfl⟩, rfl⟩ := ha
      obtain ⟨⟨m, j, e⟩, hy, rfl⟩ := hb
      cases hab
      exact hn.1 (mem_gvSlots.1 hy).1

theorem lines_eq (h : Heap R) (lab : EId → String) (l : List (NId × Nat × EId)) :
    (l.flatMap (gvStmts h lab)).filter Stmt.isLine = l.map (gvLine h lab) := by
  induction l with
  | nil => rfl
  | cons x l ih =>
    rw [List.flatMap_cons, List.filter_append, ih, List.map_cons]
    by_cases hd : (h.edge x.2.2).dangling = true <;> simp [gvStmts, gvLine, hd, Stmt.isLine] <;> rfl

theorem visible_eq (h : Heap R) (lab : EId → String) (l : List (NId × Nat × EId)) :
    (l.flatMap (gvStmts h lab)).filter Stmt.isVisible = [] := by
  induction l with
  | nil => rfl
  | cons x l ih =>
    rw [List.flatMap_cons, List.filter_append, ih]
    by_cases hd : (h.edge x.2.2).dangling = true <;> simp [gvStmts, gvLine, hd, Stmt.isVisible]

theorem declares_eq (h : Heap R) (lab : EId → String) (l : List (NId × Nat × EId)) :
    (l.flatMap (gvStmts h lab)).filterMap Stmt.declares = (l.filter fun x => (h.edge x.2.2).dangling).map fun x => Vtx.stub x.1 x.2.1 := by
  induction l with
  | nil => rfl
  | cons x l ih =>
    rw [List.flatMap_cons, List.filterMap_append, ih, List.filter_cons]
    by_cases hd : (h.edge x.2.2).dangling = true <;> simp [gvStmts, gvLine, hd, Stmt.declares]

/-- **C98.**  For a collection of nodes of a correct graph the picture has one visible vertex per node, one line per edge of these nodes, also for
trace edges and parallel edges, and one invisible vertex per dangling edge; no vertex is declared twice; what was in the given graph stays. -/
theorem C98_picture {h : Heap R} (g : GraphOK h) {nodes : List NId} (hn : nodes.Nodup) (hv : ∀ n ∈ nodes, n < h.nn) (nodeName : NId → String)
    (edgeName : EId → String) (all : Bool) (graph : List Stmt) :
    ∃ out es, toGraphviz h nodeName edgeName all (.coll nodes) graph = .ok (graph ++ out) ∧
      es.Nodup ∧ (∀ e, e ∈ es ↔ ∃ n ∈ nodes, e ∈ (h.node n).edges) ∧
      List.Forall₂ (Draws h edgeName all nodes) es (out.filter Stmt.isLine) ∧
      List.Forall₂ (fun n s => ∃ label, Labelled all (nodeName n) label ∧ s = .vertex (.node n) label false) nodes (out.filter Stmt.isVisible) ∧
      (out.filterMap Stmt.declares).Nodup ∧ (∀ n, Vtx.node n ∈ out.filterMap Stmt.declares ↔ n ∈ nodes) ∧
      ∀ n i, Vtx.stub n i ∈ out.filterMap Stmt.declares ↔ n ∈ nodes ∧ ∃ e, (h.node n).edges[i]? = some e ∧ (h.edge e).dangling = true := by
  have w := g.wf
  have hgood : ∀ x ∈ gvSlots h nodes, (h.edge x.2.2).Good := by
    rintro ⟨n, i, e⟩ hx
    obtain ⟨h1, h2⟩ := mem_gvSlots.1 hx
    exact w.good ⟨(n, i), hv n h1, h2⟩
  let lab : EId → String := fun e => gvLabel all (edgeName e)
  let K := gvKeep (gvSlots h nodes) []
  let vs := nodes.map fun n => Stmt.vertex (.node n) (gvLabel all (nodeName n)) false
  have hsub : K.Sublist (gvSlots h nodes) := gvKeep_sublist _ _
  have hvl : vs.filter Stmt.isLine = [] := by
    rw [List.filter_eq_nil_iff]
    intro s hs
    obtain ⟨n, -, rfl⟩ := List.mem_map.1 hs
    simp [Stmt.isLine]
  have hvv : vs.filter Stmt.isVisible = vs := by
    rw [List.filter_eq_self]
    intro s hs
    obtain ⟨n, -, rfl⟩ := List.mem_map.1 hs
    rfl
  have hvd : vs.filterMap Stmt.declares = nodes.map Vtx.node := by
    rw [List.filterMap_map, ← List.filterMap_eq_map]; rfl
  refine ⟨vs ++ K.flatMap (gvStmts h lab), K.map fun x => x.2.2, ?_, gvKeep_nodup _ _, fun e => ?_, ?_, ?_, ?_, fun n => ?_, fun n i => ?_⟩
  · rw [toGraphviz, Nodes.second, gvEdges_eq _ _ hgood]; rfl
  · rw [gvKeep_mem]
    simp only [List.mem_map, List.not_mem_nil, not_false_eq_true, and_true]
    constructor
    · rintro ⟨⟨n, i, e⟩, hx, rfl⟩
      obtain ⟨h1, h2⟩ := mem_gvSlots.1 hx
      exact ⟨n, h1, List.mem_of_getElem? h2⟩
    · rintro ⟨n, h1, h2⟩
      obtain ⟨i, hi⟩ := List.mem_iff_getElem?.1 h2
      exact ⟨(n, i, e), mem_gvSlots.2 ⟨h1, hi⟩, rfl⟩
  · rw [List.filter_append, hvl, List.nil_append, lines_eq, List.forall₂_map_left_iff, List.forall₂_map_right_iff, List.forall₂_same]
    rintro ⟨n, i, e⟩ hx
    obtain ⟨h1, h2⟩ := mem_gvSlots.1 (hsub.subset hx)
    refine ⟨lab e, gvLabel_spec _ _, ?_⟩
    rcases hgood _ (hsub.subset hx) with ⟨m, a, hr⟩ | ⟨m, a, m', b, hr⟩
    · exact .inl ⟨by rw [hr], n, h1, i, h2, by simp [gvLine, hr]⟩
    · exact .inr ⟨by rw [hr], m, m', by rw [hr], by rw [hr], by simp [gvLine, hr]⟩
  · rw [List.filter_append, hvv, visible_eq, List.append_nil, List.forall₂_map_right_iff, List.forall₂_same]
    exact fun n _ => ⟨_, gvLabel_spec _ _, rfl⟩
  · rw [List.filterMap_append, hvd, declares_eq, List.nodup_append]
    refine ⟨hn.map fun a b hab => by cases hab; rfl, ?_, ?_⟩
    · exact (gvSlots_nodup h hn).sublist ((List.filter_sublist.trans hsub).map _)
    · intro a ha b hb hab
      obtain ⟨n, -, rfl⟩ := List.mem_map.1 ha
      obtain ⟨x, -, rfl⟩ := List.mem_map.1 hb
      cases hab
  · rw [List.filterMap_append, hvd, declares_eq, List.mem_append]
    simp
  · rw [List.filterMap_append, hvd, declares_eq, List.mem_append]
    have e1 : Vtx.stub n i ∉ nodes.map Vtx.node := by simp
    rw [or_iff_right e1, List.mem_map]
    constructor
    · rintro ⟨⟨m, j, e⟩, hx, hxe⟩
      cases hxe
      obtain ⟨hx1, hx2⟩ := List.mem_filter.1 hx
      obtain ⟨h1, h2⟩ := mem_gvSlots.1 (hsub.subset hx1)
      exact ⟨h1, e, h2, hx2⟩
    · rintro ⟨h1, e, h2, h3⟩
      have hs : (n, i, e) ∈ gvSlots h nodes := mem_gvSlots.2 ⟨h1, h2⟩
      have hk : e ∈ K.map fun x => x.2.2 := (gvKeep_mem _ _ _).2 ⟨List.mem_map.2 ⟨_, hs, rfl⟩, by simp⟩
      obtain ⟨⟨m, j, e'⟩, hk1, hk2⟩ := List.mem_map.1 hk
      simp only at hk2
      subst hk2
      obtain ⟨k1, k2⟩ := mem_gvSlots.1 (hsub.subset hk1)
      have m1 := (w.edge (n, i) e' ⟨hv n h1, h2⟩).mem
      have m2 := (w.edge (m, j) e' ⟨hv m k1, k2⟩).mem
      rcases hgood _ hs with ⟨p, a, hr⟩ | ⟨p, a, p', b, hr⟩
      · simp only at hr
        rw [hr] at m1 m2
        simp only [ends_dang, Multiset.mem_singleton] at m1 m2
        rw [← m2] at m1
        cases m1
        exact ⟨(n, i, e'), List.mem_filter.2 ⟨hk1, h3⟩, rfl⟩
      · simp only at hr
        rw [hr] at h3; cases h3

theorem forall₂_mem_right {α β : Type} {P : α → β → Prop} {l : List α} {k : List β} (h : List.Forall₂ P l k) {b : β} (hb : b ∈ k) :
    ∃ a ∈ l, P a b := by
  induction h with
  | nil => cases hb
  | cons h1 _ ih =>
    rcases List.mem_cons.1 hb with rfl | hm
    · exact ⟨_, List.mem_cons_self, h1⟩
    · obtain ⟨a, ha, hp⟩ := ih hm
      exact ⟨a, List.mem_cons_of_mem _ ha, hp⟩

theorem forall₂_mem_left {α β : Type} {P : α → β → Prop} {l : List α} {k : List β} (h : List.Forall₂ P l k) {a : α} (ha : a ∈ l) :
    ∃ b ∈ k, P a b := by
  induction h with
  | nil => cases ha
  | cons h1 _ ih =>
    rcases List.mem_cons.1 ha with rfl | hm
    · exact ⟨_, List.mem_cons_self, h1⟩
    · obtain ⟨b, hb, hp⟩ := ih hm
      exact ⟨b, List.mem_cons_of_mem _ hb, hp⟩

/-- **C98.**  If the neighbours are among the nodes, every line is between vertices that the picture declares. -/
theorem C98_closed {h : Heap R} (g : GraphOK h) {nodes : List NId} (hn : nodes.Nodup) (hv : ∀ n ∈ nodes, n < h.nn)
    (hc : ∀ n ∈ nodes, ∀ e ∈ (h.node n).edges, ∀ m, (h.edge e).node1 = some m ∨ (h.edge e).node2 = some m → m ∈ nodes)
    (nodeName : NId → String) (edgeName : EId → String) (all : Bool) :
    ∃ out, toGraphviz h nodeName edgeName all (.coll nodes) [] = .ok out ∧
      ∀ u v label, Stmt.line u v label ∈ out → u ∈ out.filterMap Stmt.declares ∧ v ∈ out.filterMap Stmt.declares := by
  obtain ⟨out, es, t1, -, t3, t4, -, -, t7, t8⟩ := C98_picture g hn hv nodeName edgeName all []
  refine ⟨out, t1, fun u v label hl => ?_⟩
  have hl' : Stmt.line u v label ∈ out.filter Stmt.isLine := List.mem_filter.2 ⟨hl, rfl⟩
  obtain ⟨e, he, hd⟩ : ∃ e ∈ es, Draws h edgeName all nodes e (.line u v label) := by
    exact forall₂_mem_right t4 hl'
  obtain ⟨n, hn1, hn2⟩ := (t3 e).1 he
  obtain ⟨lab, -, ⟨d1, m, hm, i, d2, d3⟩ | ⟨-, a, b, d2, d3, d4⟩⟩ := hd
  · cases d3
    exact ⟨(t8 m i).2 ⟨hm, e, d2, d1⟩, (t7 m).2 hm⟩
  · cases d4
    exact ⟨(t7 a).2 (hc n hn1 e hn2 a (.inl d2)), (t7 b).2 (hc n hn1 e hn2 b (.inr d3))⟩

/-- **C98**, what fails: the argument may be any iterable, but for an iterator (for instance a generator) the picture has no line, whatever the
network. -/
theorem C98_iterator_false (h : Heap R) (nodeName : NId → String) (edgeName : EId → String) (all : Bool) (nodes : List NId) :
    ∃ out, toGraphviz h nodeName edgeName all (.iter nodes) [] = .ok out ∧ out.filter Stmt.isLine = [] ∧
      (out.filter Stmt.isVisible).length = nodes.length := by
  refine ⟨nodes.map fun n => Stmt.vertex (.node n) (gvLabel all (nodeName n)) false, ?_, ?_, ?_⟩
  · simp [toGraphviz, Nodes.first, Nodes.second, gvSlots, gvEdges, bind, Except.bind]
  · rw [List.filter_eq_nil_iff]
    intro s hs
    obtain ⟨n, -, rfl⟩ := List.mem_map.1 hs
    simp [Stmt.isLine]
  · rw [List.filter_eq_self.2, List.length_map]
    intro s hs
    obtain ⟨n, -, rfl⟩ := List.mem_map.1 hs
    rfl

/-- **C98**, what fails: for an edge to a node that is not among the nodes the picture has a line to a vertex that it does not declare. -/
theorem C98_neighbour_false {h : Heap R} (g : GraphOK h) {nodes : List NId} (hn : nodes.Nodup) (hv : ∀ n ∈ nodes, n < h.nn) {n m : NId} {e : EId}
    (h1 : n ∈ nodes) (h2 : e ∈ (h.node n).edges) (h3 : m ∉ nodes) (h4 : (h.edge e).node1 = some m ∨ (h.edge e).node2 = some m)
    (nodeName : NId → String) (edgeName : EId → String) (all : Bool) :
    ∃ out u v label, toGraphviz h nodeName edgeName all (.coll nodes) [] = .ok out ∧ Stmt.line u v label ∈ out ∧
      (u ∉ out.filterMap Stmt.declares ∨ v ∉ out.filterMap Stmt.declares) := by
  obtain ⟨out, es, t1, -, t3, t4, -, -, t7, t8⟩ := C98_picture g hn hv nodeName edgeName all []
  have he := (t3 e).2 ⟨n, h1, h2⟩
  obtain ⟨s, hs, hd⟩ : ∃ s ∈ out.filter Stmt.isLine, Draws h edgeName all nodes e s := by
    exact forall₂_mem_left t4 he
  have hs' := (List.mem_filter.1 hs).1
  obtain ⟨lab, -, ⟨d1, p, hp, i, d2, d3⟩ | ⟨-, a, b, d2, d3, d4⟩⟩ := hd
  · exfalso
    have ok := g.wf.edge (p, i) e ⟨hv p hp, d2⟩
    rcases ok.good with ⟨q, c, hr⟩ | ⟨q, c, q', b, hr⟩
    · have hm := ok.mem
      rw [hr] at hm h4
      simp only [ends_dang, Multiset.mem_singleton, Prod.mk.injEq] at hm
      simp only [Option.some.injEq, reduceCtorEq, or_false] at h4
      exact h3 (by rw [← h4, ← hm.1]; exact hp)
    · rw [hr] at d1; cases d1
  · subst d4
    refine ⟨out, _, _, _, t1, hs', ?_⟩
    rw [t7, t7]
    rcases h4 with h4 | h4
    · rw [d2] at h4; cases h4; exact .inl h3
    · rw [d3] at h4; cases h4; exact .inr h3

/-! ### A case -/

/-- A node with a trace edge and an edge to a second node, which has a dangling edge. -/
def picDemo : Heap Nat := runOps [.node (ones [2, 2, 3]), .node (ones [3, 2]), .connect 0 1, .connect 2 3] Heap.empty

theorem picDemo_ok : GraphOK picDemo :=
  (C07_history_partial [.node (ones [2, 2, 3]), .node (ones [3, 2]), .connect 0 1, .connect 2 3] graphOK_empty
    ⟨trivial, trivial, ⟨⟨0, by decide +kernel, by decide +kernel⟩, ⟨0, by decide +kernel, by decide +kernel⟩⟩,
      ⟨⟨0, by decide +kernel, by decide +kernel⟩, ⟨1, by decide +kernel, by decide +kernel⟩⟩, trivial⟩).1

example : toGraphviz picDemo (fun n => if n = 0 then "A" else "__Node") (fun _ => "__Edge") false (.coll [1, 0]) [] =
    .ok [.vertex (.node 1) "" false, .vertex (.node 0) "A" false, .line (.node 0) (.node 1) "", .vertex (.stub 1 1) "" true,
      .line (.stub 1 1) (.node 1) "", .line (.node 0) (.node 0) ""] := by decide +kernel

example := C98_picture picDemo_ok (nodes := [1, 0]) (by decide) (by decide +kernel) (fun _ => "A") (fun _ => "__Edge") false []

example := C98_closed picDemo_ok (nodes := [1, 0]) (by decide) (by decide +kernel) (by
  have e0 : (picDemo.node 0).edges = [5, 5, 6] := by decide +kernel
  have e1 : (picDemo.node 1).edges = [6, 4] := by decide +kernel
  have r4 : picDemo.edge 4 = .dang 1 1 := by decide +kernel
  have r5 : picDemo.edge 5 = .conn 0 0 0 1 := by decide +kernel
  have r6 : picDemo.edge 6 = .conn 0 2 1 0 := by decide +kernel
  intro n hn e he m hm
  simp only [List.mem_cons, List.not_mem_nil, or_false] at hn
  rcases hn with rfl | rfl
  · rw [e1] at he
    simp only [List.mem_cons, List.not_mem_nil, or_false] at he
    rcases he with rfl | rfl
    · rw [r6] at hm; simp only [Option.some.injEq] at hm; rcases hm with rfl | rfl <;> decide
    · rw [r4] at hm; simp only [Option.some.injEq, reduceCtorEq, or_false] at hm; subst hm; decide
  · rw [e0] at he
    simp only [List.mem_cons, List.not_mem_nil, or_false] at he
    rcases he with rfl | rfl | rfl
    · rw [r5] at hm; simp only [Option.some.injEq, or_self] at hm; subst hm; decide
    · rw [r5] at hm; simp only [Option.some.injEq, or_self] at hm; subst hm; decide
    · rw [r6] at hm; simp only [Option.some.injEq] at hm; rcases hm with rfl | rfl <;> decide)
  (fun _ => "A") (fun _ => "__Edge") false

example := C98_neighbour_false picDemo_ok (nodes := [1]) (n := 1) (m := 0) (e := 6) (by decide) (by decide +kernel) (by decide) (by decide +kernel)
  (by decide) (.inl (by decide +kernel)) (fun _ => "A") (fun _ => "__Edge") false

end TN.Viz
