import Verif.GraphCopyNode5

/-!
# The bucket contractor (C56)

Model of `bucket` (contractors/bucket_contractor.py:22-57): the copy nodes of a list are contracted one
after the other with their neighbours.

`contract_copy_node` leaves the former neighbours with stale lists of edges (`C44_stale_false`), so that the
graph as a whole is not correct between two rounds.  `forget h D` is the graph without the nodes `D`; the
calls never look at them.
-/

set_option linter.unusedSectionVars false

namespace TN.Graph

open TN Finset

variable {R : Type}

/-! ### Model -/

/-- The loop of `bucket` (bucket_contractor.py:52-56).  The set of nodes is a list without repetitions. -/
def bucketLoop [CommSemiring R] : List NId → List NId → M R (List NId)
  | [], nodes => pure nodes
  | cn :: order, nodes => do
    let partners ← getPartners cn
    let new ← contractCopyNode cn
    bucketLoop order (nodes.filter (fun n => n ∉ partners.map Prod.fst ++ [cn]) ++ [new])

/-- `bucket(nodes, contraction_order)` (bucket_contractor.py:22-57). -/
def bucket [CommSemiring R] (nodes order : List NId) : M R (List NId) :=
  bucketLoop order nodes.dedup

/-! ### Graphs without some of their nodes -/

/-- The graph in which the nodes `D` have no axes. -/
def forget (h : Heap R) (D : List NId) : Heap R :=
  { h with node := fun n => if n ∈ D then ⟨⟨[], (h.node n).tensor.get⟩, []⟩ else h.node n }

theorem forget_node {h : Heap R} {D : List NId} {n : NId} (hn : n ∉ D) :
    (forget h D).node n = h.node n := by simp [forget, hn]

theorem forget_nil (h : Heap R) : forget h [] = h := by
  simp [forget]

theorem forget_shape {h : Heap R} {D : List NId} {n : NId} (hn : n ∉ D) :
    (forget h D).shape n = h.shape n := by simp [Heap.shape, forget_node hn]

/-- `f` does the same to the graph without `D`. -/
def Blind {α : Type} (D : List NId) (f : M R α) (h : Heap R) : Prop :=
  f (forget h D) = ((f h).1, forget (f h).2 D)

theorem Blind.bind {α β : Type} {D : List NId} {f : M R α} {g : α → M R β} {h : Heap R}
    (hf : Blind D f h) (hg : ∀ a h', f h = (.ok a, h') → Blind D (g a) h') :
    Blind D (f >>= g) h := by
  unfold Blind
  rw [M.bind_apply, M.bind_apply, hf]
  rcases hx : f h with ⟨_ | a, h'⟩
  · rfl
  · exact hg a h' hx

theorem Blind.read {α : Type} {D : List NId} {g : Heap R → M R α} {h : Heap R}
    (h1 : g (forget h D) = g h) (h2 : Blind D (g h) h) : Blind D (M.get >>= g) h := by
  unfold Blind
  rw [M.bind_apply, M.bind_apply]
  simp only [M.get_apply]
  rw [h1]
  exact h2

theorem Blind.pure {α : Type} {D : List NId} (a : α) (h : Heap R) :
    Blind D (Pure.pure a : M R α) h := rfl

theorem Blind.throw {α : Type} {D : List NId} (e : PyErr) (h : Heap R) :
    Blind D (M.throw e : M R α) h := rfl

theorem Blind.lift {α : Type} {D : List NId} (x : Py α) (h : Heap R) :
    Blind D (M.lift x : M R α) h := rfl

theorem blind_node1 {D : List NId} (e : EId) (h : Heap R) : Blind D (node1 e) h := by
  unfold node1
  refine Blind.read rfl ?_
  split_ifs
  · exact Blind.throw _ _
  · rcases (h.edge e).node1 with _ | n
    · exact Blind.throw _ _
    · exact Blind.pure _ _

theorem blind_node2 {D : List NId} (e : EId) (h : Heap R) : Blind D (node2 e) h := by
  unfold node2
  refine Blind.read rfl ?_
  split_ifs
  · exact Blind.throw _ _
  · exact Blind.pure _ _
  · rcases (h.edge e).node2 with _ | n
    · exact Blind.throw _ _
    · exact Blind.pure _ _

theorem blind_axis1 {D : List NId} (e : EId) (h : Heap R) : Blind D (axis1 e) h := by
  unfold axis1
  refine Blind.read rfl ?_
  split_ifs
  · exact Blind.throw _ _
  · exact Blind.pure _ _

theorem blind_axis2 {D : List NId} (e : EId) (h : Heap R) : Blind D (axis2 e) h := by
  unfold axis2
  refine Blind.read rfl ?_
  split_ifs
  · exact Blind.throw _ _
  · exact Blind.pure _ _

theorem blind_isDangling {D : List NId} (e : EId) (h : Heap R) : Blind D (isDangling e) h :=
  Blind.read rfl (Blind.pure _ _)

theorem blind_setEdge {D : List NId} (e : EId) (f : EdgeRec → EdgeRec) (h : Heap R) :
    Blind D (M.modify fun h => h.setEdge e (f (h.edge e))) h := rfl

theorem blind_updateAxis {D : List NId} (e : EId) (a : Nat) (n : NId) (b : Nat) (m : NId)
    (h : Heap R) : Blind D (updateAxis e a n b m) h := by
  unfold updateAxis
  refine Blind.bind (blind_axis1 e h) fun a1 h1 _ => ?_
  refine Blind.bind ?_ fun first h2 _ => ?_
  · split_ifs
    · exact Blind.bind (blind_node1 e h1) fun _ _ _ => Blind.pure _ _
    · exact Blind.pure _ _
  · split_ifs
    · exact blind_setEdge e (fun r => { r with axis1 := b, node1 := some m }) h2
    · refine Blind.bind (blind_axis2 e h2) fun a2 h3 _ => ?_
      refine Blind.bind ?_ fun second h4 _ => ?_
      · split_ifs
        · exact Blind.bind (blind_node2 e h3) fun _ _ _ => Blind.pure _ _
        · exact Blind.pure _ _
      · split_ifs
        · exact blind_setEdge e (fun r => { r with axis2 := some b, node2 := some m }) h4
        · exact Blind.throw _ _

theorem forget_setNode {h : Heap R} {D : List NId} {n : NId} (hn : n ∉ D) (r : NodeRec R) :
    (forget h D).setNode n r = forget (h.setNode n r) D := by
  unfold forget Heap.setNode
  congr 1
  funext m
  by_cases h1 : m = n
  · subst h1
    simp [hn]
  · simp [Function.update_of_ne h1]

theorem blind_addEdge {D : List NId} {n : NId} (hn : n ∉ D) (e : EId) (a : Nat) (o : Bool)
    (h : Heap R) : Blind D (addEdge n e a o) h := by
  unfold addEdge
  refine Blind.read ?_ ?_
  · simp only [forget_shape hn, forget_node hn]
    rfl
  · split_ifs
    · exact Blind.throw _ _
    · rcases (h.node n).edges[a]? with _ | old
      · exact Blind.throw _ _
      · simp only
        split_ifs
        · exact Blind.throw _ _
        · unfold Blind setEdges
          simp only [M.modify_apply]
          rw [forget_node hn, forget_setNode hn]

theorem blind_newNode {D : List NId} (t : NDArray R) {h : Heap R} (hn : h.nn ∉ D) :
    Blind D (newNode t) h := by
  unfold Blind newNode
  simp only [Prod.mk.injEq]
  refine ⟨rfl, ?_⟩
  unfold forget
  congr 1
  funext m
  by_cases h1 : m = h.nn
  · subst h1
    simp [hn]
  · simp [Function.update_of_ne h1]

theorem blind_newDangling {D : List NId} (n : NId) (a : Nat) (h : Heap R) :
    Blind D (newDangling n a) h := rfl

theorem blind_forEach {α : Type} {D : List NId} {f : α → M R Unit} :
    ∀ (l : List α) (h : Heap R), (∀ a ∈ l, ∀ h, Blind D (f a) h) → Blind D (M.forEach l f) h
  | [], h, _ => rfl
  | a :: l, h, hf => Blind.bind (hf a (by simp) h)
      fun _ h' _ => blind_forEach l h' fun b hb => hf b (by simp [hb])

theorem blind_freshEdges {D : List NId} {n : NId} (hn : n ∉ D) (h : Heap R) :
    Blind D (freshEdges n) h := by
  unfold freshEdges
  refine Blind.bind ?_ fun es h1 _ => ?_
  · unfold nodeEdges
    refine Blind.read ?_ (Blind.pure _ _)
    rw [forget_node hn]
  · exact blind_forEach _ _ fun i _ h =>
      Blind.bind (blind_newDangling n i h) fun e h' _ => blind_addEdge hn e i true h'

theorem blind_partnersLoop {D : List NId} (cn : NId) : ∀ (es : List EId)
    (ps : List (NId × List Nat)) (h : Heap R), Blind D (partnersLoop cn es ps) h
  | [], ps, h => rfl
  | e :: es, ps, h => by
    unfold partnersLoop
    refine Blind.bind (blind_isDangling e h) fun d h1 _ => ?_
    split_ifs
    · exact Blind.throw _ _
    · refine Blind.bind (blind_node1 e h1) fun n1 h2 _ => ?_
      refine Blind.bind (blind_node2 e h2) fun n2 h3 _ => ?_
      split_ifs
      · exact blind_partnersLoop cn es _ h3
      · exact Blind.bind (blind_axis2 e h3) fun a2 h4 _ => blind_partnersLoop cn es _ h4
      · exact Blind.bind (blind_axis1 e h3) fun a1 h4 _ => blind_partnersLoop cn es _ h4
      · exact Blind.throw _ _

theorem blind_getPartners {D : List NId} {cn : NId} (hcn : cn ∉ D) (h : Heap R) :
    Blind D (getPartners cn) h := by
  unfold getPartners
  refine Blind.bind ?_ fun es h1 _ => blind_partnersLoop cn es [] h1
  unfold nodeEdges
  refine Blind.read ?_ (Blind.pure _ _)
  rw [forget_node hcn]

theorem blind_moveEdges {D : List NId} {new : NId} (hnew : new ∉ D) (cn : NId) :
    ∀ (l : List (NId × EId)) (a : Nat) (h : Heap R), Blind D (moveEdges cn new l a) h
  | [], a, h => rfl
  | x :: l, a, h => by
    unfold moveEdges
    refine Blind.bind ?_ fun a' h1 _ => blind_moveEdges hnew cn l a' h1
    unfold moveOne
    refine Blind.bind (blind_node1 x.2 h) fun n1 h1 _ => ?_
    refine Blind.bind (blind_node2 x.2 h1) fun n2 h2 _ => ?_
    split_ifs
    · exact Blind.pure _ _
    · refine Blind.bind (blind_axis1 x.2 h2) fun a1 h3 _ => ?_
      refine Blind.bind (blind_axis2 x.2 h3) fun a2 h4 _ => ?_
      exact Blind.bind (blind_updateAxis _ _ _ _ _ _) fun _ h5 _ =>
          Blind.bind (blind_addEdge hnew _ _ _ _) fun _ h6 _ => Blind.pure _ _
    · refine Blind.bind (blind_axis1 x.2 h2) fun a1 h3 _ => ?_
      refine Blind.bind (blind_axis2 x.2 h3) fun a2 h4 _ => ?_
      rcases a2 with _ | o
      · exact Blind.throw _ _
      · exact Blind.bind (blind_updateAxis _ _ _ _ _ _) fun _ h5 _ =>
          Blind.bind (blind_addEdge hnew _ _ _ _) fun _ h6 _ => Blind.pure _ _

theorem not_dead {h : Heap R} {D : List NId} {n k : Nat} {e : EId} (ha : At (forget h D) (n, k) e) :
    n ∉ D := by
  intro hn
  have := ha.2
  simp [forget, hn] at this

theorem partners_live {h : Heap R} {D : List NId} {cn : NId} (w : WF (forget h D)) (hcn : cn < h.nn)
    (hcD : cn ∉ D) (hd : ∀ e ∈ (h.node cn).edges, (h.edge e).dangling = false)
    {ps : List (NId × List Nat)} {h' : Heap R} (hr : getPartners cn h = (.ok ps, h')) :
    (ps.map Prod.fst = neighbours (forget h D) cn ∧ ∀ p ∈ ps, p.1 ∉ D) ∧ forget h' D = forget h D := by
  have hd' : ∀ e ∈ ((forget h D).node cn).edges, ((forget h D).edge e).dangling = false := by
    rw [forget_node hcD]; exact hd
  obtain ⟨ps0, g1, g2⟩ := getPartners_ok w (cn := cn) hcn hd'
  have hb := blind_getPartners hcD h
  unfold Blind at hb
  rw [hr, g1] at hb
  obtain ⟨e1, e2⟩ := Prod.mk.inj hb
  obtain rfl : ps0 = ps := by simpa using e1
  refine ⟨⟨g2.fst, fun p hp => ?_⟩, e2.symm⟩
  have : p.1 ∈ neighbours (forget h D) cn := by
    unfold neighbours
    rw [← g2.fst]; exact List.mem_map.2 ⟨p, hp, rfl⟩
  obtain ⟨_, e, _, k, hk⟩ := (mem_neighbours w hcn hd').1 this
  exact not_dead hk

theorem blind_computeContracted [CommSemiring R] {h : Heap R} {D : List NId} {cn : NId}
    (w : WF (forget h D)) (hcn : cn < h.nn) (hcD : cn ∉ D)
    (hd : ∀ e ∈ (h.node cn).edges, (h.edge e).dangling = false) :
    Blind D (computeContracted cn) h := by
  unfold computeContracted
  refine Blind.bind (blind_getPartners hcD h) fun ps h1 hr => ?_
  have hl := (partners_live w hcn hcD hd hr).1.2
  refine Blind.read ?_ ?_
  · have e1 : (ps.map fun p => (((forget h1 D).shape p.1).length, p.2)) =
        ps.map fun p => ((h1.shape p.1).length, p.2) :=
      List.map_congr_left fun p hp => by rw [forget_shape (hl p hp)]
    have e2 : (ps.map fun p => ((forget h1 D).node p.1).tensor) =
        ps.map fun p => (h1.node p.1).tensor :=
      List.map_congr_left fun p hp => by rw [forget_node (hl p hp)]
    rw [e1, e2]
  · exact Blind.bind (Blind.lift _ _) fun _ _ _ => Blind.lift _ _

theorem blind_heap {α : Type} {D : List NId} {f : M R α} {h h' : Heap R} {a : Py α}
    (hb : Blind D f h) (hr : f h = (a, h')) : f (forget h D) = (a, forget h' D) := by
  unfold Blind at hb
  rw [hb, hr]

theorem computeContracted_heap [CommSemiring R] {h : Heap R} {cn : NId} (w : WF h) (hcn : cn < h.nn)
    (hd : ∀ e ∈ (h.node cn).edges, (h.edge e).dangling = false) {a : Py (NDArray R)} {h' : Heap R}
    (hr : computeContracted cn h = (a, h')) : h' = h := by
  obtain ⟨ps, g1, _⟩ := getPartners_ok w hcn hd
  unfold computeContracted at hr
  replace hr := (M.bind_ok g1).symm.trans hr
  rw [get_bind, M.bind_apply, M.lift_apply] at hr
  generalize Copy.einsumExpression (ps.map fun p => ((h.shape p.1).length, p.2)) = y at hr
  rcases y with e | x
  · exact (Prod.mk.inj hr).2.symm
  · exact (Prod.mk.inj hr).2.symm

theorem blind_contractCopyNode [CommSemiring R] {h : Heap R} {D : List NId} {cn : NId}
    (w : WF (forget h D)) (hcn : cn < h.nn) (hcD : cn ∉ D) (hD : ∀ n ∈ D, n < h.nn)
    (hd : ∀ e ∈ (h.node cn).edges, (h.edge e).dangling = false) :
    Blind D (contractCopyNode cn) h := by
  have hd' : ∀ e ∈ ((forget h D).node cn).edges, ((forget h D).edge e).dangling = false := by
    rw [forget_node hcD]; exact hd
  unfold contractCopyNode
  refine Blind.bind (blind_computeContracted w hcn hcD hd) fun t h1 hr1 => ?_
  have e1 := computeContracted_heap w hcn hd' (blind_heap (blind_computeContracted w hcn hcD hd) hr1)
  have hnn1 : h1.nn = h.nn := by
    have h3 := congrArg (fun g : Heap R => g.nn) e1
    exact h3
  have hnD : h1.nn ∉ D := fun hm => absurd (hD _ hm) (by omega)
  refine Blind.bind (blind_newNode t hnD) fun new h2 hr2 => ?_
  have hb2 := blind_heap (blind_newNode t hnD) hr2
  rw [e1] at hb2
  have e2 : forget h2 D = addNode (forget h D) t := (Prod.mk.inj hb2).2.symm
  obtain rfl : h1.nn = new := by simpa [newNode] using (Prod.mk.inj hr2).1
  have w2 : WF (forget h2 D) := by rw [e2]; exact addNode_wf w t
  have hn2 : h2.node cn = h.node cn := by
    have h3 := congrArg (fun g : Heap R => g.node cn) e2
    rw [forget_node hcD, addNode_node_old (h := forget h D) hcn, forget_node hcD] at h3
    exact h3
  have hnn2 : h2.nn = h.nn + 1 := by
    have h3 := congrArg (fun g : Heap R => g.nn) e2
    exact h3
  have hd2 : ∀ e ∈ (h2.node cn).edges, (h2.edge e).dangling = false := by
    intro e he
    rw [hn2] at he
    have hlt : e < h.ne := w.lt (inUse_of_mem (h := forget h D) (n := cn) hcn (by rw [forget_node hcD]; exact he))
    have h3 := congrArg (fun g : Heap R => g.edge e) e2
    have h4 : (addNode (forget h D) t).edge e = h.edge e := addNode_edge_old (h := forget h D) hlt
    rw [show h2.edge e = h.edge e from h3.trans h4]
    exact hd e he
  refine Blind.bind (blind_getPartners hcD h2) fun ps h3 hr3 => ?_
  have hl := (partners_live w2 (by omega) hcD hd2 hr3).1.2
  refine Blind.read ?_ ?_
  · have e3 : (ps.flatMap fun p => ((forget h3 D).node p.1).edges.map fun e => (p.1, e)) =
        ps.flatMap fun p => (h3.node p.1).edges.map fun e => (p.1, e) := by
      rw [List.flatMap_def, List.flatMap_def]
      congr 1
      exact List.map_congr_left fun p hp => by rw [forget_node (hl p hp)]
    rw [e3]
  · refine Blind.bind (blind_moveEdges hnD cn _ _ _) fun a h4 _ => ?_
    split_ifs
    · exact Blind.throw _ _
    · exact Blind.bind (blind_freshEdges hcD h4) fun _ _ _ => Blind.pure _ _

end TN.Graph
