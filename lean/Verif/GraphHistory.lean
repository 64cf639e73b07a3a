import Verif.GraphSplitNode2
import Verif.GraphBetween

/-!
# Histories of graph operations

Every operation of the model, applied to a consistent graph, leaves a consistent graph, also when
it raises.  The conditions on the arguments (`Op.Valid`) are what the library leaves to the caller.
-/

namespace TN.Graph

open TN

variable {R : Type}

/-- `contract` of an edge of the graph: dangling edges are rejected. -/
theorem contract_cases [CommSemiring R] {h : Heap R} (w : WF h) {e : EId} (hu : InUse h e) :
    ((h.edge e).dangling = true ∧ contract e h = (.error .valueError, h)) ∨
    ((h.edge e).dangling = false ∧ ∃ h' N, contract e h = (.ok h.nn, h') ∧
      N.Nodup ∧ (∀ n, n ∈ N ↔ n < h.nn ∧ e ∈ (h.node n).edges) ∧ Merged h h' N h.nn [e]) := by
  rcases w.good hu with ⟨n, a, hr⟩ | ⟨n, a, m, b, hr⟩
  · left
    refine ⟨by rw [hr], ?_⟩
    unfold contract
    rw [M.bind_ok isDangling_eq, hr]
    rfl
  · right
    refine ⟨by rw [hr], ?_⟩
    have hat := fun s => at_conn w hu hr (s := s)
    have hmem : ∀ x, x < h.nn ∧ e ∈ (h.node x).edges ↔ x = n ∨ x = m := by
      intro x
      constructor
      · rintro ⟨h1, h2⟩
        obtain ⟨k, hk⟩ := List.getElem?_of_mem h2
        have := (hat (x, k)).1 ⟨h1, hk⟩
        simp only [Prod.mk.injEq] at this
        tauto
      · rintro (rfl | rfl)
        · have := (hat (x, a)).2 (.inl rfl)
          exact ⟨this.1, this.mem⟩
        · have := (hat (x, b)).2 (.inr rfl)
          exact ⟨this.1, this.mem⟩
    by_cases hnm : n = m
    · subst hnm
      obtain ⟨h', k1, _, k2⟩ := contract_trace w hu hr
      exact ⟨h', [n], k1, by simp, fun x => by rw [hmem]; simp, k2⟩
    · obtain ⟨h', k1, k2⟩ := contract_pair w hu hr hnm
      exact ⟨h', [n, m], k1, by simp [hnm], fun x => by rw [hmem]; simp, k2⟩

theorem reorderEdges_wf [CommSemiring R] {h : Heap R} (w : WF h) {n : NId} (hn : n < h.nn)
    {order : List EId} (hnd : order.Nodup) : WF (reorderEdges n order h).2 := by
  by_cases hok : order.Perm (h.node n).edges ∧ ∀ e ∈ order, ¬ Between h n n e
  · obtain ⟨h', k1, k2⟩ := reorderEdges_ok w hn hok.1 hok.2
    rw [k1]; exact k2.wf
  · rw [reorderEdges_err w hn hnd hok]; exact w

theorem finish_wf [CommSemiring R] {h : Heap R} (w : WF h) {n : NId} (hn : n < h.nn)
    {order : List EId} (hnd : order.Nodup) :
    WF ((do if order ≠ [] then reorderEdges n order
            pure n : M R NId) h).2 := by
  by_cases ho : order = []
  · rw [if_neg (by simp [ho])]; exact w
  · rw [if_pos ho, M.bind_apply]
    have := reorderEdges_wf w hn hnd
    rcases hx : reorderEdges n order h with ⟨_ | u, h'⟩
    · rw [hx] at this; exact this
    · rw [hx] at this; exact this

theorem contractBetween_wf [CommSemiring R] {h : Heap R} (w : WF h) (fo : FlatOrder) {n1 n2 : NId}
    (hn1 : n1 < h.nn) (hn2 : n2 < h.nn) {allow : Bool} {order : Option (List EId)}
    (hnd : (order.getD []).Nodup) : WF (contractBetween fo n1 n2 allow order h).2 := by
  by_cases hne : n1 = n2
  · subst hne
    rcases contractBetween_self w fo hn1 (allow := allow) (order := order) with
      ⟨_, k⟩ | ⟨_, S, hm, _, _, c, k⟩
    · rw [k]; exact w
    · rw [k]; exact finish_wf c.wf (by rw [c.nn]; omega) hnd
  · by_cases hsh : ∃ e, InUse h e ∧ Between h n1 n2 e
    · rcases contractBetween_pair w fo hne hn1 hn2 (allow := allow) (order := order) hsh with
        ⟨_, k⟩ | ⟨_, S, N, hm, _, _, _, _, c, k⟩
      · rw [k]; exact w
      · rw [k]; exact finish_wf c.wf (by rw [c.nn]; omega) hnd
    · rcases contractBetween_outer w fo hne hn1 hn2 (allow := allow) (order := order) hsh with
        ⟨_, k⟩ | ⟨_, hm, c, k⟩
      · rw [k]; exact w
      · rw [k]; exact finish_wf c.wf (by rw [c.nn]; omega) hnd

theorem contractParallel_eq [CommSemiring R] {h : Heap R} (fo : FlatOrder) {e : EId}
    {n1 a n2 b : Nat} (hr : h.edge e = .conn n1 a n2 b) :
    contractParallel fo e h = contractBetween fo n1 n2 false none h := by
  unfold contractParallel
  rw [M.bind_ok isDangling_eq, hr]
  simp only [Bool.false_eq_true, if_false]
  rw [M.bind_ok (node1_conn hr)]
  refine (M.bind_ok (node2_conn hr)).trans ?_
  rfl

theorem contractParallel_err [CommSemiring R] {h : Heap R} (fo : FlatOrder) {e : EId}
    (hd : (h.edge e).dangling = true) : contractParallel fo e h = (.error .valueError, h) := by
  unfold contractParallel
  rw [M.bind_ok isDangling_eq, hd]
  rfl

/-! ### Folding outer products -/

/-- Tensor and edges of the outer product of several nodes, one after the other. -/
structure Folded [CommSemiring R] (h h' : Heap R) (N : List NId) (f : NId) : Prop where
  wf : WF h'
  lt : f < h'.nn
  final : f ∈ N ∨ h.nn ≤ f
  nn : h.nn ≤ h'.nn
  other : ∀ n < h.nn, n ∉ N → h'.node n = h.node n
  edges : (h'.node f).edges = N.flatMap (fun n => (h.node n).edges)
  rest : ∀ e, InUse h e → InUse h' e ∧ (h'.edge e).dangling = (h.edge e).dangling ∧
    edim h' e = edim h e
  value : ∀ rest : List NId, (N ++ rest).Nodup → (∀ n ∈ rest, n < h.nn) → ∀ σ : EId → Nat,
    InRange h (N ++ rest) σ → netVal (netOf h' (f :: rest)) σ = netVal (netOf h (N ++ rest)) σ

theorem foldl_outer_error [CommSemiring R] (er : PyErr) (ms : List NId) (h : Heap R) (x : M R NId)
    (hx : ∃ g, x h = (.error er, g)) :
    ∃ g, ms.foldl (fun (acc : M R NId) m => do let a ← acc; outerProduct a m) x h =
      (.error er, g) := by
  induction ms generalizing x with
  | nil => exact hx
  | cons m ms ih =>
    refine ih _ ?_
    obtain ⟨g, hg⟩ := hx
    exact ⟨g, M.bind_error hg⟩

theorem foldl_outer_congr [CommSemiring R] (ms : List NId) {h g : Heap R} {x : M R NId} {a : NId}
    (hx : x h = (.ok a, g)) :
    ms.foldl (fun (acc : M R NId) m => do let a ← acc; outerProduct a m) x h =
      ms.foldl (fun (acc : M R NId) m => do let a ← acc; outerProduct a m) (pure a) g := by
  induction ms generalizing x h g a with
  | nil => exact hx
  | cons m ms ih =>
    rw [List.foldl_cons, List.foldl_cons]
    rcases hy : outerProduct a m g with ⟨er | b, g'⟩
    · have e1 : (do let a ← x; outerProduct a m) h = (.error er, g') := by
        rw [M.bind_ok hx]; exact hy
      have e2 : (do let a ← (pure a : M R NId); outerProduct a m) g = (.error er, g') := hy
      have key : ∀ (l : List NId) (k : Heap R) (y : M R NId), y k = (.error er, g') →
          l.foldl (fun (acc : M R NId) m => do let a ← acc; outerProduct a m) y k =
            (.error er, g') := by
        intro l
        induction l with
        | nil => intro k y hy; exact hy
        | cons c l ihl =>
          intro k y hy
          exact ihl k _ (M.bind_error hy)
      rw [key ms h _ e1, key ms g _ e2]
    · have e1 : (do let a ← x; outerProduct a m) h = (.ok b, g') := by
        rw [M.bind_ok hx]; exact hy
      have e2 : (do let a ← (pure a : M R NId); outerProduct a m) g = (.ok b, g') := hy
      rw [ih e1, ih e2]

theorem foldOuter_ok [CommSemiring R] : ∀ (ms : List NId) {h : Heap R}, WF h → ∀ {a : NId},
    (∀ n ∈ a :: ms, n < h.nn) → (a :: ms).Nodup →
    ∃ h' f, ms.foldl (fun (acc : M R NId) m => do let a ← acc; outerProduct a m) (pure a) h =
        (.ok f, h') ∧ Folded h h' (a :: ms) f := by
  intro ms
  induction ms with
  | nil =>
    intro h w a hlt _
    refine ⟨h, a, rfl, w, hlt a (by simp), .inl (by simp), le_rfl, fun _ _ _ => rfl, by simp,
      fun e he => ⟨he, rfl, rfl⟩, fun rest _ _ σ _ => rfl⟩
  | cons m ms ih =>
    intro h w a hlt hnd
    have ha : a < h.nn := hlt a (by simp)
    have hm : m < h.nn := hlt m (by simp)
    have ham : a ≠ m := by
      intro hc; subst hc; simp at hnd
    obtain ⟨h1, k1, k2⟩ := outerProduct_run w ham ha hm
    have hnd' := hnd
    simp only [List.nodup_cons, List.mem_cons, not_or] at hnd'
    obtain ⟨⟨_, ham'⟩, hmm, hms⟩ := hnd'
    have hsame : ∀ n ∈ ms, h1.node n = h.node n := by
      intro n hn
      refine k2.other n (hlt n (by simp [hn])) ?_
      simp only [List.mem_cons, List.not_mem_nil, or_false, not_or]
      exact ⟨fun hc => ham' (hc ▸ hn), fun hc => hmm (hc ▸ hn)⟩
    obtain ⟨h2, f, j1, j2⟩ := ih k2.wf (a := h.nn) (by
      intro n hn
      rw [k2.nn]
      rcases List.mem_cons.1 hn with rfl | hn
      · omega
      · have := hlt n (by simp [hn]); omega) (by
      rw [List.nodup_cons]
      refine ⟨fun hc => ?_, hms⟩
      have := hlt h.nn (by simp [hc])
      omega)
    have hrest : ∀ e, InUse h e → InUse h1 e ∧ (h1.edge e).dangling = (h.edge e).dangling ∧
        edim h1 e = edim h e := fun e he =>
      ⟨(k2.live e he (by simp)).1, k2.dangling e he (by simp), (k2.live e he (by simp)).2⟩
    refine ⟨h2, f, ?_, j2.wf, j2.lt, ?_, ?_, ?_, ?_, ?_, ?_⟩
    · rw [List.foldl_cons]
      have e2 : (do let a ← (pure a : M R NId); outerProduct a m) h = (.ok h.nn, h1) := k1
      rw [foldl_outer_congr ms e2]
      exact j1
    · rcases j2.final with hf | hf
      · rcases List.mem_cons.1 hf with rfl | hf
        · exact .inr le_rfl
        · exact .inl (by simp [hf])
      · rw [k2.nn] at hf
        exact .inr (by omega)
    · have := j2.nn
      have := k2.nn
      omega
    · intro n hn hN
      simp only [List.mem_cons, not_or] at hN
      rw [j2.other n (by rw [k2.nn]; omega) (by
        simp only [List.mem_cons, not_or]
        exact ⟨by omega, hN.2.2⟩)]
      exact k2.other n hn (by simp [hN.1, hN.2.1])
    · rw [j2.edges]
      rw [List.flatMap_cons, k2.edges]
      simp only [List.flatMap_cons, List.flatMap_nil, List.append_nil, List.not_mem_nil,
        not_false_eq_true, decide_true, List.filter_true, List.append_assoc]
      congr 2
      exact List.flatMap_congr fun n hn => by rw [hsame n hn]
    · intro e he
      obtain ⟨x1, x2, x3⟩ := hrest e he
      obtain ⟨y1, y2, y3⟩ := j2.rest e x1
      exact ⟨y1, by rw [y2, x2], by rw [y3, x3]⟩
    · intro rest hr hrl σ hσ
      have hr' : ([a, m] ++ (ms ++ rest)).Nodup := by simpa using hr
      have hlt' : ∀ n ∈ ms ++ rest, n < h.nn := by
        intro n hn
        rcases List.mem_append.1 hn with hn | hn
        · exact hlt n (by simp [hn])
        · exact hrl n hn
      have e1 := k2.value (ms ++ rest) hr' hlt' σ (by simpa [InRange] using hσ)
      rw [show (a :: m :: ms) ++ rest = [a, m] ++ (ms ++ rest) by simp, ← e1]
      rw [show h.nn :: (ms ++ rest) = (h.nn :: ms) ++ rest by simp]
      refine j2.value rest ?_ ?_ σ ?_
      · rw [List.cons_append, List.nodup_cons]
        refine ⟨fun hc => ?_, ?_⟩
        · have := hlt' _ hc; omega
        · exact (List.nodup_append.1 hr').2.1
      · intro n hn
        have := hrl n hn
        rw [k2.nn]; omega
      · -- the labels and counts are the same
        have hperm : flatL (netOf h1 ((h.nn :: ms) ++ rest)) =
            flatL (netOf h ((a :: m :: ms) ++ rest)) := by
          have hs2 : ∀ n ∈ ms ++ rest, (h1.node n).edges = (h.node n).edges := by
            intro n hn
            have hlt2 := hlt' n hn
            rw [k2.other n hlt2]
            simp only [List.mem_cons, List.not_mem_nil, or_false, not_or]
            have h3 := List.nodup_append.1 hr'
            exact ⟨fun hc => h3.2.2 a (by simp) n hn hc.symm,
              fun hc => h3.2.2 m (by simp) n hn hc.symm⟩
          simp only [flatL, netOf, List.cons_append, List.map_cons, List.flatMap_cons,
            List.flatMap_map, k2.edges]
          simp only [List.flatMap_nil, List.append_nil, List.not_mem_nil,
            not_false_eq_true, decide_true, List.filter_true, List.append_assoc]
          congr 2
          exact List.flatMap_congr hs2
        intro e he hc
        rw [hperm] at he hc
        have hu : InUse h e := by
          refine inUse_of_flat (ns := (a :: m :: ms) ++ rest) ?_ he
          intro n hn
          rcases List.mem_append.1 hn with hn | hn
          · exact hlt n hn
          · exact hrl n hn
        rw [(hrest e hu).2.2]
        exact hσ e he hc

/-- `outer_product_final_nodes`: either it raises, leaving a consistent graph, or one node with the
edges in the given order is left. -/
theorem outerProductFinal_wf [CommSemiring R] {h : Heap R} (w : WF h) {nodes : List NId}
    (hlt : ∀ n ∈ nodes, n < h.nn) (hnd : nodes.Nodup) {order : List EId} (ho : order.Nodup) :
    WF (outerProductFinalNodes nodes order h).2 := by
  unfold outerProductFinalNodes
  rw [get_bind]
  split
  · exact w
  · cases nodes with
    | nil => exact w
    | cons n rest =>
      obtain ⟨h', f, k1, k2⟩ := foldOuter_ok rest w hlt hnd
      simp only
      rw [M.bind_ok k1, M.bind_apply]
      have := reorderEdges_wf k2.wf k2.lt ho
      rcases hx : reorderEdges f order h' with ⟨_ | u, h''⟩
      · rw [hx] at this; exact this
      · rw [hx] at this; exact this

theorem flattenEdges_wf [CommSemiring R] {h : Heap R} (w : WF h) (swap : Bool) {E : List EId}
    (hu : ∀ e ∈ E, InUse h e) : WF (flattenEdges swap E h).2 := by
  by_cases hnd : E.Nodup
  · cases E with
    | nil => exact w
    | cons e0 E =>
      by_cases hE : E = []
      · subst hE
        rw [flattenEdges_single w swap (hu e0 (by simp))]; exact w
      · by_cases hS : ∀ e ∈ E, SameNodes h e0 e
        · obtain ⟨new, h', k1, k2⟩ := flattenEdges_ok w swap hnd hE hu hS
          rw [k1]; exact k2.wf
        · push Not at hS
          rw [flattenEdges_err w swap hu hS]; exact w
  · rw [flattenEdges_dup w swap hnd hu]; exact w

theorem splitEdge_wf [CommSemiring R] {h : Heap R} (w : WF h) (swap : Bool) {e : EId}
    (hu : InUse h e) {shape : List Nat} : WF (splitEdge swap e shape h).2 := by
  by_cases hp : shape.prod = edim h e
  · by_cases h1 : shape.length = 1
    · rw [splitEdge_single w hu hp h1]; exact w
    · obtain ⟨h', news, k1, k2⟩ := splitEdge_ok w hu hp h1 swap
      rw [k1]; exact k2.wf
  · rw [splitEdge_err w hu hp]; exact w

theorem connect_wf [CommSemiring R] {h : Heap R} (w : WF h) {e1 e2 : EId} (hu1 : InUse h e1)
    (hu2 : InUse h e2) : WF (connect e1 e2 h).2 := by
  by_cases hok : (h.edge e1).dangling = true ∧ (h.edge e2).dangling = true ∧ e1 ≠ e2 ∧
      edim h e1 = edim h e2
  · obtain ⟨h', k1, k2, _⟩ := connect_ok w hu1 hu2 hok.1 hok.2.1 hok.2.2.1 hok.2.2.2
    rw [k1]; exact k2.wf
  · rw [connect_err w hu1 hu2 hok]; exact w

/-! ### Operations -/

/-- The operations of the public interface that change the graph. -/
inductive Op (R : Type) where
  | node (t : NDArray R)
  | connect (e1 e2 : EId)
  | disconnect (e : EId)
  | reorderEdges (n : NId) (order : List EId)
  | reorderAxes (n : NId) (perm : List Nat)
  | contract (e : EId)
  | contractParallel (fo : FlatOrder) (e : EId)
  | contractBetween (fo : FlatOrder) (n1 n2 : NId) (allow : Bool) (order : Option (List EId))
  | outerProduct (n1 n2 : NId)
  | outerProductFinalNodes (nodes : List NId) (order : List EId)
  | flattenEdges (swap : Bool) (es : List EId)
  | splitEdge (swap : Bool) (e : EId) (shape : List Nat)
  | sliceEdge (e : EId) (start length : Int)
  | removeNode (n : NId)
  | redirectEdge (e : EId) (new old : NId)
  | splitNode (decomp : NDArray R → Nat → Py (NDArray R × NDArray R)) (n : NId)
      (left right : List EId)

/-- Running an operation and dropping the result; the graph after an exception is the graph the
operation left behind. -/
def Op.after [CommSemiring R] (op : Op R) (h : Heap R) : Heap R :=
  match op with
  | .node t => (newNode t h).2
  | .connect e1 e2 => (Graph.connect e1 e2 h).2
  | .disconnect e => (Graph.disconnect e h).2
  | .reorderEdges n order => (Graph.reorderEdges n order h).2
  | .reorderAxes n perm => (Graph.reorderAxes n perm h).2
  | .contract e => (Graph.contract e h).2
  | .contractParallel fo e => (Graph.contractParallel fo e h).2
  | .contractBetween fo n1 n2 allow order => (Graph.contractBetween fo n1 n2 allow order h).2
  | .outerProduct n1 n2 => (Graph.outerProduct n1 n2 h).2
  | .outerProductFinalNodes nodes order => (Graph.outerProductFinalNodes nodes order h).2
  | .flattenEdges swap es => (Graph.flattenEdges swap es h).2
  | .splitEdge swap e shape => (Graph.splitEdge swap e shape h).2
  | .sliceEdge e start length => (Graph.sliceEdge e start length h).2
  | .removeNode n => (Graph.removeNode n h).2
  | .redirectEdge e new old => (Graph.redirectEdge e new old h).2
  | .splitNode decomp n left right => (splitNodeWith decomp n left right h).2

/-- The edge is listed by some node of the graph. -/
def Current (h : Heap R) (e : EId) : Prop := ∃ n < h.nn, e ∈ (h.node n).edges

theorem Current.inUse {h : Heap R} {e : EId} (c : Current h e) : InUse h e :=
  let ⟨_, h1, h2⟩ := c; inUse_of_mem h1 h2

/-- What the library leaves to the caller: nodes exist, edges belong to the current graph, edge
orders have no duplicates, an outer product is of two different nodes, an edge is redirected to a
free axis of the same dimension, a decomposition returns tensors that fit. -/
def Op.Valid (op : Op R) (h : Heap R) : Prop :=
  match op with
  | .node _ => True
  | .connect e1 e2 => Current h e1 ∧ Current h e2
  | .disconnect e => Current h e
  | .reorderEdges n order => n < h.nn ∧ order.Nodup
  | .reorderAxes n _ => n < h.nn
  | .contract e => Current h e
  | .contractParallel _ e => Current h e
  | .contractBetween _ n1 n2 _ order => n1 < h.nn ∧ n2 < h.nn ∧ (order.getD []).Nodup
  | .outerProduct n1 n2 => n1 < h.nn ∧ n2 < h.nn ∧ n1 ≠ n2
  | .outerProductFinalNodes nodes order => (∀ n ∈ nodes, n < h.nn) ∧ nodes.Nodup ∧ order.Nodup
  | .flattenEdges _ es => ∀ e ∈ es, Current h e
  | .splitEdge _ e _ => Current h e
  | .sliceEdge e _ _ => Current h e
  | .removeNode n => n < h.nn
  | .redirectEdge e new old => Current h e ∧ new < h.nn ∧ old < h.nn ∧ new ≠ old ∧
      ∀ k : Nat, (h.node old).edges[k]? = some e → ∃ d, (h.node new).edges[k]? = some d ∧
        (h.edge d).dangling = true ∧ (h.shape new)[k]? = (h.shape old)[k]?
  | .splitNode decomp n left right => n < h.nn ∧ (∀ e ∈ left ++ right, Current h e) ∧
      ∀ t : NDArray R, t.shape.length = (left ++ right).length → ∃ u v,
        decomp t left.length = .ok (u, v) ∧ ∃ d, u.shape = t.shape.take left.length ++ [d] ∧
          v.shape = d :: t.shape.drop left.length

/-- Every operation keeps the graph consistent. -/
theorem Op.after_wf [CommSemiring R] {op : Op R} {h : Heap R} (w : WF h) (hv : op.Valid h) :
    WF (op.after h) := by
  cases op with
  | node t => exact addNode_wf w t
  | connect e1 e2 => exact connect_wf w hv.1.inUse hv.2.inUse
  | disconnect e =>
    simp only [Op.after]
    by_cases hd : (h.edge e).dangling = false
    · obtain ⟨h', k1, k2, _⟩ := disconnect_ok w hv.inUse hd
      rw [k1]; exact k2
    · rw [disconnect_err (by simpa using hd)]; exact w
  | reorderEdges n order => exact reorderEdges_wf w hv.1 hv.2
  | reorderAxes n perm =>
    simp only [Op.after]
    by_cases hp : perm.Perm (List.range (h.node n).edges.length)
    · obtain ⟨h', k1, k2⟩ := reorderAxes_ok w hv hp
      rw [k1]; exact k2.wf
    · rw [reorderAxes_err w hv hp]; exact w
  | contract e =>
    simp only [Op.after]
    rcases contract_cases w hv.inUse with ⟨_, k⟩ | ⟨_, h', N, k, _, _, m⟩
    · rw [k]; exact w
    · rw [k]; exact m.wf
  | contractParallel fo e =>
    simp only [Op.after]
    have hu := Current.inUse hv
    rcases w.good hu with ⟨n, a, hr⟩ | ⟨n, a, m, b, hr⟩
    · rw [contractParallel_err fo (by rw [hr])]; exact w
    · rw [contractParallel_eq fo hr]
      have hat := fun s => at_conn w hu hr (s := s)
      exact contractBetween_wf w fo ((hat (n, a)).2 (.inl rfl)).1 ((hat (m, b)).2 (.inr rfl)).1
        (by simp)
  | contractBetween fo n1 n2 allow order => exact contractBetween_wf w fo hv.1 hv.2.1 hv.2.2
  | outerProduct n1 n2 =>
    simp only [Op.after]
    obtain ⟨h', k1, k2⟩ := outerProduct_run w hv.2.2 hv.1 hv.2.1
    rw [k1]; exact k2.wf
  | outerProductFinalNodes nodes order => exact outerProductFinal_wf w hv.1 hv.2.1 hv.2.2
  | flattenEdges swap es => exact flattenEdges_wf w swap fun e he => (hv e he).inUse
  | splitEdge swap e shape => exact splitEdge_wf w swap (Current.inUse hv)
  | sliceEdge e start length =>
    simp only [Op.after]
    have hu := Current.inUse hv
    by_cases hb : 0 < length ∧ start + length ≤ edim h e ∧ ¬ (-length < start ∧ start < 0)
    · obtain ⟨h', k1, k2⟩ := sliceEdge_bounds w hu hb.1 hb.2.1 hb.2.2 rfl
      rw [k1]; exact k2.wf
    · rw [sliceEdge_err w hu (by omega)]; exact w
  | removeNode n =>
    simp only [Op.after]
    obtain ⟨h', l, k1, k2⟩ := removeNode_ok w hv
    rw [k1]; exact k2.wf
  | redirectEdge e new old =>
    simp only [Op.after]
    obtain ⟨h1, h2, h3, h4, h5⟩ := hv
    have hu := h1.inUse
    by_cases hold : ∃ k, At h (old, k) e
    · obtain ⟨h', k1, k2⟩ := redirect_ok w hu h4 h2 h3 hold (by
        intro k hk
        obtain ⟨d, d1, d2, d3⟩ := h5 k hk.2
        refine ⟨d, ⟨h2, d1⟩, d2, ?_⟩
        rw [w.edim_eq hk]
        exact dimAt_of_getElem? d3)
      rw [k1]; exact k2.wf
    · rw [redirect_err w hu hold]; exact w
  | splitNode decomp n left right =>
    simp only [Op.after]
    obtain ⟨h1, h2, h3⟩ := hv
    by_cases hp : (left ++ right).Perm (h.node n).edges ∧ (h.node n).edges.Nodup
    · obtain ⟨h', t, u, v, c, k1, k2, _⟩ := splitNode_ok (decomp := decomp) w h1 hp.1 hp.2 (by
        intro t ht _
        obtain ⟨u, v, hd, d, hu, hv⟩ := h3 t (by rw [ht]; simp)
        rw [ht, List.map_append] at hu hv
        rw [List.take_left' (by simp)] at hu
        rw [List.drop_left' (by simp)] at hv
        exact ⟨u, v, hd, d, hu, hv⟩)
      rw [k1]; exact k2.wf
    · obtain ⟨er, k⟩ := splitNode_err (decomp := decomp) w h1 (fun e he => (h2 e he).inUse) hp
      rw [k]; exact w

end TN.Graph
