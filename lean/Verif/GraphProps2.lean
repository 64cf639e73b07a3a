import Verif.GraphProps1

/-!
# C08, C09, C11, C13: contraction, reordering and outer products

The statements use: `GraphOK` (consistent graph), `Current` (the edge is listed by a node), the
fields of nodes and edges, `edim` (`edge.dimension`), `val t es τ` (the entry of `t` at the
positions `τ` of the edges `es` of its axes) and `netVal (netOf h ns) σ` (the value of the
network of the nodes `ns`: the sum over all positions of the edges listed twice of the product of
the entries, as a function of the positions `σ` of the other edges).
-/

namespace TN.Graph

open TN

variable {R : Type}

theorem current_iff {h : Heap R} {e : EId} : Current h e ↔ InUse h e :=
  ⟨Current.inUse, fun ⟨s, hs⟩ => ⟨s.1, hs.1, hs.mem⟩⟩

/-- What every contraction of the nodes `N` along the edges `S` to the node `new` with edges `es`
must do. -/
structure ContractSpec [CommSemiring R] (h h' : Heap R) (N : List NId) (S : List EId) (new : NId)
    (es : List EId) : Prop where
  /-- the graph is consistent -/
  ok : GraphOK h'
  /-- the result is a new node -/
  new_node : h.nn ≤ new ∧ new < h'.nn
  /-- its edges are `es`: the edges of `N` that are not contracted, the same objects -/
  edges : (h'.node new).edges = es
  perm : es.Perm ((N.flatMap (fun n => (h.node n).edges)).filter (fun e => e ∉ S))
  /-- the nodes outside `N` are untouched -/
  others : ∀ n < h.nn, n ∉ N → h'.node n = h.node n
  /-- edges that are not contracted stay in the graph, dangling or connected as before, with the
  same dimension -/
  kept : ∀ e, Current h e → e ∉ S →
    Current h' e ∧ (h'.edge e).dangling = (h.edge e).dangling ∧ edim h' e = edim h e
  /-- contracted edges are disabled and listed by no node -/
  gone : ∀ e ∈ S, (h'.edge e).disabled = true ∧ ¬ Current h' e
  /-- every entry of the new tensor is the sum over the positions of the contracted edges of the
  products of the entries of the old tensors -/
  entry : ∀ τ : EId → Nat, (∀ e ∈ es, τ e < edim h e) →
    val (h'.node new).tensor es τ = sumOver (edim h) S (prodVal (netOf h N)) τ
  /-- the value of every network that contains `N` is unchanged -/
  value : ∀ rest : List NId, (N ++ rest).Nodup → (∀ n ∈ rest, n < h.nn) → ∀ σ : EId → Nat,
    (∀ e ∈ flatL (netOf h (N ++ rest)), (flatL (netOf h (N ++ rest))).count e ≠ 2 →
      σ e < edim h e) →
    netVal (netOf h' (new :: rest)) σ = netVal (netOf h (N ++ rest)) σ

theorem Contracted.spec [CommSemiring R] {h h' : Heap R} {N : List NId} {new : NId}
    {S es : List EId} (c : Contracted h h' N new S es) : ContractSpec h h' N S new es where
  ok := graphOK_iff.2 c.wf
  new_node := by have := c.new_eq; have := c.nn; omega
  edges := c.edges
  perm := c.perm
  others := c.other
  kept e he hS := by
    obtain ⟨h1, h2⟩ := c.rest e (current_iff.1 he) hS
    exact ⟨current_iff.2 h1, h2⟩
  gone e he := ⟨(c.disabled e he).1, fun hc => (c.disabled e he).2 (current_iff.1 hc)⟩
  entry := c.entry
  value := c.value

/-- **C08.**  `contract(edge)` of a connected edge, between two nodes or of one node with itself,
gives a new node with the entries of the contraction; the value of every network that contains
the nodes of the edge is unchanged.  A dangling edge is rejected. -/
theorem C08_contract [CommSemiring R] {h : Heap R} (g : GraphOK h) {e : EId} (hc : Current h e) :
    ((h.edge e).dangling = true → contract e h = (.error .valueError, h)) ∧
    ((h.edge e).dangling = false → ∃ n1 n2 h' new, (h.edge e).node1 = some n1 ∧
      (h.edge e).node2 = some n2 ∧ contract e h = (.ok new, h') ∧
      ContractSpec h h' [n1, n2].dedup [e] new
        (([n1, n2].dedup.flatMap (fun n => (h.node n).edges)).filter (fun f => f ∉ [e]))) := by
  have w := graphOK_iff.1 g
  have hu := current_iff.1 hc
  rcases w.good hu with ⟨n, a, hr⟩ | ⟨n, a, m, b, hr⟩
  · refine ⟨fun _ => ?_, fun hd => by rw [hr] at hd; simp at hd⟩
    rcases contract_cases w hu with ⟨_, k⟩ | ⟨hd, _⟩
    · exact k
    · rw [hr] at hd; simp at hd
  · refine ⟨fun hd => by rw [hr] at hd; simp at hd, fun _ => ?_⟩
    by_cases hnm : n = m
    · subst hnm
      obtain ⟨h', k1, _, k2⟩ := contract_trace w hu hr
      refine ⟨n, n, h', h.nn, by rw [hr], by rw [hr], k1, ?_⟩
      simpa using (k2.contracted (by simpa using ((at_conn w hu hr (s := (n, a))).2 (.inl rfl)).1)).spec
    · obtain ⟨h', k1, k2⟩ := contract_pair w hu hr hnm
      refine ⟨n, m, h', h.nn, by rw [hr], by rw [hr], k1, ?_⟩
      have hd : [n, m].dedup = [n, m] := List.Nodup.dedup (by simp [hnm])
      rw [hd]
      have hn := ((at_conn w hu hr (s := (n, a))).2 (.inl rfl)).1
      have hm := ((at_conn w hu hr (s := (m, b))).2 (.inr rfl)).1
      exact (k2.contracted (by simp only [List.mem_cons, List.not_mem_nil, or_false]
                               rintro k (rfl | rfl) <;> assumption)).spec

/-- `contract_parallel(edge)` contracts all edges between the nodes of the edge. -/
theorem C08_contract_parallel [CommSemiring R] {h : Heap R} (g : GraphOK h) {e : EId}
    (hc : Current h e) (fo : FlatOrder) :
    ((h.edge e).dangling = true → contractParallel fo e h = (.error .valueError, h)) ∧
    ((h.edge e).dangling = false → ∃ n1 n2 S h' new, (h.edge e).node1 = some n1 ∧
      (h.edge e).node2 = some n2 ∧ contractParallel fo e h = (.ok new, h') ∧
      S.Nodup ∧ (∀ f, f ∈ S ↔ Current h f ∧ Between h n1 n2 f) ∧ e ∈ S ∧
      ContractSpec h h' [n1, n2].dedup S new
        (([n1, n2].dedup.flatMap (fun n => (h.node n).edges)).filter (fun f => f ∉ S))) := by
  have w := graphOK_iff.1 g
  have hu := current_iff.1 hc
  refine ⟨contractParallel_err fo, fun hd => ?_⟩
  rcases w.good hu with ⟨n, a, hr⟩ | ⟨n, a, m, b, hr⟩
  · rw [hr] at hd; simp at hd
  · have hat := fun s => at_conn w hu hr (s := s)
    have hb : Between h n m e := ⟨a, b, .inl hr⟩
    obtain ⟨S, h', k1, k2, k3, k4⟩ := contractBetween_ok w fo ((hat (n, a)).2 (.inl rfl)).1
      ((hat (m, b)).2 (.inr rfl)).1 (allow := false) (order := none) (.inl ⟨e, hu, hb⟩) (by simp)
    refine ⟨n, m, S, h', h.nn, by rw [hr], by rw [hr], by rw [contractParallel_eq fo hr]; exact k1,
      k2, fun f => by rw [k3, current_iff], (k3 e).2 ⟨hu, hb⟩, ?_⟩
    simpa using k4.spec

/-- **C09.**  `contract_between(node1, node2, allow_outer_product, output_edge_order)`: contracts
exactly the shared edges (the trace edges, if the nodes are the same).  The edges of the result
are in the given order; without an order, the remaining edges of `node1` come before those of
`node2`.  An order must be a permutation of the remaining edges, none of them a trace edge. -/
theorem C09_contract_between [CommSemiring R] {h : Heap R} (g : GraphOK h) (fo : FlatOrder)
    {n1 n2 : NId} (hn1 : n1 < h.nn) (hn2 : n2 < h.nn) {allow : Bool}
    {order : Option (List EId)}
    (hsh : (∃ e, Current h e ∧ Between h n1 n2 e) ∨ (n1 ≠ n2 ∧ allow = true))
    (hord : order.getD [] ≠ [] → (order.getD []).Perm (([n1, n2].dedup.flatMap
        (fun n => (h.node n).edges)).filter (fun e => ¬ sharesBoth (h.edge e) n1 n2)) ∧
      (n1 ≠ n2 → ∀ e, Current h e → ¬ Between h n1 n1 e ∧ ¬ Between h n2 n2 e)) :
    ∃ S h' new, contractBetween fo n1 n2 allow order h = (.ok new, h') ∧ S.Nodup ∧
      (∀ e, e ∈ S ↔ Current h e ∧ Between h n1 n2 e) ∧
      ContractSpec h h' [n1, n2].dedup S new
        (if order.getD [] = [] then
          ([n1, n2].dedup.flatMap (fun n => (h.node n).edges)).filter (fun e => e ∉ S)
        else order.getD []) := by
  obtain ⟨S, h', k1, k2, k3, k4⟩ := contractBetween_ok (graphOK_iff.1 g) fo hn1 hn2
    (allow := allow) (order := order)
    (hsh.imp_left fun ⟨e, h1, h2⟩ => ⟨e, current_iff.1 h1, h2⟩)
    (fun hne => ⟨(hord hne).1, fun hnm e he => (hord hne).2 hnm e (current_iff.2 he)⟩)
  exact ⟨S, h', h.nn, k1, k2, fun e => by rw [k3, current_iff], k4.spec⟩

/-- The values a loop collects, when the value of each step is known. -/
theorem mapEach_values {α β : Type} {f : α → M R β} {v : α → β}
    (hf : ∀ a (h h' : Heap R) b, f a h = (.ok b, h') → b = v a) : ∀ (l : List α) {h h' : Heap R}
    {bs : List β}, M.mapEach l f h = (.ok bs, h') → bs = l.map v := by
  intro l
  induction l with
  | nil =>
    intro h h' bs hb
    rw [M.mapEach_nil] at hb
    simp only [Prod.mk.injEq, Except.ok.injEq] at hb
    rw [← hb.1]; rfl
  | cons a l ih =>
    intro h h' bs hb
    rw [M.mapEach_cons] at hb
    rcases h1 : f a h with ⟨_ | b, h2⟩
    · rw [M.bind_error h1] at hb; simp at hb
    · rw [M.bind_ok h1] at hb
      rcases h3 : M.mapEach l f h2 with ⟨_ | bs', h4⟩
      · rw [M.bind_error h3] at hb; simp at hb
      · rw [M.bind_ok h3, M.pure_apply] at hb
        simp only [Prod.mk.injEq, Except.ok.injEq] at hb
        rw [← hb.1, ih h3, hf a h h2 b h1]; rfl

/-- `reorder_edges` raises whenever the list is not a permutation of the edges of the node,
duplicates included. -/
theorem reorderEdges_rejects [CommSemiring R] {h : Heap R} (w : WF h) {n : NId} (hn : n < h.nn)
    {order : List EId} (hbad : ¬ order.Perm (h.node n).edges) :
    ∃ er, (reorderEdges n order h).1 = .error er := by
  by_cases hnd : order.Nodup
  · exact ⟨.valueError, by rw [reorderEdges_err w hn hnd (fun hc => hbad hc.1)]⟩
  · unfold reorderEdges
    rw [M.bind_ok (nodeEdges_eq n)]
    by_cases h1 : ∃ e ∈ order, e ∉ (h.node n).edges
    · rw [if_pos h1]; exact ⟨_, rfl⟩
    rw [if_neg h1]
    by_cases h2 : ∃ e ∈ (h.node n).edges, e ∉ order
    · rw [if_pos h2]; exact ⟨_, rfl⟩
    rw [if_neg h2]
    generalize hl : (M.forEach order fun e => do
      let a ← node1 e
      let b ← node2 e
      if some a = b then M.throw .valueError else pure () : M R Unit) = loop
    rcases k1 : loop h with ⟨er | _, h3⟩
    · exact ⟨er, by rw [M.bind_error k1]⟩
    rw [M.bind_ok k1]
    rcases k2 : (M.mapEach order.zipIdx fun (e, i) => do
        let old := (h.node n).edges.idxOf e
        updateAxis e old n i n
        pure old : M R (List Nat)) h3 with ⟨er | ps, h4⟩
    · exact ⟨er, by rw [M.bind_error k2]⟩
    have hps : ps = order.zipIdx.map (fun p => (h.node n).edges.idxOf p.1) := by
      refine mapEach_values ?_ _ k2
      rintro ⟨e, i⟩ ha hb b hab
      rcases k3 : updateAxis e ((h.node n).edges.idxOf e) n i n ha with ⟨er | _, hc⟩
      · simp only at hab
        rw [M.bind_error k3] at hab; simp at hab
      · simp only at hab
        rw [M.bind_ok k3, M.pure_apply] at hab
        simp only [Prod.mk.injEq, Except.ok.injEq] at hab
        exact hab.1.symm
    refine ⟨.valueError, ?_⟩
    rw [M.bind_ok k2]
    obtain ⟨h5, hh5⟩ : ∃ h5, h5 = h4.setNode n { h4.node n with edges := order } := ⟨_, rfl⟩
    have k4 : setEdges n order h4 = (.ok (), h5) := by rw [hh5]; rfl
    rw [M.bind_ok k4, M.bind_ok (nodeTensor_eq n)]
    have k5 : (h5.node n).tensor.transpose ps = .error .valueError := by
      unfold NDArray.transpose
      rw [if_neg]
      intro hp
      have hnd2 : ps.Nodup := hp.nodup_iff.2 List.nodup_range
      have h6 : ps = order.map (fun e => (h.node n).edges.idxOf e) := by
        rw [hps]
        conv_rhs => rw [← List.zipIdx_map_fst 0 order, List.map_map]
        rfl
      rw [h6] at hnd2
      exact hnd (List.Nodup.of_map _ hnd2)
    rw [k5]
    rfl

/-- **C09**, rejected calls: without a shared edge `contract_between` raises – and leaves the
graph as it is – unless the outer product of two different nodes is allowed; it raises whenever
a non-empty `output_edge_order` is not a permutation of the remaining edges. -/
theorem C09_contract_between_rejects [CommSemiring R] {h : Heap R} (g : GraphOK h)
    (fo : FlatOrder) {n1 n2 : NId} (hn1 : n1 < h.nn) (hn2 : n2 < h.nn) {allow : Bool}
    {order : Option (List EId)} :
    ((¬ ∃ e, Current h e ∧ Between h n1 n2 e) → (n1 = n2 ∨ allow = false) →
      contractBetween fo n1 n2 allow order h = (.error .valueError, h)) ∧
    (order.getD [] ≠ [] → ¬ (order.getD []).Perm (([n1, n2].dedup.flatMap
        (fun n => (h.node n).edges)).filter (fun e => ¬ sharesBoth (h.edge e) n1 n2)) →
      ∃ er, (contractBetween fo n1 n2 allow order h).1 = .error er) := by
  have w := graphOK_iff.1 g
  have hcu : (∃ e, Current h e ∧ Between h n1 n2 e) ↔ ∃ e, InUse h e ∧ Between h n1 n2 e := by
    simp only [current_iff]
  rw [hcu]
  -- the last step raises
  have last : ∀ (hm : Heap R) (S es N : List Nat), Contracted h hm N h.nn S es →
      (∀ e, e ∈ S ↔ InUse h e ∧ Between h n1 n2 e) → N.Perm [n1, n2].dedup →
      order.getD [] ≠ [] → ¬ (order.getD []).Perm (([n1, n2].dedup.flatMap
        (fun n => (h.node n).edges)).filter (fun e => ¬ sharesBoth (h.edge e) n1 n2)) →
      contractBetween fo n1 n2 allow order h =
        (do if order.getD [] ≠ [] then reorderEdges h.nn (order.getD [])
            pure h.nn) hm → ∃ er, (contractBetween fo n1 n2 allow order h).1 = .error er := by
    intro hm S es N c hS hN hne hbad hrun
    have hbad2 : ¬ (order.getD []).Perm (hm.node h.nn).edges := by
      intro hp
      apply hbad
      rw [c.edges] at hp
      refine hp.trans (c.perm.trans (((hN.flatMap_right _).filter _).trans ?_))
      refine List.Perm.of_eq (List.filter_congr fun e he => ?_)
      rw [List.mem_flatMap] at he
      obtain ⟨n, hn, he⟩ := he
      have hnlt : n < h.nn := by
        have : n = n1 ∨ n = n2 := by simpa using hn
        rcases this with rfl | rfl <;> assumption
      have hu := inUse_of_mem hnlt he
      have key := sharesBoth_iff (w.good hu) (n1 := n1) (n2 := n2)
      by_cases hb : Between h n1 n2 e
      · rw [key.2 hb]
        simp [(hS e).2 ⟨hu, hb⟩]
      · have h1 : sharesBoth (h.edge e) n1 n2 = false := by
          rw [← Bool.not_eq_true]; exact fun hc => hb (key.1 hc)
        rw [h1]
        simp only [Bool.false_eq_true, not_false_eq_true, decide_true, decide_eq_true_eq]
        exact fun hc => hb ((hS e).1 hc).2
    obtain ⟨er, k⟩ := reorderEdges_rejects c.wf (by rw [c.nn]; omega) hbad2
    refine ⟨er, ?_⟩
    rw [hrun, if_pos hne]
    rcases k2 : reorderEdges h.nn (order.getD []) hm with ⟨er' | _, h5⟩
    · rw [M.bind_error k2]
      rw [k2] at k
      simpa using k
    · rw [k2] at k; simp at k
  by_cases hne : n1 = n2
  · subst hne
    rcases contractBetween_self w fo hn1 (allow := allow) (order := order) with
      ⟨hno, k⟩ | ⟨hex, S, hm, _, hS, c, k⟩
    · exact ⟨fun _ _ => k, fun _ _ => ⟨_, by rw [k]⟩⟩
    · exact ⟨fun hno => absurd hex hno, fun h1 h2 => last hm S _ _ c hS (by simp) h1 h2 k⟩
  · have hdd : [n1, n2].dedup = [n1, n2] := List.Nodup.dedup (by simp [hne])
    by_cases hsh : ∃ e, InUse h e ∧ Between h n1 n2 e
    · refine ⟨fun hno => absurd hsh hno, fun h1 h2 => ?_⟩
      rcases contractBetween_pair w fo hne hn1 hn2 (allow := allow) (order := order) hsh with
        ⟨_, k⟩ | ⟨_, S, N, hm, _, hS, hN, _, c, k⟩
      · exact ⟨_, by rw [k]⟩
      · exact last hm S _ N (c.contracted fun n hn => by
          have hn := hN.mem_iff.1 hn
          simp only [List.mem_cons, List.not_mem_nil, or_false] at hn
          rcases hn with rfl | rfl <;> assumption) hS (by rw [hdd]; exact hN) h1 h2 k
    · rcases contractBetween_outer w fo hne hn1 hn2 (allow := allow) (order := order) hsh with
        ⟨_, k⟩ | ⟨ha, hm, c, k⟩
      · exact ⟨fun _ _ => k, fun _ _ => ⟨_, by rw [k]⟩⟩
      · refine ⟨fun _ hor => ?_, fun h1 h2 => last hm [] _ _
          (c.contracted (by simp [hn1, hn2])) (fun e => ?_)
          (by rw [hdd]) h1 h2 k⟩
        · rcases hor with hor | hor
          · exact absurd hor hne
          · rw [ha] at hor; simp at hor
        · simp only [List.not_mem_nil, false_iff]
          exact fun hc => hsh ⟨e, hc⟩

/-- **C11.**  `reorder_edges` with a permutation of the edges, none of them a trace edge: the
node lists the edges in the given order, each entry is found at the same positions of the edges,
no network changes its value, everything else stays. -/
theorem C11_reorder_edges [CommSemiring R] {h : Heap R} (g : GraphOK h) {n : NId} (hn : n < h.nn)
    {order : List EId} (hp : order.Perm (h.node n).edges)
    (htr : ∀ e ∈ order, ¬ Between h n n e) :
    ∃ h', reorderEdges n order h = (.ok (), h') ∧ GraphOK h' ∧ (h'.node n).edges = order ∧
      (∀ σ : EId → Nat, val (h'.node n).tensor order σ =
        val (h.node n).tensor (h.node n).edges σ) ∧
      (∀ m, m ≠ n → h'.node m = h.node m) ∧
      (∀ e, Current h e → Current h' e ∧ (h'.edge e).dangling = (h.edge e).dangling ∧
        edim h' e = edim h e) ∧
      ∀ ns : List NId, (∀ m ∈ ns, m < h.nn) → ∀ σ : EId → Nat,
        netVal (netOf h' ns) σ = netVal (netOf h ns) σ := by
  obtain ⟨h', k1, k2⟩ := reorderEdges_ok (graphOK_iff.1 g) hn hp htr
  exact ⟨h', k1, graphOK_iff.2 k2.wf, k2.edges, k2.entry, k2.other,
    fun e he => ⟨current_iff.2 ((k2.inUse e).2 (current_iff.1 he)),
      k2.dangling e (current_iff.1 he), k2.dim e (current_iff.1 he)⟩, k2.value⟩

/-- **C11.**  `reorder_axes(perm)`: axis `i` of the result is axis `perm[i]`. -/
theorem C11_reorder_axes [CommSemiring R] {h : Heap R} (g : GraphOK h) {n : NId} (hn : n < h.nn)
    {perm : List Nat} (hp : perm.Perm (List.range (h.node n).edges.length)) :
    ∃ h', reorderAxes n perm h = (.ok (), h') ∧ GraphOK h' ∧
      (h'.node n).edges = perm.map (fun p => (h.node n).edges.getD p default) ∧
      (∀ σ : EId → Nat, val (h'.node n).tensor (h'.node n).edges σ =
        val (h.node n).tensor (h.node n).edges σ) ∧
      (∀ m, m ≠ n → h'.node m = h.node m) ∧
      (∀ e, Current h e → Current h' e ∧ (h'.edge e).dangling = (h.edge e).dangling ∧
        edim h' e = edim h e) ∧
      ∀ ns : List NId, (∀ m ∈ ns, m < h.nn) → ∀ σ : EId → Nat,
        netVal (netOf h' ns) σ = netVal (netOf h ns) σ := by
  obtain ⟨h', k1, k2⟩ := reorderAxes_ok (graphOK_iff.1 g) hn hp
  exact ⟨h', k1, graphOK_iff.2 k2.wf, k2.edges, by rw [k2.edges]; exact k2.entry, k2.other,
    fun e he => ⟨current_iff.2 ((k2.inUse e).2 (current_iff.1 he)),
      k2.dangling e (current_iff.1 he), k2.dim e (current_iff.1 he)⟩, k2.value⟩

/-- **C11**, rejected calls.  A list that is not a permutation is rejected; the graph is
unchanged, except when the list has duplicates (see `C07_reorder_duplicate_false`). -/
theorem C11_rejects [CommSemiring R] {h : Heap R} (g : GraphOK h) {n : NId} (hn : n < h.nn) :
    (∀ order : List EId, ¬ order.Perm (h.node n).edges →
      ∃ er, (reorderEdges n order h).1 = .error er) ∧
    (∀ order : List EId, order.Nodup → ¬ order.Perm (h.node n).edges →
      reorderEdges n order h = (.error .valueError, h)) ∧
    ∀ perm : List Nat, ¬ perm.Perm (List.range (h.node n).edges.length) →
      reorderAxes n perm h = (.error .valueError, h) :=
  ⟨fun _ hb => reorderEdges_rejects (graphOK_iff.1 g) hn hb,
    fun _ hnd hb => reorderEdges_err (graphOK_iff.1 g) hn hnd fun hc => hb hc.1,
    fun _ hb => reorderAxes_err (graphOK_iff.1 g) hn hb⟩

/-- **C13.**  `outer_product(node1, node2)` of two different nodes: the axes of the second node
after those of the first, no edge is contracted. -/
theorem C13_outer_product [CommSemiring R] {h : Heap R} (g : GraphOK h) {n1 n2 : NId}
    (hne : n1 ≠ n2) (hn1 : n1 < h.nn) (hn2 : n2 < h.nn) :
    ∃ h' new, outerProduct n1 n2 h = (.ok new, h') ∧
      ContractSpec h h' [n1, n2] [] new ((h.node n1).edges ++ (h.node n2).edges) := by
  obtain ⟨h', k1, k2⟩ := outerProduct_run (graphOK_iff.1 g) hne hn1 hn2
  refine ⟨h', h.nn, k1, ?_⟩
  have := (k2.contracted (by simp [hn1, hn2])).spec
  simpa using this

/-- Nodes without connected edges: nothing is summed. -/
theorem netVal_of_dangling [CommSemiring R] {h : Heap R} (w : WF h) {ns : List NId}
    (hnd : ns.Nodup) (hn : ∀ n ∈ ns, n < h.nn)
    (hd : ∀ n ∈ ns, ∀ e ∈ (h.node n).edges, (h.edge e).dangling = true) (σ : EId → Nat) :
    netVal (netOf h ns) σ = prodVal (netOf h ns) σ := by
  have hnil : closedL (netOf h ns) = [] := by
    rw [List.eq_nil_iff_forall_not_mem]
    intro e he
    rw [mem_closedL] at he
    have hm : e ∈ flatL (netOf h ns) := List.count_pos_iff.1 (by omega)
    have hu := inUse_of_flat hn hm
    rw [w.count_flat hu hnd hn] at he
    have hm2 : ∃ n ∈ ns, e ∈ (h.node n).edges := by
      simpa [flatL, netOf, List.mem_flatMap] using hm
    obtain ⟨n, hn1, hn2⟩ := hm2
    have hcard := (w.good hu).card
    rw [hd n hn1 e hn2, if_pos rfl] at hcard
    have := Multiset.countP_le_card (fun s : Slot => s.1 ∈ ns) (h.edge e).ends
    omega
  unfold netVal
  rw [hnil]
  rfl

/-- **C13.**  `outer_product_final_nodes(nodes, edge_order)` of different nodes whose edges are all
dangling: the axes of the result are in the requested order, its entries are the products of the
entries, and the value of every network that contains the nodes is unchanged. -/
theorem C13_outer_product_final_nodes [CommSemiring R] {h : Heap R} (g : GraphOK h)
    {nodes : List NId} (hne : nodes ≠ []) (hn : ∀ n ∈ nodes, n < h.nn) (hnd : nodes.Nodup)
    (hd : ∀ n ∈ nodes, ∀ e ∈ (h.node n).edges, (h.edge e).dangling = true) {order : List EId}
    (hp : order.Perm (nodes.flatMap (fun n => (h.node n).edges))) :
    ∃ h' final, outerProductFinalNodes nodes order h = (.ok final, h') ∧ GraphOK h' ∧
      (h'.node final).edges = order ∧
      (∀ n < h.nn, n ∉ nodes → h'.node n = h.node n) ∧
      (∀ e, Current h e → Current h' e ∧ (h'.edge e).dangling = (h.edge e).dangling ∧
        edim h' e = edim h e) ∧
      (∀ σ : EId → Nat, (∀ e ∈ order, σ e < edim h e) →
        val (h'.node final).tensor order σ = prodVal (netOf h nodes) σ) ∧
      ∀ rest : List NId, (nodes ++ rest).Nodup → (∀ n ∈ rest, n < h.nn) → ∀ σ : EId → Nat,
        InRange h (nodes ++ rest) σ →
        netVal (netOf h' (final :: rest)) σ = netVal (netOf h (nodes ++ rest)) σ := by
  have w := graphOK_iff.1 g
  obtain ⟨a, ms, rfl⟩ : ∃ a ms, nodes = a :: ms := by
    cases nodes with
    | nil => exact absurd rfl hne
    | cons a ms => exact ⟨a, ms, rfl⟩
  obtain ⟨hf, f, k1, k2⟩ := foldOuter_ok ms w hn hnd
  have hfd : ∀ e ∈ (hf.node f).edges, (hf.edge e).dangling = true := by
    intro e he
    rw [k2.edges, List.mem_flatMap] at he
    obtain ⟨n, hnm, he⟩ := he
    rw [(k2.rest e (inUse_of_mem (hn n hnm) he)).2.1]
    exact hd n hnm e he
  obtain ⟨h', k3, k4⟩ := reorderEdges_ok k2.wf k2.lt (order := order) (by rw [k2.edges]; exact hp) (by
    intro e he hb
    have := hb.not_dangling
    rw [hfd e (by rw [k2.edges]; exact hp.mem_iff.1 he)] at this
    simp at this)
  have hrun : outerProductFinalNodes (a :: ms) order h = (.ok f, h') := by
    unfold outerProductFinalNodes
    rw [M.bind_ok (M.get_apply h)]
    rw [if_neg]
    · dsimp only
      rw [M.bind_ok k1, M.bind_ok k3]
      rfl
    · rintro ⟨n, hnm, e, he, hc⟩
      rw [hd n hnm e he] at hc
      simp at hc
  have hvalue : ∀ rest : List NId, (a :: ms ++ rest).Nodup → (∀ n ∈ rest, n < h.nn) →
      ∀ σ : EId → Nat, InRange h (a :: ms ++ rest) σ →
      netVal (netOf h' (f :: rest)) σ = netVal (netOf h (a :: ms ++ rest)) σ := by
    intro rest h1 h2 σ h3
    rw [k4.value _ (by
      intro m hm
      rcases List.mem_cons.1 hm with rfl | hm
      · exact k2.lt
      · exact lt_of_lt_of_le (h2 m hm) k2.nn)]
    exact k2.value rest h1 h2 σ h3
  refine ⟨h', f, hrun, graphOK_iff.2 k4.wf, k4.edges, ?_, ?_, ?_, hvalue⟩
  · intro n hn1 hn2
    have hnf : n ≠ f := by
      rintro rfl
      rcases k2.final with hf | hf
      · exact hn2 hf
      · omega
    rw [k4.other n hnf, k2.other n hn1 hn2]
  · intro e he
    obtain ⟨x1, x2, x3⟩ := k2.rest e (current_iff.1 he)
    exact ⟨current_iff.2 ((k4.inUse e).2 x1), by rw [k4.dangling e x1, x2], by rw [k4.dim e x1, x3]⟩
  · intro σ hσ
    have e1 := hvalue [] (by simpa using hnd) (by simp) σ (by
      intro e he _
      refine hσ e (hp.mem_iff.2 ?_)
      simpa [flatL, netOf, List.flatMap_map] using he)
    rw [List.append_nil, netVal_of_dangling w hnd hn hd, netVal_of_dangling k4.wf (by simp) (by
      intro n hnf
      rw [List.mem_singleton] at hnf
      subst hnf
      rw [k4.nn]; exact k2.lt) (by
      intro n hnf e he
      rw [List.mem_singleton] at hnf
      subst hnf
      rw [k4.edges] at he
      have he2 := hp.mem_iff.1 he
      rw [← k2.edges] at he2
      rw [k4.dangling e (inUse_of_mem k2.lt he2)]
      exact hfd e he2)] at e1
    rw [← e1]
    simp [prodVal, netOf, k4.edges]

/-! ### Concrete cases meeting the hypotheses -/

/-- Two nodes joined by the edges 6 and 7; the node 0 has edges `[6, 7, 2]`, the node 1 has
`[6, 7, 5]`. -/
def pair : Heap Nat :=
  runOps [.node (ones [2, 3, 2]), .node (ones [2, 3, 5]), .connect 0 3, .connect 1 4] Heap.empty

theorem pair_ok : GraphOK pair :=
  (C07_history_partial [.node (ones [2, 3, 2]), .node (ones [2, 3, 5]), .connect 0 3,
    .connect 1 4] graphOK_empty ⟨trivial, trivial,
    ⟨⟨0, by decide, by decide⟩, ⟨1, by decide, by decide⟩⟩,
    ⟨⟨0, by decide, by decide⟩, ⟨1, by decide, by decide⟩⟩, trivial⟩).1

example :=
  (C08_contract pair_ok (e := 6) ⟨0, by decide, by decide⟩).2 (by decide)

example (fo : FlatOrder) :=
  (C08_contract_parallel pair_ok (e := 6) ⟨0, by decide, by decide⟩ fo).2 (by decide)

example (fo : FlatOrder) :=
  C09_contract_between pair_ok fo (n1 := 0) (n2 := 1) (allow := false) (order := some [5, 2])
    (by decide) (by decide)
    (.inl ⟨6, ⟨0, by decide, by decide⟩, 0, 0, .inl (by decide)⟩) (fun _ => by
      refine ⟨by decide, fun _ e he => ?_⟩
      have hcase : ∀ n < 2, ∀ e ∈ (pair.node n).edges, ∀ n', n' < 2 →
          (pair.edge e).node1 = some n' → (pair.edge e).node2 ≠ some n' := by decide
      obtain ⟨n, hn, hm⟩ := he
      have hn' : n < 2 := hn
      have key := hcase n hn' e hm
      constructor
      · rintro ⟨a, b, h1 | h1⟩ <;> exact key 0 (by decide) (by rw [h1]) (by rw [h1])
      · rintro ⟨a, b, h1 | h1⟩ <;> exact key 1 (by decide) (by rw [h1]) (by rw [h1]))

example (fo : FlatOrder) : ∃ er, (contractBetween fo 0 1 false (some [5, 6]) pair).1 = .error er :=
  (C09_contract_between_rejects pair_ok fo (by decide) (by decide)).2 (by decide) (by decide)

example :=
  C11_reorder_axes pair_ok (n := 0) (perm := [2, 0, 1]) (by decide) (by decide)

example : reorderAxes 0 [0, 0, 1] pair = (.error .valueError, pair) :=
  (C11_rejects pair_ok (by decide)).2.2 _ (by decide)

example :=
  C13_outer_product pair_ok (n1 := 0) (n2 := 1) (by decide) (by decide) (by decide)

/-- Two vectors. -/
def twoVectors : Heap Nat := runOps [.node (ones [2]), .node (ones [3])] Heap.empty

theorem twoVectors_ok : GraphOK twoVectors :=
  (C07_history_partial [.node (ones [2]), .node (ones [3])] graphOK_empty
    ⟨trivial, trivial, trivial⟩).1

example :=
  C13_outer_product_final_nodes twoVectors_ok (nodes := [0, 1]) (order := [1, 0]) (by decide) (by decide) (by decide) (by decide)
    (by decide)

end TN.Graph
