import Verif.QuElimLoop

/-!
# `QuOperator.contract` and `QuOperator.eval` (C42)

Model of `QuOperator.nodes`, `check_network`, `contract` and `eval` (quantum/quantum.py:221-266,
428-492), with `contractor` any function that is `base` with some algorithm (path_contractors.py).

Python's sets have no order; the orders in which they are visited are parameters.
-/

set_option linter.unusedSectionVars false

namespace TN.Graph

open TN Finset

variable {R : Type} [CommSemiring R]

/-- The fields of a `QuOperator` (quantum/quantum.py:191-194). -/
structure QuOp where
  out : List EId
  inn : List EId
  ign : List EId
  refs : List NId

/-- What Python leaves open: the fuel of `reachable`, the orders of sets, the contraction algorithm;
and which nodes are of class `CopyNode`. -/
structure Run (R : Type) where
  copy : NId → Bool
  fuel : Nat
  queue : List Nat → List Nat
  vis : List Nat → List Nat
  fo : FlatOrder
  ie : List Nat → List Nat
  nodes : List Nat → List Nat
  alg : Heap R → List NId → List (Nat × Nat)

/-- `get_all_nodes(edges)` (network_operations.py:697-706). -/
def getAllNodes : List EId → M R (List NId)
  | [] => pure []
  | e :: es => do
    let n ← node1 e
    let m ← node2 e
    let l ← getAllNodes es
    pure (n :: m.toList ++ l)

/-- `QuOperator.nodes` (quantum/quantum.py:221-225); `none` if the loop has not stopped. -/
def quNodes (r : Run R) (q : QuOp) : M R (Option (List NId)) := do
  let l ← getAllNodes (q.out ++ q.inn)
  reachable r.fuel r.queue ((l ++ q.refs).map .inl)

/-- `QuOperator.check_network` (quantum/quantum.py:244-266). -/
def checkNetwork (r : Run R) (q : QuOp) : M R (Option Unit) := do
  let h ← M.get
  if ∃ e ∈ q.out ++ q.inn ++ q.ign, (h.edge e).dangling = false then M.throw .valueError
  else do
    let ns ← quNodes r q
    match ns with
    | none => pure none
    | some ns =>
      if (∀ e ∈ q.out ++ q.inn ++ q.ign, e ∈ subgraphDangling h ns) ∧
          ∀ e ∈ subgraphDangling h ns, e ∈ q.out ++ q.inn ++ q.ign then pure (some ())
      else M.throw .valueError

/-- `[d[e] for e in l]`. -/
def lookups (d : EId → Option EId) : List EId → M R (List EId)
  | [] => pure []
  | e :: es =>
    match d e with
    | none => M.throw .keyError
    | some f => do
      let l ← lookups d es
      pure (f :: l)

/-- The part of `contract` before the network is contracted (quantum/quantum.py:445-451): the new
operator and the dictionary of edges. -/
def quPrepare (r : Run R) (q : QuOp) : M R (Option (QuOp × (EId → Option EId))) := do
  let ns ← quNodes r q
  match ns with
  | none => pure none
  | some ns => do
    let s ← eliminateIdentities r.copy (r.vis ns)
    let i ← lookups s.edges q.inn
    let o ← lookups s.edges q.out
    let g ← lookups s.edges q.ign
    let q' : QuOp := ⟨o, i, g, (q.refs.filterMap fun n => s.nodes.lookup n).dedup⟩
    let c ← checkNetwork r q'
    match c with
    | none => pure none
    | some _ => pure (some (q', s.edges))

/-- `QuOperator.contract(contractor, final_edge_order)` (quantum/quantum.py:428-459). -/
def quContract (r : Run R) (q : QuOp) (order : List EId) : M R (Option QuOp) := do
  let p ← quPrepare r q
  match p with
  | none => pure none
  | some (q', d) =>
    if order ≠ [] then do
      let o ← lookups d order
      let ns ← quNodes r q'
      match ns with
      | none => pure none
      | some ns => do
        let f ← base r.fo r.ie r.nodes r.alg ns (some o) false
        pure (some { q' with refs := [f] })
    else do
      let ns ← quNodes r q'
      match ns with
      | none => pure none
      | some ns => do
        let f ← base r.fo r.ie r.nodes r.alg ns none true
        pure (some { q' with refs := [f] })

/-- The order of the axes (quantum/quantum.py:484-486). -/
def evalOrder (q : QuOp) (order : List EId) : List EId :=
  if order = [] then q.ign ++ q.out ++ q.inn else order

/-- `QuOperator.eval(contractor, final_edge_order)` (quantum/quantum.py:461-492). -/
def quEval (r : Run R) (q : QuOp) (order : List EId) : M R (Option (NDArray R)) := do
  let q' ← quContract r q (evalOrder q order)
  match q' with
  | none => pure none
  | some q' => do
    let ns ← quNodes r q'
    match ns with
    | none => pure none
    | some [n] => do
      let h ← M.get
      pure (some (h.node n).tensor)
    | some _ => M.throw .valueError

/-! ### Specification -/

/-- The nodes of the operator are `N`: they are joined to no other nodes, are all listed as reference
nodes, and their dangling edges are the output, input and ignored edges, each once. -/
structure QuOK (h : Heap R) (q : QuOp) (N : List NId) : Prop where
  ne : N ≠ []
  nodup : N.Nodup
  lt : ∀ n ∈ N, n < h.nn
  closed : ClosedNet h N
  refs : ∀ n, n ∈ q.refs ↔ n ∈ N
  edup : (q.ign ++ q.out ++ q.inn).Nodup
  edges : ∀ e, e ∈ q.ign ++ q.out ++ q.inn ↔ OpenEdge h N e

/-- The array holds the values of the network of the nodes `N`, with the axes in the given order. -/
def IsValue (h : Heap R) (N : List NId) (order : List EId) (t : NDArray R) : Prop :=
  t.shape = order.map (edim h) ∧ ∀ ix, InB (order.map (edim h)) ix →
    t.get ix = netVal (netOf h N) (assign (fun _ => 0) order ix)

/-! ### Proofs -/

theorem open_dang {h : Heap R} (w : WF h) {N : List NId} {e : EId} (ho : OpenEdge h N e) :
    ∃ n a, n ∈ N ∧ h.edge e = .dang n a ∧ At h (n, a) e := by
  obtain ⟨hd, s, hs, ha⟩ := ho
  rcases w.good ha.inUse with ⟨n', a', hr⟩ | ⟨n', a', m', b', hr⟩
  · have := (at_dang w ha.inUse hr).1 ha
    rw [this] at hs ha
    exact ⟨n', a', hs, hr, ha⟩
  · rw [hr] at hd; simp at hd

theorem getAllNodes_run {h : Heap R} (w : WF h) {N : List NId} : ∀ (es : List EId), (∀ e ∈ es, OpenEdge h N e) →
    ∃ l, getAllNodes es h = (.ok l, h) ∧ ∀ n ∈ l, n ∈ N
  | [], _ => ⟨[], rfl, by simp⟩
  | e :: es, he => by
    obtain ⟨l, h1, h2⟩ := getAllNodes_run w es fun e' h => he e' (by simp [h])
    obtain ⟨n, a, h3, h4, h5⟩ := open_dang w (he e (by simp))
    refine ⟨n :: l, ?_, by simpa using ⟨h3, h2⟩⟩
    unfold getAllNodes
    rw [M.bind_ok (node1_dang h4), M.bind_ok (node2_dang h4), M.bind_ok h1]
    rfl

theorem connected_closed {h : Heap R} {N : List NId} (hc : ClosedNet h N) {n m : NId} (hn : n ∈ N)
    (c : Connected h n m) : m ∈ N := by
  induction c with
  | refl => exact hn
  | tail _ a ih =>
    obtain ⟨h1, h2, e, h3, h4⟩ := a
    exact hc _ _ e (at_of_mem h1 h3) (at_of_mem h2 h4) ih

/-- `nodes` gives all nodes. -/
theorem quNodes_run (r : Run R) (hq : ∀ l, (r.queue l).Perm l) {h : Heap R} (w : WF h) {q : QuOp} {N : List NId}
    (hne : N ≠ []) (hlt : ∀ n ∈ N, n < h.nn) (hc : ClosedNet h N) (hr : ∀ n, n ∈ q.refs ↔ n ∈ N)
    (he : ∀ e ∈ q.out ++ q.inn, OpenEdge h N e) :
    ∃ fuel₀ ns, (∀ fuel ≥ fuel₀, quNodes { r with fuel := fuel } q h = (.ok (some ns), h)) ∧
      ns.Nodup ∧ ∀ n, n ∈ ns ↔ n ∈ N := by
  obtain ⟨l, h1, h2⟩ := getAllNodes_run w _ he
  have hsub : ∀ n ∈ l ++ q.refs, n ∈ N := by
    intro n hn
    rcases List.mem_append.1 hn with h3 | h3
    · exact h2 n h3
    · exact (hr n).1 h3
  obtain ⟨fuel₀, ns, h3, h4, h5⟩ := C15_reachable (graphOK_iff.2 w) (inputs := (l ++ q.refs).map .inl)
    (by
      obtain ⟨n, hn⟩ := List.exists_mem_of_ne_nil _ hne
      refine List.ne_nil_of_mem (a := .inl n) ?_
      exact List.mem_map_of_mem (List.mem_append_right _ ((hr n).2 hn)))
    hq (fun n hn => by
      obtain ⟨m, h6, h7⟩ := List.mem_map.1 hn
      simp only [Sum.inl.injEq] at h7
      subst h7
      exact hlt _ (hsub _ h6)) (fun e hn => by simp at hn)
  refine ⟨fuel₀, ns, fun fuel hf => ?_, h4, fun n => ?_⟩
  · unfold quNodes
    rw [M.bind_ok h1]
    exact h3 fuel hf
  · rw [h5]
    constructor
    · rintro ⟨i, h6, h7⟩
      obtain ⟨m, h8, rfl⟩ := List.mem_map.1 h6
      exact connected_closed hc (hsub m h8) h7
    · intro hn
      exact ⟨.inl n, List.mem_map_of_mem (List.mem_append_right _ ((hr n).2 hn)), .refl⟩

theorem mem_dangling_closed {h : Heap R} (w : WF h) {N : List NId} (hlt : ∀ n ∈ N, n < h.nn) (hc : ClosedNet h N)
    {e : EId} : e ∈ subgraphDangling h N ↔ OpenEdge h N e := by
  unfold subgraphDangling allEdges
  rw [List.mem_filter, List.mem_dedup, List.mem_flatMap]
  constructor
  · rintro ⟨⟨n, h1, h2⟩, h3⟩
    have hat := at_of_mem (hlt n h1) h2
    refine ⟨?_, _, h1, hat⟩
    rcases w.good hat.inUse with ⟨n', a', hr⟩ | ⟨n', a', m', b', hr⟩
    · rw [hr]
    · exfalso
      have h4 : n' ∈ N := hc _ _ e hat ((at_conn w hat.inUse hr).2 (.inl rfl)) h1
      have h5 : m' ∈ N := hc _ _ e hat ((at_conn w hat.inUse hr).2 (.inr rfl)) h1
      rw [hr] at h3
      simp [h4, h5] at h3
  · rintro ⟨h1, s, h2, h3⟩
    exact ⟨⟨s.1, h2, h3.mem⟩, by simp [h1]⟩

theorem dangling_congr {h : Heap R} {N N' : List NId} (hm : ∀ n, n ∈ N ↔ n ∈ N') {e : EId} :
    OpenEdge h N e ↔ OpenEdge h N' e := by
  unfold OpenEdge
  simp only [hm]

theorem closed_congr {h : Heap R} {N N' : List NId} (hm : ∀ n, n ∈ N ↔ n ∈ N') (hc : ClosedNet h N) :
    ClosedNet h N' := by
  intro s s' e h1 h2 h3
  exact (hm _).1 (hc s s' e h1 h2 ((hm _).2 h3))

theorem lookups_run {d : EId → Option EId} {ρ : EId → EId} {h : Heap R} : ∀ (l : List EId),
    (∀ e ∈ l, d e = some (ρ e)) → lookups d l h = (.ok (l.map ρ), h)
  | [], _ => rfl
  | e :: l, hl => by
    unfold lookups
    rw [hl e (by simp)]
    simp only
    rw [M.bind_ok (lookups_run l fun x hx => hl x (by simp [hx]))]
    rfl

theorem checkNetwork_run (r : Run R) (hq : ∀ l, (r.queue l).Perm l) {h : Heap R} (w : WF h) {q : QuOp}
    {N : List NId} (ok : QuOK h q N) :
    ∃ fuel₀, ∀ fuel ≥ fuel₀, checkNetwork { r with fuel := fuel } q h = (.ok (some ()), h) := by
  have hsw : ∀ e, e ∈ q.out ++ q.inn ++ q.ign ↔ OpenEdge h N e := by
    intro e
    rw [← ok.edges]
    simp only [List.mem_append]
    tauto
  obtain ⟨fuel₀, ns, h1, _, h3⟩ := quNodes_run r hq w ok.ne ok.lt ok.closed ok.refs (q := q)
    (fun e he => (hsw e).1 (List.mem_append_left _ he))
  refine ⟨fuel₀, fun fuel hf => ?_⟩
  unfold checkNetwork
  rw [M.bind_ok (show M.get h = (.ok h, h) from rfl), if_neg, M.bind_ok (h1 fuel hf)]
  · simp only
    have hmem : ∀ e, e ∈ subgraphDangling h ns ↔ e ∈ q.out ++ q.inn ++ q.ign := by
      intro e
      rw [mem_dangling_closed w (fun n hn => ok.lt n ((h3 n).1 hn)) (closed_congr (fun n => (h3 n).symm) ok.closed),
        dangling_congr h3, hsw]
    rw [if_pos ⟨fun e he => (hmem e).2 he, fun e he => (hmem e).1 he⟩]
    rfl
  · rintro ⟨e, he, hd⟩
    rw [((hsw e).1 he).1] at hd
    simp at hd

/-- Eliminating the identities gives an operator with the same network. -/
theorem quPrepare_run (r : Run R) (hq : ∀ l, (r.queue l).Perm l) (hv : ∀ l, (r.vis l).Perm l) {h : Heap R}
    (w : WF h) {q : QuOp} {N : List NId} (ok : QuOK h q N)
    (hdel : ∀ n ∈ N, Ident r.copy h n → ∃ d, IsDelta (h.node n).tensor d) (hnc : NoChain r.copy h N) :
    ∃ fuel₀ q' d h' N' ρ, (∀ fuel ≥ fuel₀, quPrepare { r with fuel := fuel } q h = (.ok (some (q', d)), h')) ∧
      SameNet h h' N N' ρ ∧ QuOK h' q' N' ∧ (∀ e, OpenEdge h N e → d e = some (ρ e)) ∧
      q'.ign = q.ign.map ρ ∧ q'.out = q.out.map ρ ∧ q'.inn = q.inn.map ρ := by
  have hmem : ∀ e, e ∈ q.ign ∨ e ∈ q.out ∨ e ∈ q.inn → OpenEdge h N e := by
    intro e he
    rw [← ok.edges]
    simp only [List.mem_append]
    tauto
  obtain ⟨fuel₁, ns, h1, h2, h3⟩ := quNodes_run r hq w ok.ne ok.lt ok.closed ok.refs (q := q)
    (fun e he => hmem e (by simp only [List.mem_append] at he; tauto))
  have hp : (r.vis ns).Perm N :=
    (hv ns).trans ((List.perm_ext_iff_of_nodup h2 ok.nodup).2 h3)
  have hmv : ∀ n, n ∈ r.vis ns ↔ n ∈ N := fun n => hp.mem_iff
  obtain ⟨s, h', ρ, hr, sn, hsome, hd⟩ := eliminate_run (copy := r.copy) w
    (fun h0 => ok.ne (by rw [h0] at hp; exact hp.symm.eq_nil)) (fun n hn => ok.lt n ((hmv n).1 hn))
    (hp.nodup_iff.2 ok.nodup) (closed_congr (fun n => (hmv n).symm) ok.closed)
    (fun n hn => hdel n ((hmv n).1 hn))
  have hnc' : NoChain r.copy h (r.vis ns) := fun n hn => hnc n ((hmv n).1 hn)
  have hd' : ∀ e, OpenEdge h N e → s.edges e = some (ρ e) := fun e he =>
    hd hnc' e ((dangling_congr hmv).2 he)
  have sn' : SameNet h h' N (s.nodes.map Prod.snd) ρ :=
    { sn with
      maps := fun e he => sn.maps e ((dangling_congr hmv).2 he)
      inj := fun e f he hf => sn.inj e f ((dangling_congr hmv).2 he) ((dangling_congr hmv).2 hf)
      onto := fun f hf => by
        obtain ⟨e, h4, h5⟩ := sn.onto f hf
        exact ⟨e, (dangling_congr hmv).1 h4, h5⟩
      old := fun e he => sn.old e ((dangling_congr hmv).2 he)
      value := fun σ hσ => by
        rw [sn.value σ hσ]
        exact netVal_perm (netOf_perm h hp) (w.consistent fun n hn => ok.lt n ((hmv n).1 hn)) _ }
  -- the dictionary of nodes
  have hkeys := eliminate_keys hr
  have hkn : (s.nodes.map Prod.fst).Nodup := hkeys.nodup (hp.nodup_iff.2 ok.nodup)
  have hlook : ∀ k v, s.nodes.lookup k = some v ↔ (k, v) ∈ s.nodes := fun k v => by
    generalize s.nodes = l at hkn
    induction l with
    | nil => simp
    | cons p l ih =>
      obtain ⟨k', v'⟩ := p
      simp only [List.map_cons, List.nodup_cons] at hkn
      rw [List.lookup_cons]
      by_cases hk : k = k'
      · subst hk
        simp only [beq_self_eq_true, Option.some.injEq, List.mem_cons, Prod.mk.injEq, true_and]
        constructor
        · intro h4; exact .inl h4.symm
        · rintro (h4 | h4)
          · exact h4.symm
          · exact absurd (List.mem_map_of_mem (f := Prod.fst) h4) hkn.1
      · have : (k == k') = false := by simpa using hk
        rw [this]
        simp only [List.mem_cons, Prod.mk.injEq, hk, false_and, false_or]
        exact ih hkn.2
  obtain ⟨q', hq'⟩ : ∃ q' : QuOp, q' = ⟨q.out.map ρ, q.inn.map ρ, q.ign.map ρ,
    (q.refs.filterMap fun n => s.nodes.lookup n).dedup⟩ := ⟨_, rfl⟩
  have hmapO : ∀ e, e ∈ q'.ign ++ q'.out ++ q'.inn ↔ OpenEdge h' (s.nodes.map Prod.snd) e := by
    intro f
    have : q'.ign ++ q'.out ++ q'.inn = (q.ign ++ q.out ++ q.inn).map ρ := by rw [hq']; simp
    rw [this, List.mem_map]
    constructor
    · rintro ⟨e, h4, rfl⟩
      exact (sn'.maps e ((ok.edges e).1 h4)).1
    · intro hf
      obtain ⟨e, h4, h5⟩ := sn'.onto f hf
      exact ⟨e, (ok.edges e).2 h4, h5⟩
  have ok' : QuOK h' q' (s.nodes.map Prod.snd) := by
    refine ⟨by simpa using hsome, sn.nodup, sn.lt, sn.closed, fun n => ?_, ?_, hmapO⟩
    · rw [hq']
      simp only [List.mem_dedup, List.mem_filterMap, List.mem_map]
      constructor
      · rintro ⟨k, _, h5⟩
        exact ⟨(k, n), (hlook k n).1 h5, rfl⟩
      · rintro ⟨⟨k, v⟩, h5, rfl⟩
        refine ⟨k, (ok.refs k).2 ((hmv k).1 (hkeys.subset (List.mem_map_of_mem (f := Prod.fst) h5))),
          (hlook k v).2 h5⟩
    · have : q'.ign ++ q'.out ++ q'.inn = (q.ign ++ q.out ++ q.inn).map ρ := by rw [hq']; simp
      rw [this]
      refine List.Nodup.map_on (fun e he f hf hef => ?_) ok.edup
      exact sn'.inj e f ((ok.edges e).1 he) ((ok.edges f).1 hf) hef
  obtain ⟨fuel₂, h4⟩ := checkNetwork_run r hq sn.wf ok'
  refine ⟨max fuel₁ fuel₂, q', s.edges, h', _, ρ, fun fuel hf => ?_, sn', ok', hd', by rw [hq'], by rw [hq'],
    by rw [hq']⟩
  unfold quPrepare
  rw [M.bind_ok (h1 fuel (le_trans (le_max_left _ _) hf))]
  simp only
  rw [M.bind_ok hr, M.bind_ok (lookups_run q.inn fun e he => hd' e (hmem e (by tauto))),
    M.bind_ok (lookups_run q.out fun e he => hd' e (hmem e (by tauto))),
    M.bind_ok (lookups_run q.ign fun e he => hd' e (hmem e (by tauto)))]
  have h5 := h4 fuel (le_trans (le_max_right _ _) hf)
  rw [hq'] at h5
  rw [M.bind_ok h5, hq']
  rfl

theorem openFor_iff {h : Heap R} (w : WF h) {N : List NId} (hnd : N.Nodup) (hlt : ∀ n ∈ N, n < h.nn)
    (hc : ClosedNet h N) {e : EId} : OpenFor h N e ↔ OpenEdge h N e := by
  rw [← mem_dangling_closed w hlt hc, mem_subgraphDangling w hnd hlt, OpenFor, flatL_netOf]

/-- The value of a closed network depends on the positions of its dangling edges only. -/
theorem netVal_congr' {h : Heap R} (w : WF h) {N : List NId} (hnd : N.Nodup) (hlt : ∀ n ∈ N, n < h.nn)
    (hc : ClosedNet h N) {σ τ : EId → Nat} (hs : ∀ e, OpenEdge h N e → σ e = τ e) :
    netVal (netOf h N) σ = netVal (netOf h N) τ := by
  rw [netVal_eq (w.consistent hlt), netVal_eq (w.consistent hlt)]
  refine sumOver_dependsOn (prodVal_dependsOn _) σ τ fun l hl => hs l ?_
  rw [← openFor_iff w hnd hlt hc, OpenFor, ← flatL_netOf]
  obtain ⟨h1, h2⟩ := List.mem_filter.1 hl
  have h3 : ¬ (flatL (netOf h N)).count l = 2 := by
    rw [← mem_closedL]
    simpa using h2
  obtain ⟨m, h4, h5⟩ := mem_flat_netOf.1 h1
  have hu : InUse h l := (at_of_mem (hlt m h4) h5).inUse
  have h6 : (flatL (netOf h N)).count l ≤ 2 := by
    rw [w.count_flat hu hnd hlt]
    refine (Multiset.countP_le_card _ _).trans ?_
    rw [(w.good hu).card]
    split_ifs <;> omega
  have h7 := List.count_pos_iff.2 h1
  omega

/-- The contraction of the prepared operator. -/
theorem contract_tail (r : Run R) (hq : ∀ l, (r.queue l).Perm l) (hie : ∀ l, (r.ie l).Perm l)
    (hnl : ∀ l, (r.nodes l).Perm l) (halg : ∀ k l, 2 ≤ l.length → PathOK l.length (r.alg k l))
    {h : Heap R} (w : WF h) {q : QuOp} {N : List NId} (ok : QuOK h q N) {o : List EId}
    (ho : o.Nodup) (hoe : ∀ e, e ∈ o ↔ OpenEdge h N e) :
    ∃ fuel₀ ns f h', (∀ fuel ≥ fuel₀, quNodes { r with fuel := fuel } q h = (.ok (some ns), h)) ∧
      (o ≠ [] → base r.fo r.ie r.nodes r.alg ns (some o) false h = (.ok f, h')) ∧
      (o = [] → base r.fo r.ie r.nodes r.alg ns none true h = (.ok f, h')) ∧
      WF h' ∧ f < h'.nn ∧ (h'.node f).edges = o ∧ (∀ e ∈ o, (h'.edge e).dangling = true) ∧
      IsValue h N o (h'.node f).tensor := by
  have hmem : ∀ e, e ∈ q.ign ∨ e ∈ q.out ∨ e ∈ q.inn → OpenEdge h N e := by
    intro e he
    rw [← ok.edges]
    simp only [List.mem_append]
    tauto
  obtain ⟨fuel₀, ns, h1, h2, h3⟩ := quNodes_run r hq w ok.ne ok.lt ok.closed ok.refs (q := q)
    (fun e he => hmem e (by simp only [List.mem_append] at he; tauto))
  have hlt : ∀ n ∈ ns, n < h.nn := fun n hn => ok.lt n ((h3 n).1 hn)
  have hcl := closed_congr (fun n => (h3 n).symm) ok.closed
  have hnd : ns.dedup = ns := h2.dedup
  have hof : ∀ e, OpenFor h ns.dedup e ↔ e ∈ o := by
    intro e
    rw [hnd, openFor_iff w h2 hlt hcl, dangling_congr h3, hoe]
  have hne : ns ≠ [] := by
    obtain ⟨n, hn⟩ := List.exists_mem_of_ne_nil _ ok.ne
    exact List.ne_nil_of_mem ((h3 n).2 hn)
  have hp : ns.Perm N := (List.perm_ext_iff_of_nodup h2 ok.nodup).2 h3
  have key : ∀ f h', FullContraction h h' ns.dedup f → (h'.node f).edges = o →
      WF h' ∧ f < h'.nn ∧ (h'.node f).edges = o ∧ (∀ e ∈ o, (h'.edge e).dangling = true) ∧
      IsValue h N o (h'.node f).tensor := by
    intro f h' fc he
    refine ⟨graphOK_iff.1 fc.ok, fc.final.1, he, fun e heo => ?_, ?_, fun ix hix => ?_⟩
    · obtain ⟨hd, t, _, hat⟩ := (hoe e).1 heo
      have h4 := (hof e).2 heo
      rw [OpenFor] at h4
      rw [(fc.kept e (current_iff.2 hat.inUse) (by omega)).2.1, hd]
    · have := fc.shape (fun n hn => hlt n (List.mem_dedup.1 hn))
      rw [he] at this
      exact this
    · have h4 := fc.entry (assign (fun _ => 0) o ix) (fun e h5 => assign_lt ho hix ((hof e).1 h5))
      rw [he, val, assign_map_self ho (by simpa using hix.length)] at h4
      rw [h4, hnd]
      exact netVal_perm (netOf_perm h hp) (w.consistent hlt) _
  by_cases hoz : o = []
  · obtain ⟨f, h', h4, h5, _⟩ := C10_full_contraction r.fo (graphOK_iff.2 w) hne hlt hie hnl halg
      (order := none) (ignore := true) (by simp)
    refine ⟨fuel₀, ns, f, h', h1, fun h => absurd hoz h, fun _ => h4, key f h' h5 ?_⟩
    rw [hoz, List.eq_nil_iff_forall_not_mem]
    intro e he
    have := (hof e).1 ((h5.edges e).1 he)
    rw [hoz] at this
    simp at this
  · obtain ⟨f, h', h4, h5, h6⟩ := C10_full_contraction r.fo (graphOK_iff.2 w) hne hlt hie hnl halg
      (order := some o) (ignore := false) (fun _ => ⟨ho, fun e => (hof e).symm⟩)
    exact ⟨fuel₀, ns, f, h', h1, fun _ => h4, fun h => absurd h hoz, key f h' h5 (h6 o rfl rfl)⟩

/-- The final node is the only node of the contracted operator. -/
theorem final_nodes (r : Run R) (hq : ∀ l, (r.queue l).Perm l) {h : Heap R} (w : WF h) {q : QuOp} {f : NId}
    (hf : f < h.nn) (hd : ∀ e ∈ (h.node f).edges, (h.edge e).dangling = true) (hr : q.refs = [f])
    (he : ∀ e ∈ q.out ++ q.inn, e ∈ (h.node f).edges) :
    ∃ fuel₀, ∀ fuel ≥ fuel₀, quNodes { r with fuel := fuel } q h = (.ok (some [f]), h) := by
  have hc : ClosedNet h [f] := by
    intro s s' e h1 h2 h3
    simp only [List.mem_singleton] at h3 ⊢
    have h4 : e ∈ (h.node f).edges := h3 ▸ h1.mem
    have h5 := hd e h4
    rcases w.good h1.inUse with ⟨n', a', hr⟩ | ⟨n', a', m', b', hr⟩
    · rw [(at_dang w h1.inUse hr).1 h2, ← (at_dang w h1.inUse hr).1 h1, h3]
    · rw [hr] at h5; simp at h5
  obtain ⟨fuel₀, ns, h1, h2, h3⟩ := quNodes_run r hq w (q := q) (N := [f]) (by simp) (by simpa using hf) hc
    (by simp [hr]) (fun e h4 => ⟨hd e (he e h4), _, by simp, at_of_mem hf (he e h4)⟩)
  refine ⟨fuel₀, fun fuel hfu => ?_⟩
  have : ns = [f] := by
    have hp : ns.Perm [f] := (List.perm_ext_iff_of_nodup h2 (by simp)).2 h3
    exact List.perm_singleton.1 hp
  rw [h1 fuel hfu, this]

/-- **C42.**  Eliminating the identities of a network, in whatever order the nodes are visited, leaves the
same network, with some dangling edges renamed. -/
theorem C42_network {copy : NId → Bool} {h : Heap R} (g : GraphOK h) {N : List NId} (hne : N ≠ [])
    (hN : ∀ n ∈ N, n < h.nn) (hnd : N.Nodup) (hcl : ClosedNet h N)
    (hdel : ∀ n ∈ N, Ident copy h n → ∃ d, IsDelta (h.node n).tensor d) :
    ∃ (s : ElimState) (h' : Heap R) (ρ : EId → EId), eliminateIdentities copy N h = (.ok s, h') ∧ GraphOK h' ∧
      (∀ e, OpenEdge h N e → OpenEdge h' (s.nodes.map Prod.snd) (ρ e) ∧ edim h' (ρ e) = edim h e) ∧
      (∀ e f, OpenEdge h N e → OpenEdge h N f → ρ e = ρ f → e = f) ∧
      (∀ f, OpenEdge h' (s.nodes.map Prod.snd) f → ∃ e, OpenEdge h N e ∧ ρ e = f) ∧
      ∀ σ : EId → Nat, (∀ f, OpenEdge h' (s.nodes.map Prod.snd) f → σ f < edim h' f) →
        netVal (netOf h' (s.nodes.map Prod.snd)) σ = netVal (netOf h N) (fun e => σ (ρ e)) := by
  obtain ⟨s, h', ρ, h1, h2, _⟩ := eliminate_run (graphOK_iff.1 g) hne hN hnd hcl hdel
  exact ⟨s, h', ρ, h1, graphOK_iff.2 h2.wf, h2.maps, h2.inj, h2.onto, h2.value⟩

/-- **C42, partial.**  `eval` of an operator that lists all its nodes as reference nodes gives the value of
its network, with the axes in the order of the given edges, whatever order the nodes are visited in, if no
identity with a dangling edge is joined to an identity that is joined to a further node.  Missing: operators
with longer chains of identities (`C42_chain_false`) or fewer reference nodes (`C42_refs_false`). -/
theorem C42_eval_partial (r : Run R) (hq : ∀ l, (r.queue l).Perm l) (hv : ∀ l, (r.vis l).Perm l)
    (hie : ∀ l, (r.ie l).Perm l) (hnl : ∀ l, (r.nodes l).Perm l)
    (halg : ∀ k l, 2 ≤ l.length → PathOK l.length (r.alg k l))
    {h : Heap R} (g : GraphOK h) {q : QuOp} {N : List NId} (ok : QuOK h q N)
    (hdel : ∀ n ∈ N, Ident r.copy h n → ∃ d, IsDelta (h.node n).tensor d) (hnc : NoChain r.copy h N)
    {order : List EId} (hord : order = [] ∨ order.Perm (q.ign ++ q.out ++ q.inn)) :
    ∃ fuel₀ t h', (∀ fuel ≥ fuel₀, quEval { r with fuel := fuel } q order h = (.ok (some t), h')) ∧
      IsValue h N (evalOrder q order) t := by
  have w := graphOK_iff.1 g
  obtain ⟨o, ho⟩ : ∃ o, o = evalOrder q order := ⟨_, rfl⟩
  have hop : o.Perm (q.ign ++ q.out ++ q.inn) := by
    rw [ho, evalOrder]
    split_ifs with h1
    · exact List.Perm.refl _
    · exact hord.resolve_left h1
  have hoe : ∀ e, e ∈ o ↔ OpenEdge h N e := fun e => hop.mem_iff.trans (ok.edges e)
  have hond : o.Nodup := hop.nodup_iff.2 ok.edup
  obtain ⟨fuel₁, q', d, h1, N', ρ, hr1, sn, ok', hd, e1, e2, e3⟩ := quPrepare_run r hq hv w ok hdel hnc
  have hond' : (o.map ρ).Nodup := List.Nodup.map_on (fun e he f hf hef =>
    sn.inj e f ((hoe e).1 he) ((hoe f).1 hf) hef) hond
  have hoe' : ∀ e, e ∈ o.map ρ ↔ OpenEdge h1 N' e := by
    intro f
    rw [List.mem_map]
    constructor
    · rintro ⟨e, h4, rfl⟩
      exact (sn.maps e ((hoe e).1 h4)).1
    · intro hf
      obtain ⟨e, h4, h5⟩ := sn.onto f hf
      exact ⟨e, (hoe e).2 h4, h5⟩
  obtain ⟨fuel₂, ns, f, h2, hr2, hb1, hb2, w2, hf, hfe, hfd, hval⟩ := contract_tail r hq hie hnl halg sn.wf ok'
    hond' hoe'
  obtain ⟨fuel₃, hr3⟩ := final_nodes r hq w2 (q := { q' with refs := [f] }) hf (by rw [hfe]; exact hfd) rfl
    (fun e he => by
      rw [hfe, hoe', ← ok'.edges]
      simp only [List.mem_append] at he ⊢
      tauto)
  have hlook : lookups d o h1 = (.ok (o.map ρ), h1) := lookups_run o fun e he => hd e ((hoe e).1 he)
  refine ⟨max fuel₁ (max fuel₂ fuel₃), (h2.node f).tensor, h2, fun fuel hfu => ?_, ?_⟩
  · have hcon : quContract { r with fuel := fuel } q o h = (.ok (some { q' with refs := [f] }), h2) := by
      unfold quContract
      rw [M.bind_ok (hr1 fuel (by omega))]
      simp only
      by_cases hoz : o = []
      · rw [if_neg (by simpa using hoz), M.bind_ok (hr2 fuel (by omega))]
        simp only
        rw [M.bind_ok (hb2 (by rw [hoz]; rfl))]
        rfl
      · rw [if_pos hoz, M.bind_ok hlook, M.bind_ok (hr2 fuel (by omega))]
        simp only
        rw [M.bind_ok (hb1 (by simpa using hoz))]
        rfl
    unfold quEval
    rw [← ho, M.bind_ok hcon]
    simp only
    rw [M.bind_ok (hr3 fuel (by omega))]
    rfl
  · rw [← ho]
    have hdim : (o.map ρ).map (edim h1) = o.map (edim h) := by
      rw [List.map_map]
      exact List.map_congr_left fun e he => (sn.maps e ((hoe e).1 he)).2
    refine ⟨by rw [hval.1, hdim], fun ix hix => ?_⟩
    have hlen : ix.length = o.length := by simpa using hix.length
    rw [hval.2 ix (by rw [hdim]; exact hix), sn.value _ (fun f' hf' => ?_)]
    · refine netVal_congr' w ok.nodup ok.lt ok.closed fun e he => ?_
      have heo := (hoe e).2 he
      have h5 := assign_map_self (σ := fun _ => 0) hond' (c := ix) (by simpa using hlen)
      have h6 := assign_map_self (σ := fun _ => 0) hond (c := ix) hlen
      rw [List.map_map] at h5
      have h7 := h5.trans h6.symm
      exact (List.map_inj_left.1 h7) e heo
    · exact assign_lt hond' (by rw [hdim]; exact hix) ((hoe' f').2 hf')

/-- The result does not depend on the orders in which sets are visited, nor on the contraction path. -/
theorem C42_order_partial (r r' : Run R) (hc : r'.copy = r.copy)
    (hq : ∀ l, (r.queue l).Perm l) (hv : ∀ l, (r.vis l).Perm l)
    (hie : ∀ l, (r.ie l).Perm l) (hnl : ∀ l, (r.nodes l).Perm l)
    (halg : ∀ k l, 2 ≤ l.length → PathOK l.length (r.alg k l))
    (hq' : ∀ l, (r'.queue l).Perm l) (hv' : ∀ l, (r'.vis l).Perm l)
    (hie' : ∀ l, (r'.ie l).Perm l) (hnl' : ∀ l, (r'.nodes l).Perm l)
    (halg' : ∀ k l, 2 ≤ l.length → PathOK l.length (r'.alg k l))
    {h : Heap R} (g : GraphOK h) {q : QuOp} {N : List NId} (ok : QuOK h q N)
    (hdel : ∀ n ∈ N, Ident r.copy h n → ∃ d, IsDelta (h.node n).tensor d) (hnc : NoChain r.copy h N)
    {order : List EId} (hord : order = [] ∨ order.Perm (q.ign ++ q.out ++ q.inn)) :
    ∃ fuel₀ t h₁ t' h₂, (∀ fuel ≥ fuel₀, quEval { r with fuel := fuel } q order h = (.ok (some t), h₁)) ∧
      (∀ fuel ≥ fuel₀, quEval { r' with fuel := fuel } q order h = (.ok (some t'), h₂)) ∧
      t.shape = t'.shape ∧ ∀ ix, InB t.shape ix → t.get ix = t'.get ix := by
  obtain ⟨f1, t, h1, a1, a2, a3⟩ := C42_eval_partial r hq hv hie hnl halg g ok hdel hnc hord
  obtain ⟨f2, t', h2, b1, b2, b3⟩ := C42_eval_partial r' hq' hv' hie' hnl' halg' g ok (by rw [hc]; exact hdel)
    (by rw [hc]; exact hnc) hord
  refine ⟨max f1 f2, t, h1, t', h2, fun fuel hf => a1 fuel (by omega), fun fuel hf => b1 fuel (by omega),
    a2.trans b2.symm, fun ix hix => ?_⟩
  rw [a2] at hix
  rw [a3 ix hix, b3 ix hix]

end TN.Graph
