import Verif.Json
import Mathlib.Data.List.Sort

/-!
# Writing networks to HDF5 files and reading them back (utils.py:28-125)

The file is modelled as the groups and data sets that `save_nodes` creates.  A group name
`node{i}` or `edge{i}` is modelled by the number `i` (the formatting is injective); the groups of a
file are listed in alphabetical order.  All nodes are plain nodes.
-/

namespace TN.Graph

open TN

set_option linter.unusedSectionVars false

variable {R T : Type}

/-- The group of a node (network_components.py:469-492, 701-708).  An empty list of axis names is
stored as a number, here `none`. -/
structure H5Node (T : Type) where
  key : Nat
  axes : Option (List String)
  tensor : T

/-- The file.  Edges are stored with the names of their nodes (network_components.py:1177-1189). -/
structure H5File (T : Type) where
  nodes : List (H5Node T)
  nodeNames : List String
  edges : List EdgeDoc
  edgeNames : List String

/-- `x.set_name(name)` for a list of objects and names. -/
def setNames (f : Nat → String) (l : List (Nat × String)) : Nat → String :=
  l.foldl (fun f p => Function.update f p.1 p.2) f

/-- The two loops over the nodes and their edges (utils.py:73-80), as one loop over the pairs of a
node and an edge: the edges left in `edges` and the groups created.  The first node of an edge is
one of `nodes`, so is the second one if there is one: their names are `node{i}`. -/
def saveEdges (nm : Names) (nodes : List NId) (key : EId → Nat) :
    List (NId × EId) → List EId → M R (List EId × List EdgeDoc)
  | [], rest => pure (rest, [])
  | (n, e) :: ps, rest => do
    let n1 ← node1 e
    if n1 = n ∧ e ∈ rest then do
      let h ← M.get
      let r ← saveEdges nm nodes key ps (rest.erase e)
      pure (r.1, docOf h nm nodes (e, key e) :: r.2)
    else saveEdges nm nodes key ps rest

/-- `save_nodes(nodes, path)` (utils.py:28-87): the file and the names afterwards.  `ie` is the
order in which the set of edges is iterated. -/
def saveNodes (fuel : Nat) (inn ie : List Nat → List Nat) (ser : NDArray R → T) (nm : Names)
    (nodes : List NId) : M R (Option (H5File T × Names)) := do
  match ← reachable fuel inn (nodes.map .inl) with
  | none => pure none
  | some r =>
    if (∀ n ∈ nodes, n ∈ r) ∧ ∃ m ∈ r, m ∉ nodes then M.throw .valueError
    else if ¬ nodes.Nodup then M.throw .valueError
    else do
      let h ← M.get
      let es := ie (allEdges h nodes)
      let oldEdges := es.map nm.edge
      let oldNodes := nodes.map nm.node
      let nm1 : Names := { nm with
        node := setNames nm.node (nodes.zipIdx.map fun p => (p.1, s!"node{p.2}"))
        edge := setNames nm.edge (es.zipIdx.map fun p => (p.1, s!"edge{p.2}")) }
      let p ← saveEdges nm1 nodes es.idxOf
        (nodes.flatMap fun n => (h.node n).edges.map fun e => (n, e)) es
      let nm2 : Names := { nm1 with
        node := setNames nm1.node (nodes.zip oldNodes)
        edge := setNames nm1.edge (p.1.zip oldEdges) }
      pure (some (⟨nodes.zipIdx.map fun p =>
        ⟨p.2, if (nm.axes p.1).isEmpty then none else some (nm.axes p.1), ser (h.node p.1).tensor⟩,
        oldNodes, p.2, oldEdges⟩, nm2))

/-- The alphabetical order of the groups `node{i}`. -/
def alpha {α : Type} (key : α → Nat) (l : List α) : List α :=
  l.insertionSort fun a b => Nat.toDigits 10 (key a) ≤ Nat.toDigits 10 (key b)

/-- `Node._load_node` (network_components.py:451-466, 710-727) for all nodes (utils.py:111-115): a
number is not read as a string. -/
def loadH5Nodes (deser : T → NDArray R) :
    List (H5Node T) → Names → M R (List (Nat × NId) × Names)
  | [], nm => pure ([], nm)
  | d :: ds, nm => do
    match d.axes with
    | none => M.throw .typeError
    | some ax => do
      let p ← loadNode deser ⟨d.key, s!"node{d.key}", ax, d.tensor⟩ nm
      let r ← loadH5Nodes deser ds p.2
      pure ((d.key, p.1) :: r.1, r.2)

/-- `for x in xs: x.set_name(names[x.name])` (utils.py:120-123), the name of `x` being its group. -/
def renameAll (f : Nat → String) (names : List String) : List (Nat × Nat) → M R (Nat → String)
  | [] => pure f
  | (key, x) :: l => do
    match names[key]? with
    | none => M.throw .keyError
    | some s => renameAll (Function.update f x s) names l

/-- `load_nodes(path)` (utils.py:90-125). -/
def loadFile (deser : T → NDArray R) (f : H5File T) (nm : Names) : M R (List NId × Names) := do
  let p ← loadH5Nodes deser (alpha H5Node.key f.nodes) nm
  let q ← loadEdges false p.1 (alpha EdgeDoc.id f.edges) p.2
  let ed ← renameAll q.2.edge f.edgeNames q.1
  let nd ← renameAll q.2.node f.nodeNames p.1
  pure (p.1.map Prod.snd, { q.2 with node := nd, edge := ed })

/-! ### Setting names -/

theorem setNames_of_not_mem : ∀ {l : List (Nat × String)} {f : Nat → String} {x : Nat},
    x ∉ l.map Prod.fst → setNames f l x = f x := by
  intro l
  induction l with
  | nil => intros; rfl
  | cons a l ih =>
    intro f x hx
    rw [List.map_cons, List.mem_cons, not_or] at hx
    refine (ih (f := Function.update f a.1 a.2) hx.2).trans ?_
    exact Function.update_of_ne hx.1 _ _

theorem setNames_of_mem : ∀ {l : List (Nat × String)} {f : Nat → String} {x : Nat} {s : String},
    (l.map Prod.fst).Nodup → (x, s) ∈ l → setNames f l x = s := by
  intro l
  induction l with
  | nil => intro f x s _ h; simp at h
  | cons a l ih =>
    intro f x s hnd hx
    rw [List.map_cons, List.nodup_cons] at hnd
    rcases List.mem_cons.1 hx with rfl | hx
    · refine (setNames_of_not_mem (f := Function.update f x s) hnd.1).trans ?_
      exact Function.update_self _ _ _
    · exact ih (f := Function.update f a.1 a.2) hnd.2 hx

theorem renameAll_ok {k : Heap R} {names : List String} : ∀ {l : List (Nat × Nat)}
    {f : Nat → String}, (∀ p ∈ l, p.1 < names.length) → (l.map Prod.snd).Nodup →
    ∃ f', renameAll f names l k = (.ok f', k) ∧ (∀ x, x ∉ l.map Prod.snd → f' x = f x) ∧
      ∀ p ∈ l, names[p.1]? = some (f' p.2) := by
  intro l
  induction l with
  | nil => intro f _ _; exact ⟨f, rfl, fun _ _ => rfl, by simp⟩
  | cons a l ih =>
    intro f hl hnd
    rw [List.map_cons, List.nodup_cons] at hnd
    have ha := hl a (by simp)
    obtain ⟨f', h1, h2, h3⟩ := ih (f := Function.update f a.2 names[a.1])
      (fun p hp => hl p (by simp [hp])) hnd.2
    refine ⟨f', ?_, ?_, ?_⟩
    · obtain ⟨key, x⟩ := a
      unfold renameAll
      simp only at ha
      rw [List.getElem?_eq_getElem ha]
      exact h1
    · intro x hx
      rw [List.map_cons, List.mem_cons, not_or] at hx
      rw [h2 x hx.2, Function.update_of_ne hx.1]
    · intro p hp
      rcases List.mem_cons.1 hp with rfl | hp
      · rw [h2 _ hnd.1, Function.update_self, List.getElem?_eq_getElem ha]
      · exact h3 p hp

/-! ### Saving -/

variable {h k : Heap R} {nodes : List NId} {c : NId → NId} {E : EId → EId}

theorem saveEdges_ok (w : WF h) {nm : Names} {key : EId → Nat} :
    ∀ (ps : List (NId × EId)) (rest : List EId), rest.Nodup →
    (∀ p ∈ ps, p.1 < h.nn ∧ p.2 ∈ (h.node p.1).edges) →
    ∃ rest' out, saveEdges nm nodes key ps rest h =
        (.ok (rest', out.map fun e => docOf h nm nodes (e, key e)), h) ∧
      (rest' ++ out).Perm rest ∧ ∀ p ∈ ps, (h.edge p.2).node1 = some p.1 → p.2 ∉ rest' := by
  intro ps
  induction ps with
  | nil => intro rest _ _; exact ⟨rest, [], rfl, by simp, by simp⟩
  | cons p ps ih =>
    obtain ⟨n, e⟩ := p
    intro rest hnd hps
    have hu := inUse_of_mem (hps (n, e) (by simp)).1 (hps (n, e) (by simp)).2
    have hps' : ∀ p ∈ ps, p.1 < h.nn ∧ p.2 ∈ (h.node p.1).edges :=
      fun p hp => hps p (by simp [hp])
    obtain ⟨n1, hn1, hr⟩ : ∃ n1, (h.edge e).node1 = some n1 ∧ node1 e h = (.ok n1, h) := by
      rcases w.good hu with ⟨n1, a, hr⟩ | ⟨n1, a, m, b, hr⟩
      · exact ⟨n1, by rw [hr], node1_dang hr⟩
      · exact ⟨n1, by rw [hr], node1_conn hr⟩
    have hstart : saveEdges nm nodes key ((n, e) :: ps) rest h =
        (if n1 = n ∧ e ∈ rest then do
          let h ← M.get
          let r ← saveEdges nm nodes key ps (rest.erase e)
          pure (r.1, docOf h nm nodes (e, key e) :: r.2)
        else saveEdges nm nodes key ps rest : M R _) h := by
      conv_lhs => unfold saveEdges
      exact M.bind_ok hr
    by_cases hc : n1 = n ∧ e ∈ rest
    · rw [if_pos hc] at hstart
      obtain ⟨rest', out, h1, h2, h3⟩ := ih (rest.erase e) (hnd.erase e) hps'
      refine ⟨rest', e :: out, ?_, ?_, ?_⟩
      · rw [hstart, M.bind_ok (show M.get h = (.ok h, h) from rfl)]
        exact (M.bind_ok h1).trans rfl
      · refine List.perm_middle.trans ?_
        exact (h2.cons e).trans (List.perm_cons_erase hc.2).symm
      · intro p hp hp1
        rcases List.mem_cons.1 hp with rfl | hp
        · intro hmem
          have : e ∈ rest.erase e := h2.subset (List.mem_append_left _ hmem)
          exact (hnd.not_mem_erase) this
        · exact h3 p hp hp1
    · rw [if_neg hc] at hstart
      obtain ⟨rest', out, h1, h2, h3⟩ := ih rest hnd hps'
      refine ⟨rest', out, hstart.trans h1, h2, ?_⟩
      intro p hp hp1
      rcases List.mem_cons.1 hp with rfl | hp
      · intro hmem
        refine hc ⟨?_, h2.subset (List.mem_append_left _ hmem)⟩
        rw [hn1] at hp1
        exact Option.some.inj hp1
      · exact h3 p hp hp1

/-- No edge of the network ends at another node. -/
def Closed (h : Heap R) (nodes : List NId) : Prop := ∀ n ∈ nodes, ∀ m, Adjacent h n m → m ∈ nodes

theorem Closed.connected (hc : Closed h nodes) {n m : NId} (hn : n ∈ nodes)
    (x : Connected h n m) : m ∈ nodes := by
  induction x with
  | refl => exact hn
  | tail _ a ih => exact hc _ ih _ a

theorem Closed.first (w : WF h) (hc : Closed h nodes) (hlt : ∀ n ∈ nodes, n < h.nn) {n : NId}
    (hn : n ∈ nodes) {e : EId} (he : e ∈ (h.node n).edges) {m : NId}
    (hm : (h.edge e).node1 = some m) : m ∈ nodes ∧ e ∈ (h.node m).edges := by
  have hu := inUse_of_mem (hlt n hn) he
  have hat : ∃ a, At h (m, a) e := by
    rcases w.good hu with ⟨n1, a, hr⟩ | ⟨n1, a, m1, b, hr⟩
    · rw [hr] at hm
      cases hm
      exact ⟨a, (at_dang w hu hr).2 rfl⟩
    · rw [hr] at hm
      cases hm
      exact ⟨a, (at_conn w hu hr).2 (.inl rfl)⟩
  obtain ⟨a, ha⟩ := hat
  have hem : e ∈ (h.node m).edges := List.mem_of_getElem? ha.2
  exact ⟨hc n hn m ⟨hlt n hn, ha.1, e, he, hem⟩, hem⟩

theorem saveNodes_run (g : GraphOK h) (hne : nodes ≠ []) (hlt : ∀ n ∈ nodes, n < h.nn)
    (hnd : nodes.Nodup) (hcl : Closed h nodes) {inn ie : List Nat → List Nat}
    (hinn : ∀ l, (inn l).Perm l) (hie : ∀ l, (ie l).Perm l) (ser : NDArray R → T) (nm : Names) :
    ∃ (es out : List EId) (nm1 nm2 : Names) (fuel₀ : Nat), es = ie (allEdges h nodes) ∧
      out.Perm es ∧
      (∀ n, nm2.node n = nm.node n) ∧ nm2.axes = nm.axes ∧ nm2.edge = nm1.edge ∧
      (∀ i (hi : i < es.length), nm1.edge es[i] = s!"edge{i}") ∧
      (∀ e ∉ es, nm1.edge e = nm.edge e) ∧
      ∀ fuel ≥ fuel₀, saveNodes fuel inn ie ser nm nodes h =
        (.ok (some (⟨nodes.zipIdx.map fun p => ⟨p.2, if (nm.axes p.1).isEmpty then none
            else some (nm.axes p.1), ser (h.node p.1).tensor⟩, nodes.map nm.node,
          out.map fun e => docOf h nm1 nodes (e, es.idxOf e), es.map nm.edge⟩, nm2)), h) := by
  have w := graphOK_iff.1 g
  obtain ⟨fuel₀, r, hr1, hr2, hr3⟩ := C15_reachable g (inputs := nodes.map .inl)
    (by simpa using hne) hinn (by
      intro n hn
      obtain ⟨m, hm, hmn⟩ := List.mem_map.1 hn
      cases hmn
      exact hlt n hm) (by
      intro e he
      obtain ⟨m, hm, hmn⟩ := List.mem_map.1 he
      cases hmn)
  have hrmem : ∀ m ∈ r, m ∈ nodes := by
    intro m hm
    obtain ⟨i, hi, hconn⟩ := (hr3 m).1 hm
    obtain ⟨n, hn, rfl⟩ := List.mem_map.1 hi
    exact hcl.connected hn hconn
  obtain ⟨es, hes⟩ : ∃ es, es = ie (allEdges h nodes) := ⟨_, rfl⟩
  have hmem : ∀ e, e ∈ es ↔ ∃ n ∈ nodes, e ∈ (h.node n).edges := by
    intro e
    rw [hes, (hie _).mem_iff, allEdges, List.mem_dedup, List.mem_flatMap]
  have hnde : es.Nodup := by rw [hes]; exact (hie _).nodup_iff.2 (List.nodup_dedup _)
  obtain ⟨nm1, hnm1⟩ : ∃ nm1 : Names, nm1 = { nm with
        node := setNames nm.node (nodes.zipIdx.map fun p => (p.1, s!"node{p.2}"))
        edge := setNames nm.edge (es.zipIdx.map fun p => (p.1, s!"edge{p.2}")) } := ⟨_, rfl⟩
  obtain ⟨rest, out, h1, h2, h3⟩ := saveEdges_ok (nodes := nodes) (nm := nm1) (key := es.idxOf) w
    (nodes.flatMap fun n => (h.node n).edges.map fun e => (n, e)) es hnde (by
      intro p hp
      obtain ⟨n, hn, hp⟩ := List.mem_flatMap.1 hp
      obtain ⟨e, he, rfl⟩ := List.mem_map.1 hp
      exact ⟨hlt n hn, he⟩)
  have hrest : rest = [] := by
    refine List.eq_nil_iff_forall_not_mem.2 fun e he => ?_
    have hees := h2.subset (List.mem_append_left _ he)
    obtain ⟨n, hn, hen⟩ := (hmem e).1 hees
    have hu := inUse_of_mem (hlt n hn) hen
    obtain ⟨m, hm⟩ : ∃ m, (h.edge e).node1 = some m := by
      rcases w.good hu with ⟨n1, a, hr⟩ | ⟨n1, a, m1, b, hr⟩ <;> exact ⟨n1, by rw [hr]⟩
    obtain ⟨q1, q2⟩ := hcl.first w hlt hn hen hm
    exact h3 (m, e) (List.mem_flatMap.2 ⟨m, q1, List.mem_map.2 ⟨e, q2, rfl⟩⟩) hm he
  subst hrest
  rw [List.nil_append] at h2
  have hf1 : (es.zipIdx.map fun p => (p.1, s!"edge{p.2}")).map Prod.fst = es := by
    rw [List.map_map]
    exact List.zipIdx_map_fst 0 es
  have hf2 : (nodes.zipIdx.map fun p => (p.1, s!"node{p.2}")).map Prod.fst = nodes := by
    rw [List.map_map]
    exact List.zipIdx_map_fst 0 nodes
  have hz : (nodes.zip (nodes.map nm.node)).map Prod.fst = nodes :=
    List.map_fst_zip (by simp)
  refine ⟨es, out, nm1, { nm1 with
        node := setNames nm1.node (nodes.zip (nodes.map nm.node))
        edge := setNames nm1.edge (([] : List EId).zip (es.map nm.edge)) }, fuel₀, hes, h2, ?_,
    by rw [hnm1], rfl, ?_, ?_, ?_⟩
  · intro n
    simp only
    by_cases hn : n ∈ nodes
    · refine setNames_of_mem (by rw [hz]; exact hnd) ?_
      rw [← List.map_prod_left_eq_zip]
      exact List.mem_map.2 ⟨n, hn, rfl⟩
    · rw [setNames_of_not_mem (by rw [hz]; exact hn), hnm1]
      exact setNames_of_not_mem (by rw [hf2]; exact hn)
  · intro i hi
    rw [hnm1]
    refine setNames_of_mem (by rw [hf1]; exact hnde) ?_
    refine List.mem_map.2 ⟨(es[i], i), ?_, rfl⟩
    rw [List.mem_zipIdx_iff_getElem?]
    simp [hi]
  · intro e he
    rw [hnm1]
    exact setNames_of_not_mem (by rw [hf1]; exact he)
  · intro fuel hfuel
    unfold saveNodes
    refine (M.bind_ok (hr1 fuel hfuel)).trans ?_
    simp only
    rw [if_neg, if_neg (by simpa using hnd), M.bind_ok (show M.get h = (.ok h, h) from rfl)]
    · simp only [← hes, ← hnm1]
      refine (M.bind_ok h1).trans ?_
      rw [hnm1]
      rfl
    · rintro ⟨-, m, hm, hm'⟩
      exact hm' (hrmem m hm)

/-! ### Saving changes no node name, and every edge name -/

/-- `save_nodes` on distinct nodes of a consistent graph that are joined among themselves only
stops, changes no node, no edge and no tensor, and gives the nodes their names back.  It does *not*
give the edges their names back: afterwards the edges of the network are called `edge0`, `edge1`,
… (`edges[i]` being the `i`-th edge in the order of the set). -/
theorem C20_save_partial (g : GraphOK h) (hne : nodes ≠ []) (hlt : ∀ n ∈ nodes, n < h.nn)
    (hnd : nodes.Nodup) (hcl : Closed h nodes) {inn ie : List Nat → List Nat}
    (hinn : ∀ l, (inn l).Perm l) (hie : ∀ l, (ie l).Perm l) (ser : NDArray R → T) (nm : Names) :
    ∃ (f : H5File T) (nm' : Names) (fuel₀ : Nat),
      (∀ fuel ≥ fuel₀, saveNodes fuel inn ie ser nm nodes h = (.ok (some (f, nm')), h)) ∧
      nm'.node = nm.node ∧ nm'.axes = nm.axes ∧
      (∀ e, (∀ n ∈ nodes, e ∉ (h.node n).edges) → nm'.edge e = nm.edge e) ∧
      ∀ n ∈ nodes, ∀ e ∈ (h.node n).edges, ∃ i : Nat, nm'.edge e = s!"edge{i}" := by
  obtain ⟨es, out, nm1, nm2, fuel₀, hes, h1, h2, h3, h4, h5, h6, h7⟩ :=
    saveNodes_run g hne hlt hnd hcl hinn hie ser nm
  have hmem : ∀ e, e ∈ es ↔ ∃ n ∈ nodes, e ∈ (h.node n).edges := by
    intro e
    rw [hes, (hie _).mem_iff, allEdges, List.mem_dedup, List.mem_flatMap]
  refine ⟨_, nm2, fuel₀, h7, funext h2, h3, ?_, ?_⟩
  · intro e he
    rw [h4]
    refine h6 e fun hc => ?_
    obtain ⟨n, hn, hen⟩ := (hmem e).1 hc
    exact he n hn hen
  · intro n hn e he
    obtain ⟨i, hi, rfl⟩ := List.mem_iff_getElem.1 ((hmem e).2 ⟨n, hn, he⟩)
    exact ⟨i, by rw [h4, h5 i hi]⟩

theorem pair_closed : Closed pair [0, 1] := by
  rintro n - m ⟨-, h2, -⟩
  have : m < 2 := h2
  have : m = 0 ∨ m = 1 := by omega
  rcases this with rfl | rfl <;> simp

example := C20_save_partial (T := NDArray Nat) (nodes := [0, 1]) pair_ok (by simp) (by decide)
  (by decide) pair_closed (inn := id) (ie := id) (fun l => List.Perm.refl l)
  (fun l => List.Perm.refl l) id (plainNames pair)

/-- Saving the two nodes of `pair` renames the edge called `e6`, whatever the order of the set. -/
theorem C20_edge_names_false {inn ie : List Nat → List Nat} (hinn : ∀ l, (inn l).Perm l)
    (hie : ∀ l, (ie l).Perm l) : ∃ (f : H5File (NDArray Nat)) (nm' : Names) (fuel₀ : Nat),
      (∀ fuel ≥ fuel₀, saveNodes fuel inn ie id (plainNames pair) [0, 1] pair =
        (.ok (some (f, nm')), pair)) ∧
      (plainNames pair).edge 6 = "e6" ∧ nm'.edge 6 ≠ "e6" := by
  obtain ⟨f, nm', fuel₀, h1, -, -, -, h2⟩ := C20_save_partial (nodes := [0, 1]) pair_ok (by simp)
    (by decide) (by decide) pair_closed hinn hie id (plainNames pair)
  obtain ⟨i, hi⟩ := h2 0 (by simp) 6 (by decide)
  refine ⟨f, nm', fuel₀, h1, rfl, ?_⟩
  rw [hi]
  intro hc
  have := congrArg (fun s : String => s.toList[1]?) hc
  simp only [String.toList_append] at this
  rw [List.getElem?_append_left (by decide)] at this
  revert this
  decide

/-- A network that is joined to other nodes, or given with a node twice, is not saved. -/
theorem C20_save_raises (g : GraphOK h) (hne : nodes ≠ []) (hlt : ∀ n ∈ nodes, n < h.nn)
    (hbad : ¬ nodes.Nodup ∨ ¬ Closed h nodes) {inn ie : List Nat → List Nat}
    (hinn : ∀ l, (inn l).Perm l) (ser : NDArray R → T) (nm : Names) :
    ∃ fuel₀, ∀ fuel ≥ fuel₀, saveNodes fuel inn ie ser nm nodes h = (.error .valueError, h) := by
  obtain ⟨fuel₀, r, hr1, hr2, hr3⟩ := C15_reachable g (inputs := nodes.map .inl)
    (by simpa using hne) hinn (by
      intro n hn
      obtain ⟨m, hm, hmn⟩ := List.mem_map.1 hn
      cases hmn
      exact hlt n hm) (by
      intro e he
      obtain ⟨m, hm, hmn⟩ := List.mem_map.1 he
      cases hmn)
  refine ⟨fuel₀, fun fuel hfuel => ?_⟩
  unfold saveNodes
  refine (M.bind_ok (hr1 fuel hfuel)).trans ?_
  simp only
  by_cases hc : (∀ n ∈ nodes, n ∈ r) ∧ ∃ m ∈ r, m ∉ nodes
  · rw [if_pos hc]; rfl
  · rw [if_neg hc]
    rcases hbad with hb | hb
    · rw [if_pos hb]; rfl
    · refine absurd ⟨fun n hn => ?_, ?_⟩ hc
      · exact (hr3 n).2 ⟨.inl n, List.mem_map.2 ⟨n, hn, rfl⟩, Relation.ReflTransGen.refl⟩
      · simp only [Closed, not_forall] at hb
        obtain ⟨n, hn, m, ha, hm⟩ := hb
        exact ⟨m, (hr3 m).2 ⟨.inl n, List.mem_map.2 ⟨n, hn, rfl⟩, Relation.ReflTransGen.single ha⟩,
          hm⟩

example : ∃ fuel₀, ∀ fuel ≥ fuel₀,
    saveNodes (T := NDArray Nat) fuel id id id (plainNames pair) [0] pair =
      (.error .valueError, pair) :=
  C20_save_raises pair_ok (by simp) (by decide) (.inr fun hc => by
    have := hc 0 (by simp) 1 ⟨by decide, by decide, 6, by decide, by decide⟩
    simp at this) (fun l => List.Perm.refl l) id _

/-! ### Loading -/

theorem CopyInv.nodes_congr {N N' : List NId} {f : NDArray R → NDArray R} {D : EId → Prop}
    (inv : CopyInv h k nodes N c f E D) (hN : ∀ n ∈ N', n ∈ N) :
    CopyInv h k nodes N' c f E D :=
  ⟨inv.nn, inv.ne, inv.old_node, inv.old_edge, fun n hn => inv.new n (hN n hn),
    fun n hn => inv.tensor n (hN n hn), fun n hn => inv.len n (hN n hn),
    fun n hn => inv.done n (hN n hn), fun n hn => inv.copied n (hN n hn),
    fun n hn => inv.todo n (hN n hn)⟩

theorem NamesKept.nodes_congr {N N' : List NId} {nmO nm nm' : Names} {D : EId → Prop}
    (x : NamesKept h nmO nm nm' N c E D) (hN : ∀ n ∈ N', n ∈ N) :
    NamesKept h nmO nm nm' N' c E D :=
  ⟨x.old_node, x.old_edge, fun n hn => x.node n (hN n hn), fun n hn => x.axes n (hN n hn),
    fun n hn => x.edge n (hN n hn)⟩

theorem loadH5Nodes_eq {deser : T → NDArray R} : ∀ (l : List (NodeDoc T)) (nm : Names),
    (∀ d ∈ l, d.name = s!"node{d.id}") →
    loadH5Nodes deser (l.map fun d => ⟨d.id, some d.axes, d.tensor⟩) nm = loadNodes deser l nm := by
  intro l
  induction l with
  | nil => intros; rfl
  | cons d l ih =>
    intro nm hl
    have hd := hl d (by simp)
    rw [List.map_cons]
    simp only [loadH5Nodes, loadNodes]
    rw [← hd]
    congr 1
    funext p
    rw [ih p.2 fun d hd => hl d (by simp [hd])]

theorem alpha_perm {α : Type} (key : α → Nat) (l : List α) : (alpha key l).Perm l :=
  List.perm_insertionSort _ _

theorem alpha_map {α β : Type} (key : β → Nat) (f : α → β) (l : List α) :
    alpha key (l.map f) = (alpha (fun a => key (f a)) l).map f :=
  (List.map_insertionSort _ _ f l fun _ _ _ _ => Iff.rfl).symm

theorem alpha_sorted {α : Type} (key : α → Nat) (l : List α) : (alpha key l).Pairwise
    fun a b => Nat.toDigits 10 (key a) ≤ Nat.toDigits 10 (key b) := by
  have : Std.Total fun a b : α => Nat.toDigits 10 (key a) ≤ Nat.toDigits 10 (key b) :=
    ⟨fun a b => List.le_total _ _⟩
  have : IsTrans α fun a b : α => Nat.toDigits 10 (key a) ≤ Nat.toDigits 10 (key b) :=
    ⟨fun a b c h1 h2 => List.le_trans h1 h2⟩
  exact List.pairwise_insertionSort _ _

theorem alpha_small {xs : List Nat} (hnd : xs.Nodup) (hl : xs.length ≤ 10) :
    alpha xs.idxOf xs = xs := by
  refine List.Pairwise.insertionSort_eq ?_
  rw [List.pairwise_iff_getElem]
  intro i j hi hj hij
  simp only [hnd.idxOf_getElem]
  have key : ∀ j < 10, ∀ i < j, Nat.toDigits 10 i ≤ Nat.toDigits 10 j := by decide
  exact key j (by omega) i hij

/-- What `save_nodes` writes, `load_nodes` reads back: on distinct nodes of positive rank of a
consistent graph that are joined among themselves only, with proper axis names, it never fails,
leaves the old nodes and edges alone and returns one new node for every saved node (`l` lists the
saved nodes in the order of the result): same tensor, same axis order, same name and axis names,
joined in the same way by edges with the same direction and the names that the edges had before
saving.

What is missing: the nodes come back in alphabetical order (of their digits, in `l`) of `node0`, `node1`, …, which is the
given order for at most ten nodes (`C54_order_false`); nodes of rank 0 are saved but cannot be
loaded (`C54_scalar_false`). -/
theorem C54_roundtrip_partial {deser : T → NDArray R} {ser : NDArray R → T}
    (hser : ∀ t, deser (ser t) = t) (g : GraphOK h) (hne : nodes ≠ []) (hlt : ∀ n ∈ nodes, n < h.nn)
    (hnd : nodes.Nodup) (hcl : Closed h nodes) {inn ie : List Nat → List Nat}
    (hinn : ∀ l, (inn l).Perm l) (hie : ∀ l, (ie l).Perm l) {nm : Names}
    (hax : ∀ n ∈ nodes, (nm.axes n).Nodup ∧ (nm.axes n).length = (h.shape n).length)
    (hrank : ∀ n ∈ nodes, h.shape n ≠ []) :
    ∃ (f : H5File T) (nm1 nm2 : Names) (fuel₀ : Nat) (l : List NId) (h' : Heap R) (c : NId → NId)
        (E : EId → EId),
      (∀ fuel ≥ fuel₀, saveNodes fuel inn ie ser nm nodes h = (.ok (some (f, nm1)), h)) ∧
      loadFile deser f nm1 h = (.ok (l.map c, nm2), h') ∧ l.Perm nodes ∧
      l.Pairwise (fun a b => Nat.toDigits 10 (nodes.idxOf a) ≤ Nat.toDigits 10 (nodes.idxOf b)) ∧
      (nodes.length ≤ 10 → l = nodes) ∧ Copied h h' nodes c E id ∧
      (∀ n < h.nn, nm2.node n = nm.node n ∧ nm2.axes n = nm.axes n) ∧
      (∀ n ∈ nodes, nm2.node (c n) = nm.node n ∧ nm2.axes (c n) = nm.axes n) ∧
      (∀ n ∈ nodes, ∀ e ∈ (h.node n).edges, nm2.edge (E e) = nm.edge e) := by
  have w := graphOK_iff.1 g
  obtain ⟨es, out, nmS, nm1, fuel₀, hes, h1, h2, h3, h4, h5, h6, h7⟩ :=
    saveNodes_run g hne hlt hnd hcl hinn hie ser nm
  have hmem : ∀ e, e ∈ es ↔ ∃ n ∈ nodes, e ∈ (h.node n).edges := by
    intro e
    rw [hes, (hie _).mem_iff, allEdges, List.mem_dedup, List.mem_flatMap]
  have hnde : es.Nodup := by rw [hes]; exact (hie _).nodup_iff.2 (List.nodup_dedup _)
  obtain ⟨l, hl⟩ : ∃ l, l = alpha nodes.idxOf nodes := ⟨_, rfl⟩
  have hlp : l.Perm nodes := by rw [hl]; exact alpha_perm _ _
  have hlnd : l.Nodup := hlp.nodup_iff.2 hnd
  obtain ⟨c, hc⟩ : ∃ c : NId → NId, c = fun n => h.nn + l.idxOf n := ⟨_, rfl⟩
  have hci : ∀ i (hi : i < l.length), c l[i] = h.nn + i := by
    intro i hi
    rw [hc]
    simp only [hlnd.idxOf_getElem]
  have hinj : ∀ m ∈ nodes, ∀ m' ∈ nodes, c m = c m' → m = m' := by
    intro m hm m' hm' heq
    rw [hc] at heq
    simp only at heq
    have h1 : l.idxOf m = l.idxOf m' := by omega
    exact (List.idxOf_inj (hlp.mem_iff.2 hm)).1 h1
  -- the names of the objects in the file
  obtain ⟨nmF, hnmF⟩ : ∃ nmF : Names, nmF = ⟨fun n => s!"node{nodes.idxOf n}", nm.axes, nmS.edge⟩ :=
    ⟨_, rfl⟩
  obtain ⟨k1, nmA, q1, q2, q3, q4⟩ := loadNodes_ok (nodes := nodes) (c := c) (E := id) (nmO := nm1)
    (nm := nmF) (l := l) hser w nodes.idxOf (fun n hn => hlt n (hlp.mem_iff.1 hn))
    (fun n hn => by rw [hnmF]; exact hax n (hlp.mem_iff.1 hn)) hci l [] h nm1 (by simp) (by simp)
    ⟨le_refl _, le_refl _, fun _ _ => rfl, fun _ _ => rfl, by simp, by simp, by simp, by simp,
      by simp, by simp⟩
    ⟨fun _ _ => ⟨rfl, rfl⟩, fun _ _ => rfl, by simp, by simp, by simp⟩
  replace q3 := q3.nodes_congr (N' := nodes) fun n hn => hlp.mem_iff.2 hn
  replace q4 := q4.nodes_congr (N' := nodes) fun n hn => hlp.mem_iff.2 hn
  have hids : ∀ n ∈ nodes, (l.map fun n => (nodes.idxOf n, c n)).reverse.lookup
      (nodes.idxOf n) = some (c n) := by
    intro n hn
    refine lookup_reverse_nodup ?_ (List.mem_map.2 ⟨n, hlp.mem_iff.2 hn, rfl⟩)
    rw [List.map_map]
    exact hlnd.map_on fun a ha b hb hab => (List.idxOf_inj (hlp.mem_iff.1 ha)).1 hab
  obtain ⟨out', hout'⟩ : ∃ out', out' = alpha es.idxOf out := ⟨_, rfl⟩
  have hop : out'.Perm es := by rw [hout']; exact (alpha_perm _ _).trans h1
  obtain ⟨k', E, nmB, r1, r2, r3, r4, r5⟩ := loadEdges_ok (ov := false) (nmO := nm1) (nm := nmF) w
    hlt hnd hinj hids es.idxOf out' k1 id (fun _ => False) nmA (hop.nodup_iff.2 hnde)
    (fun e he => (hmem e).1 (hop.mem_iff.1 he)) (fun _ _ => id)
    (by
      intro e he m hm
      obtain ⟨n, hn, hen⟩ := (hmem e).1 (hop.mem_iff.1 he)
      exact (hcl.first w hlt hn hen hm).1) q3 q4
  have hE : ∀ n ∈ nodes, ∀ e ∈ (h.node n).edges, False ∨ e ∈ out' := fun n hn e he =>
    .inr (hop.mem_iff.2 ((hmem e).2 ⟨n, hn, he⟩))
  have hcopied : Copied h k' nodes c E id := by
    refine r3.result w hlt (fun _ => rfl) (fun _ _ => rfl) hinj ?_ hE
    intro m
    rw [r2, q2]
    constructor
    · rintro ⟨h4, h5⟩
      refine ⟨l[m - h.nn]'(by omega), hlp.mem_iff.1 (List.getElem_mem _), ?_⟩
      rw [hci]; omega
    · rintro ⟨n, hn, rfl⟩
      rw [hc]
      have := List.idxOf_lt_length_of_mem (hlp.mem_iff.2 hn)
      simp only
      omega
  have hEinj : ∀ e ∈ out', ∀ e' ∈ out', E e = E e' → e = e' := by
    intro e he e' he' hee
    obtain ⟨n, hn, hen⟩ := (hmem e).1 (hop.mem_iff.1 he)
    obtain ⟨n', hn', hen'⟩ := (hmem e').1 (hop.mem_iff.1 he')
    exact hcopied.inj_edge n hn e hen n' hn' e' hen' hee
  obtain ⟨ed, t1, t2, t3⟩ := renameAll_ok (k := k') (names := es.map nm.edge)
    (l := out'.map fun e => (es.idxOf e, E e)) (f := nmB.edge)
    (by
      intro p hp
      obtain ⟨e, he, rfl⟩ := List.mem_map.1 hp
      simpa using List.idxOf_lt_length_of_mem (hop.mem_iff.1 he))
    (by
      rw [List.map_map]
      exact (hop.nodup_iff.2 hnde).map_on fun a ha b hb hab => hEinj a ha b hb hab)
  obtain ⟨nd, u1, u2, u3⟩ := renameAll_ok (k := k') (names := nodes.map nm.node)
    (l := l.map fun n => (nodes.idxOf n, c n)) (f := nmB.node)
    (by
      intro p hp
      obtain ⟨n, hn, rfl⟩ := List.mem_map.1 hp
      simpa using List.idxOf_lt_length_of_mem (hlp.mem_iff.1 hn))
    (by
      rw [List.map_map]
      exact hlnd.map_on fun a ha b hb hab =>
        hinj a (hlp.mem_iff.1 ha) b (hlp.mem_iff.1 hb) hab)
  refine ⟨_, nm1, { nmB with node := nd, edge := ed }, fuel₀, l, k', c, E, h7, ?_, hlp, by rw [hl]; exact alpha_sorted _ _, ?_,
    hcopied, ?_, ?_, ?_⟩
  · unfold loadFile
    have e1 : alpha H5Node.key (nodes.zipIdx.map fun p => (⟨p.2, if (nm.axes p.1).isEmpty then none
        else some (nm.axes p.1), ser (h.node p.1).tensor⟩ : H5Node T)) =
        (l.map fun n => (⟨nodes.idxOf n, nmF.node n, nmF.axes n, ser (h.node n).tensor⟩ :
          NodeDoc T)).map fun d => ⟨d.id, some d.axes, d.tensor⟩ := by
      rw [zipIdx_nodup hnd, List.map_map, alpha_map, hl, List.map_map]
      refine List.map_congr_left fun n hn => ?_
      have hn' : n ∈ nodes := (alpha_perm _ _).mem_iff.1 hn
      have : (nm.axes n).isEmpty = false := by
        have h8 := (hax n hn').2
        have h9 := hrank n hn'
        rcases hx : nm.axes n with _ | ⟨a, b⟩
        · rw [hx] at h8
          exact absurd (List.length_eq_zero_iff.1 h8.symm) h9
        · rfl
      simp only [Function.comp, this]
      rw [hnmF]
      rfl
    have e2 : alpha EdgeDoc.id (out.map fun e => docOf h nmS nodes (e, es.idxOf e)) =
        out'.map fun e => docOf h nmF nodes (e, es.idxOf e) := by
      rw [alpha_map, hout', hnmF]
      rfl
    have e3 : loadH5Nodes deser (alpha H5Node.key (nodes.zipIdx.map fun p => (⟨p.2,
        if (nm.axes p.1).isEmpty then none
        else some (nm.axes p.1), ser (h.node p.1).tensor⟩ : H5Node T))) nm1 h =
        (.ok (l.map fun n => (nodes.idxOf n, c n), nmA), k1) := by
      rw [e1, loadH5Nodes_eq _ _ (by
        intro d hd
        obtain ⟨n, hn, rfl⟩ := List.mem_map.1 hd
        rw [hnmF])]
      exact q1
    refine (M.bind_ok e3).trans ?_
    simp only [e2]
    refine (M.bind_ok r1).trans ?_
    refine (M.bind_ok t1).trans ?_
    refine (M.bind_ok u1).trans ?_
    rw [List.map_map]
    rfl
  · intro h8
    rw [hl]
    exact alpha_small hnd h8
  · intro n hn
    have hno : n ∉ (l.map fun n => (nodes.idxOf n, c n)).map Prod.snd := by
      rw [List.map_map]
      intro hm
      obtain ⟨m, hm, hmn⟩ := List.mem_map.1 hm
      rw [hc] at hmn
      simp only [Function.comp] at hmn
      omega
    refine ⟨?_, ?_⟩
    · simp only
      rw [u2 n hno, (r4.old_node n hn).1, h2]
    · simp only
      rw [(r4.old_node n hn).2, h3]
  · intro n hn
    refine ⟨?_, ?_⟩
    · have := u3 (nodes.idxOf n, c n) (List.mem_map.2 ⟨n, hlp.mem_iff.2 hn, rfl⟩)
      simp only [List.getElem?_map, List.getElem?_idxOf hn, Option.map_some, Option.some.injEq] at this
      exact this.symm
    · simp only
      rw [r4.axes n hn, hnmF]
  · intro n hn e he
    have hees := (hmem e).2 ⟨n, hn, he⟩
    have := t3 (es.idxOf e, E e) (List.mem_map.2 ⟨e, hop.mem_iff.2 hees, rfl⟩)
    simp only [List.getElem?_map, List.getElem?_idxOf hees, Option.map_some, Option.some.injEq] at this
    exact this.symm

example := C54_roundtrip_partial (T := NDArray Nat) (nodes := [0, 1]) (ser := id) (deser := id)
  (fun _ => rfl) pair_ok (by simp) (by decide) (by decide) pair_closed (inn := id) (ie := id)
  (fun l => List.Perm.refl l) (fun l => List.Perm.refl l) (nm := plainNames pair)
  (by
    intro n hn
    simp only [List.mem_cons, List.not_mem_nil, or_false] at hn
    rcases hn with rfl | rfl <;> exact ⟨by decide, by decide⟩)
  (by
    intro n hn
    simp only [List.mem_cons, List.not_mem_nil, or_false] at hn
    rcases hn with rfl | rfl <;> decide)

/-- Eleven vectors; the `i`-th one has dimension `i + 1`. -/
def eleven : Heap Nat := runOps ((List.range 11).map fun i => .node (ones [i + 1])) Heap.empty

theorem eleven_run : ∀ (l : List Nat) (h : Heap Nat), GraphOK h →
    GraphOK (runOps (l.map fun i => .node (ones [i + 1])) h) ∧
    (runOps (l.map fun i => .node (ones [i + 1])) h).nn = h.nn + l.length ∧
    (∀ n < h.nn, (runOps (l.map fun i => .node (ones [i + 1])) h).node n = h.node n) ∧
    ∀ i (hi : i < l.length),
      (runOps (l.map fun i => .node (ones [i + 1])) h).shape (h.nn + i) = [l[i] + 1] := by
  intro l
  induction l with
  | nil => intro h g; exact ⟨g, rfl, fun _ _ => rfl, by simp⟩
  | cons a l ih =>
    intro h g
    have h1 : (Op.node (ones [a + 1]) : Op Nat).after h = addNode h (ones [a + 1]) := rfl
    have g1 : GraphOK (addNode h (ones [a + 1] : NDArray Nat)) := by
      rw [← h1]
      exact (C07_history_partial [.node (ones [a + 1])] g ⟨trivial, trivial⟩).1
    obtain ⟨q1, q2, q3, q4⟩ := ih (addNode h (ones [a + 1])) g1
    have h2 : runOps (List.map (fun i => .node (ones [i + 1])) (a :: l)) h =
        runOps (l.map fun i => .node (ones [i + 1])) (addNode h (ones [a + 1])) := rfl
    rw [h2]
    refine ⟨q1, ?_, ?_, ?_⟩
    · rw [q2]
      simp only [addNode, List.length_cons]
      omega
    · intro n hn
      rw [q3 n (by simp only [addNode]; omega), addNode_node_old hn]
    · intro i hi
      rcases i with _ | i
      · simp only [Heap.shape, Nat.add_zero]
        rw [q3 h.nn (by simp only [addNode]; omega), addNode_node_new]
        rfl
      · have := q4 i (by simpa using hi)
        rw [show (addNode h (ones [a + 1] : NDArray Nat)).nn = h.nn + 1 from rfl] at this
        rw [show h.nn + (i + 1) = h.nn + 1 + i by omega, this]
        rfl

/-- Eleven nodes do not come back in their order. -/
theorem C54_order_false : GraphOK eleven ∧
    ∃ (f : H5File (NDArray Nat)) (nm1 nm2 : Names) (fuel₀ : Nat) (l : List NId) (h' : Heap Nat),
      (∀ fuel ≥ fuel₀, saveNodes fuel id id id (plainNames eleven) (List.range 11) eleven =
        (.ok (some (f, nm1)), eleven)) ∧
      loadFile id f nm1 eleven = (.ok (l, nm2), h') ∧
      l.map (h'.shape ·) ≠ (List.range 11).map (eleven.shape ·) := by
  obtain ⟨q1, q2, q3, q4⟩ := eleven_run (List.range 11) Heap.empty graphOK_empty
  have hnn : eleven.nn = 11 := q2
  have hshape : ∀ i < 11, eleven.shape i = [i + 1] := by
    intro i hi
    have := q4 i (by simpa using hi)
    rw [List.getElem_range] at this
    rw [← this]
    rw [show (Heap.empty : Heap Nat).nn + i = i from Nat.zero_add i]
    rfl
  obtain ⟨f, nm1, nm2, fuel₀, l, h', c, E, h1, h2, h3, h4, -, h5, -⟩ :=
    C54_roundtrip_partial (nodes := List.range 11) (h := eleven) (ser := id) (deser := id)
      (fun _ => rfl) q1 (by simp) (by intro n hn; rw [hnn]; simpa using hn) (by decide)
      (by
        rintro n - m ⟨-, hm, -⟩
        rw [hnn] at hm
        simpa using hm)
      (inn := id) (ie := id) (fun l => List.Perm.refl l) (fun l => List.Perm.refl l)
      (nm := plainNames eleven)
      (by
        intro n hn
        have hn' : n < 11 := by simpa using hn
        simp only [plainNames, hshape n hn']
        exact ⟨by simp [List.range, List.range.loop], by simp⟩)
      (by
        intro n hn
        rw [hshape n (by simpa using hn)]
        simp)
  refine ⟨q1, f, nm1, nm2, fuel₀, l.map c, h', h1, h2, ?_⟩
  intro hc
  have e1 : (l.map c).map (h'.shape ·) = l.map fun n => [n + 1] := by
    rw [List.map_map]
    refine List.map_congr_left fun n hn => ?_
    have hn' := h3.mem_iff.1 hn
    simp only [Function.comp]
    rw [h5.shape n hn', hshape n (by simpa using hn')]
  have e2 : (List.range 11).map (eleven.shape ·) = (List.range 11).map fun n => [n + 1] :=
    List.map_congr_left fun n hn => hshape n (by simpa using hn)
  rw [e1, e2] at hc
  have hl : l = List.range 11 := List.map_injective_iff.2 (fun a b hab => by simpa using hab) hc
  rw [hl, List.pairwise_iff_getElem] at h4
  have := h4 2 10 (by simp) (by simp) (by omega)
  revert this
  decide

/-- A node of rank 0. -/
def scalar5 : Heap Nat := runOps [.node ⟨[], fun _ => 5⟩] Heap.empty

theorem scalar5_ok : GraphOK scalar5 :=
  (C07_history_partial [.node ⟨[], fun _ => 5⟩] graphOK_empty ⟨trivial, trivial⟩).1

/-- A node of rank 0 is saved, but the file cannot be loaded. -/
theorem C54_scalar_false : GraphOK scalar5 ∧ ∃ (f : H5File (NDArray Nat)) (nm1 : Names),
    saveNodes 100 id id id (plainNames scalar5) [0] scalar5 = (.ok (some (f, nm1)), scalar5) ∧
    (loadFile id f nm1 scalar5).1 = .error .typeError :=
  ⟨scalar5_ok, _, _, rfl, rfl⟩

end TN.Graph
