import Verif.GraphProps3

/-!
# Flattening all edges (C85)

Model of `get_parallel_edges`, `get_all_nondangling`, `get_all_dangling`, `flatten_edges_between` and
`flatten_all_edges` (network_components.py:1302-1329, 1459-1495).
-/

namespace TN.Graph

open TN

variable {R : Type}

/-! ### Model -/

/-- `get_parallel_edges(edge)` (network_components.py:1302-1313). -/
def getParallelEdges (so : ObjOrder) (e : EId) : M R (List EId) := do
  let n1 ← node1 e
  match ← node2 e with
  | some n2 => getSharedEdges so n1 n2
  -- `set(edge.get_nodes()) == {node1, None}`
  | none => do
    let h ← M.get
    pure (so.ord (((h.node n1).edges.filter fun x => (h.edge x).node2 = none).dedup))

/-- `get_all_nondangling(nodes)` (network_components.py:1316-1321), as a list in the iteration
order `so` of the set. -/
def getAllNondangling (so : ObjOrder) (nodes : List NId) : M R (List EId) := do
  let h ← M.get
  pure (so.ord ((nodes.flatMap fun n => (h.node n).edges.filter fun e => !(h.edge e).dangling).dedup))

/-- `get_all_dangling(nodes)` (network_components.py:1324-1329). -/
def getAllDangling (nodes : List NId) : M R (List EId) := do
  let h ← M.get
  pure (nodes.flatMap fun n => (h.node n).edges.filter fun e => (h.edge e).dangling)

/-- `flatten_edges_between(node1, node2)` (network_components.py:1459-1478). -/
def flattenEdgesBetween (fo : FlatOrder) (n1 n2 : NId) : M R (Option EId) := do
  let shared ← getSharedEdges fo.so n1 n2
  if shared = [] then pure none
  else do
    let e ← flattenEdges fo.swap shared
    pure (some e)

/-- The loop of `flatten_all_edges` (network_components.py:1488-1492); `fo` gives the orders of the
sets that are met in the round of an edge. -/
def flattenAllLoop (fo : EId → FlatOrder) : List EId → List (Option EId) → M R (List (Option EId))
  | [], acc => pure acc
  | e :: es, acc => do
    let h ← M.get
    if (h.edge e).disabled then flattenAllLoop fo es acc
    else do
      let n1 ← node1 e
      match ← node2 e with
      | none => M.throw .attributeError
      | some n2 => do
        let flat ← flattenEdgesBetween (fo e) n1 n2
        flattenAllLoop fo es (acc ++ [flat])

/-- `flatten_all_edges(nodes)` (network_components.py:1480-1493). -/
def flattenAllEdges (so : ObjOrder) (fo : EId → FlatOrder) (nodes : List NId) : M R (List (Option EId)) := do
  let es ← getAllNondangling so nodes
  flattenAllLoop fo es []

/-! ### Specification -/

/-- The edge `e` links the nodes `a` and `b`: both list it, and a node linked to itself lists it
twice. -/
def Links (h : Heap R) (a b : NId) (e : EId) : Prop :=
  e ∈ (h.node a).edges ∧ e ∈ (h.node b).edges ∧ (a = b → (h.node a).edges.count e = 2)

instance (h : Heap R) (a b : NId) : DecidablePred (Links h a b) := fun e =>
  inferInstanceAs (Decidable (e ∈ (h.node a).edges ∧ e ∈ (h.node b).edges ∧
    (a = b → (h.node a).edges.count e = 2)))

/-- All edges that link two nodes. -/
def links (h : Heap R) (a b : NId) : Finset EId := (h.node a).edges.toFinset.filter (Links h a b)

theorem mem_links {h : Heap R} {a b : NId} {e : EId} : e ∈ links h a b ↔ Links h a b e := by
  simp only [links, Finset.mem_filter, List.mem_toFinset]
  exact ⟨fun x => x.2, fun x => ⟨x.1, x⟩⟩

/-- `h'` is `h` after all edges of the nodes were flattened, `res` is the result. -/
structure AllFlat [CommSemiring R] (h h' : Heap R) (nodes : List NId) (res : List EId) : Prop where
  ok : GraphOK h'
  nn : h'.nn = h.nn
  /-- linked nodes are linked by exactly one edge, with the product of the dimensions; it is the
  old one if there was only one -/
  one : ∀ a ∈ nodes, ∀ b < h.nn, (links h a b).Nonempty → ∃ x, links h' a b = {x} ∧
    edim h' x = ∏ e ∈ links h a b, edim h e ∧ ∀ e, links h a b = {e} → x = e
  /-- other nodes are not linked -/
  none : ∀ a ∈ nodes, ∀ b < h.nn, links h a b = ∅ → links h' a b = ∅
  /-- links between nodes that are not in the list stay -/
  other : ∀ a < h.nn, a ∉ nodes → ∀ b < h.nn, b ∉ nodes → links h' a b = links h a b ∧
    ∀ e ∈ links h a b, edim h' e = edim h e
  /-- the result has every link of a node in the list, once -/
  nodup : res.Nodup
  mem : ∀ x, x ∈ res ↔ ∃ a ∈ nodes, ∃ b < h.nn, x ∈ links h' a b
  /-- the open edges stay, in their order -/
  open_ : ∀ n < h.nn, (h'.node n).edges.filter (fun e => (h'.edge e).dangling) =
    (h.node n).edges.filter (fun e => (h.edge e).dangling) ∧
    ∀ e ∈ (h.node n).edges, (h.edge e).dangling → edim h' e = edim h e
  /-- the network has the same value -/
  value : ∀ ns : List NId, ns.Nodup → (∀ n ∈ ns, n < h.nn) →
    (∀ a ∈ nodes, a ∈ ns ∧ ∀ b < h.nn, (links h a b).Nonempty → b ∈ ns) → ∀ σ, InRange h ns σ →
    netVal (netOf h' ns) σ = netVal (netOf h ns) σ

/-! ### Proof -/

theorem WF.between_iff {h : Heap R} (w : WF h) {a b : NId} (ha : a < h.nn) (hb : b < h.nn) {e : EId} :
    Links h a b e ↔ InUse h e ∧ Between h a b e := by
  constructor
  · rintro ⟨h1, h2, h3⟩
    have hu := inUse_of_mem ha h1
    refine ⟨hu, ?_⟩
    by_cases hab : a = b
    · subst hab; exact (w.between_self_iff ha hu).2 (h3 rfl)
    · have m1 := (w.mem_ends hu).2 (at_of_mem ha h1)
      have m2 := (w.mem_ends hu).2 (at_of_mem hb h2)
      rcases w.good hu with ⟨m, x, hr⟩ | ⟨m, x, m', y, hr⟩
      · rw [hr] at m1 m2
        simp at m1 m2
        omega
      · rw [hr] at m1 m2
        simp at m1 m2
        rcases m1 with m1 | m1 <;> rcases m2 with m2 | m2
        · omega
        · obtain ⟨rfl, -⟩ := m1; obtain ⟨rfl, -⟩ := m2; exact ⟨x, y, .inl hr⟩
        · obtain ⟨rfl, -⟩ := m1; obtain ⟨rfl, -⟩ := m2; exact ⟨y, x, .inr hr⟩
        · omega
  · rintro ⟨hu, hbt⟩
    have he := hbt.ends
    obtain ⟨x, y, he⟩ := he
    have m1 : At h (a, x) e := (w.mem_ends hu).1 (by rw [he]; simp)
    have m2 : At h (b, y) e := (w.mem_ends hu).1 (by rw [he]; simp)
    refine ⟨m1.mem, m2.mem, ?_⟩
    rintro rfl
    exact (w.between_self_iff ha hu).1 hbt

theorem links_unique {h : Heap R} {a b c d : NId} {e : EId} (h1 : Between h a b e) (h2 : Between h c d e) :
    (c = a ∧ d = b) ∨ (c = b ∧ d = a) := by
  obtain ⟨x, y, h1 | h1⟩ := h1 <;> obtain ⟨x', y', h2 | h2⟩ := h2 <;> rw [h1] at h2 <;>
    simp only [EdgeRec.mk.injEq, Option.some.injEq] at h2 <;> omega

theorem Links.symm {h : Heap R} {a b : NId} {e : EId} (l : Links h a b e) : Links h b a e :=
  ⟨l.2.1, l.1, fun x => by subst x; exact l.2.2 rfl⟩

theorem links_comm (h : Heap R) (a b : NId) : links h a b = links h b a := by
  ext e; rw [mem_links, mem_links]; exact ⟨Links.symm, Links.symm⟩

/-- What one round does to the links. -/
theorem Flattened.links_step [CommSemiring R] {h h' : Heap R} (w : WF h) {E : List EId} {new : EId}
    (f : Flattened h h' E new) {a b : NId} (ha : a < h.nn) (hb : b < h.nn) (hE0 : E ≠ [])
    (hE : ∀ e, e ∈ E ↔ Links h a b e) :
    links h' a b = {new} ∧ (∀ c < h.nn, ∀ d < h.nn, ¬ ((c = a ∧ d = b) ∨ (c = b ∧ d = a)) →
      links h' c d = links h c d) := by
  have uniq : ∀ e ∈ E, ∀ c < h.nn, ∀ d < h.nn, Links h c d e → (c = a ∧ d = b) ∨ (c = b ∧ d = a) := by
    intro e he c hc d hd hl
    exact links_unique ((w.between_iff ha hb).1 ((hE e).1 he)).2 ((w.between_iff hc hd).1 hl).2
  have hnewmem : ∀ c < h.nn, new ∉ (h.node c).edges := fun c hc hm => f.fresh (inUse_of_mem hc hm)
  have hold : ∀ c < h.nn, ∀ d < h.nn, ∀ y, y ≠ new → y ∉ E → (Links h' c d y ↔ Links h c d y) := by
    intro c hc d hd y hy hyE
    have e1 := f.node_count hc hy hyE
    have e2 := f.node_count hd hy hyE
    simp only [Links, ← List.count_pos_iff, e1, e2]
  have hdead : ∀ c < h.nn, ∀ d, ∀ y ∈ E, ¬ Links h' c d y := fun c hc d y hy hl =>
    (f.disabled y hy).2 (inUse_of_mem (by rw [f.nn]; exact hc) hl.1)
  have hnew : ∀ c < h.nn, ∀ d < h.nn, ∀ e ∈ E, (Links h' c d new ↔ Links h c d e) := by
    intro c hc d hd e he
    simp only [Links, ← List.count_pos_iff, f.count c hc e he, f.count d hd e he]
  obtain ⟨e0, he0⟩ := List.exists_mem_of_ne_nil _ hE0
  refine ⟨?_, fun c hc d hd hcd => ?_⟩
  · ext y
    rw [mem_links, Finset.mem_singleton]
    constructor
    · intro hl
      by_contra hy
      by_cases hyE : y ∈ E
      · exact hdead a ha b y hyE hl
      · exact hyE ((hE y).2 ((hold a ha b hb y hy hyE).1 hl))
    · rintro rfl
      exact (hnew a ha b hb e0 he0).2 ((hE e0).1 he0)
  · ext y
    rw [mem_links, mem_links]
    by_cases hy : y = new
    · subst hy
      refine ⟨fun hl => absurd (uniq e0 he0 c hc d hd ((hnew c hc d hd e0 he0).1 hl)) hcd,
        fun hl => absurd hl.1 (hnewmem c hc)⟩
    · by_cases hyE : y ∈ E
      · exact ⟨fun hl => absurd hl (hdead c hc d y hyE), fun hl => absurd (uniq y hyE c hc d hd hl) hcd⟩
      · exact hold c hc d hd y hy hyE

/-- The state of the loop: `pend` are the edges that are left, `S` all edges of the loop. -/
structure FInv [CommSemiring R] (h0 h : Heap R) (S pend res : List EId) : Prop where
  wf : WF h
  nn : h.nn = h0.nn
  ne : h0.ne ≤ h.ne
  live : ∀ e ∈ pend, e ∈ S ∧ ((h.edge e).disabled = true ∨ InUse h e ∧ (h.edge e).dangling = false)
  pnodup : pend.Nodup
  pair : ∀ a < h0.nn, ∀ b < h0.nn,
    (links h a b = links h0 a b ∧ (∀ e ∈ links h0 a b, edim h e = edim h0 e ∧ e ∉ res ∧ (e ∈ S → e ∈ pend))) ∨
    ∃ x ∈ res, links h a b = {x} ∧ edim h x = ∏ e ∈ links h0 a b, edim h0 e ∧
      (∀ e, links h0 a b = {e} → x = e) ∧ ∃ e ∈ S, e ∈ links h0 a b
  disj : ∀ x ∈ res, x ∉ pend
  nodup : res.Nodup
  src : ∀ x ∈ res, ∃ a < h0.nn, ∃ b < h0.nn, x ∈ links h a b ∧ ∃ e ∈ S, e ∈ links h0 a b
  open_ : ∀ n < h0.nn, (h.node n).edges.filter (fun e => (h.edge e).dangling) =
    (h0.node n).edges.filter (fun e => (h0.edge e).dangling) ∧
    ∀ e ∈ (h0.node n).edges, (h0.edge e).dangling → edim h e = edim h0 e
  value : ∀ ns : List NId, ns.Nodup → (∀ n ∈ ns, n < h0.nn) →
    (∀ a < h0.nn, ∀ b < h0.nn, (∃ e ∈ S, e ∈ links h0 a b) → a ∈ ns) → ∀ σ, InRange h0 ns σ →
    InRange h ns σ ∧ netVal (netOf h ns) σ = netVal (netOf h0 ns) σ

theorem FInv.step [CommSemiring R] {h0 h : Heap R} {S pend res : List EId} {e : EId} (hSlt : ∀ e ∈ S, e < h0.ne)
    (i : FInv h0 h S (e :: pend) res) (hd : (h.edge e).disabled = false) (fo : FlatOrder) :
    ∃ n1 n2 x h', node1 e h = (.ok n1, h) ∧ node2 e h = (.ok (some n2), h) ∧
      flattenEdgesBetween fo n1 n2 h = (.ok (some x), h') ∧ FInv h0 h' S pend (res ++ [x]) := by
  have w := i.wf
  obtain ⟨heS, hp⟩ := i.live e (by simp)
  obtain ⟨hu, hdg⟩ : InUse h e ∧ (h.edge e).dangling = false := by
    rcases hp with hp | hp
    · rw [hd] at hp; simp at hp
    · exact hp
  obtain ⟨n, x1, m, x2, hr⟩ : ∃ n a m b, h.edge e = .conn n a m b := by
    rcases w.good hu with ⟨n, a, hr⟩ | hr
    · rw [hr] at hdg; simp at hdg
    · exact hr
  have hn' : n < h.nn := ((at_conn w hu hr).2 (.inl rfl)).1
  have hm' : m < h.nn := ((at_conn w hu hr).2 (.inr rfl)).1
  have hn : n < h0.nn := i.nn ▸ hn'
  have hm : m < h0.nn := i.nn ▸ hm'
  have hbt : Between h n m e := ⟨x1, x2, .inl hr⟩
  have hl : e ∈ links h n m := mem_links.2 ((w.between_iff hn' hm').2 ⟨hu, hbt⟩)
  obtain ⟨hA, hA2⟩ : links h n m = links h0 n m ∧ (∀ e' ∈ links h0 n m, edim h e' = edim h0 e' ∧ e' ∉ res ∧
      (e' ∈ S → e' ∈ e :: pend)) := by
    rcases i.pair n hn m hm with hA | ⟨x, hx, hB, -⟩
    · exact hA
    · rw [hB, Finset.mem_singleton] at hl
      subst hl
      exact absurd (by simp) (i.disj e hx)
  have hl0 : e ∈ links h0 n m := hA ▸ hl
  have hnd := List.nodup_cons.1 i.pnodup
  obtain ⟨E, hE1, hE2, hE3⟩ := getSharedEdges_ok w fo.so (n2 := m) hn'
  have hE3' : ∀ y, y ∈ E ↔ Links h n m y := fun y => (hE3 y).trans (w.between_iff hn' hm').symm
  have hE4 : E.toFinset = links h0 n m := by
    rw [← hA]; ext y; rw [List.mem_toFinset, hE3', mem_links]
  have heE : e ∈ E := by rw [hE3', ← mem_links]; exact hl
  have hne : E ≠ [] := List.ne_nil_of_mem heE
  have swapd : ∀ {c d : NId}, (c = n ∧ d = m) ∨ (c = m ∧ d = n) → ∀ k : Heap R, links k c d = links k n m := by
    rintro c d (⟨rfl, rfl⟩ | ⟨rfl, rfl⟩) k
    · rfl
    · exact links_comm _ _ _
  by_cases hone : E = [e]
  · refine ⟨n, m, e, h, node1_conn hr, node2_conn hr, ?_, ?_⟩
    · unfold flattenEdgesBetween
      rw [M.bind_ok hE1, if_neg hne, hone, M.bind_ok (flattenEdges_single w fo.swap hu)]
      rfl
    · have hsing : links h0 n m = {e} := by rw [← hE4, hone]; simp
      refine ⟨w, i.nn, i.ne, fun y hy => i.live y (by simp [hy]), hnd.2, ?_, ?_, ?_, ?_, i.open_, i.value⟩
      · intro c hc d hdd
        by_cases hcd : (c = n ∧ d = m) ∨ (c = m ∧ d = n)
        · right
          refine ⟨e, by simp, ?_⟩
          rw [swapd hcd, swapd hcd, hA, hsing]
          refine ⟨rfl, ?_, fun e' h' => by simpa using h', e, heS, by simp⟩
          rw [Finset.prod_singleton]
          exact (hA2 e hl0).1
        · rcases i.pair c hc d hdd with ⟨h1, h2⟩ | ⟨x, hx, h1⟩
          · left
            refine ⟨h1, fun y hy => ?_⟩
            obtain ⟨g1, g2, g3⟩ := h2 y hy
            have hye : y ≠ e := by
              rintro rfl
              rw [← h1, mem_links] at hy
              exact hcd (links_unique hbt ((w.between_iff (i.nn ▸ hc) (i.nn ▸ hdd)).1 hy).2)
            refine ⟨g1, by simp [g2, hye], fun hs => ?_⟩
            have := g3 hs
            simpa [hye] using this
          · exact .inr ⟨x, by simp [hx], h1⟩
      · intro x hx
        rcases List.mem_append.1 hx with hx | hx
        · exact fun h1 => i.disj x hx (by simp [h1])
        · simp at hx; subst hx; exact hnd.1
      · rw [List.nodup_append]
        refine ⟨i.nodup, by simp, ?_⟩
        rintro x hx y hy rfl
        simp at hy; subst hy
        exact (hA2 _ hl0).2.1 hx
      · intro x hx
        rcases List.mem_append.1 hx with hx | hx
        · exact i.src x hx
        · simp at hx; subst hx
          exact ⟨n, hn, m, hm, hl, x, heS, hl0⟩
  · obtain ⟨e0, E', rfl⟩ : ∃ e0 E', E = e0 :: E' := by
      cases E with
      | nil => exact absurd rfl hne
      | cons e0 E' => exact ⟨_, _, rfl⟩
    have hE' : E' ≠ [] := by
      rintro rfl
      simp at heE
      exact hone (by rw [heE])
    obtain ⟨new, h', k1, f⟩ := flattenEdges_ok w fo.swap hE2 hE' (fun y hy => ((hE3 y).1 hy).1) (by
      intro y hy
      have b1 := ((hE3 e0).1 (by simp)).2
      have b2 := ((hE3 y).1 (by simp [hy])).2
      obtain ⟨_, _, b1 | b1⟩ := b1 <;> obtain ⟨_, _, b2 | b2⟩ := b2 <;> simp [SameNodes, b1, b2])
    have hEnd : ∀ y ∈ e0 :: E', (h.edge y).dangling = false := fun y hy => ((hE3 y).1 hy).2.not_dangling
    have hnewd : (h'.edge new).dangling = false := by rw [f.dangling e0 (by simp)]; exact hEnd e0 (by simp)
    obtain ⟨s1, s2⟩ := f.links_step w hn' hm' hne hE3'
    have hnewS : new ∉ S := fun hs => by
      have := hSlt new hs
      have := f.new_ge
      have := i.ne
      omega
    have hnewres : new ∉ res := fun hs => by
      obtain ⟨c, hc, d, hdd, h1, -⟩ := i.src new hs
      exact f.fresh (inUse_of_mem (i.nn ▸ hc) (mem_links.1 h1).1)
    refine ⟨n, m, new, h', node1_conn hr, node2_conn hr, ?_, ?_⟩
    · unfold flattenEdgesBetween
      rw [M.bind_ok hE1, if_neg hne, M.bind_ok k1]
      rfl
    · refine ⟨f.wf, f.nn.trans i.nn, i.ne.trans f.ne, ?_, hnd.2, ?_, ?_, ?_, ?_, ?_, ?_⟩
      · intro y hy
        obtain ⟨g1, g2⟩ := i.live y (by simp [hy])
        refine ⟨g1, ?_⟩
        by_cases hyE : y ∈ e0 :: E'
        · exact .inl (f.disabled y hyE).1
        · rcases g2 with g2 | ⟨g2, g3⟩
          · left
            by_cases huy : InUse h y
            · rcases w.good huy with ⟨_, _, hr'⟩ | ⟨_, _, _, _, hr'⟩ <;> rw [hr'] at g2 <;> simp at g2
            · rw [f.dead y (lt_of_lt_of_le (hSlt y g1) i.ne) huy]; exact g2
          · obtain ⟨r1, r2, -⟩ := f.rest y g2 hyE
            exact .inr ⟨r1, r2.trans g3⟩
      · intro c hc d hdd
        by_cases hcd : (c = n ∧ d = m) ∨ (c = m ∧ d = n)
        · right
          refine ⟨new, by simp, ?_⟩
          rw [swapd hcd, swapd hcd]
          refine ⟨s1, ?_, ?_, e, heS, hl0⟩
          · rw [f.dim, ← hE4, List.prod_toFinset _ hE2]
            congr 1
            refine List.map_congr_left fun y hy => ?_
            exact (hA2 y (by rw [← hE4]; simpa using hy)).1
          · intro e' he'
            rw [← hE4] at he'
            have c1 := List.toFinset_card_of_nodup hE2
            rw [he', Finset.card_singleton] at c1
            exact absurd (List.length_eq_zero_iff.1 (by rw [List.length_cons] at c1; omega)) hE'
        · rw [s2 c (i.nn ▸ hc) d (i.nn ▸ hdd) hcd]
          have notE : ∀ y ∈ links h c d, y ∉ e0 :: E' := fun y hy hyE => hcd
            (links_unique ((hE3 y).1 hyE).2 ((w.between_iff (i.nn ▸ hc) (i.nn ▸ hdd)).1 (mem_links.1 hy)).2)
          have same : ∀ y ∈ links h c d, edim h' y = edim h y := fun y hy =>
            (f.rest y (inUse_of_mem (i.nn ▸ hc) (mem_links.1 hy).1) (notE y hy)).2.2
          rcases i.pair c hc d hdd with ⟨h1, h2⟩ | ⟨x, hx, h1, h3, h4⟩
          · left
            refine ⟨h1, fun y hy => ?_⟩
            obtain ⟨g1, g2, g3⟩ := h2 y hy
            rw [← h1] at hy
            have hynew : y ≠ new := by
              rintro rfl; exact f.fresh (inUse_of_mem (i.nn ▸ hc) (mem_links.1 hy).1)
            refine ⟨(same y hy).trans g1, by simp [g2, hynew], fun hs => ?_⟩
            have := g3 hs
            rcases List.mem_cons.1 this with rfl | h5
            · exact absurd heE (notE y hy)
            · exact h5
          · right
            refine ⟨x, by simp [hx], h1, ?_, h4⟩
            rw [same x (by rw [h1]; simp), h3]
      · intro x hx
        rcases List.mem_append.1 hx with hx | hx
        · exact fun h1 => i.disj x hx (by simp [h1])
        · simp at hx; subst hx
          exact fun h1 => hnewS (i.live x (by simp [h1])).1
      · rw [List.nodup_append]
        refine ⟨i.nodup, by simp, ?_⟩
        rintro x hx y hy rfl
        simp at hy; subst hy
        exact hnewres hx
      · intro x hx
        rcases List.mem_append.1 hx with hx | hx
        · obtain ⟨c, hc, d, hdd, h1, y, h2, h3⟩ := i.src x hx
          by_cases hcd : (c = n ∧ d = m) ∨ (c = m ∧ d = n)
          · rw [swapd hcd, hA] at h1
            exact absurd hx (hA2 x h1).2.1
          · exact ⟨c, hc, d, hdd, by rw [s2 c (i.nn ▸ hc) d (i.nn ▸ hdd) hcd]; exact h1, y, h2, h3⟩
        · simp at hx; subst hx
          exact ⟨n, hn, m, hm, by rw [s1]; simp, e, heS, hl0⟩
      · intro k hk
        obtain ⟨o1, o2⟩ := i.open_ k hk
        have hk' : k < h.nn := i.nn ▸ hk
        have key : (h'.node k).edges.filter (fun e => (h'.edge e).dangling) =
            (h.node k).edges.filter (fun e => (h.edge e).dangling) := by
          have e1 : (h'.node k).edges.filter (fun e => (h'.edge e).dangling) =
              ((h'.node k).edges.filter (fun e => e ≠ new)).filter (fun e => (h'.edge e).dangling) := by
            rw [List.filter_filter]
            refine List.filter_congr fun y _ => ?_
            by_cases hy : y = new
            · simp [hy, hnewd]
            · simp [hy]
          rw [e1, f.edges k hk', List.filter_filter]
          refine List.filter_congr fun y hy => ?_
          by_cases hyE : y ∈ e0 :: E'
          · simp [hyE, hEnd y hyE]
          · rw [(f.rest y (inUse_of_mem hk' hy) hyE).2.1]; simp [hyE]
        refine ⟨key.trans o1, fun y hy hyd => ?_⟩
        have hy' : y ∈ (h.node k).edges.filter (fun e => (h.edge e).dangling) := by
          rw [o1]; exact List.mem_filter.2 ⟨hy, hyd⟩
        obtain ⟨hy1, hy2⟩ := List.mem_filter.1 hy'
        rw [(f.rest y (inUse_of_mem hk' hy1) (fun hyE => by rw [hEnd y hyE] at hy2; simp at hy2)).2.2]
        exact o2 y hy hyd
      · intro ns hns hlt hcl σ hσ
        obtain ⟨v1, v2⟩ := i.value ns hns hlt hcl σ hσ
        have hlt' : ∀ k ∈ ns, k < h.nn := fun k hk => i.nn ▸ hlt k hk
        have hnin : n ∈ ns := hcl n hn m hm ⟨e, heS, hl0⟩
        have hmin : m ∈ ns := hcl m hm n hn ⟨e, heS, by rw [links_comm]; exact hl0⟩
        have hcl' : ∀ k < h.nn, (∃ y ∈ e0 :: E', y ∈ (h.node k).edges) → k ∈ ns := by
          rintro k hk ⟨y, hy, hyk⟩
          have := ((hE3 y).1 hy).2.at_mem w (at_of_mem hk hyk)
          simp at this
          rcases this with rfl | rfl
          exacts [hnin, hmin]
        refine ⟨?_, (f.value hnewd ns hns hlt' hcl' σ v1).trans v2⟩
        intro y hy hy2
        refine f.inRange hlt' v1 hy ?_ hy2
        rintro rfl
        refine hy2 ?_
        rw [f.wf.count_flat f.inUse hns (by rw [f.nn]; exact hlt')]
        have hall : ∀ s ∈ (h'.edge y).ends, s.1 ∈ ns := by
          intro s hs
          have hat := (f.wf.mem_ends f.inUse).1 hs
          have hs1 : s.1 < h.nn := f.nn ▸ hat.1
          have := List.count_pos_iff.2 hat.mem
          rw [f.count s.1 hs1 e0 (by simp)] at this
          exact hcl' s.1 hs1 ⟨e0, by simp, List.count_pos_iff.1 this⟩
        rw [Multiset.countP_eq_card.2 hall, (f.wf.good f.inUse).card, hnewd]
        rfl

theorem flattenAllLoop_ok [CommSemiring R] {h0 : Heap R} {S : List EId} (hSlt : ∀ e ∈ S, e < h0.ne)
    (fo : EId → FlatOrder) : ∀ (pend res : List EId) (h : Heap R), FInv h0 h S pend res →
    ∃ res' h', flattenAllLoop fo pend (res.map some) h = (.ok (res'.map some), h') ∧ FInv h0 h' S [] res'
  | [], res, h, i => ⟨res, h, rfl, i⟩
  | e :: pend, res, h, i => by
    unfold flattenAllLoop
    rw [get_bind]
    by_cases hd : (h.edge e).disabled = true
    · rw [if_pos hd]
      refine flattenAllLoop_ok hSlt fo pend res h ⟨i.wf, i.nn, i.ne, fun y hy => i.live y (by simp [hy]),
        (List.nodup_cons.1 i.pnodup).2, ?_, fun x hx h1 => i.disj x hx (by simp [h1]), i.nodup, i.src, i.open_,
        i.value⟩
      intro a ha b hb
      rcases i.pair a ha b hb with ⟨h1, h2⟩ | h1
      · left
        refine ⟨h1, fun y hy => ?_⟩
        obtain ⟨g1, g2, g3⟩ := h2 y hy
        refine ⟨g1, g2, fun hs => ?_⟩
        rcases List.mem_cons.1 (g3 hs) with rfl | h5
        · exfalso
          rw [← h1] at hy
          rcases i.wf.good (inUse_of_mem (i.nn ▸ ha) (mem_links.1 hy).1) with ⟨_, _, hr'⟩ | ⟨_, _, _, _, hr'⟩ <;>
            rw [hr'] at hd <;> simp at hd
        · exact h5
      · exact .inr h1
    · rw [if_neg hd]
      obtain ⟨n1, n2, x, h', k1, k2, k3, k4⟩ := i.step hSlt (by simpa using hd) (fo e)
      rw [M.bind_ok k1, M.bind_ok k2]
      simp only
      rw [M.bind_ok k3]
      have := flattenAllLoop_ok hSlt fo pend (res ++ [x]) h' k4
      simpa using this

/-- **C85.**  `flatten_all_edges`. -/
theorem C85_flatten_all [CommSemiring R] {h : Heap R} (g : GraphOK h) (so : ObjOrder) (fo : EId → FlatOrder)
    {nodes : List NId} (hn : ∀ n ∈ nodes, n < h.nn) :
    ∃ res h', flattenAllEdges so fo nodes h = (.ok (res.map some), h') ∧ AllFlat h h' nodes res := by
  have w := graphOK_iff.1 g
  obtain ⟨S, hS⟩ : ∃ S, S = so.ord ((nodes.flatMap fun n => (h.node n).edges.filter fun e => !(h.edge e).dangling).dedup) :=
    ⟨_, rfl⟩
  have hmem : ∀ e, e ∈ S ↔ ∃ n ∈ nodes, e ∈ (h.node n).edges ∧ (h.edge e).dangling = false := by
    intro e
    rw [hS, (so.perm _).mem_iff, List.mem_dedup]
    simp
  have hlink : ∀ e, e ∈ S → ∃ a ∈ nodes, ∃ b < h.nn, e ∈ links h a b := by
    intro e he
    obtain ⟨n, hn1, hn2, hn3⟩ := (hmem e).1 he
    have hu := inUse_of_mem (hn n hn1) hn2
    have hat := (w.mem_ends hu).2 (at_of_mem (hn n hn1) hn2)
    rcases w.good hu with ⟨m, a, hr⟩ | ⟨m, a, m', b, hr⟩
    · rw [hr] at hn3; simp at hn3
    · have hm : m < h.nn := ((at_conn w hu hr).2 (.inl rfl)).1
      have hm' : m' < h.nn := ((at_conn w hu hr).2 (.inr rfl)).1
      rw [hr] at hat
      simp at hat
      rcases hat with ⟨rfl, -⟩ | ⟨rfl, -⟩
      · exact ⟨n, hn1, m', hm', mem_links.2 ((w.between_iff hm hm').2 ⟨hu, _, _, .inl hr⟩)⟩
      · exact ⟨n, hn1, m, hm, mem_links.2 ((w.between_iff hm' hm).2 ⟨hu, _, _, .inr hr⟩)⟩
  have hlink' : ∀ a ∈ nodes, ∀ b < h.nn, ∀ e ∈ links h a b, e ∈ S := by
    intro a ha b hb e he
    have := mem_links.1 he
    exact (hmem e).2 ⟨a, ha, this.1, ((w.between_iff (hn a ha) hb).1 this).2.not_dangling⟩
  have hSlt : ∀ e ∈ S, e < h.ne := by
    intro e he
    obtain ⟨n, hn1, hn2, -⟩ := (hmem e).1 he
    exact w.lt (inUse_of_mem (hn n hn1) hn2)
  have i0 : FInv h h S S [] := by
    refine ⟨w, rfl, le_rfl, ?_, ?_, ?_, by simp, by simp, by simp, fun n hn => ⟨rfl, fun _ _ _ => rfl⟩,
      fun _ _ _ _ _ hσ => ⟨hσ, rfl⟩⟩
    · intro e he
      obtain ⟨n, hn1, hn2, hn3⟩ := (hmem e).1 he
      exact ⟨he, .inr ⟨inUse_of_mem (hn n hn1) hn2, hn3⟩⟩
    · rw [hS]; exact (so.perm _).nodup_iff.2 (List.nodup_dedup _)
    · intro a _ b _
      exact .inl ⟨rfl, fun e _ => ⟨rfl, by simp, id⟩⟩
  obtain ⟨res, h', k1, i⟩ := flattenAllLoop_ok hSlt fo S [] h i0
  refine ⟨res, h', ?_, ⟨graphOK_iff.2 i.wf, i.nn, ?_, ?_, ?_, i.nodup, ?_, i.open_, ?_⟩⟩
  · unfold flattenAllEdges
    rw [M.bind_ok (a := S) (h' := h) (by rw [hS]; rfl)]
    simpa using k1
  · rintro a ha b hb ⟨e, he⟩
    rcases i.pair a (hn a ha) b hb with ⟨-, h2⟩ | ⟨x, -, h1, h2, h3, -⟩
    · exact absurd ((h2 e he).2.2 (hlink' a ha b hb e he)) (by simp)
    · exact ⟨x, h1, h2, h3⟩
  · intro a ha b hb he
    rcases i.pair a (hn a ha) b hb with ⟨h1, -⟩ | ⟨x, -, -, -, -, e, -, h2⟩
    · rw [h1, he]
    · rw [he] at h2; simp at h2
  · intro a ha han b hb hbn
    rcases i.pair a ha b hb with ⟨h1, h2⟩ | ⟨x, -, -, -, -, e, he, h2⟩
    · exact ⟨h1, fun e he => (h2 e he).1⟩
    · exfalso
      obtain ⟨c, hc, d, hd, h3⟩ := hlink e he
      rcases links_unique ((w.between_iff ha hb).1 (mem_links.1 h2)).2
        ((w.between_iff (hn c hc) hd).1 (mem_links.1 h3)).2 with ⟨rfl, -⟩ | ⟨rfl, -⟩
      exacts [han hc, hbn hc]
  · intro x
    constructor
    · intro hx
      obtain ⟨a, ha, b, hb, h1, e, he, h2⟩ := i.src x hx
      obtain ⟨c, hc, d, hd, h3⟩ := hlink e he
      rcases links_unique ((w.between_iff ha hb).1 (mem_links.1 h2)).2
        ((w.between_iff (hn c hc) hd).1 (mem_links.1 h3)).2 with ⟨rfl, rfl⟩ | ⟨rfl, rfl⟩
      · exact ⟨c, hc, d, hd, h1⟩
      · exact ⟨c, hc, d, hd, by rw [links_comm]; exact h1⟩
    · rintro ⟨a, ha, b, hb, h1⟩
      rcases i.pair a (hn a ha) b hb with ⟨h2, h3⟩ | ⟨y, hy, h2, -⟩
      · rw [h2] at h1
        exact absurd ((h3 x h1).2.2 (hlink' a ha b hb x h1)) (by simp)
      · rw [h2, Finset.mem_singleton] at h1
        exact h1 ▸ hy
  · intro ns hns hlt hcl σ hσ
    refine (i.value ns hns hlt ?_ σ hσ).2
    rintro a ha b hb ⟨e, he, h2⟩
    obtain ⟨c, hc, d, hd, h3⟩ := hlink e he
    rcases links_unique ((w.between_iff (hn c hc) hd).1 (mem_links.1 h3)).2
      ((w.between_iff ha hb).1 (mem_links.1 h2)).2 with ⟨rfl, rfl⟩ | ⟨rfl, rfl⟩
    · exact (hcl a hc).1
    · exact (hcl b hc).2 a ha ⟨e, h3⟩

/-- **C85.**  `flatten_edges_between` returns `None` exactly if the nodes are not linked, and then
changes nothing; one link is returned as it is, more are flattened. -/
theorem C85_flatten_between [CommSemiring R] {h : Heap R} (g : GraphOK h) (fo : FlatOrder) {a b : NId}
    (ha : a < h.nn) (hb : b < h.nn) :
    (links h a b = ∅ → flattenEdgesBetween fo a b h = (.ok none, h)) ∧
    (∀ e, links h a b = {e} → flattenEdgesBetween fo a b h = (.ok (some e), h)) ∧
    (1 < (links h a b).card → ∃ E new h', E.Nodup ∧ E.toFinset = links h a b ∧
      flattenEdgesBetween fo a b h = (.ok (some new), h') ∧ GraphOK h' ∧ Flattened h h' E new ∧
      links h' a b = {new}) := by
  have w := graphOK_iff.1 g
  obtain ⟨E, hE1, hE2, hE3⟩ := getSharedEdges_ok w fo.so (n2 := b) ha
  have hE3' : ∀ y, y ∈ E ↔ Links h a b y := fun y => (hE3 y).trans (w.between_iff ha hb).symm
  have hE4 : E.toFinset = links h a b := by ext y; rw [List.mem_toFinset, hE3', mem_links]
  have hcard : (links h a b).card = E.length := by rw [← hE4, List.toFinset_card_of_nodup hE2]
  unfold flattenEdgesBetween
  rw [M.bind_ok hE1]
  refine ⟨fun he => ?_, fun e he => ?_, fun hc => ?_⟩
  · have : E = [] := by
      rw [he, Finset.card_empty] at hcard; exact List.length_eq_zero_iff.1 hcard.symm
    rw [if_pos this]; rfl
  · have : E = [e] := by
      rw [he, Finset.card_singleton] at hcard
      obtain ⟨x, rfl⟩ := List.length_eq_one_iff.1 hcard.symm
      rw [he] at hE4
      simpa using hE4
    subst this
    rw [if_neg (by simp), M.bind_ok (flattenEdges_single w fo.swap ((hE3 e).1 (by simp)).1)]
    rfl
  · obtain ⟨e0, E', rfl⟩ : ∃ e0 E', E = e0 :: E' := by
      cases E with
      | nil => rw [hcard] at hc; simp at hc
      | cons e0 E' => exact ⟨_, _, rfl⟩
    have hE' : E' ≠ [] := by rintro rfl; simp at hcard; omega
    obtain ⟨new, h', k1, f⟩ := flattenEdges_ok w fo.swap hE2 hE' (fun y hy => ((hE3 y).1 hy).1) (by
      intro y hy
      have b1 := ((hE3 e0).1 (by simp)).2
      have b2 := ((hE3 y).1 (by simp [hy])).2
      obtain ⟨_, _, b1 | b1⟩ := b1 <;> obtain ⟨_, _, b2 | b2⟩ := b2 <;> simp [SameNodes, b1, b2])
    refine ⟨_, new, h', hE2, hE4, ?_, graphOK_iff.2 f.wf, f, (f.links_step w ha hb (by simp) hE3').1⟩
    rw [if_neg (by simp), M.bind_ok k1]
    rfl

/-- **C85.**  `get_parallel_edges` returns the edges with the same nodes as the given one, each once,
and the given one among them; for an open edge these are the open edges of its node. -/
theorem C85_parallel {h : Heap R} (g : GraphOK h) (so : ObjOrder) {e : EId} (hc : Current h e) :
    ∃ S, getParallelEdges so e h = (.ok S, h) ∧ S.Nodup ∧ e ∈ S ∧
      ∀ x, x ∈ S ↔ Current h x ∧ ∀ n < h.nn, (h.node n).edges.count x = (h.node n).edges.count e := by
  have w := graphOK_iff.1 g
  have hu := current_iff.1 hc
  suffices hs : ∃ S, getParallelEdges so e h = (.ok S, h) ∧ S.Nodup ∧
      ∀ x, x ∈ S ↔ Current h x ∧ ∀ n < h.nn, (h.node n).edges.count x = (h.node n).edges.count e by
    obtain ⟨S, h1, h2, h3⟩ := hs
    exact ⟨S, h1, h2, (h3 e).2 ⟨hc, fun _ _ => rfl⟩, h3⟩
  have cnt1 : ∀ {x : EId} {n a : Nat}, InUse h x → h.edge x = .dang n a → ∀ k < h.nn,
      (h.node k).edges.count x = if n = k then 1 else 0 := by
    intro x n a hx hr k hk
    rw [w.count hx hk, hr, ends_dang, Multiset.countP_eq_card_filter, Multiset.filter_singleton]
    simp only
    split_ifs <;> rfl
  have cnt2 : ∀ {x : EId} {n m : Nat}, InUse h x → Between h n m x → ∀ k < h.nn,
      (h.node k).edges.count x = (if n = k then 1 else 0) + if m = k then 1 else 0 := by
    intro x n m hx hb k hk
    obtain ⟨a, b, he⟩ := hb.ends
    rw [w.count hx hk, he, Multiset.insert_eq_cons, Multiset.countP_cons, ← Multiset.cons_zero, Multiset.countP_cons,
      Multiset.countP_zero]
    simp only
    omega
  unfold getParallelEdges
  rcases w.good hu with ⟨n, a, hr⟩ | ⟨n, a, m, b, hr⟩
  · have hn : n < h.nn := ((at_dang w hu hr).2 rfl).1
    rw [M.bind_ok (node1_dang hr), M.bind_ok (node2_dang hr)]
    refine ⟨_, rfl, (so.perm _).nodup_iff.2 (List.nodup_dedup _), fun x => ?_⟩
    rw [(so.perm _).mem_iff, List.mem_dedup, List.mem_filter]
    constructor
    · rintro ⟨h1, h2⟩
      have hx := inUse_of_mem hn h1
      refine ⟨current_iff.2 hx, fun k hk => ?_⟩
      rcases w.good hx with ⟨n', a', hr'⟩ | ⟨n', a', m', b', hr'⟩
      · have := ((w.mem_ends hx).2 (at_of_mem hn h1))
        rw [hr'] at this
        simp at this
        rw [cnt1 hu hr k hk, cnt1 hx hr' k hk, this.1]
      · rw [hr'] at h2; simp at h2
    · rintro ⟨h1, h2⟩
      have hx := current_iff.1 h1
      have h3 := h2 n hn
      rw [cnt1 hu hr n hn, if_pos rfl] at h3
      have hm : x ∈ (h.node n).edges := List.count_pos_iff.1 (by omega)
      refine ⟨hm, ?_⟩
      rcases w.good hx with ⟨n', a', hr'⟩ | ⟨n', a', m', b', hr'⟩
      · rw [hr']; simp
      · exfalso
        have hn' : n' < h.nn := ((at_conn w hx hr').2 (.inl rfl)).1
        have hm' : m' < h.nn := ((at_conn w hx hr').2 (.inr rfl)).1
        have hb : Between h n' m' x := ⟨_, _, .inl hr'⟩
        have g1 := h2 n' hn'
        have g2 := h2 m' hm'
        rw [cnt1 hu hr _ hn', cnt2 hx hb _ hn'] at g1
        rw [cnt1 hu hr _ hm', cnt2 hx hb _ hm'] at g2
        split_ifs at g1 g2 <;> omega
  · have hn : n < h.nn := ((at_conn w hu hr).2 (.inl rfl)).1
    have hm : m < h.nn := ((at_conn w hu hr).2 (.inr rfl)).1
    have hb : Between h n m e := ⟨_, _, .inl hr⟩
    rw [M.bind_ok (node1_conn hr), M.bind_ok (node2_conn hr)]
    obtain ⟨S, h1, h2, h3⟩ := getSharedEdges_ok w so (n2 := m) hn
    refine ⟨S, h1, h2, fun x => ?_⟩
    rw [h3]
    constructor
    · rintro ⟨hx, hbx⟩
      exact ⟨current_iff.2 hx, fun k hk => by rw [cnt2 hu hb k hk, cnt2 hx hbx k hk]⟩
    · rintro ⟨hx, hcx⟩
      refine (w.between_iff hn hm).1 ⟨?_, ?_, ?_⟩
      · refine List.count_pos_iff.1 ?_
        rw [hcx n hn, cnt2 hu hb n hn]; simp
      · refine List.count_pos_iff.1 ?_
        rw [hcx m hm, cnt2 hu hb m hm]; simp
      · rintro rfl
        rw [hcx n hn, cnt2 hu hb n hn]; simp

/-- **C85.**  `get_all_nondangling` and `get_all_dangling` of different nodes divide the edges of the
nodes; every edge is listed once, the open ones in the order of the nodes and axes. -/
theorem C85_divide {h : Heap R} (g : GraphOK h) (so : ObjOrder) {nodes : List NId} (hn : ∀ n ∈ nodes, n < h.nn)
    (hd : nodes.Nodup) :
    ∃ S D, getAllNondangling so nodes h = (.ok S, h) ∧ getAllDangling nodes h = (.ok D, h) ∧ (S ++ D).Nodup ∧
      (∀ e, e ∈ S ++ D ↔ ∃ n ∈ nodes, e ∈ (h.node n).edges) ∧
      (∀ e ∈ S, ∃ n ∈ nodes, ∃ m < h.nn, Links h n m e) ∧
      D.Sublist (nodes.flatMap fun n => (h.node n).edges) ∧
      ∀ e ∈ D, ∃ n ∈ nodes, (h.node n).edges.count e = 1 ∧ ∀ m < h.nn, m ≠ n → e ∉ (h.node m).edges := by
  have w := graphOK_iff.1 g
  have hDm : ∀ e, (e ∈ nodes.flatMap fun n => (h.node n).edges.filter fun e => (h.edge e).dangling) ↔
      ∃ n ∈ nodes, e ∈ (h.node n).edges ∧ (h.edge e).dangling = true := by
    intro e; simp
  have hSm : ∀ e, e ∈ so.ord ((nodes.flatMap fun n => (h.node n).edges.filter fun e => !(h.edge e).dangling).dedup) ↔
      ∃ n ∈ nodes, e ∈ (h.node n).edges ∧ (h.edge e).dangling = false := by
    intro e
    rw [(so.perm _).mem_iff, List.mem_dedup]; simp
  have hcnt : ∀ n < h.nn, ∀ e ∈ (h.node n).edges, (h.edge e).dangling = true →
      (h.node n).edges.count e = 1 ∧ ∀ m < h.nn, m ≠ n → e ∉ (h.node m).edges := by
    intro n hn e he hde
    have hu := inUse_of_mem hn he
    rcases w.good hu with ⟨n', a, hr⟩ | ⟨n', a, m', b, hr⟩
    · have h1 := (at_dang w hu hr).1 (at_of_mem hn he)
      simp only [Prod.mk.injEq] at h1
      obtain ⟨rfl, -⟩ := h1
      refine ⟨?_, fun m hm hne hme => hne ?_⟩
      · rw [w.count hu hn, hr, ends_dang, Multiset.countP_eq_card_filter, Multiset.filter_singleton]
        simp
      · have h2 := (at_dang w hu hr).1 (at_of_mem hm hme)
        simp only [Prod.mk.injEq] at h2
        exact h2.1
    · rw [hr] at hde; simp at hde
  refine ⟨_, _, rfl, rfl, ?_, ?_, ?_, ?_, ?_⟩
  · rw [List.nodup_append]
    refine ⟨(so.perm _).nodup_iff.2 (List.nodup_dedup _), ?_, ?_⟩
    · rw [List.nodup_flatMap]
      constructor
      · intro n hn'
        rw [List.nodup_iff_count_le_one]
        intro e
        by_cases he : e ∈ (h.node n).edges.filter fun e => (h.edge e).dangling
        · obtain ⟨h1, h2⟩ := List.mem_filter.1 he
          exact (List.filter_sublist.count_le e).trans (hcnt n (hn n hn') e h1 h2).1.le
        · rw [List.count_eq_zero.2 he]; omega
      · refine (List.pairwise_iff_forall_sublist.2 fun {a b} hab => ?_)
        have hab' := hab.subset
        have hne : b ≠ a := by
          rintro rfl
          have := hd.sublist hab
          simp at this
        intro e h1 h2
        obtain ⟨h1, h3⟩ := List.mem_filter.1 h1
        obtain ⟨h2, -⟩ := List.mem_filter.1 h2
        exact (hcnt a (hn a (hab' (by simp))) e h1 h3).2 b (hn b (hab' (by simp))) hne h2
    · rintro x hx y hy rfl
      obtain ⟨_, _, _, h1⟩ := (hSm x).1 hx
      obtain ⟨_, _, _, h2⟩ := (hDm x).1 hy
      rw [h1] at h2; simp at h2
  · intro e
    rw [List.mem_append, hSm, hDm]
    constructor
    · rintro (⟨n, h1, h2, -⟩ | ⟨n, h1, h2, -⟩) <;> exact ⟨n, h1, h2⟩
    · rintro ⟨n, h1, h2⟩
      cases hde : (h.edge e).dangling
      · exact .inl ⟨n, h1, h2, rfl⟩
      · exact .inr ⟨n, h1, h2, rfl⟩
  · intro e he
    obtain ⟨n, h1, h2, h3⟩ := (hSm e).1 he
    have hu := inUse_of_mem (hn n h1) h2
    rcases w.good hu with ⟨n', a, hr⟩ | ⟨n', a, m', b, hr⟩
    · rw [hr] at h3; simp at h3
    · have hn' : n' < h.nn := ((at_conn w hu hr).2 (.inl rfl)).1
      have hm' : m' < h.nn := ((at_conn w hu hr).2 (.inr rfl)).1
      have hat := (at_conn w hu hr).1 (at_of_mem (hn n h1) h2)
      simp only [Prod.mk.injEq] at hat
      rcases hat with ⟨rfl, -⟩ | ⟨rfl, -⟩
      · exact ⟨n, h1, m', hm', (w.between_iff hn' hm').2 ⟨hu, _, _, .inl hr⟩⟩
      · exact ⟨n, h1, n', hn', (w.between_iff hm' hn').2 ⟨hu, _, _, .inr hr⟩⟩
  · clear hDm hSm hd hn
    induction nodes with
    | nil => simp
    | cons n nodes ih => simp only [List.flatMap_cons]; exact List.Sublist.append List.filter_sublist ih
  · intro e he
    obtain ⟨n, h1, h2, h3⟩ := (hDm e).1 he
    exact ⟨n, h1, hcnt n (hn n h1) e h2 h3⟩

/-! ### A network with two trace edges, two parallel edges and two open edges -/

def flatDemoOps : List (Op Nat) :=
  [.node (ones [2, 2, 3, 3, 2, 3, 4]), .node (ones [3, 2, 5]), .connect 0 1, .connect 2 3, .connect 4 8, .connect 5 7]

def flatDemo : Heap Nat := runOps flatDemoOps Heap.empty

theorem flatDemo_ok : GraphOK flatDemo :=
  (C07_history_partial flatDemoOps graphOK_empty
    ⟨trivial, trivial, ⟨⟨0, by decide, by decide⟩, ⟨0, by decide, by decide⟩⟩,
      ⟨⟨0, by decide, by decide⟩, ⟨0, by decide, by decide⟩⟩, ⟨⟨0, by decide, by decide⟩, ⟨1, by decide, by decide⟩⟩,
      ⟨⟨0, by decide, by decide⟩, ⟨1, by decide, by decide⟩⟩, trivial⟩).1

example : links flatDemo 0 1 = {12, 13} ∧ links flatDemo 0 0 = {10, 11} ∧ links flatDemo 1 1 = ∅ := by decide +kernel

example (so : ObjOrder) (fo : EId → FlatOrder) := C85_flatten_all flatDemo_ok so fo (nodes := [1]) (by decide)

example (fo : FlatOrder) := (C85_flatten_between flatDemo_ok fo (a := 0) (b := 0) (by decide) (by decide)).2.2
  (by decide +kernel)

example (so : ObjOrder) := C85_parallel flatDemo_ok so (e := 12) ⟨0, by decide, by decide +kernel⟩

example (so : ObjOrder) := C85_divide flatDemo_ok so (nodes := [1, 0]) (by decide) (by decide)

end TN.Graph
