import Verif.GraphAbsorb

/-!
# Merging nodes: graph and value

`Merged h h' N new S` says what it means that the nodes `N` were replaced by the node `new`
and the edges `S` between them were summed.
-/

namespace TN.Graph

open TN

variable {R : Type}

/-- `h'` is `h` after the nodes `N` were contracted to the new node `new`, summing over the
edges `S`. -/
structure Merged [CommSemiring R] (h h' : Heap R) (N : List NId) (new : NId) (S : List EId) :
    Prop where
  wf : WF h'
  new_eq : new = h.nn
  nn : h'.nn = h.nn + 1
  ne : h.ne ≤ h'.ne
  /-- all other nodes keep their tensor and their edges -/
  other : ∀ n < h.nn, n ∉ N → h'.node n = h.node n
  /-- the new node has the remaining edges in order -/
  edges : (h'.node new).edges = (N.flatMap (fun n => (h.node n).edges)).filter (fun e => e ∉ S)
  /-- remaining edges stay dangling or connected -/
  dangling : ∀ e, InUse h e → e ∉ S → (h'.edge e).dangling = (h.edge e).dangling
  /-- remaining edges stay in the graph, with their dimension -/
  live : ∀ e, InUse h e → e ∉ S → InUse h' e ∧ edim h' e = edim h e
  /-- the contracted edges are disabled -/
  disabled : ∀ e ∈ S, (h'.edge e).disabled = true ∧ ¬ InUse h' e
  /-- edges that were not in the graph are not touched -/
  dead : ∀ e < h.ne, ¬ InUse h e → h'.edge e = h.edge e
  /-- the old nodes keep their tensors and are detached from the graph -/
  detached : ∀ n ∈ N, (h'.node n).tensor = (h.node n).tensor ∧
    ∀ e ∈ (h'.node n).edges, h.ne ≤ e ∧ (h'.edge e).dangling = true
  /-- the entries of the new tensor are the sums over `S` of the products of the entries of the
  old tensors -/
  entry : ∀ τ : EId → Nat, (∀ e ∈ (h'.node new).edges, τ e < edim h e) →
    val (h'.node new).tensor (h'.node new).edges τ =
      sumOver (edim h) S (prodVal (netOf h N)) τ
  /-- the value of every network that contains all of `N` is unchanged -/
  value : ∀ rest : List NId, (N ++ rest).Nodup → (∀ n ∈ rest, n < h.nn) → ∀ σ : EId → Nat,
    (∀ e ∈ flatL (netOf h (N ++ rest)), (flatL (netOf h (N ++ rest))).count e ≠ 2 →
      σ e < edim h e) →
    netVal (netOf h' (new :: rest)) σ = netVal (netOf h (N ++ rest)) σ

/-! ### The list of moved axes -/

/-- The remaining edges with their axes. -/
def srcOf (h : Heap R) (N : List NId) (S : List EId) : List (EId × Slot) :=
  N.flatMap fun n => ((h.node n).edges.zipIdx.filter (fun p => p.1 ∉ S)).map
    fun p => (p.1, (n, p.2))

/-- The moves onto the axes of `new`. -/
def movesOf (src : List (EId × Slot)) (new : NId) : List (EId × Slot × Slot) :=
  src.zipIdx.map fun p => (p.1.1, p.1.2, (new, p.2))

/-- The map on axes given by a list of moves. -/
def mv (U : List (EId × Slot × Slot)) (s : Slot) : Slot :=
  ((U.find? (fun u => u.2.1 = s)).map (fun u => u.2.2)).getD s

theorem mv_mem {U : List (EId × Slot × Slot)} (hU : (U.map (fun u => u.2.1)).Nodup)
    {u : EId × Slot × Slot} (hu : u ∈ U) : mv U u.2.1 = u.2.2 := by
  unfold mv
  induction U with
  | nil => simp at hu
  | cons v U ih =>
    rw [List.map_cons, List.nodup_cons] at hU
    rw [List.find?_cons]
    rcases List.mem_cons.1 hu with rfl | hu
    · simp
    · have : v.2.1 ≠ u.2.1 := fun h => hU.1 (by rw [h]; exact List.mem_map.2 ⟨u, hu, rfl⟩)
      simp only [this, decide_false]
      exact ih hU.2 hu

theorem mv_not_mem {U : List (EId × Slot × Slot)} {s : Slot}
    (hs : s ∉ U.map (fun u => u.2.1)) : mv U s = s := by
  unfold mv
  rw [List.find?_eq_none.2]
  · rfl
  · intro u hu
    simp only [decide_eq_true_eq]
    intro h
    exact hs (List.mem_map.2 ⟨u, hu, h⟩)

theorem mem_srcOf {h : Heap R} {N : List NId} {S : List EId} (hN : ∀ n ∈ N, n < h.nn) {e : EId}
    {s : Slot} : (e, s) ∈ srcOf h N S ↔ At h s e ∧ s.1 ∈ N ∧ e ∉ S := by
  simp only [srcOf, List.mem_flatMap, List.mem_map, List.mem_filter, decide_eq_true_eq]
  constructor
  · rintro ⟨n, hn, ⟨e', k⟩, ⟨h1, h2⟩, h3⟩
    obtain ⟨rfl, rfl⟩ := Prod.mk.inj h3
    exact ⟨⟨hN n hn, List.mem_zipIdx_iff_getElem?.1 h1⟩, hn, h2⟩
  · rintro ⟨h1, h2, h3⟩
    exact ⟨s.1, h2, (e, s.2), ⟨List.mem_zipIdx_iff_getElem?.2 h1.2, h3⟩, rfl⟩

theorem srcOf_nodup {h : Heap R} {N : List NId} {S : List EId} (hN : N.Nodup) :
    ((srcOf h N S).map Prod.snd).Nodup := by
  rw [srcOf, List.map_flatMap, List.nodup_flatMap]
  constructor
  · intro n _
    rw [List.map_map]
    have : (Prod.snd ∘ fun p : EId × Nat => (p.1, (n, p.2))) = fun p => (n, p.2) := rfl
    rw [this]
    have h1 : (((h.node n).edges.zipIdx.filter (fun p => p.1 ∉ S)).map Prod.snd).Nodup := by
      refine List.Nodup.sublist (List.Sublist.map _ List.filter_sublist) ?_
      rw [List.zipIdx_map_snd]; exact List.nodup_range'
    have h2 : (((h.node n).edges.zipIdx.filter (fun p => p.1 ∉ S)).map (fun p => (n, p.2))) =
        (((h.node n).edges.zipIdx.filter (fun p => p.1 ∉ S)).map Prod.snd).map
          (fun k => (n, k)) := by
      rw [List.map_map]; rfl
    rw [h2]
    exact h1.map (fun a b hab => (Prod.mk.inj hab).2)
  · refine hN.imp ?_
    intro a b hab
    rw [Function.onFun, List.disjoint_left]
    intro s h1 h2
    simp only [List.map_map, List.mem_map] at h1 h2
    obtain ⟨p, _, rfl⟩ := h1
    obtain ⟨q, _, h3⟩ := h2
    exact hab (Prod.mk.inj h3).1.symm

theorem srcOf_edges {h : Heap R} {N : List NId} {S : List EId} :
    (srcOf h N S).map Prod.fst =
      (N.flatMap (fun n => (h.node n).edges)).filter (fun e => e ∉ S) := by
  rw [srcOf, List.map_flatMap, List.filter_flatMap]
  refine List.flatMap_congr fun n _ => ?_
  rw [List.map_map]
  have : ∀ (l : List EId) (k : Nat), ((l.zipIdx k).filter (fun p => p.1 ∉ S)).map
      (Prod.fst ∘ fun p : EId × Nat => (p.1, (n, p.2))) = l.filter (fun e => e ∉ S) := by
    intro l
    induction l with
    | nil => intro k; rfl
    | cons a l ih =>
      intro k
      rw [List.zipIdx_cons, List.filter_cons, List.filter_cons]
      by_cases ha : a ∈ S
      · simp only [ha, not_true_eq_false, decide_false]; exact ih _
      · simp only [ha, not_false_eq_true, decide_true, if_true, List.map_cons, ih]; rfl
  exact this _ 0

theorem movesOf_olds (src : List (EId × Slot)) (new : NId) :
    (movesOf src new).map (fun u => u.2.1) = src.map Prod.snd := by
  rw [movesOf, List.map_map]
  have : ((fun u : EId × Slot × Slot => u.2.1) ∘ fun p : (EId × Slot) × Nat =>
      (p.1.1, p.1.2, (new, p.2))) = Prod.snd ∘ Prod.fst := rfl
  rw [this, ← List.map_map, List.zipIdx_map_fst]

theorem mem_movesOf {src : List (EId × Slot)} {new : NId} {u : EId × Slot × Slot} :
    u ∈ movesOf src new ↔ ∃ k : Nat, src[k]? = some (u.1, u.2.1) ∧ u.2.2 = (new, k) := by
  simp only [movesOf, List.mem_map]
  constructor
  · rintro ⟨⟨⟨e, s⟩, k⟩, h1, rfl⟩
    exact ⟨k, List.mem_zipIdx_iff_getElem?.1 h1, rfl⟩
  · rintro ⟨k, h1, h2⟩
    exact ⟨((u.1, u.2.1), k), List.mem_zipIdx_iff_getElem?.2 h1, by rw [← h2]⟩

section
variable {h : Heap R} {N : List NId} {S : List EId} {new : NId}

/-- The moves of `srcOf` as a map on axes. -/
theorem mv_srcOf (hN : N.Nodup) {k : Nat} {e : EId} {s : Slot}
    (hk : (srcOf h N S)[k]? = some (e, s)) : mv (movesOf (srcOf h N S) new) s = (new, k) := by
  have hm : (e, s, (new, k)) ∈ movesOf (srcOf h N S) new := mem_movesOf.2 ⟨k, hk, rfl⟩
  exact mv_mem (by rw [movesOf_olds]; exact srcOf_nodup hN) hm

theorem mv_srcOf_other (hNlt : ∀ n ∈ N, n < h.nn) {s : Slot}
    (hs : ∀ e, ¬ (At h s e ∧ s.1 ∈ N ∧ e ∉ S)) : mv (movesOf (srcOf h N S) new) s = s := by
  refine mv_not_mem ?_
  rw [movesOf_olds]
  intro hm
  obtain ⟨⟨e, s'⟩, h1, rfl⟩ := List.mem_map.1 hm
  exact hs e ((mem_srcOf hNlt).1 h1)

/-- The loops over the edges of `N` that move them to `new`. -/
theorem moveTo_new (w : WF h) (hN : N.Nodup) (hNlt : ∀ n ∈ N, n < h.nn) :
    ∃ h2, updAll (movesOf (srcOf h N S) new) h = (.ok (), h2) ∧ h2.node = h.node ∧ h2.nn = h.nn ∧
      h2.ne = h.ne ∧ (∀ e, ¬ InUse h e → h2.edge e = h.edge e) ∧
      ∀ e, InUse h e → (h2.edge e).Good ∧ (h2.edge e).dangling = (h.edge e).dangling ∧
        (h2.edge e).ends = (h.edge e).ends.map (mv (movesOf (srcOf h N S) new)) := by
  refine moveSlots w ?_ ?_ ?_ ?_
  · rw [movesOf_olds]; exact srcOf_nodup hN
  · intro u hu
    obtain ⟨k, hk, _⟩ := mem_movesOf.1 hu
    exact ((mem_srcOf hNlt).1 (List.mem_of_getElem? hk)).1
  · intro u hu
    exact (mv_mem (by rw [movesOf_olds]; exact srcOf_nodup hN) hu).symm
  · intro s e _ hs
    exact mv_not_mem hs

end

/-- The merge theorem: a new node `new` with tensor `t` was added to the consistent graph
`h`, the edge ends were moved (giving `h2`), and the nodes `N` got fresh edges (giving
`h3`). -/
theorem merged_of [CommSemiring R] {h h2 h3 : Heap R} (w : WF h) {N : List NId} {S : List EId}
    {t : NDArray R} (hN : N.Nodup) (hNlt : ∀ n ∈ N, n < h.nn) (hSn : S.Nodup)
    (hS : ∀ e ∈ S, InUse h e ∧ (h.edge e).dangling = false ∧ ∀ s, At h s e → s.1 ∈ N)
    (hsh : Shaped (edim h) t ((N.flatMap (fun n => (h.node n).edges)).filter (fun e => e ∉ S)))
    (hval : ∀ τ : EId → Nat,
      (∀ e ∈ (N.flatMap (fun n => (h.node n).edges)).filter (fun e => e ∉ S), τ e < edim h e) →
      val t ((N.flatMap (fun n => (h.node n).edges)).filter (fun e => e ∉ S)) τ =
        sumOver (edim h) S (prodVal (netOf h N)) τ)
    (h2node : h2.node = (addNode h t).node) (h2nn : h2.nn = h.nn + 1)
    (h2ne : h2.ne = h.ne + t.ndim)
    (h2edge : ∀ e, InUse (addNode h t) e → (h2.edge e).Good ∧
      (h2.edge e).dangling = ((addNode h t).edge e).dangling ∧
      (h2.edge e).ends = ((addNode h t).edge e).ends.map
        (mv (movesOf (srcOf (addNode h t) N S) h.nn)))
    (h2dead : ∀ e, ¬ InUse (addNode h t) e → h2.edge e = (addNode h t).edge e)
    (h3f : Freshened (h2.setNode h.nn { h2.node h.nn with
      edges := (N.flatMap (fun n => (h.node n).edges)).filter (fun e => e ∉ S) }) h3 N) :
    Merged h (disableHeap h3 S) N h.nn S := by
  have w1 := addNode_wf w t
  have hnN : h.nn ∉ N := fun hm => absurd (hNlt _ hm) (lt_irrefl _)
  have hNlt1 : ∀ n ∈ N, n < (addNode h t).nn := fun n hn => Nat.lt_succ_of_lt (hNlt n hn)
  have hfm : N.flatMap (fun n => ((addNode h t).node n).edges) =
      N.flatMap (fun n => (h.node n).edges) :=
    List.flatMap_congr fun n hn => by rw [addNode_node_old (hNlt n hn)]
  have hes : (srcOf (addNode h t) N S).map Prod.fst =
      (N.flatMap (fun n => (h.node n).edges)).filter (fun e => e ∉ S) := by
    rw [srcOf_edges, hfm]
  have hdim1 : ∀ s e, At h s e → dimAt (addNode h t) s = edim h e := by
    intro s e hs
    rw [addNode_dimAt_old hs.1, w.edim_eq hs]
  have hnewnode : (disableHeap h3 S).node h.nn = ⟨t,
      (N.flatMap (fun n => (h.node n).edges)).filter (fun e => e ∉ S)⟩ := by
    have := h3f.other h.nn hnN
    simp only [Heap.setNode_node, Function.update_self, h2node, addNode_node_new] at this
    exact this
  have hother : ∀ n < h.nn, n ∉ N → (disableHeap h3 S).node n = h.node n := by
    intro n hn hnN
    have := h3f.other n hnN
    have h1 : (disableHeap h3 S).node n = h3.node n := rfl
    rw [h1, this, Heap.setNode_node, Function.update_of_ne hn.ne, h2node, addNode_node_old hn]
  have hSlt : ∀ e ∈ S, e < h.ne := fun e he => w.lt (hS e he).1
  have hS1 : ∀ e ∈ S, ∀ s, At (addNode h t) s e → s.1 ∈ N := by
    intro e he s hs
    by_cases h1 : s.1 = h.nn
    · exfalso
      obtain ⟨n, k⟩ := s
      simp only at h1
      subst h1
      obtain ⟨_, h2⟩ := addNode_at_new.1 hs
      have := hSlt e he
      omega
    · exact (hS e he).2.2 s ((addNode_at_old h1).1 hs)
  have sur : Surgery (addNode h t) (disableHeap h3 S) (mv (movesOf (srcOf (addNode h t) N S) h.nn))
      (fun e => e ∈ S ∨ ∃ k, At (addNode h t) (h.nn, k) e) := by
    refine absorb_surgery w1 (new := h.nn) (N := N) (S := S) (h2 := h2) (h3 := h3)
      (es := (N.flatMap (fun n => (h.node n).edges)).filter (fun e => e ∉ S))
      (Nat.lt_succ_self _) hnN ?_ h2node h2nn h2ne
      (fun e he => ⟨(h2edge e he).1, (h2edge e he).2.2⟩) ?_ ?_ ?_ ?_ ?_ hS1 ?_ h3f
    · intro k e he
      obtain ⟨h1, rfl⟩ := addNode_at_new.1 he
      rw [addNode_edge_new h1]
    · rw [addNode_node_new]
      exact hsh.ndim.symm
    · intro s e hs hsN heS
      have hm := (mem_srcOf hNlt1).2 ⟨hs, hsN, heS⟩
      obtain ⟨k, hk1, hk⟩ := List.mem_iff_getElem.1 hm
      have hk' : (srcOf (addNode h t) N S)[k]? = some (e, s) := by
        rw [List.getElem?_eq_getElem hk1, hk]
      refine ⟨k, mv_srcOf hN hk', ?_, ?_⟩
      · rw [← hes, List.getElem?_map, hk']; rfl
      · have hs0 : At h s e := (addNode_at_old (hNlt _ hsN).ne).1 hs
        rw [hdim1 s e hs0]
        simp only [dimAt, Heap.shape, addNode_node_new]
        rw [hsh, ← hes, List.map_map]
        rw [List.getD_eq_getElem?_getD, List.getElem?_map, hk']; rfl
    · intro k e hk
      rw [← hes, List.getElem?_map] at hk
      obtain ⟨⟨e', s⟩, h1, h2⟩ := Option.map_eq_some_iff.1 hk
      simp only at h2
      subst h2
      obtain ⟨a, b, c⟩ := (mem_srcOf hNlt1).1 (List.mem_of_getElem? h1)
      exact ⟨s, b, a, c, mv_srcOf hN h1⟩
    · intro s s' e hs hs' heS hsN hsN' hφ
      obtain ⟨k, hk1, hk⟩ := List.mem_iff_getElem.1 ((mem_srcOf hNlt1).2 ⟨hs, hsN, heS⟩)
      obtain ⟨k', hk1', hk'⟩ := List.mem_iff_getElem.1 ((mem_srcOf hNlt1).2 ⟨hs', hsN', heS⟩)
      rw [mv_srcOf hN (by rw [List.getElem?_eq_getElem hk1, hk]),
        mv_srcOf hN (by rw [List.getElem?_eq_getElem hk1', hk'])] at hφ
      obtain rfl : k = k' := (Prod.mk.inj hφ).2
      rw [hk] at hk'
      exact (Prod.mk.inj hk').2
    · intro s hs
      exact mv_srcOf_other hNlt1 (fun e h => hs h.2.1)
    · intro e he
      exact lt_of_lt_of_le (hSlt e he) (by simp [addNode])
  have hwf := sur.wf w1
  have hedge : ∀ e < h.ne, e ∉ S → (disableHeap h3 S).edge e = h2.edge e := by
    intro e he heS
    simp only [disableHeap, if_neg heS]
    exact h3f.old e (by simp only [Heap.setNode_ne, h2ne]; omega)
  have hnn : (disableHeap h3 S).nn = h.nn + 1 := h3f.nn.trans h2nn
  refine ⟨hwf, rfl, hnn, ?_, hother, ?_, ?_, ?_, ?_, ?_, ?_, ?_, ?_⟩
  · have := h3f.ne
    simp only [Heap.setNode_ne, h2ne] at this
    exact le_trans (Nat.le_add_right _ _) this
  · rw [hnewnode]
  · intro e hu heS
    have hlt := w.lt hu
    rw [hedge e hlt heS]
    obtain ⟨s, hs⟩ := hu
    rw [(h2edge e ⟨s, (addNode_at_old hs.1.ne).2 hs⟩).2.1, addNode_edge_old hlt]
  · rintro e ⟨s, hs⟩ heS
    have hlt := w.lt hs.inUse
    obtain ⟨l1, l2, _⟩ := sur.live s e ((addNode_at_old hs.1.ne).2 hs) (by
      rintro (h1 | ⟨k, h1⟩)
      · exact heS h1
      · obtain ⟨_, h2⟩ := addNode_at_new.1 h1
        omega)
    refine ⟨l1.inUse, ?_⟩
    rw [hwf.edim_eq l1, l2, hdim1 s e hs]
  · intro e he
    have hd : ((disableHeap h3 S).edge e).disabled = true := by
      simp only [disableHeap, if_pos he]
    refine ⟨hd, fun hu => ?_⟩
    rcases hwf.good hu with ⟨n, a, hr⟩ | ⟨n, a, m, b, hr⟩ <;> rw [hr] at hd <;> simp at hd
  · intro e hlt hu
    have heS : e ∉ S := fun h1 => hu (hS e h1).1
    rw [hedge e hlt heS, h2dead e ?_, addNode_edge_old hlt]
    rintro ⟨s, hs⟩
    by_cases h1 : s.1 = h.nn
    · obtain ⟨n, k⟩ := s
      simp only at h1
      subst h1
      obtain ⟨_, h2⟩ := addNode_at_new.1 hs
      omega
    · exact hu ⟨s, (addNode_at_old h1).1 hs⟩
  · intro n hn
    have hne : n ≠ h.nn := (hNlt n hn).ne
    constructor
    · have := h3f.tensor n
      rw [Heap.setNode_node, Function.update_of_ne hne, h2node, addNode_node_old (hNlt n hn)]
        at this
      exact this
    · intro e he
      obtain ⟨k, hk1, hk⟩ := List.mem_iff_getElem.1 he
      obtain ⟨a, b, c⟩ := h3f.fresh n hn k e (by
        rw [List.getElem?_eq_some_iff]; exact ⟨hk1, hk⟩)
      simp only [Heap.setNode_ne, h2ne] at a
      have heS : e ∉ S := fun hSe => by have := hSlt e hSe; omega
      refine ⟨by omega, ?_⟩
      simp only [disableHeap, if_neg heS, c]
  · intro τ hτ
    rw [hnewnode] at hτ ⊢
    exact hval τ hτ
  · intro rest hnd hrest σ hσ
    have hrN : ∀ n ∈ rest, n ∉ N := fun n h1 h2 =>
      (List.nodup_append.1 hnd).2.2 n h2 n h1 rfl
    have e1 : netOf (disableHeap h3 S) (h.nn :: rest) =
        [(t, (N.flatMap (fun n => (h.node n).edges)).filter (fun e => e ∉ S))] ++
          netOf h rest := by
      have e2 : netOf (disableHeap h3 S) rest = netOf h rest :=
        netOf_congr fun n hn => hother n (hrest n hn) (hrN n hn)
      rw [← e2]
      simp only [netOf, List.map_cons, hnewnode, List.singleton_append]
    have hflat : flatL (netOf h N) = N.flatMap (fun n => (h.node n).edges) := by
      simp [flatL, netOf, List.flatMap_map]
    have hall : ∀ n ∈ N ++ rest, n < h.nn := by
      intro n hn
      rcases List.mem_append.1 hn with h1 | h1
      · exact hNlt n h1
      · exact hrest n h1
    rw [netOf_append] at hσ ⊢
    rw [e1]
    have hc := w.consistent hall
    rw [netOf_append] at hc
    refine netVal_collapse (dim := edim h) (C := S) hc ?_ hSn ?_ ?_ ?_ σ hσ
    · intro p hp
      rcases List.mem_append.1 hp with h1 | h1
      · rw [List.mem_singleton.1 h1]; exact hsh
      · exact hc p (List.mem_append_right _ h1)
    · intro e he
      obtain ⟨hu, hd, hin⟩ := hS e he
      constructor
      · rw [w.count_flat hu hN hNlt]
        have : (h.edge e).ends.countP (fun s => s.1 ∈ N) = (h.edge e).ends.card := by
          rw [Multiset.countP_eq_card]
          intro s hs
          exact hin s ((w.mem_ends hu).1 hs)
        rw [this, (w.good hu).card, hd]; rfl
      · intro hm
        obtain ⟨n, h1, h2⟩ := mem_flat_netOf.1 hm
        exact hrN n h1 (hin _ (at_of_mem (hrest n h1) h2))
    · intro e
      rw [flatL_cons]
      simp only [flatL, List.flatMap_nil, List.append_nil]
      rw [← flatL, hflat]
      by_cases heS : e ∈ S
      · rw [if_pos heS, List.count_eq_zero]
        simp [heS]
      · rw [if_neg heS, List.count_filter (by simpa using heS)]
    · intro τ hτ
      rw [prodVal_cons]
      simp only [prodVal, List.map_nil, List.prod_nil, mul_one]
      refine hval τ fun e he => hτ e ?_
      rw [flatL_cons]
      simp only [List.mem_append]
      exact .inl he

end TN.Graph
