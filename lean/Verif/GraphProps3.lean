import Verif.GraphProps2
import Verif.DecompProps

/-!
# C12, C16, C17, C18, C49: reshaping, cutting, splitting and slicing

The result structures `Flattened`, `Split`, `Joined`, `CutAt`, `NodeSplit` and `Sliced` are the
specifications; none of them mentions the functions of the model.
-/

namespace TN.Graph

open TN NDArray

variable {R : Type}

/-- **C12.**  `flatten_edges` of a list of different edges between the same nodes. -/
theorem C12_flatten [CommSemiring R] {h : Heap R} (g : GraphOK h) (swap : Bool) {e0 : EId}
    {E : List EId} (hE : (e0 :: E).Nodup) (hne : E ≠ []) (hEu : ∀ e ∈ e0 :: E, Current h e)
    (hS : ∀ e ∈ E, SameNodes h e0 e) :
    ∃ new h', flattenEdges swap (e0 :: E) h = (.ok new, h') ∧ GraphOK h' ∧
      Flattened h h' (e0 :: E) new := by
  obtain ⟨new, h', k1, k2⟩ := flattenEdges_ok (graphOK_iff.1 g) swap hE hne
    (fun e he => current_iff.1 (hEu e he)) hS
  exact ⟨new, h', k1, graphOK_iff.2 k2.wf, k2⟩

/-- **C12**, rejected calls of `flatten_edges`: edges that are not parallel, or a repeated edge. -/
theorem C12_flatten_rejects {h : Heap R} (g : GraphOK h) (swap : Bool)
    {E : List EId} (hEu : ∀ e ∈ E, Current h e)
    (hbad : ¬ E.Nodup ∨ ∃ e ∈ E, ∃ e' ∈ E, ¬ SameNodes h e e') :
    flattenEdges swap E h = (.error .valueError, h) := by
  have w := graphOK_iff.1 g
  have hu := fun e he => current_iff.1 (hEu e he)
  rcases hbad with hbad | ⟨e, he, e', he', hbad⟩
  · exact flattenEdges_dup w swap hbad hu
  · cases E with
    | nil => simp at he
    | cons e0 E =>
      refine flattenEdges_err w swap hu ?_
      by_contra hc
      have hall : ∀ f ∈ e0 :: E, SameNodes h e0 f := by
        intro f hf
        by_contra hn
        rcases List.mem_cons.1 hf with rfl | hf
        · exact hn (.inl ⟨rfl, rfl⟩)
        · exact hc ⟨f, hf, hn⟩
      apply hbad
      rcases hall e he with ⟨a, b⟩ | ⟨a, b⟩ <;> rcases hall e' he' with ⟨c, d⟩ | ⟨c, d⟩ <;>
        simp only [SameNodes, a, b, c, d, and_self, true_or, or_true]

/-- **C12.**  `split_edge`: the edge is replaced by edges with the given dimensions; a shape with
another product is rejected. -/
theorem C12_split [CommSemiring R] {h : Heap R} (g : GraphOK h) (swap : Bool) {e : EId}
    (hc : Current h e) (shape : List Nat) :
    (shape.prod ≠ edim h e → splitEdge swap e shape h = (.error .valueError, h)) ∧
    (shape.prod = edim h e → shape.length = 1 → splitEdge swap e shape h = (.ok [e], h)) ∧
    (shape.prod = edim h e → shape.length ≠ 1 → ∃ h' news,
      splitEdge swap e shape h = (.ok news, h') ∧ GraphOK h' ∧ Split h h' e shape news) := by
  have w := graphOK_iff.1 g
  have hu := current_iff.1 hc
  refine ⟨fun h1 => splitEdge_err w hu h1 swap, fun h1 h2 => splitEdge_single w hu h1 h2 swap,
    fun h1 h2 => ?_⟩
  obtain ⟨h', news, k1, k2⟩ := splitEdge_ok w hu h1 h2 swap
  exact ⟨h', news, k1, graphOK_iff.2 k2.wf, k2⟩

/-- **C12**, round trip.  `split_edge` of the flattened edge with the old dimensions gives back
edges with the old dimensions between the same nodes, and every node its old entries: position
`σ'' news[i] = σ E[i]` for the new edges, the old positions for all others. -/
theorem C12_round_trip [CommSemiring R] {h : Heap R} (g : GraphOK h) (swap swap' : Bool)
    {e0 : EId} {E : List EId} (hE : (e0 :: E).Nodup) (hne : E ≠ [])
    (hEu : ∀ e ∈ e0 :: E, Current h e) (hS : ∀ e ∈ E, SameNodes h e0 e) :
    ∃ new h' h'' news, flattenEdges swap (e0 :: E) h = (.ok new, h') ∧
      splitEdge swap' new ((e0 :: E).map (edim h)) h' = (.ok news, h'') ∧ GraphOK h'' ∧
      news.map (edim h'') = (e0 :: E).map (edim h) ∧
      (∀ n < h.nn, ∀ f ∈ news, ∀ e ∈ e0 :: E,
        (h''.node n).edges.count f = (h.node n).edges.count e) ∧
      (∀ n < h.nn, (h''.node n).edges.filter (fun f => f ∉ news) =
        (h.node n).edges.filter (fun e => e ∉ e0 :: E)) ∧
      ∀ n < h.nn, ∀ σ σ'' : EId → Nat, (∀ e ∈ (h.node n).edges, σ e < edim h e) →
        news.map σ'' = (e0 :: E).map σ →
        (∀ e ∈ (h.node n).edges, e ∉ e0 :: E → σ'' e = σ e) →
        val (h''.node n).tensor (h''.node n).edges σ'' =
          val (h.node n).tensor (h.node n).edges σ := by
  obtain ⟨new, h', k1, g', k2⟩ := C12_flatten g swap hE hne hEu hS
  have hlen : ((e0 :: E).map (edim h)).length ≠ 1 := by
    cases E with
    | nil => exact absurd rfl hne
    | cons a E => simp
  obtain ⟨h'', news, k3, g'', k4⟩ := (C12_split g' swap' (current_iff.2 k2.inUse)
    ((e0 :: E).map (edim h))).2.2 k2.dim.symm hlen
  have hnn : h'.nn = h.nn := k2.nn
  have hnn2 : h''.nn = h.nn := k4.nn.trans hnn
  -- edges of `h''` outside `news` are edges of `h` outside `E`
  have hfil : ∀ n < h.nn, (h''.node n).edges.filter (fun f => f ∉ news) =
      (h.node n).edges.filter (fun e => e ∉ e0 :: E) := fun n hn =>
    (k4.edges n (by omega)).trans (k2.edges n hn)
  have hcount : ∀ n < h.nn, ∀ f ∈ news, ∀ e ∈ e0 :: E,
      (h''.node n).edges.count f = (h.node n).edges.count e := fun n hn f hf e he =>
    (k4.count n (by omega) f hf).trans (k2.count n hn e he)
  refine ⟨new, h', h'', news, k1, k3, g'', k4.dims, hcount, hfil, ?_⟩
  intro n hn σ σ'' hσ hnews hrest
  have hlenn : news.length = (e0 :: E).length := by simpa using congrArg List.length hnews
  have hdims := k4.dims
  have hlt : ∀ f ∈ (h''.node n).edges, σ'' f < edim h'' f := by
    intro f hf
    by_cases hfn : f ∈ news
    · obtain ⟨i, hi, rfl⟩ := List.getElem_of_mem hfn
      have hi' : i < (e0 :: E).length := by omega
      have e1 : σ'' news[i] = σ (e0 :: E)[i] := by
        have := List.getElem_of_eq hnews (i := i) (by simpa using hi)
        rwa [List.getElem_map, List.getElem_map] at this
      have e2 : edim h'' news[i] = edim h (e0 :: E)[i] := by
        have := List.getElem_of_eq hdims (i := i) (by simpa using hi)
        rwa [List.getElem_map, List.getElem_map] at this
      rw [e1, e2]
      refine hσ _ ?_
      have := hcount n hn _ hfn _ (List.getElem_mem hi')
      exact List.count_pos_iff.1 (by rw [← this]; exact List.count_pos_iff.2 hf)
    · have hm : f ∈ (h.node n).edges.filter (fun e => e ∉ e0 :: E) := by
        rw [← hfil n hn]
        exact List.mem_filter.2 ⟨hf, by simpa using hfn⟩
      obtain ⟨hm1, hm2⟩ := List.mem_filter.1 hm
      have hm2 : f ∉ e0 :: E := by simpa using hm2
      have hu : InUse h f := current_iff.1 ⟨n, hn, hm1⟩
      obtain ⟨u1, _, d1⟩ := k2.rest f hu hm2
      have hfnew : f ≠ new := by rintro rfl; exact k2.fresh hu
      obtain ⟨_, _, d2⟩ := k4.rest f u1 hfnew
      rw [d2, d1, hrest f hm1 hm2]
      exact hσ f hm1
  rw [k4.entry n (by omega) σ'' hlt, hnews, ← k2.entry n hn σ hσ]
  unfold val
  refine congrArg _ (List.map_congr_left fun f hf => ?_)
  by_cases hfnew : f = new
  · subst hfnew; simp
  · rw [Function.update_of_ne hfnew, Function.update_of_ne hfnew]
    have hm : f ∈ (h.node n).edges.filter (fun e => e ∉ e0 :: E) := by
      rw [← k2.edges n hn]
      exact List.mem_filter.2 ⟨hf, by simpa using hfnew⟩
    obtain ⟨hm1, hm2⟩ := List.mem_filter.1 hm
    exact hrest f hm1 (by simpa using hm2)

/-- **C16**, `disconnect`.  A connected edge is replaced by two new dangling edges at its two
axes; nothing else changes, no tensor changes, and summing the two new positions together gives
back the value of every network around the edge.  A dangling edge is rejected. -/
theorem C16_disconnect [CommSemiring R] {h : Heap R} (g : GraphOK h) {e : EId}
    (hc : Current h e) :
    ((h.edge e).dangling = true → disconnect e h = (.error .valueError, h)) ∧
    ((h.edge e).dangling = false → ∃ h' a b, disconnect e h = (.ok (a, b), h') ∧ GraphOK h' ∧
      ¬ Current h a ∧ ¬ Current h b ∧ a ≠ b ∧ (h'.edge a).dangling = true ∧
      (h'.edge b).dangling = true ∧ Joined h' h a b e) := by
  have w := graphOK_iff.1 g
  have hu := current_iff.1 hc
  refine ⟨disconnect_err, fun hd => ?_⟩
  obtain ⟨h', k1, k2, _, _, k5, k6, k7⟩ := disconnect_ok w hu hd
  refine ⟨h', h.ne, h.ne + 1, k1, graphOK_iff.2 k2, ?_, ?_, by omega, k5, k6, k7⟩
  · intro hcc
    have := w.lt (current_iff.1 hcc)
    omega
  · intro hcc
    have := w.lt (current_iff.1 hcc)
    omega

/-- **C16**, `remove_node`: exactly the edges to neighbours are cut (`CutAt` for all axes of the
node), and the returned dictionary gives for every such axis the new dangling edge of the
neighbour. -/
theorem C16_remove_node [CommSemiring R] {h : Heap R} (g : GraphOK h) {n : NId} (hn : n < h.nn) :
    ∃ h' l, removeNode n h = (.ok (l.filterMap id), h') ∧ GraphOK h' ∧
      CutAt h h' n (h.node n).edges.length l := by
  obtain ⟨h', l, k1, k2⟩ := removeNode_ok (graphOK_iff.1 g) hn
  exact ⟨h', l, k1, graphOK_iff.2 k2.wf, k2⟩

/-- After `remove_node` no edge leads from the node to another node. -/
theorem C16_remove_node_isolated [CommSemiring R] {h : Heap R} (g : GraphOK h) {n : NId}
    (hn : n < h.nn) : ∀ i e m k, ((removeNode n h).2.node n).edges[i]? = some e →
      ¬ Crosses (removeNode n h).2 n i m k e := by
  obtain ⟨h', l, k1, _, k2⟩ := C16_remove_node g hn
  have w := graphOK_iff.1 g
  rw [k1]
  intro i e m k he hcr
  have hAt' : At h' (n, i) e := ⟨by rw [k2.nn]; exact hn, he⟩
  have hi : i < (h.node n).edges.length := by
    have h1 : i < (h'.node n).edges.length := hAt'.lt_len
    have h2 := k2.wf.len n (by rw [k2.nn]; exact hn)
    have h3 := w.len n hn
    rw [k2.tensor n hn] at h2
    omega
  have hAt : At h (n, i) (h.node n).edges[i] := ⟨hn, List.getElem?_eq_getElem hi⟩
  by_cases hx : ∃ m k, Crosses h n i m k (h.node n).edges[i]
  · obtain ⟨m', k', hx⟩ := hx
    obtain ⟨f, f', a1, _, _, _, a2, _⟩ := k2.cut i hi m' k' _ hAt hx
    obtain rfl : e = f := by
      have := a1.2
      rw [he] at this
      exact Option.some.inj this
    rcases hcr.2 with hc | hc <;> rw [a2] at hc <;> simp [EdgeRec.dang, EdgeRec.conn] at hc
  · obtain ⟨a1, a2⟩ := k2.keep (n, i) _ hAt (by
      rintro j hj m' k' hAj hcr'
      rcases hcr'.2 with hc | hc
      · have := (at_conn w ⟨_, hAt⟩ hc (s := (n, i))).1 hAt
        rcases this with h1 | h1
        · simp only [Prod.mk.injEq, true_and] at h1
          subst h1
          exact hx ⟨m', k', hcr'⟩
        · simp only [Prod.mk.injEq] at h1
          exact hcr'.1 h1.1.symm
      · have := (at_conn w ⟨_, hAt⟩ hc (s := (n, i))).1 hAt
        rcases this with h1 | h1
        · simp only [Prod.mk.injEq] at h1
          exact hcr'.1 h1.1.symm
        · simp only [Prod.mk.injEq, true_and] at h1
          subst h1
          exact hx ⟨m', k', hcr'⟩)
    have : e = (h.node n).edges[i] := by
      have := a1.2
      rw [he] at this
      exact Option.some.inj this
    subst this
    apply hx
    refine ⟨m, k, hcr.1, ?_⟩
    rw [← a2]
    exact hcr.2

/-- **C49.**  `connect` of two dangling edges of equal dimension: the new edge takes their places,
no tensor changes and the two positions are summed together.  Everything else is rejected. -/
theorem C49_connect [CommSemiring R] {h : Heap R} (g : GraphOK h) {e1 e2 : EId}
    (hc1 : Current h e1) (hc2 : Current h e2) :
    ((h.edge e1).dangling = true ∧ (h.edge e2).dangling = true ∧ e1 ≠ e2 ∧
        edim h e1 = edim h e2 →
      ∃ h' new, connect e1 e2 h = (.ok new, h') ∧ GraphOK h' ∧ ¬ Current h new ∧
        Joined h h' e1 e2 new) ∧
    (¬ ((h.edge e1).dangling = true ∧ (h.edge e2).dangling = true ∧ e1 ≠ e2 ∧
        edim h e1 = edim h e2) → connect e1 e2 h = (.error .valueError, h)) := by
  have w := graphOK_iff.1 g
  have hu1 := current_iff.1 hc1
  have hu2 := current_iff.1 hc2
  refine ⟨fun ⟨a, b, c, d⟩ => ?_, fun hb => connect_err w hu1 hu2 hb⟩
  obtain ⟨h', k1, k2, _⟩ := connect_ok w hu1 hu2 a b c d
  refine ⟨h', h.ne, k1, graphOK_iff.2 k2.wf, ?_, k2⟩
  intro hcc
  have := w.lt (current_iff.1 hcc)
  omega

/-- **C17.**  `split_node…` with any bipartition of the edges and any decomposition that multiplies
back: two new nodes joined by one new edge with the left and the right edges in the requested
order, and the value of every network with the two nodes in place of the old one is unchanged. -/
theorem C17_split_node [CommSemiring R] {decomp : NDArray R → Nat → Py (NDArray R × NDArray R)}
    {h : Heap R} (g : GraphOK h) {n : NId} (hn : n < h.nn) {L Rr : List EId}
    (hp : (L ++ Rr).Perm (h.node n).edges) (hnd : (h.node n).edges.Nodup)
    (hdec : ∀ t : NDArray R, Shaped (edim h) t (L ++ Rr) →
      (∀ σ, val t (L ++ Rr) σ = val (h.node n).tensor (h.node n).edges σ) →
      ∃ u v, decomp t L.length = .ok (u, v) ∧ Factorises t L.length u v) :
    ∃ h' l r u v c, splitNodeWith decomp n L Rr h = (.ok (l, r), h') ∧ GraphOK h' ∧
      NodeSplit h h' n L Rr u v l r c ∧
      ∀ rest : List NId, (∀ m ∈ rest, m < h.nn ∧ m ≠ n) → ∀ σ, InRange h' (l :: r :: rest) σ →
        netVal (netOf h' (l :: r :: rest)) σ = netVal (netOf h (n :: rest)) σ := by
  have w := graphOK_iff.1 g
  obtain ⟨h', t, u, v, c, k1, k2, k3, k4, k5⟩ := splitNode_ok (decomp := decomp) w hn hp hnd (by
    intro t ht hv
    obtain ⟨u, v, hd, d, hu, hv, _⟩ := hdec t ht hv
    rw [ht, List.map_append] at hu hv
    rw [List.take_left' (by simp)] at hu
    rw [List.drop_left' (by simp)] at hv
    exact ⟨u, v, hd, d, hu, hv⟩)
  obtain ⟨u', v', hd, hf⟩ := hdec t k4 k5
  rw [k3] at hd
  simp only [Except.ok.injEq, Prod.mk.injEq] at hd
  obtain ⟨rfl, rfl⟩ := hd
  exact ⟨h', _, _, u, v, c, k1, graphOK_iff.2 k2.wf, k2, fun rest hr σ hσ =>
    k2.value w hn hp hf k4 k5 hr σ hσ⟩

/-- **C17**, rejected calls.  A list that is not a bipartition of the edges of the node – or a
node with a trace edge – is rejected and nothing changes, whatever the decomposition. -/
theorem C17_rejects {decomp : NDArray R → Nat → Py (NDArray R × NDArray R)}
    {h : Heap R} (g : GraphOK h) {n : NId} (hn : n < h.nn) {L Rr : List EId}
    (hu : ∀ e ∈ L ++ Rr, Current h e)
    (hbad : ¬ ((L ++ Rr).Perm (h.node n).edges ∧ (h.node n).edges.Nodup)) :
    ∃ er, splitNodeWith decomp n L Rr h = (.error er, h) :=
  splitNode_err (graphOK_iff.1 g) hn (fun e he => current_iff.1 (hu e he)) hbad

/-- **C18** (partial: `0 ≤ start`, or the slice ends before the end when counted from the end).
`slice_edge(edge, start, length)` keeps the positions `start, …, start + length - 1` of both ends
(`Sliced`), so the edge has dimension `length`. -/
theorem C18_slice_edge_partial [CommSemiring R] {h : Heap R} (g : GraphOK h) {e : EId}
    (hc : Current h e) {start length : Int} (h1 : 0 < length) (h2 : start + length ≤ edim h e)
    (h3 : 0 ≤ start ∨ (-(edim h e : Int) ≤ start ∧ start + length < 0)) :
    ∃ (h' : Heap R) (lo : Nat), sliceEdge e start length h = (.ok e, h') ∧ GraphOK h' ∧
      (lo : Int) = (if 0 ≤ start then start else start + edim h e) ∧
      (length.toNat : Int) = length ∧ lo + length.toNat ≤ edim h e ∧
      Sliced h h' e lo length.toNat := by
  obtain ⟨lo, hlo⟩ : ∃ lo : Nat, (lo : Int) = (if 0 ≤ start then start else start + edim h e) :=
    ⟨(if 0 ≤ start then start else start + edim h e).toNat, by
      rw [Int.toNat_of_nonneg]; split_ifs <;> omega⟩
  obtain ⟨h', k1, k2⟩ := sliceEdge_bounds (graphOK_iff.1 g) (current_iff.1 hc) (start := start)
    (length := length) (lo := lo) (len := length.toNat) h1 h2 (by omega) (by
      unfold sliceBounds
      simp only [Prod.mk.injEq]
      split_ifs at * <;> omega)
  refine ⟨h', lo, k1, graphOK_iff.2 k2.wf, hlo, by omega, ?_, k2⟩
  split_ifs at hlo <;> omega

/-- **C18**, rejected calls. -/
theorem C18_rejects [CommSemiring R] {h : Heap R} (g : GraphOK h) {e : EId} (hc : Current h e)
    {start length : Int} (hbad : length ≤ 0 ∨ start + length > edim h e ∨
      (-length < start ∧ start < 0)) :
    sliceEdge e start length h = (.error .valueError, h) :=
  sliceEdge_err (graphOK_iff.1 g) (current_iff.1 hc) hbad

/-- **C18** is false for `start = -length`: the call is accepted and leaves an edge of dimension
zero (network_components.py:1636-1682: the slice ends at `0`). -/
theorem C18_negative_start_false : ∃ (h : Heap Nat) (e : EId) (start length : Int), GraphOK h ∧
    Current h e ∧ 0 < length ∧ length ≤ edim h e ∧ start = -length ∧
    (sliceEdge e start length h).1 = .ok e ∧ edim (sliceEdge e start length h).2 e = 0 :=
  ⟨pair, 6, -2, 2, pair_ok, ⟨0, by decide, by decide⟩, by decide, by decide, by decide, by decide,
    by decide⟩

/-! ### Concrete cases meeting the hypotheses -/

theorem pair_current {e : EId} (he : e ∈ [6, 7, 2, 5]) : Current pair e := by
  simp only [List.mem_cons, List.not_mem_nil, or_false] at he
  rcases he with rfl | rfl | rfl | rfl
  · exact ⟨0, by decide, by decide⟩
  · exact ⟨0, by decide, by decide⟩
  · exact ⟨0, by decide, by decide⟩
  · exact ⟨1, by decide, by decide⟩

example (swap swap' : Bool) := C12_round_trip pair_ok swap swap' (e0 := 7) (E := [6]) (by decide)
  (by decide) (fun _ he => pair_current (by revert he; simp; omega))
  (fun e he => by obtain rfl : e = 6 := by simpa using he
                  exact .inl ⟨by decide, by decide⟩)

example (swap : Bool) : flattenEdges swap [6, 2] pair = (.error .valueError, pair) :=
  C12_flatten_rejects pair_ok swap (fun _ he => pair_current (by revert he; simp; omega))
    (.inr ⟨6, by simp, 2, by simp, by unfold SameNodes; decide⟩)

example (swap : Bool) := (C12_split pair_ok swap (pair_current (e := 2) (by simp)) [2, 1]).2.2
  (by decide) (by decide)

example := (C16_disconnect pair_ok (pair_current (e := 6) (by simp))).2 (by decide)

example := C16_remove_node_isolated pair_ok (n := 0) (by decide)

/-- Three vectors of dimension 2. -/
def threeFree : Heap Nat := runOps [.node (ones [2]), .node (ones [2]), .node (ones [2])] Heap.empty

theorem threeFree_ok : GraphOK threeFree :=
  (C07_history_partial [.node (ones [2]), .node (ones [2]), .node (ones [2])] graphOK_empty
    ⟨trivial, trivial, trivial, trivial⟩).1

example := (C49_connect threeFree_ok (e1 := 0) (e2 := 2) ⟨0, by decide, by decide⟩
  ⟨2, by decide, by decide⟩).1 ⟨by decide, by decide, by decide, by decide⟩

example := C18_slice_edge_partial pair_ok (pair_current (e := 7) (by simp)) (start := -3)
  (length := 2) (by decide) (by decide) (.inr ⟨by decide, by decide⟩)

end TN.Graph
