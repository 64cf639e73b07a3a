import Verif.GraphPath
import Verif.GraphProps3

/-!
# C10 and C36: contraction of a whole network along a path

`base` is the common body of all path based contractors (`optimal`, `branch`, `greedy`, `auto`,
`custom`).  The path search is an arbitrary function that returns a path: a list of pairs of
different positions that leads to one node (`PathOK`).  The iteration orders of the sets are
arbitrary.
-/

namespace TN.Graph

open TN

variable {R : Type}

/-- The edge is open for the nodes `ns`: exactly one of its ends is on them. -/
def OpenFor (h : Heap R) (ns : List NId) (e : EId) : Prop :=
  (ns.flatMap (fun n => (h.node n).edges)).count e = 1

instance (h : Heap R) (ns : List NId) (e : EId) : Decidable (OpenFor h ns e) :=
  inferInstanceAs (Decidable (_ = _))

/-- What the contraction of the nodes `ns` to the node `f` must do. -/
structure FullContraction [CommSemiring R] (h h' : Heap R) (ns : List NId) (f : NId) : Prop where
  /-- the graph is consistent -/
  ok : GraphOK h'
  /-- the result is a node, one of `ns` or new -/
  final : f < h'.nn ∧ (f ∈ ns ∨ h.nn ≤ f)
  /-- its edges are the open edges, each once -/
  nodup : (h'.node f).edges.Nodup
  edges : ∀ e, e ∈ (h'.node f).edges ↔ OpenFor h ns e
  /-- the nodes outside are untouched -/
  others : ∀ n < h.nn, n ∉ ns → h'.node n = h.node n
  /-- edges with both ends on the nodes are gone, all others stay -/
  kept : ∀ e, Current h e → (ns.flatMap (fun n => (h.node n).edges)).count e ≠ 2 →
    Current h' e ∧ (h'.edge e).dangling = (h.edge e).dangling ∧ edim h' e = edim h e
  gone : ∀ e, Current h e → (ns.flatMap (fun n => (h.node n).edges)).count e = 2 →
    (h'.edge e).disabled = true ∧ ¬ Current h' e
  /-- the entries of the result: the sum over the positions of all edges inside of the product of
  all entries -/
  entry : ∀ σ : EId → Nat, (∀ e, OpenFor h ns e → σ e < edim h e) →
    val (h'.node f).tensor (h'.node f).edges σ = netVal (netOf h ns) σ
  /-- the value of every larger network is unchanged -/
  value : ∀ rest : List NId, (ns ++ rest).Nodup → (∀ n ∈ rest, n < h.nn) → ∀ σ : EId → Nat,
    (∀ e ∈ flatL (netOf h (ns ++ rest)), (flatL (netOf h (ns ++ rest))).count e ≠ 2 →
      σ e < edim h e) →
    netVal (netOf h' (f :: rest)) σ = netVal (netOf h (ns ++ rest)) σ

theorem flatL_netOf (h : Heap R) (ns : List NId) :
    flatL (netOf h ns) = ns.flatMap (fun n => (h.node n).edges) := by
  simp [flatL, netOf, List.flatMap_map]

theorem Reduced.full [CommSemiring R] {h h' : Heap R} (w : WF h) {N : List NId} {f : NId}
    (r : Reduced h h' N [f]) (hN : N.Nodup) (hlt : ∀ n ∈ N, n < h.nn) (ht : NoTrace h' [f]) :
    FullContraction h h' N f where
  ok := graphOK_iff.2 r.wf
  final := ⟨r.lt f (by simp), r.sub f (by simp)⟩
  nodup := ht f (by simp)
  edges e := by
    rw [r.mem_final hlt (ht f (by simp)), OpenFor, flatL_netOf]
  others := r.other
  kept e he hc := by
    rcases r.edges e (current_iff.1 he) with ⟨h1, h2, h3, _⟩ | ⟨_, _, h3⟩
    · exact ⟨current_iff.2 h1, h2, h3⟩
    · rw [flatL_netOf] at h3; exact absurd h3 hc
  gone e he hc := by
    rcases r.edges e (current_iff.1 he) with ⟨_, _, _, h4⟩ | ⟨h1, h2, _⟩
    · rw [flatL_netOf h, hc, flatL_netOf] at h4
      have := List.nodup_iff_count_le_one.1 (ht f (by simp)) e
      simp at h4
      omega
    · exact ⟨h2, fun hc => h1 (current_iff.1 hc)⟩
  entry σ hσ := by
    rw [← netVal_single h' (ht f (by simp))]
    have := r.value [] (by simpa using hN) (by simp) σ (by
      intro e he hc
      rw [List.append_nil] at he hc
      refine hσ e ?_
      have h1 := w.count_flat (inUse_of_flat hlt he) hN hlt
      have h2 := Multiset.countP_le_card (fun s : Slot => s.1 ∈ N) (h.edge e).ends
      rw [(w.good (inUse_of_flat hlt he)).card] at h2
      have h3 := List.count_pos_iff.2 he
      rw [OpenFor, ← flatL_netOf]
      split_ifs at h2 <;> omega)
    simpa using this
  value := r.value

/-- **C10.**  `base(nodes, algorithm, output_edge_order)` with any path, any iteration orders and
any output order that lists each open edge once (no order is needed for at most one open edge, or
with `ignore_edge_order`): the nodes are contracted to one node, whose entries are those of the
network, with its edges in the given order. -/
theorem C10_full_contraction [CommSemiring R] (fo : FlatOrder) {h : Heap R} (g : GraphOK h)
    {nodes : List NId} (hne : nodes ≠ []) (hlt : ∀ n ∈ nodes, n < h.nn)
    {ie inn : List Nat → List Nat} (hie : ∀ l, (ie l).Perm l) (hinn : ∀ l, (inn l).Perm l)
    {alg : Heap R → List NId → List (Nat × Nat)}
    (halg : ∀ k l, 2 ≤ l.length → PathOK l.length (alg k l)) {order : Option (List EId)}
    {ignore : Bool}
    (hord : ignore = false → match order with
      | none => ∀ e e', OpenFor h nodes.dedup e → OpenFor h nodes.dedup e' → e = e'
      | some o => o.Nodup ∧ ∀ e, e ∈ o ↔ OpenFor h nodes.dedup e) :
    ∃ f h', base fo ie inn alg nodes order ignore h = (.ok f, h') ∧
      FullContraction h h' nodes.dedup f ∧
      (∀ o, ignore = false → order = some o → (h'.node f).edges = o) := by
  have w := graphOK_iff.1 g
  have hlt' : ∀ n ∈ nodes.dedup, n < h.nn := fun n hn => hlt n (List.mem_dedup.1 hn)
  obtain ⟨f, h', h1, h2, h3, h4⟩ := base_ok fo w hne hlt hie hinn halg (order := order)
    (ignore := ignore) (by
      intro hi
      have := hord hi
      cases order with
      | none =>
        simp only at this ⊢
        by_contra hc
        have hnd : (subgraphDangling h nodes.dedup).Nodup := by
          unfold subgraphDangling allEdges
          exact (List.nodup_dedup _).filter _
        have hm : ∀ e ∈ subgraphDangling h nodes.dedup, OpenFor h nodes.dedup e := by
          intro e he
          rw [OpenFor, ← flatL_netOf]
          exact (mem_subgraphDangling w (List.nodup_dedup _) hlt').1 he
        generalize subgraphDangling h nodes.dedup = l at hc hnd hm
        rcases l with _ | ⟨x, _ | ⟨y, l⟩⟩
        · simp at hc
        · simp at hc
        · have := this x y (hm x (by simp)) (hm y (by simp))
          simp [this] at hnd
      | some o => simpa only [OpenFor, ← flatL_netOf] using this)
  exact ⟨f, h', h1, h2.full w (List.nodup_dedup _) hlt' h3, h4⟩

theorem FullContraction.shape [CommSemiring R] {h h' : Heap R} {ns : List NId} {f : NId}
    (c : FullContraction h h' ns f) (hlt : ∀ n ∈ ns, n < h.nn) :
    h'.shape f = (h'.node f).edges.map (edim h) := by
  have h1 : h'.shape f = (h'.node f).edges.map (edim h') := (graphOK_iff.1 c.ok).shaped c.final.1
  rw [h1]
  refine List.map_congr_left fun e he => ?_
  have h2 := (c.edges e).1 he
  rw [OpenFor] at h2
  have h3 : e ∈ flatL (netOf h ns) := by
    rw [flatL_netOf]
    exact List.count_pos_iff.1 (by omega)
  exact (c.kept e (current_iff.2 (inUse_of_flat hlt h3)) (by omega)).2.2

/-- Two contractions of the same nodes, along different paths and with different iteration
orders, give the same entries at all positions of the open edges; with a given output order the
resulting tensors have the same edges and the same entries. -/
theorem C10_path_independent [CommSemiring R] {h h₁ h₂ : Heap R}
    {ns : List NId} {f₁ f₂ : NId} (c₁ : FullContraction h h₁ ns f₁)
    (c₂ : FullContraction h h₂ ns f₂) :
    (h₁.node f₁).edges.Perm (h₂.node f₂).edges ∧
    ∀ σ : EId → Nat, (∀ e, OpenFor h ns e → σ e < edim h e) →
      val (h₁.node f₁).tensor (h₁.node f₁).edges σ = val (h₂.node f₂).tensor (h₂.node f₂).edges σ := by
  refine ⟨?_, fun σ hσ => by rw [c₁.entry σ hσ, c₂.entry σ hσ]⟩
  rw [List.perm_ext_iff_of_nodup c₁.nodup c₂.nodup]
  intro e
  rw [c₁.edges, c₂.edges]

/-- The shape and every entry of the result depend only on the network and on the output order:
not on the path, nor on any iteration order. -/
theorem C10_same_tensor [CommSemiring R] {fo fo' : FlatOrder} {h : Heap R} (g : GraphOK h)
    {nodes : List NId} (hne : nodes ≠ []) (hlt : ∀ n ∈ nodes, n < h.nn)
    {ie inn ie' inn' : List Nat → List Nat} (hie : ∀ l, (ie l).Perm l) (hinn : ∀ l, (inn l).Perm l)
    (hie' : ∀ l, (ie' l).Perm l) (hinn' : ∀ l, (inn' l).Perm l)
    {alg alg' : Heap R → List NId → List (Nat × Nat)}
    (halg : ∀ k l, 2 ≤ l.length → PathOK l.length (alg k l))
    (halg' : ∀ k l, 2 ≤ l.length → PathOK l.length (alg' k l)) {o : List EId} (hnd : o.Nodup)
    (ho : ∀ e, e ∈ o ↔ OpenFor h nodes.dedup e) :
    ∃ f h₁ f' h₂, base fo ie inn alg nodes (some o) false h = (.ok f, h₁) ∧
      base fo' ie' inn' alg' nodes (some o) false h = (.ok f', h₂) ∧
      (h₁.node f).edges = o ∧ (h₂.node f').edges = o ∧
      h₁.shape f = h₂.shape f' ∧
      ∀ ix : List Nat, InB (o.map (edim h)) ix →
        (h₁.node f).tensor.get ix = (h₂.node f').tensor.get ix := by
  obtain ⟨f, h₁, a1, a2, a3⟩ := C10_full_contraction fo g hne hlt hie hinn halg
    (order := some o) (ignore := false) (fun _ => ⟨hnd, ho⟩)
  obtain ⟨f', h₂, b1, b2, b3⟩ := C10_full_contraction fo' g hne hlt hie' hinn' halg'
    (order := some o) (ignore := false) (fun _ => ⟨hnd, ho⟩)
  have a3 := a3 o rfl rfl
  have b3 := b3 o rfl rfl
  refine ⟨f, h₁, f', h₂, a1, b1, a3, b3, ?_, ?_⟩
  · rw [a2.shape (fun n hn => hlt n (List.mem_dedup.1 hn)),
      b2.shape (fun n hn => hlt n (List.mem_dedup.1 hn)), a3, b3]
  · intro ix hix
    have h1 := assign_map_self (σ := fun _ => 0) hnd (c := ix) (by simpa using hix.length)
    have h2 := (C10_path_independent a2 b2).2 (assign (fun _ => 0) o ix)
      (fun e he => assign_lt hnd hix ((ho e).2 he))
    rw [a3, b3, val, val, h1] at h2
    exact h2

/-- A wrong output order is rejected before anything is contracted; so is a missing order when
there are several open edges. -/
theorem C10_rejects [CommSemiring R] (fo : FlatOrder) {h : Heap R} (g : GraphOK h)
    {nodes : List NId} (hlt : ∀ n ∈ nodes, n < h.nn)
    {ie inn : List Nat → List Nat} (hie : ∀ l, (ie l).Perm l)
    {alg : Heap R → List NId → List (Nat × Nat)} {order : Option (List EId)}
    (hord : match order with
      | none => ∃ e e', e ≠ e' ∧ OpenFor h nodes.dedup e ∧ OpenFor h nodes.dedup e'
      | some o => ¬ ∀ e, e ∈ o ↔ OpenFor h nodes.dedup e) :
    base fo ie inn alg nodes order false h = (.error .valueError, h) := by
  have w := graphOK_iff.1 g
  have hlt' : ∀ n ∈ nodes.dedup, n < h.nn := fun n hn => hlt n (List.mem_dedup.1 hn)
  refine base_err fo w hlt hie ?_
  cases order with
  | none =>
    simp only at hord ⊢
    obtain ⟨e, e', hne, h1, h2⟩ := hord
    rw [OpenFor, ← flatL_netOf, ← mem_subgraphDangling w (List.nodup_dedup _) hlt'] at h1 h2
    generalize subgraphDangling h nodes.dedup = l at h1 h2
    rcases l with _ | ⟨x, _ | ⟨y, l⟩⟩
    · simp at h1
    · simp only [List.mem_singleton] at h1 h2
      exact absurd (h1.trans h2.symm) hne
    · simp
  | some o => simpa only [OpenFor, ← flatL_netOf] using hord

/-- **C36.**  `multi_remove(elems, indices)`: the elements at the other positions, in order; for
in-range positions without repetition the length shrinks by their number. -/
theorem C36_multi_remove {α : Type} (l : List α) (idx : List Nat) :
    multiRemove l idx = ((List.range l.length).filter (fun i => i ∉ idx)).filterMap (l[·]?) ∧
    (idx.Nodup → (∀ i ∈ idx, i < l.length) → (multiRemove l idx).length = l.length - idx.length) := by
  constructor
  · induction l using List.reverseRecOn with
    | nil => rfl
    | append_singleton l x ih =>
      have h1 : multiRemove (l ++ [x]) idx =
          multiRemove l idx ++ (if l.length ∈ idx then [] else [x]) := by
        unfold multiRemove
        rw [List.zipIdx_append, List.filter_append, List.map_append]
        congr 1
        by_cases hc : l.length ∈ idx <;> simp [hc]
      rw [h1, ih, List.length_append, List.length_singleton, List.range_succ, List.filter_append,
        List.filterMap_append]
      congr 1
      · refine List.filterMap_congr fun i hi => ?_
        have : i < l.length := List.mem_range.1 (List.mem_filter.1 hi).1
        rw [List.getElem?_append_left this]
      · by_cases hc : l.length ∈ idx <;> simp [hc]
  · intro hnd hlt
    have h1 : (multiRemove l idx).length =
        (List.range l.length).countP (fun i => decide (i ∉ idx)) := by
      unfold multiRemove
      rw [List.length_map, ← List.countP_eq_length_filter]
      have : List.range l.length = l.zipIdx.map Prod.snd := by
        rw [List.zipIdx_map_snd, List.range_eq_range']
      rw [this, List.countP_map]
      rfl
    have h2 : ((List.range l.length).filter (fun i => decide (i ∈ idx))).Perm idx := by
      rw [List.perm_ext_iff_of_nodup (List.nodup_range.filter _) hnd]
      intro i
      simp only [List.mem_filter, List.mem_range, decide_eq_true_eq, and_iff_right_iff_imp]
      exact hlt i
    have h3 := List.length_eq_countP_add_countP (fun i => decide (i ∈ idx))
      (l := List.range l.length)
    rw [List.countP_eq_length_filter, h2.length_eq, List.length_range] at h3
    rw [h1]
    simp only [decide_eq_true_eq] at h3
    omega

/-! ### Concrete cases meeting the hypotheses -/

example : multiRemove ["a", "b", "c", "d"] [2, 0] = ["b", "d"] := by decide

/-- Three nodes in a triangle with one open edge each, and a trace edge. -/
def triangle : Heap Nat :=
  runOps [.node (ones [2, 3, 2]), .node (ones [3, 4, 5]), .node (ones [2, 4, 7, 7, 3]),
    .connect 1 3, .connect 4 7, .connect 6 0, .connect 8 9] Heap.empty

theorem triangle_ok : GraphOK triangle :=
  (C07_history_partial [.node (ones [2, 3, 2]), .node (ones [3, 4, 5]),
    .node (ones [2, 4, 7, 7, 3]), .connect 1 3, .connect 4 7, .connect 6 0, .connect 8 9]
    graphOK_empty ⟨trivial, trivial, trivial,
    ⟨⟨0, by decide, by decide⟩, ⟨1, by decide, by decide⟩⟩,
    ⟨⟨1, by decide, by decide⟩, ⟨2, by decide, by decide⟩⟩,
    ⟨⟨2, by decide, by decide⟩, ⟨0, by decide, by decide⟩⟩,
    ⟨⟨2, by decide, by decide⟩, ⟨2, by decide, by decide⟩⟩, trivial⟩).1

/-- The path that always contracts the first two nodes. -/
def firstTwo (_ : Heap Nat) (l : List NId) : List (Nat × Nat) :=
  List.replicate (l.length - 1) (0, 1)

theorem firstTwo_ok (k : Heap Nat) (l : List NId) (hl : 2 ≤ l.length) :
    PathOK l.length (firstTwo k l) := by
  obtain ⟨n, hn⟩ : ∃ n, n + 1 = l.length := ⟨l.length - 1, by omega⟩
  unfold firstTwo
  rw [← hn, Nat.add_sub_cancel]
  clear hn hl
  induction n with
  | zero => rfl
  | succ n ih => exact ⟨by omega, by omega, by omega, ih⟩

theorem triangle_open (e : EId) : e ∈ [5, 10, 2] ↔ OpenFor triangle [1, 2, 0] e := by
  have h1 : ([1, 2, 0] : List NId).flatMap (fun n => (triangle.node n).edges) =
      [11, 12, 5, 13, 12, 14, 14, 10, 13, 11, 2] := by decide +kernel
  rw [OpenFor, h1]
  constructor
  · intro h
    simp only [List.mem_cons, List.not_mem_nil, or_false] at h
    rcases h with rfl | rfl | rfl <;> decide
  · intro h
    have : e ∈ [11, 12, 5, 13, 12, 14, 14, 10, 13, 11, 2] := List.count_pos_iff.1 (by omega)
    simp only [List.mem_cons, List.not_mem_nil, or_false] at this
    revert h
    rcases this with rfl | rfl | rfl | rfl | rfl | rfl | rfl | rfl | rfl | rfl | rfl <;> decide

example (fo : FlatOrder) := C10_full_contraction fo triangle_ok (nodes := [1, 2, 0]) (by simp)
  (by decide) (ie := List.reverse) (inn := id) List.reverse_perm (fun _ => .refl _) firstTwo_ok
  (order := some [5, 10, 2]) (ignore := false) (fun _ => ⟨by decide, triangle_open⟩)

example (fo fo' : FlatOrder) := C10_same_tensor (fo := fo) (fo' := fo') triangle_ok
  (nodes := [1, 2, 0]) (by simp) (by decide) (ie := List.reverse) (inn := id) (ie' := id)
  (inn' := List.reverse) List.reverse_perm (fun _ => .refl _) (fun _ => .refl _) List.reverse_perm
  firstTwo_ok firstTwo_ok (o := [5, 10, 2]) (by decide) triangle_open

example (fo : FlatOrder) := C10_rejects fo triangle_ok (nodes := [1, 2, 0]) (by decide)
  (ie := List.reverse) (inn := id) List.reverse_perm (alg := firstTwo) (order := none)
  ⟨5, 2, by decide, (triangle_open 5).1 (by simp), (triangle_open 2).1 (by simp)⟩

end TN.Graph
