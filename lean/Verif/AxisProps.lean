import Verif.AxisNames10

/-!
# C72: axis names

A node gives each of its axes a name, and `node[name]` is the edge at the axis of that name.  The specification is
`Labelled es ns f s`: the edge `f` is at an axis that is called `s`.
-/

namespace TN.Graph

open TN

set_option linter.unusedSectionVars false

variable {R : Type}

/-! ### Looking up, and reordering -/

/-- **C72.**  `node[name]` of a node with different names is the edge at the axis of that name; other names are
rejected.  Nothing changes. -/
theorem C72_get_edge {h : Heap R} {nm : AxTab} {n : NId} (hnd : (nm n).Nodup)
    (hl : (nm n).length = (h.node n).edges.length) (name : String) :
    (∀ e, getEdge n name (h, nm) = (.ok e, (h, nm)) ↔ Labelled (h.node n).edges (nm n) e name) ∧
    ((∀ e, ¬ Labelled (h.node n).edges (nm n) e name) → getEdge n name (h, nm) = (.error .valueError, (h, nm))) := by
  have hin : name ∈ nm n → ∃ e, getEdge n name (h, nm) = (.ok e, (h, nm)) ∧ (h.node n).edges[(nm n).idxOf name]? = some e ∧
      (nm n)[(nm n).idxOf name]? = some name := by
    intro hm
    have h1 := List.idxOf_lt_length_of_mem hm
    refine ⟨(h.node n).edges[(nm n).idxOf name]'(by omega), ?_, List.getElem?_eq_getElem _, ?_⟩
    · have ha : axisNumber n name (h, nm) = (.ok ((nm n).idxOf name), (h, nm)) := by
        unfold axisNumber
        rw [NM.bind_ok (x := NM.names n) (a := nm n) (s' := (h, nm)) rfl, if_pos hm]
        rfl
      unfold getEdge
      rw [NM.bind_ok ha, NM.bind_ok (NM.lift_ok (nodeEdges_eq n) nm), List.getElem?_eq_getElem (by omega)]
      rfl
    · rw [List.getElem?_eq_getElem h1]
      simp
  have hout : name ∉ nm n → getEdge n name (h, nm) = (.error .valueError, (h, nm)) := by
    intro hm
    have ha : axisNumber n name (h, nm) = (.error .valueError, (h, nm)) := by
      unfold axisNumber
      rw [NM.bind_ok (x := NM.names n) (a := nm n) (s' := (h, nm)) rfl, if_neg hm]
      rfl
    unfold getEdge
    rw [NM.bind_error ha]
  constructor
  · intro e
    constructor
    · intro hg
      by_cases hm : name ∈ nm n
      · obtain ⟨e', h1, h2, h3⟩ := hin hm
        rw [h1] at hg
        obtain rfl : e' = e := Except.ok.inj (Prod.mk.inj hg).1
        exact ⟨_, h2, h3⟩
      · rw [hout hm] at hg; cases hg
    · rintro ⟨i, h1, h2⟩
      obtain ⟨e', h3, h4, h5⟩ := hin (List.mem_of_getElem? h2)
      have : i = (nm n).idxOf name := by
        have hi : i < (nm n).length := by
          by_contra hc
          rw [List.getElem?_eq_none (by omega)] at h2; cases h2
        have hj : (nm n).idxOf name < (nm n).length := List.idxOf_lt_length_of_mem (List.mem_of_getElem? h2)
        rw [List.getElem?_eq_getElem hi, Option.some.injEq] at h2
        rw [List.getElem?_eq_getElem hj, Option.some.injEq] at h5
        exact (List.Nodup.getElem_inj_iff hnd).1 (h2.trans h5.symm)
      rw [this, h4] at h1
      rw [h3, Option.some.inj h1]
  · intro hno
    refine hout fun hm => ?_
    obtain ⟨e, _, h2, h3⟩ := hin hm
    exact hno e ⟨_, h2, h3⟩

theorem labelled_map {es : List EId} {ns : List String} (hl : ns.length = es.length) {p : List Nat}
    (hp : p.Perm (List.range es.length)) (f : EId) (s : String) :
    Labelled (p.map fun i => es.getD i default) (p.map fun i => ns.getD i "") f s ↔ Labelled es ns f s := by
  constructor
  · rintro ⟨j, h1, h2⟩
    rw [List.getElem?_map] at h1 h2
    rcases hj : p[j]? with _ | i
    · rw [hj] at h1; cases h1
    rw [hj] at h1 h2
    have hi : i < es.length := List.mem_range.1 (hp.mem_iff.1 (List.mem_of_getElem? hj))
    simp only [Option.map_some, Option.some.injEq] at h1 h2
    refine ⟨i, ?_, ?_⟩
    · rw [← h1, List.getD_eq_getElem _ _ hi, List.getElem?_eq_getElem hi]
    · rw [← h2, List.getD_eq_getElem _ _ (by omega), List.getElem?_eq_getElem (by omega)]
  · rintro ⟨i, h1, h2⟩
    have hi : i < es.length := by
      by_contra hc
      rw [List.getElem?_eq_none (by omega)] at h1; cases h1
    obtain ⟨j, hj⟩ := List.mem_iff_getElem?.1 (hp.mem_iff.2 (List.mem_range.2 hi))
    refine ⟨j, ?_, ?_⟩
    · rw [List.getElem?_map, hj, Option.map_some, List.getD_eq_getElem?_getD, h1]; rfl
    · rw [List.getElem?_map, hj, Option.map_some, List.getD_eq_getElem?_getD, h2]; rfl

/-- **C72.**  `reorder_axes` moves the names with the axes: every name still belongs to the same edge. -/
theorem C72_reorder_axes [CommSemiring R] {h : Heap R} (g : GraphOK h) {nm : AxTab} {n : NId} (hn : n < h.nn)
    (hl : (nm n).length = (h.node n).edges.length) {perm : List Nat} (hp : perm.Perm (List.range (h.node n).edges.length)) :
    ∃ h' l, reorderAxesN n perm (h, nm) = (.ok (), (h', Function.update nm n l)) ∧ GraphOK h' ∧
      (h'.node n).edges = perm.map (fun i => (h.node n).edges.getD i default) ∧ l.Perm (nm n) ∧
      ∀ f s, Labelled (h'.node n).edges l f s ↔ Labelled (h.node n).edges (nm n) f s := by
  obtain ⟨h', h1, h2⟩ := reorderAxes_ok (graphOK_iff.1 g) hn hp
  refine ⟨h', _, reorderAxesN_ok h1 hl, graphOK_iff.2 h2.wf, h2.edges, ?_, ?_⟩
  · have h3 := hp.map (fun i => (nm n).getD i "")
    rw [← hl] at h3
    refine h3.trans (List.Perm.of_eq ?_)
    exact List.ext_getElem (by simp) fun i hi hi' => by
      simp only [List.getElem_map, List.getElem_range]
      rw [List.getD_eq_getElem _ _ hi']
  · intro f s
    rw [h2.edges]
    exact labelled_map hl hp f s

/-- **C72.**  So does `reorder_edges`, of a node without trace edges. -/
theorem C72_reorder_edges [CommSemiring R] {h : Heap R} (g : GraphOK h) {nm : AxTab} {n : NId} (hn : n < h.nn)
    (hl : (nm n).length = (h.node n).edges.length) {order : List EId} (hnd : order.Nodup) (hp : order.Perm (h.node n).edges) :
    ∃ h' l, reorderEdgesN n order (h, nm) = (.ok (), (h', Function.update nm n l)) ∧ GraphOK h' ∧
      (h'.node n).edges = order ∧ l.Perm (nm n) ∧
      ∀ f s, Labelled order l f s ↔ Labelled (h.node n).edges (nm n) f s := by
  have w := graphOK_iff.1 g
  have hnd' : (h.node n).edges.Nodup := hp.nodup_iff.1 hnd
  obtain ⟨h', h1, h2⟩ := reorderEdges_ok w hn hp (by
    intro e he hb
    have hm := hp.mem_iff.1 he
    have := (w.between_self_iff hn (inUse_of_mem hn hm)).1 hb
    have h4 := (List.nodup_iff_count_le_one.1 hnd') e
    omega)
  have hpm : (order.map fun e => (h.node n).edges.idxOf e).Perm (List.range (h.node n).edges.length) := by
    refine (hp.map _).trans (List.Perm.of_eq ?_)
    exact List.ext_getElem (by simp) fun i hi hi' => by
      simp only [List.getElem_map, List.getElem_range]
      exact List.Nodup.idxOf_getElem hnd' i (by simpa using hi')
  have e1 : order.map (fun e => (nm n).getD ((h.node n).edges.idxOf e) "") =
      (order.map fun e => (h.node n).edges.idxOf e).map fun i => (nm n).getD i "" := by rw [List.map_map]; rfl
  have e2 : order = (order.map fun e => (h.node n).edges.idxOf e).map fun i => (h.node n).edges.getD i default := by
    rw [List.map_map]
    conv_lhs => rw [← List.map_id order]
    refine List.map_congr_left fun e he => ?_
    have := List.idxOf_lt_length_of_mem (hp.mem_iff.1 he)
    simp only [id, Function.comp_apply]
    rw [List.getD_eq_getElem _ _ this, List.getElem_idxOf]
  refine ⟨h', _, reorderEdgesN_run h1 (le_of_eq hl.symm), graphOK_iff.2 h2.wf, h2.edges, ?_, ?_⟩
  · rw [e1]
    have h3 := hpm.map (fun i => (nm n).getD i "")
    rw [← hl] at h3
    refine h3.trans (List.Perm.of_eq ?_)
    exact List.ext_getElem (by simp) fun i hi hi' => by
      simp only [List.getElem_map, List.getElem_range]
      rw [List.getD_eq_getElem _ _ hi']
  · intro f s
    have := labelled_map hl hpm f s
    rwa [← e1, ← e2] at this

/-! ### Flattening and splitting -/

/-- Where the edges of a consistent graph are. -/
theorem node_of_mem {h : Heap R} (w : WF h) {n : NId} (hn : n < h.nn) {e : EId} (he : e ∈ (h.node n).edges) :
    (h.edge e).node1 = some n ∨ (h.edge e).node2 = some n := by
  have hu := inUse_of_mem hn he
  obtain ⟨i, hi⟩ := List.mem_iff_getElem?.1 he
  have hat : At h (n, i) e := ⟨hn, hi⟩
  rcases w.good hu with ⟨m, a, hr⟩ | ⟨m, a, m', b, hr⟩
  · have := (at_dang w hu hr).1 hat
    left; rw [hr]; simpa using (congrArg Prod.fst this).symm
  · rcases (at_conn w hu hr).1 hat with h1 | h1
    · left; rw [hr]; simpa using (congrArg Prod.fst h1).symm
    · right; rw [hr]; simpa using (congrArg Prod.fst h1).symm

theorem mem_of_node {h : Heap R} (w : WF h) {n : NId} {e : EId} (hu : InUse h e)
    (hn : (h.edge e).node1 = some n ∨ (h.edge e).node2 = some n) : n < h.nn ∧ e ∈ (h.node n).edges := by
  rcases w.good hu with ⟨m, a, hr⟩ | ⟨m, a, m', b, hr⟩
  · have hat := (at_dang w hu hr).2 rfl
    rw [hr] at hn
    simp only [Option.some.injEq, reduceCtorEq, or_false] at hn
    subst hn
    exact ⟨hat.1, hat.mem⟩
  · have h1 := (at_conn w hu hr).2 (.inl rfl)
    have h2 := (at_conn w hu hr).2 (.inr rfl)
    rw [hr] at hn
    simp only [Option.some.injEq] at hn
    rcases hn with rfl | rfl
    · exact ⟨h1.1, h1.mem⟩
    · exact ⟨h2.1, h2.mem⟩

theorem length_filter_notMem {l E : List EId} (hE : E.Nodup) (hl : ∀ e ∈ E, l.count e = 1) :
    (l.filter fun e => e ∉ E).length + E.length = l.length := by
  have h1 : (l.filter fun e => e ∈ E).Perm E := by
    rw [List.perm_iff_count]
    intro a
    by_cases ha : a ∈ E
    · rw [List.count_filter (by simpa using ha), hl a ha, List.count_eq_one_of_mem hE ha]
    · rw [List.count_eq_zero_of_not_mem ha, List.count_eq_zero_of_not_mem (by simp [ha])]
  have h2 := List.length_eq_length_filter_add (l := l) (fun e => decide (e ∈ E))
  have h3 : (l.filter fun e => !decide (e ∈ E)) = l.filter fun e => e ∉ E := by congr 1; funext e; simp
  rw [h3, h1.length_eq] at h2
  omega

/-- An edge that is not a trace is once at each of its nodes. -/
theorem count_one {h : Heap R} (w : WF h) {n : NId} (hn : n < h.nn) {e : EId} (he : e ∈ (h.node n).edges)
    (htr : (h.edge e).node1 ≠ (h.edge e).node2) : (h.node n).edges.count e = 1 := by
  have hu := inUse_of_mem hn he
  have h1 := w.count_le hn e
  have h2 : (h.node n).edges.count e ≠ 2 := by
    intro hc
    obtain ⟨a, b, hr | hr⟩ := (w.between_self_iff hn hu).2 hc <;> exact htr (by rw [hr])
  have h3 := List.count_pos_iff.2 he
  omega

/-- The edges that `flatten_edges` leaves at a node, and their names. -/
theorem flatten_labels [CommSemiring R] {h : Heap R} (g : GraphOK h) {nm : AxTab} (hn : Named (h, nm)) (swap : Bool)
    {e0 : EId} {E : List EId} (hE : (e0 :: E).Nodup) (hne : E ≠ []) (hEu : ∀ e ∈ e0 :: E, Current h e)
    (hS : ∀ e ∈ E, SameNodes h e0 e) (htr : (h.edge e0).node1 ≠ (h.edge e0).node2) :
    ∃ new h' nm', flattenEdgesN swap (e0 :: E) (h, nm) = (.ok new, (h', nm')) ∧ GraphOK h' ∧ Flattened h h' (e0 :: E) new ∧
      ∀ n < h.nn, (nm n).length = (h.node n).edges.length → (nm' n).length = (h'.node n).edges.length ∧
        ∀ f, f ∈ (h.node n).edges → f ∉ e0 :: E → ∀ s, Labelled (h'.node n).edges (nm' n) f s ↔
          Labelled ((h.node n).edges.filter fun e => e ∉ e0 :: E) (nm n) f s := by
  have w := graphOK_iff.1 g
  have hEu' : ∀ e ∈ e0 :: E, InUse h e := fun e he => current_iff.1 (hEu e he)
  obtain ⟨new, h', h1, h2⟩ := flattenEdges_ok w swap hE hne hEu' hS
  obtain ⟨nm', h3, h4⟩ := flattenEdgesN_names hne h1 hn htr
  refine ⟨new, h', nm', h3, graphOK_iff.2 h2.wf, h2, fun n hlt hl => ?_⟩
  have hfn : ∀ f, f ∈ (h.node n).edges → f ≠ new := by
    rintro f hf rfl
    exact h2.fresh (inUse_of_mem hlt hf)
  have key : ∀ k, (nm' n) = (nm n).take k → (h'.node n).edges.length = k → k ≤ (nm n).length →
      (nm' n).length = (h'.node n).edges.length ∧
        ∀ f, f ∈ (h.node n).edges → f ∉ e0 :: E → ∀ s, Labelled (h'.node n).edges (nm' n) f s ↔
          Labelled ((h.node n).edges.filter fun e => e ∉ e0 :: E) (nm n) f s := by
    intro k h5 h6 h7
    refine ⟨by rw [h5, List.length_take, h6]; omega, fun f hf hfE s => ?_⟩
    have h8 := h2.last n hlt
    rw [h8, labelled_append (fun hc => hfn f hf (List.eq_of_mem_replicate hc)), h5]
    have h9 := congrArg List.length h8
    rw [List.length_append] at h9
    have := labelled_take (es := (h.node n).edges.filter fun e => e ∉ e0 :: E) (ns := nm n) (f := f) (s := s) (k := k)
      (by omega) (l := [])
    rw [List.append_nil] at this
    rw [this]
    constructor
    · rintro (hx | ⟨hx, _⟩)
      · exact hx
      · omega
    · exact .inl
  by_cases hc : (h.edge e0).node1 = some n ∨ (h.edge e0).node2 = some n
  · have h5 := h4 n
    rw [if_pos hc] at h5
    have hin : ∀ e ∈ e0 :: E, e ∈ (h.node n).edges ∧ (h.edge e).node1 ≠ (h.edge e).node2 := by
      intro e he
      rcases List.mem_cons.1 he with rfl | he'
      · exact ⟨(mem_of_node w (hEu' e he) hc).2, htr⟩
      · have hs := hS e he'
        rcases hs with ⟨s1, s2⟩ | ⟨s1, s2⟩
        · exact ⟨(mem_of_node w (hEu' e he) (by rw [s1, s2]; exact hc)).2, by rw [s1, s2]; exact htr⟩
        · exact ⟨(mem_of_node w (hEu' e he) (by rw [s1, s2]; exact hc.symm)).2, by rw [s1, s2]; exact htr.symm⟩
    have h6 := length_filter_notMem hE (fun e he => count_one w hlt (hin e he).1 (hin e he).2)
    have h8 := congrArg List.length (h2.last n hlt)
    rw [h2.count n hlt e0 (by simp), count_one w hlt (hin e0 (by simp)).1 htr, List.length_append,
      List.length_replicate] at h8
    simp only [List.length_cons] at h6
    exact key _ h5 (by omega) (by omega)
  · have h5 := h4 n
    rw [if_neg hc] at h5
    have hun := h2.untouched n hlt (by
      intro e he hm
      have := node_of_mem w hlt hm
      rcases List.mem_cons.1 he with rfl | he'
      · exact hc this
      · rcases hS e he' with ⟨s1, s2⟩ | ⟨s1, s2⟩
        · rw [s1, s2] at this; exact hc this
        · rw [s1, s2] at this; exact hc this.symm)
    exact key (nm n).length (by rw [List.take_length]; exact h5) (by rw [hun, hl]) (le_refl _)

/-- **C72**, the part that holds.  `flatten_edges` of edges that are no traces leaves a name for every axis, and an edge
keeps its names if no flattened edge is before it. -/
theorem C72_flatten_partial [CommSemiring R] {h : Heap R} (g : GraphOK h) {nm : AxTab} (hn : Named (h, nm)) (swap : Bool)
    {e0 : EId} {E : List EId} (hE : (e0 :: E).Nodup) (hne : E ≠ []) (hEu : ∀ e ∈ e0 :: E, Current h e)
    (hS : ∀ e ∈ E, SameNodes h e0 e) (htr : (h.edge e0).node1 ≠ (h.edge e0).node2) :
    ∃ new h' nm', flattenEdgesN swap (e0 :: E) (h, nm) = (.ok new, (h', nm')) ∧ GraphOK h' ∧ Flattened h h' (e0 :: E) new ∧
      ∀ n < h.nn, (nm n).length = (h.node n).edges.length → (nm' n).length = (h'.node n).edges.length ∧
        ∀ f, f ∈ (h.node n).edges → f ∉ e0 :: E →
          (∀ (i k : Nat) (e : EId), (h.node n).edges[i]? = some f → (h.node n).edges[k]? = some e → k < i → e ∉ e0 :: E) →
          ∀ s, Labelled (h'.node n).edges (nm' n) f s ↔ Labelled (h.node n).edges (nm n) f s := by
  obtain ⟨new, h', nm', h1, h2, h3, h4⟩ := flatten_labels g hn swap hE hne hEu hS htr
  refine ⟨new, h', nm', h1, h2, h3, fun n hlt hl => ⟨(h4 n hlt hl).1, fun f hf hfE hb s => ?_⟩⟩
  rw [(h4 n hlt hl).2 f hf hfE s]
  exact labelled_front (by simpa using hfE) (fun i k e h5 h6 h7 => by simpa using hb i k e h5 h6 h7)

/-- **C72**, what fails.  An edge behind a flattened edge loses its name: it gets the name that the axis at its new
place had before. -/
theorem C72_flatten_false [CommSemiring R] {h : Heap R} (g : GraphOK h) {nm : AxTab} (hn : Named (h, nm)) (swap : Bool)
    {e0 : EId} {E : List EId} (hE : (e0 :: E).Nodup) (hne : E ≠ []) (hEu : ∀ e ∈ e0 :: E, Current h e)
    (hS : ∀ e ∈ E, SameNodes h e0 e) (htr : (h.edge e0).node1 ≠ (h.edge e0).node2) :
    ∃ new h' nm', flattenEdgesN swap (e0 :: E) (h, nm) = (.ok new, (h', nm')) ∧
      ∀ n < h.nn, (nm n).length = (h.node n).edges.length → (nm n).Nodup →
        ∀ (f : EId) (i k : Nat) (e : EId), f ∉ e0 :: E → (h.node n).edges[i]? = some f → (h.node n).edges[k]? = some e → k < i → e ∈ e0 :: E →
          f ∈ (h'.node n).edges ∧
          ∃ s, Labelled (h.node n).edges (nm n) f s ∧ ¬ Labelled (h'.node n).edges (nm' n) f s := by
  obtain ⟨new, h', nm', h1, h2, h3, h4⟩ := flatten_labels g hn swap hE hne hEu hS htr
  refine ⟨new, h', nm', h1, fun n hlt hl hnd f i k e hfE hi hk hki heE => ?_⟩
  obtain ⟨s, h5, h6⟩ := labelled_shift (p := fun e => decide (e ∉ e0 :: E)) hnd hl hi hk hki (by simp only [decide_eq_false_iff_not, not_not]; exact heE)
  refine ⟨?_, s, h5, fun h7 => h6 (((h4 n hlt hl).2 f (List.mem_of_getElem? hi) hfE s).1 h7)⟩
  rw [h3.last n hlt, List.mem_append]
  exact .inl (List.mem_filter.2 ⟨List.mem_of_getElem? hi, by simpa using hfE⟩)

/-- The edges that `split_edge` leaves at a node, and their names. -/
theorem split_labels [CommSemiring R] {h : Heap R} (g : GraphOK h) {nm : AxTab} (hn : Named (h, nm)) (swap : Bool)
    {e : EId} (hc : Current h e) {shape : List Nat} (hprod : shape.prod = edim h e) (hlen : shape.length ≠ 1)
    (htr : (h.edge e).node1 ≠ (h.edge e).node2) {new : Option (List String)}
    (hnew : ∀ l, new = some l → l.length = shape.length) :
    ∃ news h' nm', splitEdgeN swap e shape new (h, nm) = (.ok news, (h', nm')) ∧ GraphOK h' ∧ Split h h' e shape news ∧
      ∀ n < h.nn, (nm n).length = (h.node n).edges.length → (nm' n).length = (h'.node n).edges.length ∧
        (e ∈ (h.node n).edges → nm' n = (nm n).take ((h.node n).edges.length - 1) ++
          new.getD (splitDefault ((h.node n).edges.length - 1) shape.length)) ∧
        (e ∈ (h.node n).edges → ((h.node n).edges.filter fun f => f ≠ e).length = (h.node n).edges.length - 1) ∧
        ∀ f, f ∈ (h.node n).edges → f ≠ e → ∀ s, Labelled (h'.node n).edges (nm' n) f s ↔
          Labelled ((h.node n).edges.filter fun f => f ≠ e) (nm n) f s := by
  have w := graphOK_iff.1 g
  have hu := current_iff.1 hc
  obtain ⟨h', news, h1, h2⟩ := splitEdge_ok w hu hprod hlen swap
  have ht : isTrace e h = (.ok false, h) := by
    unfold isTrace
    rcases w.good hu with ⟨n, a, hr⟩ | ⟨n, a, m, b, hr⟩
    · rw [M.bind_ok (node1_dang hr), M.bind_ok (node2_dang hr)]
      rfl
    · rw [M.bind_ok (node1_conn hr), M.bind_ok (node2_conn hr)]
      rw [hr] at htr
      simp only [ne_eq, Option.some.injEq] at htr
      simp [htr]
  obtain ⟨nm', h3, h4⟩ := splitEdgeN_names hlen h1 hn ht htr hnew
  have hnl : news.length = shape.length := by rw [← h2.dims, List.length_map]
  refine ⟨news, h', nm', h3, graphOK_iff.2 h2.wf, h2, fun n hlt hl => ?_⟩
  have hfn : ∀ f, f ∈ (h.node n).edges → f ∉ news := fun f hf hm => h2.fresh f hm (inUse_of_mem hlt hf)
  have h5 := h4 n
  by_cases hc : (h.edge e).node1 = some n ∨ (h.edge e).node2 = some n
  · rw [if_pos hc] at h5
    have hm := (mem_of_node w hu hc).2
    have h1c := count_one w hlt hm htr
    have h6 := length_filter_notMem (l := (h.node n).edges) (E := [e]) (by simp) (by simpa using h1c)
    have h7 : ((h.node n).edges.filter fun f => f ∉ [e]) = (h.node n).edges.filter fun f => f ≠ e := by
      congr 1; funext f; simp
    rw [h7] at h6
    simp only [List.length_singleton] at h6
    have h8 := h2.last n hlt
    rw [h1c] at h8
    simp only [List.replicate_one, List.flatten_singleton] at h8
    have hg : (new.getD (splitDefault ((h.node n).edges.length - 1) shape.length)).length = shape.length := by
      cases new with
      | none => simp [splitDefault]
      | some l => exact hnew l rfl
    refine ⟨?_, fun _ => h5, fun _ => by omega, fun f hf hfe s => ?_⟩
    · rw [h5, h8, List.length_append, List.length_append, List.length_take, hg, hnl]
      omega
    · rw [h8, labelled_append (hfn f hf), h5, labelled_take (by omega)]
      constructor
      · rintro (hx | ⟨hx, _⟩)
        · exact hx
        · omega
      · exact .inl
  · rw [if_neg hc] at h5
    have hnm : e ∉ (h.node n).edges := fun hm => hc (node_of_mem w hlt hm)
    rw [h2.untouched n hlt hnm, h5]
    refine ⟨hl, fun hx => absurd hx hnm, fun hx => absurd hx hnm, fun f hf hfe s => ?_⟩
    rw [List.filter_eq_self.2 (by
      intro f' hf'
      simpa using fun hx : f' = e => hnm (hx ▸ hf'))]

/-- **C72**, the part that holds.  `split_edge` of an edge that is no trace leaves a name for every axis: the new edges
have the given names, or the numbers of their axes, and an edge keeps its names if the edge is not before it. -/
theorem C72_split_partial [CommSemiring R] {h : Heap R} (g : GraphOK h) {nm : AxTab} (hn : Named (h, nm)) (swap : Bool)
    {e : EId} (hc : Current h e) {shape : List Nat} (hprod : shape.prod = edim h e) (hlen : shape.length ≠ 1)
    (htr : (h.edge e).node1 ≠ (h.edge e).node2) {new : Option (List String)}
    (hnew : ∀ l, new = some l → l.length = shape.length) :
    ∃ news h' nm', splitEdgeN swap e shape new (h, nm) = (.ok news, (h', nm')) ∧ GraphOK h' ∧ Split h h' e shape news ∧
      ∀ n < h.nn, (nm n).length = (h.node n).edges.length → (nm' n).length = (h'.node n).edges.length ∧
        (e ∈ (h.node n).edges → ∀ (i : Nat) (f : EId), news[i]? = some f → Labelled (h'.node n).edges (nm' n) f
          (match new with
          | some l => l.getD i ""
          | none => toString ((h.node n).edges.length - 1 + i))) ∧
        ∀ f, f ∈ (h.node n).edges → f ≠ e →
          (∀ (i k : Nat), (h.node n).edges[i]? = some f → (h.node n).edges[k]? = some e → ¬ k < i) →
          ∀ s, Labelled (h'.node n).edges (nm' n) f s ↔ Labelled (h.node n).edges (nm n) f s := by
  obtain ⟨news, h', nm', h1, h2, h3, h4⟩ := split_labels g hn swap hc hprod hlen htr hnew
  refine ⟨news, h', nm', h1, h2, h3, fun n hlt hl => ?_⟩
  obtain ⟨h5, h6, h7, h8⟩ := h4 n hlt hl
  refine ⟨h5, fun hm i f hf => ?_, fun f hf hfe hb s => ?_⟩
  · have hnl : news.length = shape.length := by rw [← h3.dims, List.length_map]
    have hi : i < news.length := by
      by_contra hx
      rw [List.getElem?_eq_none (by omega)] at hf; cases hf
    have h9 := h3.last n hlt
    rw [count_one (graphOK_iff.1 g) hlt hm htr] at h9
    simp only [List.replicate_one, List.flatten_singleton] at h9
    refine ⟨(h.node n).edges.length - 1 + i, ?_, ?_⟩
    · rw [h9, List.getElem?_append_right (by rw [h7 hm]; omega), h7 hm, Nat.add_sub_cancel_left]
      exact hf
    · rw [h6 hm, List.getElem?_append_right (by rw [List.length_take]; omega), List.length_take,
        show (h.node n).edges.length - 1 + i - min ((h.node n).edges.length - 1) (nm n).length = i by omega]
      cases new with
      | none =>
        simp only [Option.getD_none, splitDefault]
        rw [List.getElem?_map, List.getElem?_range (by omega)]
        rfl
      | some l =>
        have := hnew l rfl
        simp only [Option.getD_some]
        rw [List.getD_eq_getElem _ _ (by omega), List.getElem?_eq_getElem]
  · rw [h8 f hf hfe s]
    refine labelled_front (by simpa using hfe) (fun i k e' h9 h10 h11 => ?_)
    simp only [ne_eq, decide_not, Bool.not_eq_true', decide_eq_false_iff_not]
    rintro rfl
    exact hb i k h9 h10 h11

/-- **C72**, what fails.  An edge behind the split edge loses its name. -/
theorem C72_split_false [CommSemiring R] {h : Heap R} (g : GraphOK h) {nm : AxTab} (hn : Named (h, nm)) (swap : Bool)
    {e : EId} (hc : Current h e) {shape : List Nat} (hprod : shape.prod = edim h e) (hlen : shape.length ≠ 1)
    (htr : (h.edge e).node1 ≠ (h.edge e).node2) {new : Option (List String)}
    (hnew : ∀ l, new = some l → l.length = shape.length) :
    ∃ news h' nm', splitEdgeN swap e shape new (h, nm) = (.ok news, (h', nm')) ∧
      ∀ n < h.nn, (nm n).length = (h.node n).edges.length → (nm n).Nodup →
        ∀ (f : EId) (i k : Nat), f ≠ e → (h.node n).edges[i]? = some f → (h.node n).edges[k]? = some e → k < i →
          f ∈ (h'.node n).edges ∧
          ∃ s, Labelled (h.node n).edges (nm n) f s ∧ ¬ Labelled (h'.node n).edges (nm' n) f s := by
  obtain ⟨news, h', nm', h1, h2, h3, h4⟩ := split_labels g hn swap hc hprod hlen htr hnew
  refine ⟨news, h', nm', h1, fun n hlt hl hnd f i k hfe hi hk hki => ?_⟩
  obtain ⟨s, h5, h6⟩ := labelled_shift (p := fun f => decide (f ≠ e)) hnd hl hi hk hki (by simp)
  refine ⟨?_, s, h5, fun h7 => h6 (((h4 n hlt hl).2.2.2 f (List.mem_of_getElem? hi) hfe s).1 h7)⟩
  rw [h3.last n hlt, List.mem_append]
  exact .inl (List.mem_filter.2 ⟨List.mem_of_getElem? hi, by simpa using hfe⟩)

end TN.Graph
