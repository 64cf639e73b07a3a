import Verif.AxisProps

/-!
# C72: axis names and trace edges, and histories
-/

namespace TN.Graph

open TN

set_option linter.unusedSectionVars false

variable {R : Type}

/-! ### Removing and copying nodes -/

/-- **C72.**  `remove_node` returns the new dangling edges of the neighbours by the names of the axes: the node with as
many names as edges, the entry for axis `i` is called like axis `i`. -/
theorem C72_remove_node [CommSemiring R] {h : Heap R} (g : GraphOK h) {nm : AxTab} {n : NId} (hn : n < h.nn)
    (hl : (nm n).length = (h.node n).edges.length) :
    ∃ h' l, removeNode n h = (.ok l, h') ∧
      removeNodeN n (h, nm) = (.ok (l.map fun q => ((nm n).getD q.1 "", q.2)), (h', nm)) := by
  obtain ⟨h', l, h1, _⟩ := removeNode_ok (graphOK_iff.1 g) hn
  refine ⟨h', _, h1, ?_⟩
  rw [removeNodeN_exact hl, h1]
  rfl

/-- `remove_node` of a node with more names than edges. -/
theorem removeNodeN_long {n : NId} {h h' : Heap R} {l : List (Nat × EId)} (hr : removeNode n h = (.ok l, h')) {nm : AxTab}
    (hl : (h.node n).edges.length < (nm n).length) : removeNodeN n (h, nm) = (.error .indexError, (h', nm)) := by
  obtain ⟨d, hd⟩ := Nat.exists_eq_add_of_lt hl
  rw [removeNode_eq, M.bind_ok (nodeEdges_eq n)] at hr
  obtain ⟨bs, h1, hm, hr1⟩ := M.bind_inv hr
  have e1 : h1 = h' := (Prod.mk.inj hr1).2
  subst e1
  rw [removeNodeN_eq, NM.bind_ok (x := NM.names n) (a := nm n) (s' := (h, nm)) rfl, NM.bind_apply, removeLoopN_eq]
  rw [show (nm n).length = (h.node n).edges.length + (d + 1) by omega, ← List.range_eq_range', List.range_add, mapEach_append,
    M.bind_ok hm]
  have hng := NoGrow.mapEach (R := R) (removeBody_noGrow n) (List.range (h.node n).edges.length) h n
  rw [hm] at hng
  simp only at hng
  rw [List.range_succ_eq_map, List.map_cons, M.bind_apply, M.mapEach_cons, M.bind_apply]
  have : removeBody n ((h.node n).edges.length + 0) h1 = (.error .indexError, h1) := by
    unfold removeBody
    rw [M.bind_ok (nodeEdges_eq n), List.getElem?_eq_none (by omega)]
    rfl
  rw [this]
  rfl

theorem nodeCopyN_length {h : Heap R} {nm : AxTab} {n : NId} (cj : R → R) (conjugate : Bool)
    (hl : (nm n).length ≠ (h.node n).tensor.ndim) :
    nodeCopyN cj conjugate n (h, nm) = (.error .valueError, (h, nm)) := by
  unfold nodeCopyN
  rw [NM.bind_ok (x := NM.names n) (a := nm n) (s' := (h, nm)) rfl, NM.bind_ok (NM.lift_ok (nodeTensor_eq n) nm)]
  split_ifs
  · rfl
  · rfl

theorem nodeCopyN_dup {h : Heap R} {nm : AxTab} {n : NId} (cj : R → R) (conjugate : Bool) (hl : ¬ (nm n).Nodup) :
    nodeCopyN cj conjugate n (h, nm) = (.error .valueError, (h, nm)) := by
  unfold nodeCopyN
  rw [NM.bind_ok (x := NM.names n) (a := nm n) (s' := (h, nm)) rfl, NM.bind_ok (NM.lift_ok (nodeTensor_eq n) nm), if_pos hl]
  rfl

/-! ### Trace edges -/

/-- **C72**, what fails for trace edges.  `flatten_edges` of several trace edges of a node leaves more names than axes.
The node can then not be copied, and `remove_node` raises after it has cut all edges. -/
theorem C72_trace_flatten_false [CommSemiring R] {h : Heap R} (g : GraphOK h) {nm : AxTab} (swap : Bool)
    {n : NId} (hl : (nm n).length = (h.node n).edges.length)
    {e0 : EId} {E : List EId} (hE : (e0 :: E).Nodup) (hne : E ≠ []) (hEu : ∀ e ∈ e0 :: E, Current h e)
    (htr : ∀ e ∈ e0 :: E, (h.edge e).node1 = some n ∧ (h.edge e).node2 = some n) :
    ∃ new h' nm', flattenEdgesN swap (e0 :: E) (h, nm) = (.ok new, (h', nm')) ∧ GraphOK h' ∧ Flattened h h' (e0 :: E) new ∧
      (h'.node n).edges.length < (nm' n).length ∧
      (∀ cj conjugate, (nodeCopyN cj conjugate n (h', nm')).1 = .error .valueError) ∧
      (removeNodeN n (h', nm')).1 = .error .indexError := by
  have w := graphOK_iff.1 g
  have hEu' : ∀ e ∈ e0 :: E, InUse h e := fun e he => current_iff.1 (hEu e he)
  have hc : ∀ e ∈ e0 :: E, ∃ a b, h.edge e = .conn n a n b := by
    intro e he
    obtain ⟨h1, h2⟩ := htr e he
    rcases w.good (hEu' e he) with ⟨m, a, hr⟩ | ⟨m, a, m', b, hr⟩
    · rw [hr] at h2; cases h2
    · rw [hr] at h1 h2
      obtain rfl := Option.some.inj h1
      obtain rfl := Option.some.inj h2
      exact ⟨a, b, hr⟩
  obtain ⟨hlt, hm0⟩ := mem_of_node w (hEu' e0 (by simp)) (.inl (htr e0 (by simp)).1)
  have hS : ∀ e ∈ E, SameNodes h e0 e := by
    intro e he
    left
    rw [(htr e (by simp [he])).1, (htr e (by simp [he])).2, (htr e0 (by simp)).1, (htr e0 (by simp)).2]
    exact ⟨rfl, rfl⟩
  obtain ⟨h', h1, h2⟩ := flattenTrace_run w hlt hE (by simp) fun e he => ⟨hEu' e he, hc e he⟩
  obtain ⟨a, b, hr0⟩ := hc e0 (by simp)
  obtain ⟨l, h3, h4⟩ := flattenTraceEdgesN_names (node1_conn hr0) h1 (le_of_eq hl.symm)
  have hrun : flattenEdgesN swap (e0 :: E) (h, nm) = (.ok (h.ne + 2), (h', Function.update nm n l)) := by
    unfold flattenEdgesN
    simp only
    rw [NM.bind_ok (NM.lift_ok (flatten_check w hEu') nm), if_neg hne,
      NM.bind_ok (x := NM.lift M.get) (a := h) (s' := (h, nm)) rfl, if_neg (by
        rintro ⟨e, he, hx⟩
        rw [(htr e he).1, (htr e he).2, (htr e0 (by simp)).1, (htr e0 (by simp)).2] at hx
        simp at hx), if_pos (by rw [(htr e0 (by simp)).1, (htr e0 (by simp)).2])]
    exact h4
  have hcnt : ∀ e ∈ e0 :: E, (h.node n).edges.count e = 2 := by
    intro e he
    obtain ⟨a, b, hr⟩ := hc e he
    exact (w.between_self_iff hlt (hEu' e he)).1 ⟨a, b, .inl hr⟩
  have hlen : (h'.node n).edges.length < (h.node n).edges.length := by
    have h8 := congrArg List.length (h2.last n hlt)
    rw [h2.count n hlt e0 (by simp), hcnt e0 (by simp), List.length_append, List.length_replicate] at h8
    obtain ⟨e1, he1⟩ := List.exists_mem_of_ne_nil E hne
    have hne01 : e0 ≠ e1 := by
      rintro rfl
      exact (List.nodup_cons.1 hE).1 he1
    have h9 := List.length_eq_length_filter_add (l := (h.node n).edges) (fun e => decide (e ∉ e0 :: E))
    have h10 : [e0, e0, e1, e1].length ≤ ((h.node n).edges.filter fun e => !decide (e ∉ e0 :: E)).length := by
      refine List.Subperm.length_le (List.subperm_ext_iff.2 fun x hx => ?_)
      have hx' : x = e0 ∨ x = e1 := by simpa using hx
      rcases hx' with rfl | rfl
      · rw [List.count_filter (by simp), hcnt x (by simp)]
        simp [hne01.symm]
      · rw [List.count_filter (by simp [he1]), hcnt x (by simp [he1])]
        simp [hne01]
    simp only [List.length_cons, List.length_nil] at h10
    omega
  have hlen' : (h'.node n).edges.length < (Function.update nm n l n).length := by
    rw [Function.update_self, h3]; exact hlen
  obtain ⟨h'', r, hr1, _⟩ := removeNode_ok h2.wf (n := n) (by rw [h2.nn]; exact hlt)
  refine ⟨_, h', _, hrun, graphOK_iff.2 h2.wf, h2, hlen', fun cj cg => ?_, ?_⟩
  · rw [nodeCopyN_length]
    have := (graphOK_iff.2 h2.wf).rank n (by rw [h2.nn]; exact hlt)
    intro hx
    have h5 : (h'.shape n).length = (h'.node n).tensor.ndim := rfl
    omega
  · rw [removeNodeN_long hr1 hlen']

/-- **C72**, what fails for trace edges.  `split_edge` of a trace edge into several edges leaves fewer names than axes.
After that every call of `reorder_axes` of the node raises, and so does the contraction of every one of the new
edges. -/
theorem C72_trace_split_false [CommSemiring R] {h : Heap R} (g : GraphOK h) {nm : AxTab} (swap : Bool)
    {n : NId} (hl : (nm n).length = (h.node n).edges.length) {e : EId} (hc : Current h e) {shape : List Nat}
    (hprod : shape.prod = edim h e) (hlen : 2 ≤ shape.length)
    (htr : (h.edge e).node1 = some n ∧ (h.edge e).node2 = some n) (new : Option (List String)) :
    ∃ news h' nm', splitEdgeN swap e shape new (h, nm) = (.ok news, (h', nm')) ∧ GraphOK h' ∧ Split h h' e shape news ∧
      (nm' n).length < (h'.node n).edges.length ∧
      (∀ perm, perm.Perm (List.range (h'.node n).edges.length) → (reorderAxesN n perm (h', nm')).1 = .error .indexError) ∧
      ∀ f ∈ news, (contractN f (h', nm')).1 = .error .indexError := by
  have w := graphOK_iff.1 g
  have hu := current_iff.1 hc
  obtain ⟨hlt, hm⟩ := mem_of_node w hu (.inl htr.1)
  obtain ⟨a, b, hr⟩ : ∃ a b, h.edge e = .conn n a n b := by
    rcases w.good hu with ⟨m, a, hr⟩ | ⟨m, a, m', b, hr⟩
    · rw [hr] at htr; cases htr.2
    · rw [hr] at htr
      obtain rfl := Option.some.inj htr.1
      obtain rfl := Option.some.inj htr.2
      exact ⟨a, b, hr⟩
  obtain ⟨h', h1, h2⟩ := splitTrace_run w hlt hu hr hprod
  obtain ⟨news, hnews⟩ : ∃ news, news = (List.range shape.length).map (fun i => h.ne + 3 * i + 2) := ⟨_, rfl⟩
  rw [← hnews] at h1 h2
  obtain ⟨l, h3, h4⟩ := splitTraceEdgeN_names (node1_conn hr) h1 (le_of_eq hl.symm)
  have ht : isTrace e h = (.ok true, h) := by
    unfold isTrace
    rw [M.bind_ok (node1_conn hr), M.bind_ok (node2_conn hr)]
    simp
  have hrun : splitEdgeN swap e shape new (h, nm) = (.ok news, (h', Function.update nm n l)) := by
    unfold splitEdgeN
    rw [NM.bind_ok (NM.lift_ok (dimension_eq w hu) nm), if_neg (by rw [not_not]; exact hprod), if_neg (by omega),
      NM.bind_ok (NM.lift_ok ht nm), if_pos rfl]
    exact h4
  have hcnt : (h.node n).edges.count e = 2 := (w.between_self_iff hlt hu).1 ⟨a, b, .inl hr⟩
  have hnl : news.length = shape.length := by rw [← h2.dims, List.length_map]
  have hlen2 : (h.node n).edges.length < (h'.node n).edges.length := by
    have h8 := congrArg List.length (h2.last n hlt)
    rw [hcnt, List.length_append] at h8
    have h9 := List.length_eq_length_filter_add (l := (h.node n).edges) (fun f => decide (f ≠ e))
    have h10 : ((h.node n).edges.filter fun f => !decide (f ≠ e)).length = 2 := by
      rw [← hcnt, List.count, List.countP_eq_length_filter]
      congr 2
      funext f
      by_cases hf : f = e <;> simp [hf]
    have h11 : (List.replicate 2 news).flatten.length = 2 * shape.length := by simp [hnl]; omega
    omega
  have hlen' : (Function.update nm n l n).length < (h'.node n).edges.length := by
    rw [Function.update_self, h3]; exact hlen2
  have h0 : Function.update nm n l n ≠ [] := by
    rw [Function.update_self]
    intro hx
    rw [hx, List.length_nil] at h3
    have := List.length_pos_of_mem hm
    omega
  have hlt' : n < h'.nn := by rw [h2.nn]; exact hlt
  refine ⟨news, h', _, hrun, graphOK_iff.2 h2.wf, h2, hlen', fun perm hp => ?_, fun f hf => ?_⟩
  · obtain ⟨h'', h5, _⟩ := reorderAxes_ok h2.wf hlt' hp
    rw [reorderAxesN_err h5 hlen']
  · have hfu := h2.inUse f hf
    have hfc : (h'.node n).edges.count f = 2 := by rw [h2.count n hlt f hf, hcnt]
    obtain ⟨a', b', hrf⟩ : ∃ a b, h'.edge f = .conn n a n b := by
      obtain ⟨x, y, hb | hb⟩ := (h2.wf.between_self_iff hlt' hfu).2 hfc
      · exact ⟨_, _, hb⟩
      · exact ⟨_, _, hb⟩
    obtain ⟨h'', h5, h6, _⟩ := contract_trace h2.wf hfu hrf
    have hd : isDangling f h' = (.ok false, h') := by
      unfold isDangling
      rw [M.bind_ok (M.get_apply h'), hrf]
      rfl
    unfold contractN
    rw [NM.bind_ok (NM.lift_ok hd _), if_neg (by simp), NM.bind_ok (NM.lift_ok (node1_conn hrf) _),
      NM.bind_ok (NM.lift_ok (node2_conn hrf) _)]
    simp only
    rw [if_pos trivial]
    exact contractTraceN_err h6 (node1_conn hrf) hlt' h0 hlen' (h2.wf.lt hfu)

end TN.Graph
