import Verif.AxisNames9

/-!
# Too few names: `contract` of a trace edge raises midway
-/

namespace TN.Graph

open TN

set_option linter.unusedSectionVars false

variable {R α β : Type}

/-- Nothing happens to one node. -/
def KeepsNode (n : NId) (x : M R α) : Prop := ∀ h, (x h).2.node n = h.node n

theorem KeepsNode.bind {n : NId} {x : M R α} {f : α → M R β} (hx : KeepsNode n x) (hf : ∀ a, KeepsNode n (f a)) :
    KeepsNode n (x >>= f) := by
  intro h
  rw [M.bind_apply]
  have h1 := hx h
  rcases hx : x h with ⟨_ | b, h'⟩
  · rw [hx] at h1; exact h1
  · rw [hx] at h1; exact (hf b h').trans h1

theorem KeepsNode.forEach {n : NId} {f : α → M R Unit} (hf : ∀ a, KeepsNode n (f a)) :
    ∀ l : List α, KeepsNode n (M.forEach l f)
  | [] => fun _ => rfl
  | a :: l => (hf a).bind fun _ => KeepsNode.forEach hf l

theorem KeepsNodes.at {x : M R α} (hx : KeepsNodes x) (n : NId) : KeepsNode n x := fun h => by rw [hx h]

theorem KeepsNode.addEdge {n m : NId} (hnm : n ≠ m) (e : EId) (i : Nat) (o : Bool) : KeepsNode n (addEdge m e i o : M R Unit) := by
  intro h
  unfold Graph.addEdge
  rw [M.bind_ok (M.get_apply h)]
  by_cases c : i ≥ (h.shape m).length
  · rw [if_pos c]; rfl
  rw [if_neg c]
  rcases (h.node m).edges[i]? with _ | old
  · rfl
  simp only
  by_cases c2 : ¬ (h.edge old).dangling = true ∧ ¬ o = true
  · rw [if_pos c2]; rfl
  rw [if_neg c2]
  simp only [setEdges, M.modify, Heap.setNode_node]
  rw [Function.update_of_ne hnm]

theorem NM.forEach_fail {f : α → NM R Unit} {a : α} {e : PyErr} {s1 s2 : Heap R × AxTab} (l2 : List α) :
    ∀ (l1 : List α) {s : Heap R × AxTab}, NM.forEach l1 f s = (.ok (), s1) → f a s1 = (.error e, s2) →
    NM.forEach (l1 ++ a :: l2) f s = (.error e, s2)
  | [], s, h1, h2 => by
    obtain rfl : s = s1 := (Prod.mk.inj h1).2
    exact NM.bind_error h2
  | b :: l1, s, h1, h2 => by
    change (f b >>= fun _ => NM.forEach l1 f) s = _ at h1
    change (f b >>= fun _ => NM.forEach (l1 ++ a :: l2) f) s = _
    rw [NM.bind_apply] at h1 ⊢
    rcases hx : f b s with ⟨_ | u, s'⟩
    · rw [hx] at h1; cases h1
    · rw [hx] at h1
      exact NM.forEach_fail l2 l1 h1 h2

/-- `fresh_edges` of a node that has some names, but fewer than edges. -/
theorem freshEdgesN_err {h h1 : Heap R} {n : NId} (hr : freshEdges n h = (.ok (), h1)) {nm : AxTab}
    (h0 : nm n ≠ []) (hl : (nm n).length < (h.node n).edges.length) :
    (freshEdgesN n (h, nm)).1 = .error .indexError := by
  unfold freshEdges at hr
  rw [M.bind_ok (nodeEdges_eq n)] at hr
  obtain ⟨d, hd⟩ : ∃ d, (h.node n).edges.length = (nm n).length + (d + 1) := ⟨(h.node n).edges.length - (nm n).length - 1, by omega⟩
  unfold freshEdgesN
  rw [NM.bind_ok (x := NM.names n) (a := nm n) (s' := (h, nm)) rfl, NM.bind_ok (NM.lift_ok (nodeEdges_eq n) nm)]
  rw [hd, List.range_add, List.range_succ_eq_map, List.map_cons, M.forEach_append] at hr
  rw [hd, List.range_add, List.range_succ_eq_map, List.map_cons]
  obtain ⟨u, h2, hx, _⟩ := M.bind_inv hr
  rw [NM.forEach_fail (a := (nm n).length + 0) (e := .indexError) (s1 := (h2, nm)) (s2 := (h2, nm))]
  · rw [NM.forEach_lift (f := fun i => do
        let e ← newDangling n i
        Graph.addEdge n e i true)]
    · exact NM.lift_ok hx nm
    · intro i hi
      have hi' := List.mem_range.1 hi
      rw [if_neg]
      · funext s
        rw [NM.bind_apply]
        simp only [NM.lift]
        rw [M.bind_apply]
        rcases newDangling n i s.1 with ⟨_ | u, h'⟩ <;> rfl
      · rintro ⟨_, h2⟩
        rw [List.getElem?_eq_none_iff] at h2
        omega
  · rw [if_pos ⟨h0, by rw [List.getElem?_eq_none (by omega)]⟩]
    rfl

theorem removeTraceEdgeN_err {h h1 : Heap R} {e : EId} {new n : NId} (hr : removeTraceEdge e new h = (.ok (), h1))
    (hn1 : node1 e h = (.ok n, h)) (hnew : n ≠ new) {nm : AxTab}
    (h0 : nm n ≠ []) (hl : (nm n).length < (h.node n).edges.length) :
    (removeTraceEdgeN e new (h, nm)).1 = .error .indexError := by
  unfold removeTraceEdge at hr
  unfold removeTraceEdgeN
  obtain ⟨d, k, hd, hr'⟩ := M.bind_inv hr
  clear hr; rename' hr' => hr
  have hk : k = h := by
    unfold isDangling at hd
    rw [M.bind_ok (M.get_apply h)] at hd
    exact (Prod.mk.inj hd).2.symm
  subst hk
  rw [NM.bind_ok (NM.lift_ok hd nm)]
  by_cases c : d = true
  · rw [if_pos c] at hr; cases hr
  rw [if_neg c] at hr ⊢
  rw [M.bind_ok hn1] at hr
  rw [NM.bind_ok (NM.lift_ok hn1 nm)]
  obtain ⟨n', k2, h2, hr'⟩ := M.bind_inv hr
  clear hr; rename' hr' => hr
  have hk : k2.node n = k.node n := by
    have := ((node2_keeps e).at n) k
    rw [h2] at this; exact this
  rw [NM.bind_ok (NM.lift_ok h2 nm)]
  by_cases c : some n ≠ n'
  · rw [if_pos c] at hr; cases hr
  rw [if_neg c] at hr ⊢
  obtain ⟨a1, k3, h3, hr'⟩ := M.bind_inv hr
  clear hr; rename' hr' => hr
  have hk3 : k3 = k2 := by
    have := axis1_heap e k2
    rw [h3] at this; exact this
  subst hk3
  obtain ⟨a2, k4, h4, hr'⟩ := M.bind_inv hr
  clear hr; rename' hr' => hr
  have hk4 : k4 = k3 := by
    have := axis2_heap e k3
    rw [h4] at this; exact this
  subst hk4
  rw [NM.bind_ok (NM.lift_ok h3 nm), NM.bind_ok (NM.lift_ok h4 nm)]
  rcases a2 with _ | a2
  · cases hr
  simp only at hr ⊢
  rw [M.bind_ok (nodeEdges_eq n)] at hr
  rw [NM.bind_ok (NM.lift_ok (nodeEdges_eq n) nm)]
  split_ifs at hr ⊢ with c2
  · cases hr
  obtain ⟨u, k5, h5, hr'⟩ := M.bind_inv hr
  clear hr; rename' hr' => hr
  have hk5 : k5.node n = k4.node n := by
    refine (congrArg (fun r => r.2.node n) h5).symm.trans (KeepsNode.forEach (n := n) (fun f => ?_) _ k4)
    refine ((node1_keeps f).at n).bind fun m1 => ?_
    have hmod : ∀ g : Heap R → EdgeRec, KeepsNode n (M.modify fun h => h.setEdge f (g h) : M R Unit) := fun g h => rfl
    split_ifs
    · exact (hmod _).bind fun u => ((node2_keeps f).at n).bind fun m2 => by
        split_ifs
        · exact hmod _
        · intro h; rfl
    · exact ((node2_keeps f).at n).bind fun m2 => by
        split_ifs
        · exact hmod _
        · intro h; rfl
  obtain ⟨u, k6, h6, hr'⟩ := M.bind_inv hr
  clear hr; rename' hr' => hr
  have hk6 : k6.node n = k5.node n := by
    exact (congrArg (fun r => r.2.node n) h6).symm.trans (KeepsNode.forEach (n := n) (fun p => KeepsNode.addEdge hnew _ _ _) _ k5)
  obtain ⟨u, k7, h7, hr'⟩ := M.bind_inv hr
  clear hr; rename' hr' => hr
  rw [NM.bind_ok (NM.lift_ok h5 nm), NM.bind_ok (NM.lift_ok h6 nm)]
  have := freshEdgesN_err h7 h0 (by rw [hk6, hk5, hk]; exact hl)
  rcases hx : freshEdgesN n (k6, nm) with ⟨x | u, s⟩
  · rw [hx] at this
    rw [NM.bind_error hx]
    exact this
  · rw [hx] at this; cases this

/-- `contract` of a trace edge of a node that has some names, but fewer than edges. -/
theorem contractTraceN_err [AddCommMonoid R] {h h1 : Heap R} {e : EId} {n new : NId} (hr : contractTrace e h = (.ok new, h1))
    (hn1 : node1 e h = (.ok n, h)) (hlt : n < h.nn) {nm : AxTab}
    (h0 : nm n ≠ []) (hl : (nm n).length < (h.node n).edges.length) (hw : e < h.ne) :
    (contractTraceN e (h, nm)).1 = .error .indexError := by
  unfold contractTrace at hr
  unfold contractTraceN
  obtain ⟨d, k, hd, hr'⟩ := M.bind_inv hr
  clear hr; rename' hr' => hr
  have hk : k = h := by
    unfold isDangling at hd
    rw [M.bind_ok (M.get_apply h)] at hd
    exact (Prod.mk.inj hd).2.symm
  subst hk
  rw [NM.bind_ok (NM.lift_ok hd nm)]
  by_cases c : d = true
  · rw [if_pos c] at hr; cases hr
  rw [if_neg c] at hr ⊢
  rw [M.bind_ok hn1] at hr
  rw [NM.bind_ok (NM.lift_ok hn1 nm)]
  obtain ⟨n', k2, h2, hr'⟩ := M.bind_inv hr
  clear hr; rename' hr' => hr
  have hk : k2 = k := by
    have h3 : (node2 e k).2 = k := by
      unfold node2; simp only [M.bind_apply, M.get_apply]; split
      · rfl
      · split
        · rfl
        · cases (k.edge e).node2 <;> rfl
    rw [h2] at h3; exact h3
  subst hk
  rw [NM.bind_ok (NM.lift_ok h2 nm)]
  by_cases c : some n ≠ n'
  · rw [if_pos c] at hr; cases hr
  rw [if_neg c] at hr ⊢
  obtain ⟨a1, k3, h3, hr'⟩ := M.bind_inv hr
  clear hr; rename' hr' => hr
  have hk3 : k3 = k2 := by
    have := axis1_heap e k2
    rw [h3] at this; exact this
  subst hk3
  obtain ⟨a2, k4, h4, hr'⟩ := M.bind_inv hr
  clear hr; rename' hr' => hr
  have hk4 : k4 = k3 := by
    have := axis2_heap e k3
    rw [h4] at this; exact this
  subst hk4
  rw [NM.bind_ok (NM.lift_ok h3 nm), NM.bind_ok (NM.lift_ok h4 nm)]
  rcases a2 with _ | a2
  · cases hr
  simp only at hr ⊢
  rw [M.bind_ok (nodeTensor_eq n)] at hr
  rw [NM.bind_ok (NM.lift_ok (nodeTensor_eq n) nm)]
  obtain ⟨t1, k5, h5, hr'⟩ := M.bind_inv hr
  clear hr; rename' hr' => hr
  have hk5 : k5 = k4 := by
    rw [M.lift_apply] at h5
    rcases hx : (k4.node n).tensor.transpose (otherAxes (k4.node n).tensor.ndim [a1, a2] ++ [min a1 a2, max a1 a2]) with _ | _ <;>
      (rw [hx] at h5; cases h5; try rfl)
  subst hk5
  obtain ⟨t2, k6, h6, hr'⟩ := M.bind_inv hr
  clear hr; rename' hr' => hr
  have hk6 : k6 = k5 := by
    rw [M.lift_apply] at h6
    rcases hx : t1.trace with _ | _ <;> (rw [hx] at h6; cases h6; try rfl)
  subst hk6
  rw [NM.bind_ok (NM.lift_ok h5 nm), NM.bind_ok (NM.lift_ok h6 nm)]
  obtain ⟨m, k7, h7, hr'⟩ := M.bind_inv hr
  clear hr; rename' hr' => hr
  obtain ⟨u, k8, h8, hr'⟩ := M.bind_inv hr
  clear hr; rename' hr' => hr
  have hm : m = k6.nn := (Except.ok.inj (Prod.mk.inj h7).1).symm
  subst hm
  have hN : newNodeN t2 (k6, nm) = (.ok k6.nn, (k7, Function.update nm k6.nn (defaultNames t2.ndim))) := by
    unfold newNodeN
    rw [NM.bind_ok (NM.lift_ok h7 nm)]
    rfl
  have hk7n : k7.node n = k6.node n := by
    rw [← (Prod.mk.inj h7).2]
    exact Function.update_of_ne (Nat.ne_of_lt hlt) _ _
  have hk7e : k7.edge e = k6.edge e := by
    rw [← (Prod.mk.inj h7).2]
    exact if_neg fun hc => absurd hc.1 (by omega)
  have hn7 : node1 e k7 = (.ok n, k7) := by
    unfold node1 at hn1 ⊢
    rw [M.bind_ok (M.get_apply _)] at hn1 ⊢
    rw [hk7e]
    split_ifs at hn1 ⊢
    · cases hn1
    · rcases hx : (k6.edge e).node1 with _ | m
      · rw [hx] at hn1; cases hn1
      · rw [hx] at hn1
        have : m = n := Except.ok.inj (Prod.mk.inj hn1).1
        rw [← this]; rfl
  rw [NM.bind_ok hN]
  have hne : n ≠ k6.nn := Nat.ne_of_lt hlt
  have := removeTraceEdgeN_err h8 hn7 hne (nm := Function.update nm k6.nn (defaultNames t2.ndim))
    (by rw [Function.update_of_ne hne]; exact h0) (by rw [Function.update_of_ne hne, hk7n]; exact hl)
  rcases hx : removeTraceEdgeN e k6.nn (k7, Function.update nm k6.nn (defaultNames t2.ndim)) with ⟨x | u, s⟩
  · rw [hx] at this
    rw [NM.bind_error hx]
    exact congrArg Except.error (Except.error.inj this)
  · rw [hx] at this; cases this

end TN.Graph
