import Verif.AxisNames2
import Verif.GraphHistory

/-!
# Graph operations do the same with and without names: the operations
-/

namespace TN.Graph

open TN

set_option linter.unusedSectionVars false

variable {R α β : Type}

theorem KeepsNodes.forEach {f : α → M R Unit} (hf : ∀ a, KeepsNodes (f a)) : ∀ l : List α, KeepsNodes (M.forEach l f)
  | [] => .pure ()
  | a :: l => (hf a).bind fun _ => KeepsNodes.forEach hf l

theorem KeepsNodes.mapEach {f : α → M R β} (hf : ∀ a, KeepsNodes (f a)) (l : List α) : KeepsNodes (M.mapEach l f) :=
  fun h => mapEach_node hf l h

theorem KeepsNodes.throw (e : PyErr) : KeepsNodes (M.throw e : M R α) := fun _ => rfl

theorem mapEach_value {f : α → M R β} {g : α → β} : ∀ {l : List α} {h h' : Heap R} {bs : List β},
    (∀ a ∈ l, ∀ h h' b, f a h = (.ok b, h') → b = g a) → M.mapEach l f h = (.ok bs, h') → bs = l.map g
  | [], h, h', bs, _, hm => by
    rw [M.mapEach_nil] at hm
    cases hm; rfl
  | a :: l, h, h', bs, hg, hm => by
    rw [M.mapEach_cons, M.bind_apply] at hm
    rcases hx : f a h with ⟨_ | b, h1⟩
    · rw [hx] at hm; cases hm
    · rw [hx] at hm
      simp only at hm
      rw [M.bind_apply] at hm
      rcases hy : M.mapEach l f h1 with ⟨_ | cs, h2⟩
      · rw [hy] at hm; cases hm
      · rw [hy] at hm
        have : b :: cs = bs := Except.ok.inj (Prod.mk.inj hm).1
        rw [← this, List.map_cons, hg a (by simp) _ _ _ hx,
          mapEach_value (fun a ha => hg a (List.mem_cons_of_mem _ ha)) hy]

/-- What `reorder_edges` does when it succeeds. -/
theorem reorderEdges_inv {h h1 : Heap R} {n : NId} {order : List EId} (hr : reorderEdges n order h = (.ok (), h1)) :
    (∀ e ∈ order, e ∈ (h.node n).edges) ∧ (h1.node n).edges = order ∧ (h1.node n).tensor.ndim = order.length ∧
      ∀ m, m ≠ n → h1.node m = h.node m := by
  unfold reorderEdges at hr
  rw [M.bind_ok (nodeEdges_eq n)] at hr
  by_cases c1 : ∃ e ∈ order, e ∉ (h.node n).edges
  · rw [if_pos c1] at hr; cases hr
  rw [if_neg c1] at hr
  by_cases c2 : ∃ e ∈ (h.node n).edges, e ∉ order
  · rw [if_pos c2] at hr; cases hr
  rw [if_neg c2, M.bind_apply] at hr
  have k1 := KeepsNodes.forEach (R := R) (f := fun e => do
      let a ← node1 e
      let b ← node2 e
      if some a = b then M.throw .valueError else Pure.pure ()) (fun e =>
    (node1_keeps e).bind fun a => (node2_keeps e).bind fun b => by
      split
      · exact .throw _
      · exact .pure _) order h
  split at hr
  swap
  · cases hr
  rename_i u ha hha
  have k1' : ha.node = h.node := (congrArg (fun r => r.2.node) hha).symm.trans k1
  have k2 := KeepsNodes.mapEach (R := R) (f := fun (e, i) => do
      let old := (h.node n).edges.idxOf e
      updateAxis e old n i n
      Pure.pure old) (by
    rintro ⟨e, i⟩
    exact (updateAxis_node e _ n i n).bind fun _ => .pure _) order.zipIdx ha
  rw [M.bind_apply] at hr
  split at hr
  swap
  · cases hr
  rename_i pm hb hhb
  have k2' : hb.node = ha.node := (congrArg (fun r => r.2.node) hhb).symm.trans k2
  have hlen := mapEach_length hhb
  rw [M.bind_ok (x := setEdges n order) (a := ()) (h' := hb.setNode n ⟨(hb.node n).tensor, order⟩) rfl,
    M.bind_ok (nodeTensor_eq n), M.bind_apply, M.lift_apply] at hr
  rw [Heap.setNode_node, Function.update_self] at hr
  simp only at hr
  rcases ht : (hb.node n).tensor.transpose pm with e | t'
  · rw [ht] at hr; cases hr
  · rw [ht] at hr
    simp only at hr
    have : h1 = (hb.setNode n ⟨(hb.node n).tensor, order⟩).setNode n
        { (hb.setNode n ⟨(hb.node n).tensor, order⟩).node n with tensor := t' } := (Prod.mk.inj hr).2.symm
    rw [this, Heap.setNode_node]
    have htd : t'.ndim = pm.length := by
      by_cases hpm : pm.Perm (List.range (hb.node n).tensor.ndim)
      · rw [NDArray.transpose, if_pos hpm] at ht
        cases ht
        simp [NDArray.ndim]
      · rw [NDArray.transpose, if_neg hpm] at ht
        cases ht
    refine ⟨by simpa using c1, ?_, ?_, fun m hm => ?_⟩
    · rw [Function.update_self, Heap.setNode_node, Function.update_self]
    · rw [Function.update_self]
      simp only [htd, hlen, List.length_zipIdx]
    · rw [Function.update_of_ne hm, Heap.setNode_node, Function.update_of_ne hm, k2', k1']

theorem reorderEdges_noGrow_of_error {h h1 : Heap R} {n : NId} {order : List EId} (hnd : order.Nodup) {e : PyErr}
    (hr : reorderEdges n order h = (.error e, h1)) : ∀ m, (h1.node m).edges.length ≤ (h.node m).edges.length := by
  unfold reorderEdges at hr
  rw [M.bind_ok (nodeEdges_eq n)] at hr
  by_cases c1 : ∃ e ∈ order, e ∉ (h.node n).edges
  · rw [if_pos c1] at hr
    have : h = h1 := (Prod.mk.inj hr).2
    subst this; exact fun _ => le_refl _
  rw [if_neg c1] at hr
  by_cases c2 : ∃ e ∈ (h.node n).edges, e ∉ order
  · rw [if_pos c2] at hr
    have : h = h1 := (Prod.mk.inj hr).2
    subst this; exact fun _ => le_refl _
  rw [if_neg c2, M.bind_apply] at hr
  have hle : order.length ≤ (h.node n).edges.length := by
    rw [← List.toFinset_card_of_nodup hnd]
    refine le_trans (Finset.card_le_card ?_) (List.toFinset_card_le (h.node n).edges)
    intro a ha
    simp only [not_exists, not_and, not_not] at c1
    exact List.mem_toFinset.2 (c1 a (List.mem_toFinset.1 ha))
  have k1 := KeepsNodes.forEach (R := R) (f := fun e => do
      let a ← node1 e
      let b ← node2 e
      if some a = b then M.throw .valueError else Pure.pure ()) (fun e =>
    (node1_keeps e).bind fun a => (node2_keeps e).bind fun b => by
      split
      · exact .throw _
      · exact .pure _) order h
  split at hr
  swap
  · rename_i ha hha
    have k1' : ha.node = h.node := (congrArg (fun r => r.2.node) hha).symm.trans k1
    have : ha = h1 := (Prod.mk.inj hr).2
    subst this
    intro m; rw [k1']
  rename_i u ha hha
  have k1' : ha.node = h.node := (congrArg (fun r => r.2.node) hha).symm.trans k1
  have k2 := KeepsNodes.mapEach (R := R) (f := fun (e, i) => do
      let old := (h.node n).edges.idxOf e
      updateAxis e old n i n
      Pure.pure old) (by
    rintro ⟨e, i⟩
    exact (updateAxis_node e _ n i n).bind fun _ => .pure _) order.zipIdx ha
  rw [M.bind_apply] at hr
  split at hr
  swap
  · rename_i hb hhb
    have k2' : hb.node = ha.node := (congrArg (fun r => r.2.node) hhb).symm.trans k2
    have : hb = h1 := (Prod.mk.inj hr).2
    subst this
    intro m; rw [k2', k1']
  rename_i pm hb hhb
  have k2' : hb.node = ha.node := (congrArg (fun r => r.2.node) hhb).symm.trans k2
  rw [M.bind_ok (x := setEdges n order) (a := ()) (h' := hb.setNode n ⟨(hb.node n).tensor, order⟩) rfl,
    M.bind_ok (nodeTensor_eq n), M.bind_apply, M.lift_apply] at hr
  rw [Heap.setNode_node, Function.update_self] at hr
  simp only at hr
  rcases ht : (hb.node n).tensor.transpose pm with e | t'
  · rw [ht] at hr
    have : hb.setNode n ⟨(hb.node n).tensor, order⟩ = h1 := (Prod.mk.inj hr).2
    subst this
    intro m
    rw [Heap.setNode_node]
    by_cases hm : m = n
    · subst hm; rw [Function.update_self]; exact hle
    · rw [Function.update_of_ne hm, k2', k1']
  · rw [ht] at hr
    cases hr

/-- `reorder_edges` of a node with enough names. -/
theorem reorderEdgesN_run {h h1 : Heap R} {n : NId} {order : List EId} (hr : reorderEdges n order h = (.ok (), h1))
    {nm : AxTab} (hl : (h.node n).edges.length ≤ (nm n).length) :
    reorderEdgesN n order (h, nm) = (.ok (), (h1, Function.update nm n
      (order.map (fun e => (nm n).getD ((h.node n).edges.idxOf e) "")))) := by
  obtain ⟨h2, h3, h4, h5⟩ := reorderEdges_inv hr
  rw [reorderEdgesN, NM.bind_ok (NM.lift_ok (nodeEdges_eq n) nm), NM.bind_ok (NM.lift_ok hr nm), permuteNames,
    NM.bind_ok (x := NM.names n) (a := nm n) (s' := (h1, nm)) rfl,
    pick_ok _ (fun i hi => by
      obtain ⟨e, he, rfl⟩ := List.mem_map.1 hi
      exact lt_of_lt_of_le (List.idxOf_lt_length_of_mem (h2 e he)) hl)]
  simp only [List.map_map]
  exact setNames_ok (by rw [List.length_map, h4])

theorem Sim.reorderEdges (n : NId) {order : List EId} (hnd : order.Nodup) :
    Sim (reorderEdges n order : M R Unit) (reorderEdgesN n order) := by
  intro h nm hn
  rcases hr : Graph.reorderEdges n order h with ⟨e | u, h1⟩
  · have : reorderEdgesN n order (h, nm) = (.error e, (h1, nm)) := by
      rw [reorderEdgesN, NM.bind_ok (NM.lift_ok (nodeEdges_eq n) nm)]
      refine NM.bind_error ?_
      rw [NM.lift, hr]
    refine ⟨by rw [this, hr], by rw [this, hr], ?_⟩
    rw [this]
    exact fun m => (reorderEdges_noGrow_of_error hnd hr m).trans (hn m)
  · have hx := reorderEdgesN_run hr (hn n)
    refine ⟨by rw [hx, hr], by rw [hx, hr], ?_⟩
    rw [hx]
    intro m
    obtain ⟨_, h2, _, h3⟩ := reorderEdges_inv hr
    change (h1.node m).edges.length ≤ (Function.update nm n _ m).length
    by_cases hm : m = n
    · subst hm
      rw [Function.update_self, List.length_map, h2]
    · rw [Function.update_of_ne hm, h3 m hm]
      exact hn m

end TN.Graph
