import Verif.AxisNames

/-!
# C72: axis names when axes are reordered, flattened and split
-/

namespace TN.Graph

open TN

set_option linter.unusedSectionVars false

variable {R α β : Type}

theorem pick_ok (l : List String) : ∀ {perm : List Nat}, (∀ i ∈ perm, i < l.length) →
    pickNames l perm = .ok (perm.map (fun i => l.getD i ""))
  | [], _ => rfl
  | i :: is, h => by
    have h1 := h i (by simp)
    rw [pickNames, List.getElem?_eq_getElem h1]
    simp only
    rw [pick_ok l (fun j hj => h j (by simp [hj]))]
    simp [List.getD, List.getElem?_eq_getElem h1]

theorem pick_err {l : List String} : ∀ {perm : List Nat}, (∃ i ∈ perm, l.length ≤ i) → pickNames l perm = .error .indexError
  | [], h => by simp at h
  | i :: is, h => by
    rw [pickNames]
    by_cases h1 : i < l.length
    · rw [List.getElem?_eq_getElem h1]
      simp only
      rw [pick_err]
      obtain ⟨j, hj, hl⟩ := h
      rcases List.mem_cons.1 hj with rfl | hj
      · omega
      · exact ⟨j, hj, hl⟩
    · rw [List.getElem?_eq_none (by omega)]

theorem setNames_ok {h : Heap R} {nm : AxTab} {n : NId} {l : List String} (hl : l.length = (h.node n).tensor.ndim) :
    setAxisNames n l (h, nm) = (.ok (), (h, Function.update nm n l)) := by
  rw [setAxisNames, NM.bind_ok (NM.lift_ok (nodeTensor_eq n) nm), if_neg (by simpa using hl)]
  rfl

/-- A computation that leaves every node as it is. -/
def KeepsNodes (m : M R α) : Prop := ∀ h, (m h).2.node = h.node

theorem KeepsNodes.bind {m : M R α} {f : α → M R β} (hm : KeepsNodes m) (hf : ∀ a, KeepsNodes (f a)) :
    KeepsNodes (m >>= f) := by
  intro h
  rw [M.bind_apply]
  have h1 := hm h
  rcases hx : m h with ⟨_ | b, h'⟩
  · rw [hx] at h1; exact h1
  · rw [hx] at h1
    simp only at h1 ⊢
    rw [hf b h', h1]

theorem KeepsNodes.pure (a : α) : KeepsNodes (Pure.pure a : M R α) := fun _ => rfl

theorem axis1_keeps (e : EId) : KeepsNodes (axis1 e : M R Nat) := by
  intro h; unfold axis1; simp only [M.bind_apply, M.get_apply]; split <;> rfl
theorem axis2_keeps (e : EId) : KeepsNodes (axis2 e : M R (Option Nat)) := by
  intro h; unfold axis2; simp only [M.bind_apply, M.get_apply]; split <;> rfl
theorem node1_keeps (e : EId) : KeepsNodes (node1 e : M R NId) := by
  intro h; unfold node1; simp only [M.bind_apply, M.get_apply]; split
  · rfl
  · cases (h.edge e).node1 <;> rfl
theorem node2_keeps (e : EId) : KeepsNodes (node2 e : M R (Option NId)) := by
  intro h; unfold node2; simp only [M.bind_apply, M.get_apply]; split
  · rfl
  · split
    · rfl
    · cases (h.edge e).node2 <;> rfl

theorem updateAxis_node (e : EId) (a : Nat) (n : NId) (b : Nat) (m : NId) :
    KeepsNodes (updateAxis e a n b m : M R Unit) := by
  unfold updateAxis
  refine (axis1_keeps e).bind fun a1 => KeepsNodes.bind ?_ fun first => ?_
  · split
    · exact (node1_keeps e).bind fun _ => .pure _
    · exact .pure _
  · split
    · intro h; rfl
    · refine (axis2_keeps e).bind fun a2 => KeepsNodes.bind ?_ fun second => ?_
      · split
        · exact (node2_keeps e).bind fun _ => .pure _
        · exact .pure _
      · split <;> intro h <;> rfl

theorem mapEach_node {f : α → M R β} (hf : ∀ a, KeepsNodes (f a)) :
    ∀ (l : List α) (h : Heap R), (M.mapEach l f h).2.node = h.node
  | [], _ => rfl
  | a :: l, h => by
    rw [M.mapEach_cons, M.bind_apply]
    have h1 := hf a h
    rcases hx : f a h with ⟨_ | b, h'⟩
    · rw [hx] at h1; exact h1
    · rw [hx] at h1
      simp only at h1 ⊢
      rw [M.bind_apply]
      have h2 := mapEach_node hf l h'
      rcases hy : M.mapEach l f h' with ⟨_ | bs, h''⟩
      · rw [hy] at h2; simp only at h2 ⊢; rw [h2, h1]
      · rw [hy] at h2; simp only at h2 ⊢; rw [M.pure_apply]; simp only; rw [h2, h1]

/-- `reorder_axes` succeeded on the graph. -/
theorem reorderAxes_inv {h h1 : Heap R} {n : NId} {perm : List Nat} (hr : reorderAxes n perm h = (.ok (), h1)) :
    perm.Perm (List.range (h.node n).edges.length) ∧ (h1.node n).tensor.ndim = perm.length := by
  unfold reorderAxes at hr
  rw [M.bind_ok (nodeEdges_eq n)] at hr
  by_cases hc : perm.toFinset = Finset.range (h.node n).edges.length
  · rw [if_neg (by simpa using hc), M.bind_ok (nodeTensor_eq n)] at hr
    rcases ht : (h.node n).tensor.transpose perm with e | t'
    · rw [M.bind_error (e := e) (h' := h) (by rw [M.lift_apply, ht])] at hr
      cases hr
    · rw [M.bind_ok (a := t') (h' := h) (by rw [M.lift_apply, ht]),
        M.bind_ok (x := setTensor n t') (a := ()) (h' := h.setNode n ⟨t', (h.node n).edges⟩) rfl] at hr
      have hnd : perm.Perm (List.range (h.node n).tensor.ndim) := by
        by_contra hcon
        rw [NDArray.transpose, if_neg hcon] at ht
        cases ht
      have hnod : perm.Nodup := hnd.nodup_iff.2 List.nodup_range
      have hp : perm.Perm (List.range (h.node n).edges.length) := by
        rw [List.perm_ext_iff_of_nodup hnod List.nodup_range]
        intro a
        rw [← List.mem_toFinset, hc, Finset.mem_range, List.mem_range]
      refine ⟨hp, ?_⟩
      have ht' : t'.ndim = perm.length := by
        rw [NDArray.transpose, if_pos hnd] at ht
        cases ht
        simp [NDArray.ndim]
      rw [M.bind_apply] at hr
      have hnode := mapEach_node (R := R) (f := fun (position, i) => match (h.node n).edges[position]? with
          | none => M.throw .indexError
          | some e => do
            updateAxis e position n i n
            pure e) (by
          rintro ⟨position, i⟩
          simp only
          cases (h.node n).edges[position]? with
          | none => intro g; rfl
          | some e => exact (updateAxis_node e position n i n).bind fun _ => .pure _)
        perm.zipIdx (h.setNode n ⟨t', (h.node n).edges⟩)
      split at hr
      · rename_i tmp h2 hm
        have hm' : h2.node = _ := (congrArg (fun r => r.2.node) hm).symm.trans hnode
        have : h1 = h2.setNode n { h2.node n with edges := tmp } := by
          have := (Prod.mk.inj hr).2
          exact this.symm
        rw [this, Heap.setNode_node, Function.update_self]
        simp only at hm' ⊢
        rw [hm', Heap.setNode_node, Function.update_self]
        exact ht'
      · cases hr
  · rw [if_pos (by simpa using hc)] at hr
    cases hr

/-- `reorder_axes` of a node with as many names as edges. -/
theorem reorderAxesN_ok {h h1 : Heap R} {n : NId} {perm : List Nat} (hr : reorderAxes n perm h = (.ok (), h1))
    {nm : AxTab} (hl : (nm n).length = (h.node n).edges.length) :
    reorderAxesN n perm (h, nm) =
      (.ok (), (h1, Function.update nm n (perm.map (fun i => (nm n).getD i "")))) := by
  obtain ⟨hp, hd⟩ := reorderAxes_inv hr
  rw [reorderAxesN, NM.bind_ok (NM.lift_ok hr nm), permuteNames, NM.bind_ok (x := NM.names n) (a := nm n) (s' := (h1, nm)) rfl,
    pick_ok _ (fun i hi => by rw [hl]; exact List.mem_range.1 (hp.mem_iff.1 hi))]
  exact setNames_ok (by rw [List.length_map, hd])

/-- `reorder_axes` of a node that has fewer names than edges raises after it has changed the graph. -/
theorem reorderAxesN_err {h h1 : Heap R} {n : NId} {perm : List Nat} (hr : reorderAxes n perm h = (.ok (), h1))
    {nm : AxTab} (hl : (nm n).length < (h.node n).edges.length) :
    reorderAxesN n perm (h, nm) = (.error .indexError, (h1, nm)) := by
  obtain ⟨hp, hd⟩ := reorderAxes_inv hr
  rw [reorderAxesN, NM.bind_ok (NM.lift_ok hr nm), permuteNames, NM.bind_ok (x := NM.names n) (a := nm n) (s' := (h1, nm)) rfl,
    pick_err ⟨(nm n).length, hp.mem_iff.2 (List.mem_range.2 hl), le_refl _⟩]
  rfl

end TN.Graph
