import Verif.AxisNames8

/-!
# The names after `split_edge`, and trace edges
-/

namespace TN.Graph

open TN

set_option linter.unusedSectionVars false

variable {R α β : Type}

/-- The names of the nodes after `split_edge` of an edge that is not a trace. -/
theorem splitEdgeN_names {h h' : Heap R} {swap : Bool} {e : EId} {shape : List Nat} {news : List EId}
    (hlen : shape.length ≠ 1) (hr : splitEdge swap e shape h = (.ok news, h')) {nm : AxTab} (hn : Named (h, nm))
    (htr : isTrace e h = (.ok false, h)) (hne : (h.edge e).node1 ≠ (h.edge e).node2) {new : Option (List String)}
    (hnew : ∀ l, new = some l → l.length = shape.length) :
    ∃ nm', splitEdgeN swap e shape new (h, nm) = (.ok news, (h', nm')) ∧
      ∀ n, nm' n = if (h.edge e).node1 = some n ∨ (h.edge e).node2 = some n then
        (nm n).take ((h.node n).edges.length - 1) ++ new.getD (splitDefault ((h.node n).edges.length - 1) shape.length)
        else nm n := by
  unfold splitEdge at hr
  rw [M.bind_apply] at hr
  unfold splitEdgeN
  rcases hf : dimension e h with ⟨x | d, h0⟩
  · rw [hf] at hr; cases hr
  rw [NM.bind_ok (NM.lift_ok hf nm)]
  rw [hf] at hr
  have hh : h0 = h := by
    have := dimension_heap e h
    rw [hf] at this; exact this
  subst hh
  simp only at hr ⊢
  by_cases c1 : shape.prod ≠ d
  · rw [if_pos c1] at hr; cases hr
  rw [if_neg c1, if_neg hlen] at hr ⊢
  rw [M.bind_ok htr, if_neg (by simp), M.bind_ok (M.get_apply h0)] at hr
  rw [NM.bind_ok (NM.lift_ok htr nm), if_neg (by simp),
    NM.bind_ok (x := NM.lift M.get) (a := h0) (s' := (h0, nm)) rfl]
  rcases h1 : (h0.edge e).node1 with _ | n1
  · rw [h1] at hr; cases hr
  have hdis : ∀ k : Heap R, disable e k = (.ok (), (disable e k).2) := fun _ => rfl
  rcases h2 : (h0.edge e).node2 with _ | n2
  · rw [h1, h2] at hr
    simp only at hr ⊢
    rw [M.bind_apply] at hr
    rcases ha : splitAt e shape n1 h0 with ⟨x | fs, hb⟩
    · rw [ha] at hr; cases hr
    rw [ha] at hr
    simp only at hr
    obtain ⟨k1, k2, k3⟩ := splitAtN_run ha hnew (hn n1)
    rw [NM.bind_ok k1]
    rw [M.bind_ok (hdis hb)] at hr
    rw [NM.bind_ok (NM.lift_ok (hdis hb) _)]
    obtain ⟨r1, r2⟩ := Prod.mk.inj hr
    refine ⟨_, by rw [← r2, ← Except.ok.inj r1]; rfl, fun n => ?_⟩
    by_cases hnn : n = n1
    · subst hnn
      rw [Function.update_self, if_pos (by simp)]
    · rw [Function.update_of_ne hnn, if_neg (by simpa using fun h => hnn h.symm)]
  · rw [h1, h2] at hr
    rw [h1, h2] at hne
    have hne : n1 ≠ n2 := fun hc => hne (by rw [hc])
    simp only at hr ⊢
    have key : ∀ m1 m2 : NId, m1 ≠ m2 →
        (do
          let f1 ← splitAt e shape m1
          let f2 ← splitAt e shape m2
          disable e
          M.mapEach (f1.zip f2) fun q => connect q.1 q.2) h0 = (.ok news, h') →
        ∃ nm', (do
          let f1 ← splitAtN e shape new m1
          let f2 ← splitAtN e shape new m2
          NM.lift (disable e)
          NM.lift (M.mapEach (f1.zip f2) fun q => connect q.1 q.2)) (h0, nm) = (.ok news, (h', nm')) ∧
          ∀ n, nm' n = if m1 = n ∨ m2 = n then (nm n).take ((h0.node n).edges.length - 1) ++
            new.getD (splitDefault ((h0.node n).edges.length - 1) shape.length) else nm n := by
      intro m1 m2 hm hr
      rw [M.bind_apply] at hr
      rcases ha : splitAt e shape m1 h0 with ⟨x | fs, hb⟩
      · rw [ha] at hr; cases hr
      rw [ha] at hr
      simp only at hr
      obtain ⟨k1, k2, k3⟩ := splitAtN_run ha hnew (hn m1)
      rw [NM.bind_ok k1]
      rw [M.bind_apply] at hr
      rcases ha2 : splitAt e shape m2 hb with ⟨x | fs', hb2⟩
      · rw [ha2] at hr; cases hr
      rw [ha2] at hr
      simp only at hr
      obtain ⟨j1, j2, j3⟩ := splitAtN_run ha2 hnew (nm := Function.update nm m1 ((nm m1).take ((h0.node m1).edges.length - 1) ++
        new.getD (splitDefault ((h0.node m1).edges.length - 1) shape.length)))
        (by rw [k3 m2 hm.symm, Function.update_of_ne hm.symm]; exact hn m2)
      rw [NM.bind_ok j1]
      rw [M.bind_ok (hdis hb2)] at hr
      rw [NM.bind_ok (NM.lift_ok (hdis hb2) _)]
      refine ⟨_, NM.lift_ok hr _, fun n => ?_⟩
      by_cases hn2 : n = m2
      · subst hn2
        rw [Function.update_self, Function.update_of_ne hm.symm, if_pos (by simp), k3 n hm.symm]
      · rw [Function.update_of_ne hn2]
        by_cases hn1 : n = m1
        · subst hn1
          rw [Function.update_self, if_pos (by simp)]
        · rw [Function.update_of_ne hn1, if_neg (fun hc => hc.elim (fun h => hn1 h.symm) (fun h => hn2 h.symm))]
    cases swap
    · obtain ⟨nm', q1, q2⟩ := key n1 n2 hne hr
      exact ⟨nm', q1, fun n => by rw [q2 n]; simp⟩
    · obtain ⟨nm', q1, q2⟩ := key n2 n1 hne.symm hr
      exact ⟨nm', q1, fun n => by rw [q2 n]; simp [or_comm]⟩

/-! ### Trace edges -/

theorem map_getD_length (l : List String) (p : List Nat) : (p.map (fun i => l.getD i "")).length = p.length :=
  List.length_map ..

theorem axis1_heap (e : EId) (h : Heap R) : (axis1 e h).2 = h := by
  unfold axis1; simp only [M.bind_apply, M.get_apply]; split <;> rfl

theorem axis2_heap (e : EId) (h : Heap R) : (axis2 e h).2 = h := by
  unfold axis2; simp only [M.bind_apply, M.get_apply]; split <;> rfl

theorem M.bind_inv {x : M R α} {f : α → M R β} {h h' : Heap R} {b : β} (hr : (x >>= f) h = (.ok b, h')) :
    ∃ a h1, x h = (.ok a, h1) ∧ f a h1 = (.ok b, h') := by
  rw [M.bind_apply] at hr
  rcases hx : x h with ⟨_ | a, h1⟩
  · rw [hx] at hr; cases hr
  · rw [hx] at hr; exact ⟨a, h1, rfl, hr⟩

theorem mapEach_heap {f : α → M R β} (hf : ∀ a h, (f a h).2 = h) (l : List α) (h : Heap R) : (M.mapEach l f h).2 = h := by
  induction l with
  | nil => rfl
  | cons a l ih =>
    rw [M.mapEach_cons, M.bind_apply]
    have h3 := hf a h
    rcases hx : f a h with ⟨_ | b, k⟩
    · rw [hx] at h3; exact h3
    rw [hx] at h3; simp only at h3 ⊢; subst h3
    rw [M.bind_apply]
    rcases hy : M.mapEach l f k with ⟨_ | bs, k'⟩
    · rw [hy] at ih; exact ih
    · rw [hy] at ih; exact ih

theorem ends_heap (a : EId) (h : Heap R) : ((do
    let a1 ← axis1 a
    let a2 ← axis2 a
    match a2 with
    | none => M.throw .typeError
    | some a2 => pure (a1, a2) : M R (Nat × Nat)) h).2 = h := by
  have h1 := axis1_heap a h
  have h2 := axis2_heap a h
  rw [M.bind_apply]
  rcases hx : axis1 a h with ⟨_ | _, k⟩
  · rw [hx] at h1; exact h1
  rw [hx] at h1; simp only at h1 ⊢; subst h1
  rw [M.bind_apply]
  rcases hy : axis2 a k with ⟨_ | a2, k'⟩
  · rw [hy] at h2; exact h2
  rw [hy] at h2; simp only at h2 ⊢; subst h2
  cases a2 <;> rfl

/-- `_flatten_trace_edges` leaves as many names as there were edges before. -/
theorem flattenTraceEdgesN_names {h h' : Heap R} {e0 new : EId} {es : List EId} {n : NId}
    (hn1 : node1 e0 h = (.ok n, h))
    (hr : flattenTraceEdges (e0 :: es) h = (.ok new, h')) {nm : AxTab} (hl : (h.node n).edges.length ≤ (nm n).length) :
    ∃ l, l.length = (h.node n).edges.length ∧
      flattenTraceEdgesN (e0 :: es) (h, nm) = (.ok new, (h', Function.update nm n l)) := by
  unfold flattenTraceEdges at hr
  simp only at hr
  rw [M.bind_ok hn1] at hr
  obtain ⟨ends, h0, hm, hr1⟩ := M.bind_inv hr
  have hkeep : h0 = h := by
    have := mapEach_heap (fun a h => ends_heap a h) (e0 :: es) h
    exact (congrArg Prod.snd hm).symm.trans this
  subst hkeep
  rw [M.bind_ok (nodeEdges_eq n), M.bind_ok (nodeTensor_eq n)] at hr1
  obtain ⟨u, h1, hro, hr2⟩ := M.bind_inv hr1
  refine ⟨_, ?_, (NM.bind_ok (NM.lift_ok hn1 nm)).trans <| (NM.bind_ok (NM.lift_ok hm nm)).trans <|
    (NM.bind_ok (NM.lift_ok (nodeEdges_eq n) nm)).trans <| (NM.bind_ok (NM.lift_ok (nodeTensor_eq n) nm)).trans <|
    (NM.bind_ok (reorderAxesN_run hro hl)).trans (NM.lift_ok hr2 _)⟩
  have := (reorderAxes_inv hro).1.length_eq
  rw [List.length_range] at this
  rw [List.length_map, this]

/-- `_split_trace_edge` leaves as many names as there were edges before. -/
theorem splitTraceEdgeN_names {h h' : Heap R} {e : EId} {shape : List Nat} {news : List EId} {n : NId}
    (hn1 : node1 e h = (.ok n, h)) (hr : splitTraceEdge e shape h = (.ok news, h')) {nm : AxTab}
    (hl : (h.node n).edges.length ≤ (nm n).length) :
    ∃ l, l.length = (h.node n).edges.length ∧
      splitTraceEdgeN e shape (h, nm) = (.ok news, (h', Function.update nm n l)) := by
  unfold splitTraceEdge at hr
  unfold splitTraceEdgeN
  rw [M.bind_ok hn1, M.bind_apply] at hr
  have a1 := axis1_heap e h
  have a2 := axis2_heap e h
  rcases hx : axis1 e h with ⟨_ | i, k⟩
  · rw [hx] at hr; cases hr
  rw [hx] at a1; simp only at a1; subst a1
  rw [hx] at hr
  simp only at hr
  rw [M.bind_apply] at hr
  rcases hy : axis2 e k with ⟨_ | j, k'⟩
  · rw [hy] at hr; cases hr
  rw [hy] at a2; simp only at a2; subst a2
  rw [hy] at hr
  simp only at hr
  rcases j with _ | j
  · cases hr
  simp only at hr
  rw [M.bind_ok (nodeEdges_eq n), M.bind_apply] at hr
  rw [NM.bind_ok (NM.lift_ok hn1 nm), NM.bind_ok (NM.lift_ok hx nm), NM.bind_ok (NM.lift_ok hy nm)]
  simp only
  rw [NM.bind_ok (NM.lift_ok (nodeEdges_eq n) nm)]
  rcases hro : reorderAxes n (otherAxes (k'.node n).edges.length [min i j, max i j] ++ [min i j, max i j]) k' with ⟨x | u, h1⟩
  · rw [hro] at hr; cases hr
  rw [hro] at hr
  rw [NM.bind_ok (reorderAxesN_run hro hl)]
  refine ⟨_, ?_, NM.lift_ok hr _⟩
  have := (reorderAxes_inv hro).1.length_eq
  rw [List.length_range] at this
  rw [List.length_map, this]

end TN.Graph
