import Verif.AxisNames6
import Verif.GraphProps1

/-!
# Histories do the same with and without names
-/

namespace TN.Graph

open TN

set_option linter.unusedSectionVars false

variable {R α β : Type}

/-- One round of the loop of `remove_node`. -/
def removeBody (n : NId) (i : Nat) : M R (Option (Nat × EId)) := do
  let cur ← nodeEdges n
  match cur[i]? with
  | none => M.throw .indexError
  | some e => do
    let d ← isDangling e
    if d then pure none
    else do
      let t ← isTrace e
      if t then pure none
      else do
        let (f1, f2) ← disconnect e
        let m ← node1 f1
        pure (some (i, if m ≠ n then f1 else f2))

/-- One round of the loop of `remove_node` with names. -/
def removeBodyN (n : NId) (p : String × Nat) : NM R (Option (String × EId)) := do
  let cur ← NM.lift (nodeEdges n)
  match cur[p.2]? with
  | none => NM.throw .indexError
  | some e => do
    let d ← NM.lift (isDangling e)
    if d then pure none
    else do
      let t ← NM.lift (isTrace e)
      if t then pure none
      else do
        let (f1, f2) ← NM.lift (disconnect e)
        let m ← NM.lift (node1 f1)
        pure (some (p.1, if m ≠ n then f1 else f2))

theorem removeNode_eq (n : NId) : (removeNode n : M R (List (Nat × EId))) =
    nodeEdges n >>= fun es => M.mapEach (List.range es.length) (removeBody n) >>= fun l => pure (l.filterMap id) := rfl

theorem removeNodeN_eq (n : NId) : (removeNodeN n : NM R (List (String × EId))) =
    NM.names n >>= fun l => NM.mapEach l.zipIdx (removeBodyN n) >>= fun l => pure (l.filterMap id) := rfl

/-- The value of a result, renamed. -/
def mapPy (f : α → β) : Py α → Py β
  | .ok a => .ok (f a)
  | .error e => .error e

theorem removeBodyN_eq (n : NId) (p : String × Nat) (s : Heap R × AxTab) : removeBodyN n p s =
    (mapPy (Option.map fun q => (p.1, q.2)) (removeBody n p.2 s.1).1, ((removeBody n p.2 s.1).2, s.2)) := by
  obtain ⟨h, nm⟩ := s
  unfold removeBodyN removeBody
  rw [NM.bind_ok (NM.lift_ok (nodeEdges_eq n) nm), M.bind_ok (nodeEdges_eq n)]
  rcases (h.node n).edges[p.2]? with _ | e
  · rfl
  simp only
  rw [NM.bind_apply, M.bind_apply]
  simp only [NM.lift]
  rcases isDangling e h with ⟨x | d, h1⟩
  · rfl
  simp only
  by_cases c : d = true
  · rw [if_pos c, if_pos c]; rfl
  rw [if_neg c, if_neg c, NM.bind_apply, M.bind_apply]
  simp only [NM.lift]
  rcases isTrace e h1 with ⟨x | t, h2⟩
  · rfl
  simp only
  by_cases c2 : t = true
  · rw [if_pos c2, if_pos c2]; rfl
  rw [if_neg c2, if_neg c2, NM.bind_apply, M.bind_apply]
  simp only [NM.lift]
  rcases disconnect e h2 with ⟨x | ⟨f1, f2⟩, h3⟩
  · rfl
  simp only
  rw [NM.bind_apply, M.bind_apply]
  simp only [NM.lift]
  rcases node1 f1 h3 with ⟨x | m, h4⟩
  · rfl
  · rfl

theorem removeLoopN_eq (n : NId) : ∀ (names : List String) (j : Nat) (s : Heap R × AxTab),
    NM.mapEach (names.zipIdx j) (removeBodyN n) s =
      (mapPy (fun l => (names.zip l).map (fun q => q.2.map fun r => (q.1, r.2)))
        (M.mapEach (List.range' j names.length) (removeBody n) s.1).1,
        ((M.mapEach (List.range' j names.length) (removeBody n) s.1).2, s.2))
  | [], j, s => rfl
  | a :: names, j, s => by
    rw [List.zipIdx_cons, List.length_cons, List.range'_succ]
    change (removeBodyN n (a, j) >>= fun b => NM.mapEach (names.zipIdx (j + 1)) (removeBodyN n) >>= fun bs => pure (b :: bs)) s = _
    rw [NM.bind_apply, removeBodyN_eq, M.mapEach_cons, M.bind_apply]
    rcases removeBody n j s.1 with ⟨x | b, h1⟩
    · rfl
    simp only [mapPy]
    rw [NM.bind_apply, removeLoopN_eq n names (j + 1), M.bind_apply]
    simp only
    rcases M.mapEach (List.range' (j + 1) names.length) (removeBody n) h1 with ⟨x | bs, h2⟩
    · rfl
    · rfl

theorem removeBody_noGrow (n : NId) (i : Nat) : NoGrow (removeBody n i : M R (Option (Nat × EId))) := by
  unfold removeBody
  refine (NoGrow.nodeEdges n).bind fun cur => ?_
  rcases cur[i]? with _ | e
  · exact .throw _
  exact (NoGrow.isDangling e).bind fun d => .ite (.pure _) <| (NoGrow.isTrace e).bind fun t => .ite (.pure _) <|
    (NoGrow.disconnect e).bind fun q => (NoGrow.node1 _).bind fun _ => .pure _

theorem mapEach_append (l l' : List α) (f : α → M R β) (h : Heap R) :
    M.mapEach (l ++ l') f h = (M.mapEach l f >>= fun a => M.mapEach l' f >>= fun b => pure (a ++ b)) h := by
  induction l generalizing h with
  | nil =>
    rw [M.bind_ok (M.mapEach_nil f h), List.nil_append, M.bind_apply]
    rcases M.mapEach l' f h with ⟨_ | _, _⟩ <;> rfl
  | cons a l ih =>
    rw [List.cons_append, M.mapEach_cons, M.bind_apply, M.bind_apply, M.mapEach_cons, M.bind_apply]
    rcases f a h with ⟨_ | u, h'⟩
    · rfl
    · simp only
      rw [M.bind_apply, ih, M.bind_apply, M.bind_apply]
      rcases M.mapEach l f h' with ⟨_ | v, h''⟩
      · rfl
      · simp only
        rw [M.bind_apply]
        simp only [M.pure_apply]
        rw [M.bind_apply]
        rcases M.mapEach l' f h'' with ⟨_ | w, _⟩ <;> rfl

theorem removeBody_fst {n : NId} {i : Nat} {h h' : Heap R} {q : Nat × EId}
    (hr : removeBody n i h = (.ok (some q), h')) : q.1 = i := by
  unfold removeBody at hr
  rw [M.bind_ok (nodeEdges_eq n)] at hr
  rcases hx : (h.node n).edges[i]? with _ | e
  · rw [hx] at hr; cases hr
  rw [hx] at hr
  simp only at hr
  rw [M.bind_apply] at hr
  rcases hd : isDangling e h with ⟨x | d, h1⟩
  · rw [hd] at hr; cases hr
  rw [hd] at hr
  simp only at hr
  by_cases c : d = true
  · rw [if_pos c] at hr; cases hr
  rw [if_neg c, M.bind_apply] at hr
  rcases ht : isTrace e h1 with ⟨x | t, h2⟩
  · rw [ht] at hr; cases hr
  rw [ht] at hr
  simp only at hr
  by_cases c2 : t = true
  · rw [if_pos c2] at hr; cases hr
  rw [if_neg c2, M.bind_apply] at hr
  rcases hc : disconnect e h2 with ⟨x | ⟨f1, f2⟩, h3⟩
  · rw [hc] at hr; cases hr
  rw [hc] at hr
  simp only at hr
  rw [M.bind_apply] at hr
  rcases hf : node1 f1 h3 with ⟨x | m, h4⟩
  · rw [hf] at hr; cases hr
  rw [hf] at hr
  have := Except.ok.inj (Prod.mk.inj hr).1
  rw [← Option.some.inj this]

theorem removeLoop_names (n : NId) : ∀ (names pre : List String) (h h' : Heap R) (l : List (Option (Nat × EId))),
    M.mapEach (List.range' pre.length names.length) (removeBody n) h = (.ok l, h') →
    ((names.zip l).map (fun q => q.2.map fun r => (q.1, r.2))).filterMap id =
      (l.filterMap id).map fun q => ((pre ++ names).getD q.1 "", q.2)
  | [], pre, h, h', l, hm => by
    have : [] = l := Except.ok.inj (Prod.mk.inj hm).1
    subst this; rfl
  | a :: names, pre, h, h', l, hm => by
    rw [List.length_cons, List.range'_succ, M.mapEach_cons, M.bind_apply] at hm
    rcases hx : removeBody n pre.length h with ⟨x | b, h1⟩
    · rw [hx] at hm; cases hm
    rw [hx] at hm
    simp only at hm
    rw [M.bind_apply] at hm
    rcases hy : M.mapEach (List.range' (pre.length + 1) names.length) (removeBody n) h1 with ⟨x | bs, h2⟩
    · rw [hy] at hm; cases hm
    rw [hy] at hm
    have hl : b :: bs = l := Except.ok.inj (Prod.mk.inj hm).1
    subst hl
    have ih := removeLoop_names n names (pre ++ [a]) h1 h2 bs (by simpa using hy)
    rw [List.append_assoc, List.singleton_append] at ih
    rw [List.zip_cons_cons, List.map_cons]
    rcases b with _ | q
    · simpa using ih
    · have hq := removeBody_fst hx
      simp only [List.filterMap_cons, Option.map_some, id_eq]
      change (a, q.2) :: List.filterMap id _ = List.map _ (q :: _)
      rw [ih, List.map_cons, hq]
      simp

/-- `remove_node` of a node with as many names as edges: the dictionary has the edges under the names of the axes. -/
theorem removeNodeN_exact {n : NId} {s : Heap R × AxTab} (hl : (s.2 n).length = (s.1.node n).edges.length) :
    removeNodeN n s = (mapPy (fun l => l.map fun q => ((s.2 n).getD q.1 "", q.2)) (removeNode n s.1).1,
      ((removeNode n s.1).2, s.2)) := by
  obtain ⟨h, nm⟩ := s
  simp only at hl ⊢
  rw [removeNodeN_eq, NM.bind_ok (x := NM.names n) (a := nm n) (s' := (h, nm)) rfl, NM.bind_apply, removeLoopN_eq, removeNode_eq,
    M.bind_ok (nodeEdges_eq n), M.bind_apply, hl, ← List.range_eq_range']
  rcases hm : M.mapEach (List.range (h.node n).edges.length) (removeBody n) h with ⟨x | l, h1⟩
  · rfl
  · have := removeLoop_names n (nm n) [] h h1 l (by rw [hl]; simpa [List.range_eq_range'] using hm)
    rw [List.nil_append] at this
    change ((Except.ok (List.filterMap id _) : Py _), (h1, nm)) = _
    rw [this]
    rfl

/-- The graph after `remove_node` of a node with enough names. -/
theorem removeNodeN_graph {n : NId} {h : Heap R} {nm : AxTab} (hl : (h.node n).edges.length ≤ (nm n).length) :
    (removeNodeN n (h, nm)).2 = ((removeNode n h).2, nm) := by
  rw [removeNodeN_eq, NM.bind_ok (x := NM.names n) (a := nm n) (s' := (h, nm)) rfl, NM.bind_apply, removeLoopN_eq, removeNode_eq,
    M.bind_ok (nodeEdges_eq n), M.bind_apply]
  obtain ⟨d, hd⟩ := Nat.exists_eq_add_of_le hl
  rw [hd, ← List.range_eq_range', List.range_add, mapEach_append, M.bind_apply]
  have hng := NoGrow.mapEach (R := R) (removeBody_noGrow n) (List.range (h.node n).edges.length) h n
  rcases hm : M.mapEach (List.range (h.node n).edges.length) (removeBody n) h with ⟨x | l, h1⟩
  · rfl
  · rw [hm] at hng
    simp only at hng ⊢
    rcases d with _ | d
    · rfl
    · rw [List.range_succ_eq_map, List.map_cons, M.bind_apply, M.mapEach_cons, M.bind_apply]
      have : removeBody n ((h.node n).edges.length + 0) h1 = (.error .indexError, h1) := by
        unfold removeBody
        rw [M.bind_ok (nodeEdges_eq n), List.getElem?_eq_none (by omega)]
        rfl
      rw [this]
      rfl

/-! ### Operations -/

/-- An operation, its result dropped. -/
def Op.run [CommSemiring R] : Op R → M R Unit
  | .node t => newNode t >>= fun _ => pure ()
  | .connect e1 e2 => Graph.connect e1 e2 >>= fun _ => pure ()
  | .disconnect e => Graph.disconnect e >>= fun _ => pure ()
  | .reorderEdges n order => Graph.reorderEdges n order
  | .reorderAxes n perm => Graph.reorderAxes n perm
  | .contract e => Graph.contract e >>= fun _ => pure ()
  | .contractParallel fo e => Graph.contractParallel fo e >>= fun _ => pure ()
  | .contractBetween fo n1 n2 allow order => Graph.contractBetween fo n1 n2 allow order >>= fun _ => pure ()
  | .outerProduct n1 n2 => Graph.outerProduct n1 n2 >>= fun _ => pure ()
  | .outerProductFinalNodes nodes order => Graph.outerProductFinalNodes nodes order >>= fun _ => pure ()
  | .flattenEdges swap es => Graph.flattenEdges swap es >>= fun _ => pure ()
  | .splitEdge swap e shape => Graph.splitEdge swap e shape >>= fun _ => pure ()
  | .sliceEdge e start length => Graph.sliceEdge e start length >>= fun _ => pure ()
  | .removeNode n => Graph.removeNode n >>= fun _ => pure ()
  | .redirectEdge e new old => Graph.redirectEdge e new old
  | .splitNode decomp n left right => splitNodeWith decomp n left right >>= fun _ => pure ()

/-- An operation with names, its result dropped. -/
def Op.runN [CommSemiring R] : Op R → NM R Unit
  | .node t => newNodeN t >>= fun _ => pure ()
  | .connect e1 e2 => NM.lift (Graph.connect e1 e2) >>= fun _ => pure ()
  | .disconnect e => NM.lift (Graph.disconnect e) >>= fun _ => pure ()
  | .reorderEdges n order => reorderEdgesN n order
  | .reorderAxes n perm => reorderAxesN n perm
  | .contract e => contractN e >>= fun _ => pure ()
  | .contractParallel fo e => contractParallelN fo e >>= fun _ => pure ()
  | .contractBetween fo n1 n2 allow order => contractBetweenN fo n1 n2 allow order >>= fun _ => pure ()
  | .outerProduct n1 n2 => outerProductN n1 n2 >>= fun _ => pure ()
  | .outerProductFinalNodes nodes order => outerProductFinalNodesN nodes order >>= fun _ => pure ()
  | .flattenEdges swap es => flattenEdgesN swap es >>= fun _ => pure ()
  | .splitEdge swap e shape => splitEdgeN swap e shape none >>= fun _ => pure ()
  | .sliceEdge e start length => NM.lift (Graph.sliceEdge e start length) >>= fun _ => pure ()
  | .removeNode n => removeNodeN n >>= fun _ => pure ()
  | .redirectEdge e new old => NM.lift (Graph.redirectEdge e new old)
  | .splitNode decomp n left right => splitNodeWithN decomp n left right >>= fun _ => pure ()

theorem drop_heap (x : M R α) (h : Heap R) : ((x >>= fun _ => pure () : M R Unit) h).2 = (x h).2 := by
  rw [M.bind_apply]
  rcases x h with ⟨_ | _, _⟩ <;> rfl

theorem Op.run_after [CommSemiring R] (op : Op R) (h : Heap R) : (op.run h).2 = op.after h := by
  cases op <;> first | rfl | exact drop_heap _ h

/-- The operation is not the split of a trace edge into several edges. -/
def Op.NoTraceSplit (op : Op R) (h : Heap R) : Prop :=
  match op with
  | .splitEdge _ e shape => shape.length ≠ 1 → (isTrace e h).1 ≠ .ok true
  | _ => True

/-- Every operation but the split of a trace edge leaves the same graph with and without names.  It has the same outcome,
too, except that `remove_node` may raise. -/
theorem Op.runN_sim [CommSemiring R] {op : Op R} {h : Heap R} {nm : AxTab} (hn : Named (h, nm)) (hv : op.Valid h)
    (hs : op.NoTraceSplit h) : (op.runN (h, nm)).2.1 = op.after h ∧ Named (op.runN (h, nm)).2 ∧
      ((∀ n, op = .removeNode n → (nm n).length = (h.node n).edges.length) → (op.runN (h, nm)).1 = (op.run h).1) := by
  have key : ∀ {y : NM R Unit}, SimAt h nm op.run y → (y (h, nm)).2.1 = op.after h ∧ Named (y (h, nm)).2 ∧
      ((∀ n, op = .removeNode n → (nm n).length = (h.node n).edges.length) → (y (h, nm)).1 = (op.run h).1) := by
    intro y hy
    exact ⟨hy.2.1.trans (op.run_after h), hy.2.2, fun _ => hy.1⟩
  have hd : ∀ {α : Type} {x : M R α} {y : NM R α}, SimAt h nm x y →
      SimAt h nm (x >>= fun _ => pure ()) (y >>= fun _ => pure ()) := fun hx =>
    hx.bind fun a h' nm' _ hn' _ => Sim.pure () h' nm' hn'
  cases op with
  | node t => exact key (hd (Sim.newNode t h nm hn))
  | connect e1 e2 => exact key (hd (Sim.lift (.connect e1 e2) h nm hn))
  | disconnect e => exact key (hd (Sim.lift (.disconnect e) h nm hn))
  | reorderEdges n order => exact key (Sim.reorderEdges n hv.2 h nm hn)
  | reorderAxes n perm => exact key (Sim.reorderAxes n perm h nm hn)
  | contract e => exact key (hd (Sim.contract e h nm hn))
  | contractParallel fo e => exact key (hd (Sim.contractParallel fo e h nm hn))
  | contractBetween fo n1 n2 allow order => exact key (hd (Sim.contractBetween fo n1 n2 allow hv.2.2 h nm hn))
  | outerProduct n1 n2 => exact key (hd (Sim.outerProduct n1 n2 h nm hn))
  | outerProductFinalNodes nodes order => exact key (hd (Sim.outerProductFinalNodes nodes hv.2.2 h nm hn))
  | flattenEdges swap es => exact key (hd (Sim.flattenEdges swap es h nm hn))
  | splitEdge swap e shape => exact key (hd (SimAt.splitEdge swap e shape (by simp) hn hs))
  | sliceEdge e start length => exact key (hd (Sim.lift (.sliceEdge e start length) h nm hn))
  | redirectEdge e new old => exact key (Sim.lift (.redirectEdge e new old) h nm hn)
  | splitNode decomp n left right => exact key (hd (Sim.splitNodeWith decomp n left right h nm hn))
  | removeNode n =>
    have h1 := removeNodeN_graph (hn n)
    have h2 : (Op.runN (.removeNode n) (h, nm)).2 = ((Graph.removeNode n h).2, nm) := by
      rw [← h1]
      simp only [Op.runN]
      rw [NM.bind_apply]
      rcases removeNodeN n (h, nm) with ⟨_ | _, _⟩ <;> rfl
    have hng : NoGrow (Graph.removeNode n : M R (List (Nat × EId))) := by
      rw [removeNode_eq]
      exact (NoGrow.nodeEdges n).bind fun es => (NoGrow.mapEach (removeBody_noGrow n) _).bind fun _ => .pure _
    refine ⟨by rw [h2]; rfl, ?_, fun hx => ?_⟩
    · rw [h2]
      exact fun m => (hng h m).trans (hn m)
    · have h3 := removeNodeN_exact (s := (h, nm)) (hx n rfl)
      simp only [Op.runN, Op.run]
      rw [NM.bind_apply, h3, M.bind_apply]
      rcases Graph.removeNode n h with ⟨_ | _, _⟩ <;> rfl

end TN.Graph
