import Verif.AxisNames5

/-!
# Graph operations do the same with and without names: the rest
-/

namespace TN.Graph

open TN

set_option linter.unusedSectionVars false

variable {R α β : Type}

/-- The part of `_flatten_trace_edges` after `reorder_axes`. -/
def flattenTraceTail (edges : List EId) (n : NId) (k d : Nat) : M R EId := do
  let t' ← nodeTensor n
  let t'' ← M.lift (t'.reshape (t'.shape.take k ++ [d, d]))
  setTensor n t''
  let edge1 ← newDangling n k
  let edge2 ← newDangling n (k + 1)
  let es' ← nodeEdges n
  setEdges n (es'.take k ++ [edge1, edge2])
  let new ← connect edge1 edge2
  M.forEach edges disable
  pure new

theorem flattenTraceTail_noGrow {edges : List EId} {n : NId} {k d : Nat} {h : Heap R}
    (hk : k + 2 ≤ (h.node n).edges.length) :
    ∀ m, ((flattenTraceTail edges n k d h).2.node m).edges.length ≤ (h.node m).edges.length := by
  unfold flattenTraceTail
  rw [M.bind_ok (nodeTensor_eq n), M.bind_apply, M.lift_apply]
  rcases ht : (h.node n).tensor.reshape ((h.node n).tensor.shape.take k ++ [d, d]) with x | t'
  · intro m; exact le_refl _
  simp only
  obtain ⟨h1, hh1⟩ : ∃ h1 : Heap R, h1 = (((newDangling n (k + 1) (newDangling n k (h.setNode n ⟨t', (h.node n).edges⟩)).2).2)) :=
    ⟨_, rfl⟩
  have hn1 : h1.node = Function.update h.node n ⟨t', (h.node n).edges⟩ := by rw [hh1]; rfl
  rw [M.bind_ok (x := setTensor n t') (a := ()) (h' := h.setNode n ⟨t', (h.node n).edges⟩) rfl,
    M.bind_ok (x := newDangling n k) (a := h.ne) (h' := (newDangling n k (h.setNode n ⟨t', (h.node n).edges⟩)).2) rfl,
    M.bind_ok (x := newDangling n (k + 1)) (a := h.ne + 1) (h' := h1) (by rw [hh1]; rfl),
    M.bind_ok (nodeEdges_eq n)]
  obtain ⟨l, hl⟩ : ∃ l, l = (h1.node n).edges.take k ++ [h.ne, h.ne + 1] := ⟨_, rfl⟩
  rw [← hl, M.bind_ok (x := setEdges n l) (a := ()) (h' := h1.setNode n ⟨(h1.node n).tensor, l⟩) rfl]
  have hng : NoGrow (connect h.ne (h.ne + 1) >>= fun new => M.forEach edges disable >>= fun _ => Pure.pure new : M R EId) :=
    (NoGrow.connect _ _).bind fun _ => (NoGrow.forEach (fun _ => .disable _) _).bind fun _ => .pure _
  intro m
  refine (hng _ m).trans ?_
  rw [Heap.setNode_node]
  by_cases hm : m = n
  · subst hm
    rw [Function.update_self, hl, hn1, Function.update_self]
    simp; omega
  · rw [Function.update_of_ne hm, hn1, Function.update_of_ne hm]

theorem SimAt.lift {h : Heap R} {nm : AxTab} {x : M R α}
    (hx : ∀ n, ((x h).2.node n).edges.length ≤ (nm n).length) : SimAt h nm x (NM.lift x) := ⟨rfl, rfl, hx⟩

theorem Sim.flattenTraceEdges (edges : List EId) :
    Sim (flattenTraceEdges edges : M R EId) (flattenTraceEdgesN edges) := by
  unfold Graph.flattenTraceEdges flattenTraceEdgesN
  rcases edges with _ | ⟨e0, es⟩
  · exact .throw _
  simp only
  have hend : ∀ e : EId, NoGrow (Graph.axis1 e >>= fun a1 => Graph.axis2 e >>= fun a2 => match a2 with
      | none => M.throw .typeError
      | some a2 => Pure.pure (a1, a2) : M R (Nat × Nat)) := fun e =>
    (NoGrow.axis1 e).bind fun a1 => (NoGrow.axis2 e).bind fun a2 => by
      rcases a2 with _ | a2
      · exact .throw _
      · exact .pure _
  refine (Sim.lift (.node1 e0)).bind fun n => ?_
  intro h nm hn
  refine ((Sim.lift (NoGrow.mapEach hend _)) h nm hn).bind fun ends h0 nm0 hends hn0 _ => ?_
  refine ((Sim.lift (.nodeEdges n)) h0 nm0 hn0).bind fun lst h1 nm1 hes hn1 _ => ?_
  refine ((Sim.lift (.nodeTensor n)) h1 nm1 hn1).bind fun t h2 nm2 ht hn2 _ => ?_
  refine ((Sim.reorderAxes n _) h2 nm2 hn2).bind fun u h3 nm3 hr hn3 _ => ?_
  obtain ⟨hel, _⟩ := reorderAxes_inv' hr
  have hlen := mapEach_length hends
  refine SimAt.lift fun m => le_trans (flattenTraceTail_noGrow ?_ m) (hn3 m)
  rw [hel]
  simp [hlen]
  omega

theorem Sim.flattenEdges (swap : Bool) (edges : List EId) :
    Sim (flattenEdges swap edges : M R EId) (flattenEdgesN swap edges) := by
  unfold Graph.flattenEdges flattenEdgesN
  rcases edges with _ | ⟨e0, rest⟩
  · exact .throw _
  simp only
  refine (Sim.lift (NoGrow.forEach (fun e => (NoGrow.node1 e).bind fun _ => (NoGrow.node2 e).bind fun _ => .pure _) _)).bind
    fun _ => .ite (.pure _) ?_
  refine (Sim.lift .get).bind fun h => .ite (.throw _) <| .ite (.flattenTraceEdges _) ?_
  rcases h1 : (h.edge e0).node1 with _ | n1
  · exact .throw _
  rcases h2 : (h.edge e0).node2 with _ | n2
  · exact (Sim.flattenAt (by simp) n1).bind fun e => (Sim.lift (NoGrow.forEach (fun _ => .disable _) _)).bind fun _ => .pure _
  · exact (Sim.flattenAt (by simp) _).bind fun f1 => (Sim.flattenAt (by simp) _).bind fun f2 =>
      (Sim.lift (NoGrow.forEach (fun _ => .disable _) _)).bind fun _ => Sim.lift (.connect _ _)

theorem dimension_heap (e : EId) (h : Heap R) : (dimension e h).2 = h := by
  have h1 : (node1 e h).2 = h := by
    unfold node1; simp only [M.bind_apply, M.get_apply]; split
    · rfl
    · cases (h.edge e).node1 <;> rfl
  have h2 : (axis1 e h).2 = h := by
    unfold axis1; simp only [M.bind_apply, M.get_apply]; split <;> rfl
  unfold dimension
  rw [M.bind_apply]
  rcases hx : node1 e h with ⟨_ | n, h'⟩
  · rw [hx] at h1; exact h1
  rw [hx] at h1
  simp only at h1 ⊢
  subst h1
  rw [M.bind_apply]
  rcases hy : axis1 e h' with ⟨_ | a, h''⟩
  · rw [hy] at h2; exact h2
  rw [hy] at h2
  simp only at h2 ⊢
  subst h2
  simp only [M.bind_apply, M.get_apply]
  cases (h''.shape n)[a]? <;> rfl

/-- `split_edge` of an edge that is no trace edge, or into one edge. -/
theorem SimAt.splitEdge (swap : Bool) (e : EId) (shape : List Nat) {new : Option (List String)}
    (hnew : ∀ l, new = some l → l.length = shape.length) {h : Heap R} {nm : AxTab} (hn : Named (h, nm))
    (htr : shape.length ≠ 1 → (isTrace e h).1 ≠ .ok true) :
    SimAt h nm (splitEdge swap e shape : M R (List EId)) (splitEdgeN swap e shape new) := by
  unfold Graph.splitEdge splitEdgeN
  refine ((Sim.lift (.dimension e)) h nm hn).bind fun d h1 nm1 hd hn1 _ => ?_
  have hh : h1 = h := by
    have := dimension_heap e h
    rw [hd] at this
    exact this
  subst hh
  by_cases c1 : shape.prod ≠ d
  · rw [if_pos c1, if_pos c1]
    exact Sim.throw _ _ _ hn1
  rw [if_neg c1, if_neg c1]
  by_cases c2 : shape.length = 1
  · rw [if_pos c2, if_pos c2]
    exact Sim.pure _ _ _ hn1
  rw [if_neg c2, if_neg c2]
  refine ((Sim.lift (.isTrace e)) h1 nm1 hn1).bind fun tr h2 nm2 ht hn2 _ => ?_
  have hf : tr = false := by
    have := htr c2
    rw [ht] at this
    simpa using this
  subst hf
  rw [if_neg (by simp), if_neg (by simp)]
  refine ((Sim.lift .get).bind fun g => ?_) h2 nm2 hn2
  rcases h1 : (g.edge e).node1 with _ | n1
  · exact .throw _
  rcases h2 : (g.edge e).node2 with _ | n2
  · exact (Sim.splitAt e shape hnew n1).bind fun e => (Sim.lift (.disable _)).bind fun _ => .pure _
  · exact (Sim.splitAt e shape hnew _).bind fun f1 => (Sim.splitAt e shape hnew _).bind fun f2 =>
      (Sim.lift (.disable _)).bind fun _ => Sim.lift (.mapEach (fun _ => .connect _ _) _)

theorem NoGrow.getSharedEdges (so : ObjOrder) (n1 n2 : NId) : NoGrow (getSharedEdges so n1 n2 : M R (List EId)) :=
  NoGrow.get.bind fun _ => .pure _

theorem Sim.contractBetween [CommSemiring R] (fo : FlatOrder) (n1 n2 : NId) (allow : Bool) {order : Option (List EId)}
    (hnd : (order.getD []).Nodup) :
    Sim (contractBetween fo n1 n2 allow order : M R NId) (contractBetweenN fo n1 n2 allow order) := by
  unfold Graph.contractBetween contractBetweenN
  refine (Sim.lift (.getSharedEdges _ _ _)).bind fun shared => ?_
  have hlast : ∀ new : NId, Sim (if order.getD [] ≠ [] then Graph.reorderEdges new (order.getD []) >>= fun _ => Pure.pure new
      else Pure.pure new : M R NId) (if order.getD [] ≠ [] then reorderEdgesN new (order.getD []) >>= fun _ => Pure.pure new
      else Pure.pure new) := fun new =>
    .ite ((Sim.reorderEdges new hnd).bind fun _ => .pure _) (.pure _)
  refine Sim.bind ?_ fun new => hlast new
  refine .ite ((Sim.lift (.getSharedEdges _ _ _)).bind fun shared' => .ite (.throw _) <|
    (Sim.flattenEdges _ _).bind fun flat => .contract flat) <|
    .ite (.ite (.throw _) (.outerProduct n1 n2)) <| (Sim.lift .get).bind fun h => ?_
  refine .ite (.throw _) ?_
  exact (Sim.lift (.nodeTensor _)).bind fun t1 => (Sim.lift (.nodeTensor _)).bind fun t2 => (Sim.lift (.lift _)).bind fun t =>
    (Sim.newNode _).bind fun new => (Sim.removeEdges _ _ _ _).bind fun _ => .pure _

theorem Sim.contractParallel [CommSemiring R] (fo : FlatOrder) (e : EId) :
    Sim (contractParallel fo e : M R NId) (contractParallelN fo e) := by
  unfold Graph.contractParallel contractParallelN
  refine (Sim.lift (.isDangling e)).bind fun d => .ite (.throw _) <| (Sim.lift (.node1 e)).bind fun n1 =>
    (Sim.lift (.node2 e)).bind fun n2 => ?_
  rcases n2 with _ | n2
  · exact .throw _
  exact .contractBetween fo n1 n2 false (by simp)

theorem Sim.outerProductFinalNodes [CommSemiring R] (nodes : List NId) {order : List EId} (hnd : order.Nodup) :
    Sim (outerProductFinalNodes nodes order : M R NId) (outerProductFinalNodesN nodes order) := by
  unfold Graph.outerProductFinalNodes outerProductFinalNodesN
  refine (Sim.lift .get).bind fun h => .ite (.throw _) ?_
  rcases nodes with _ | ⟨n, rest⟩
  · exact .throw _
  refine Sim.bind ?_ fun final => (Sim.reorderEdges final hnd).bind fun _ => .pure _
  have : ∀ (l : List NId) (x : M R NId) (y : NM R NId), Sim x y →
      Sim (l.foldl (fun (acc : M R NId) m => do let a ← acc; Graph.outerProduct a m) x)
        (l.foldl (fun (acc : NM R NId) m => do let a ← acc; outerProductN a m) y) := by
    intro l
    induction l with
    | nil => intro x y hxy; exact hxy
    | cons m l ih =>
      intro x y hxy
      exact ih _ _ (hxy.bind fun a => .outerProduct a m)
  exact this rest _ _ (.pure n)

theorem NoGrow.axesOf (n : NId) (es : List EId) : NoGrow (axesOf n es : M R (List Nat)) :=
  .mapEach (fun e => (NoGrow.node1 e).bind fun a => .ite (.axis1 e) <| (NoGrow.axis2 e).bind fun x => by
    rcases x with _ | x
    · exact .throw _
    · exact .pure _) _

theorem NoGrow.attach (es : List EId) (axes : List Nat) (off : Nat) (n m : NId) : NoGrow (attach es axes off n m : M R Unit) :=
  .forEach (fun _ => (NoGrow.addEdge _ _ _ _).bind fun _ => .updateAxis _ _ _ _ _) _

theorem NoGrow.tensorFromEdgeOrder (n : NId) (es : List EId) : NoGrow (tensorFromEdgeOrder n es : M R (NDArray R)) := by
  refine (NoGrow.mapEach (fun e => (NoGrow.node1 e).bind fun a => .ite (.axis1 e) <| (NoGrow.node2 e).bind fun b =>
    .ite ((NoGrow.axis2 e).bind fun x => ?_) (.throw _)) _).bind fun axes => (NoGrow.nodeTensor n).bind fun t => .lift _
  rcases x with _ | x
  · exact .throw _
  · exact .pure _

theorem Sim.splitNodeWith (decomp : NDArray R → Nat → Py (NDArray R × NDArray R)) (n : NId) (left right : List EId) :
    Sim (splitNodeWith decomp n left right) (splitNodeWithN decomp n left right) := by
  unfold Graph.splitNodeWith splitNodeWithN
  refine (Sim.lift (.tensorFromEdgeOrder _ _)).bind fun t => (Sim.lift (.lift _)).bind fun uv => (Sim.newNode _).bind fun l =>
    (Sim.lift (.axesOf _ _)).bind fun la => (Sim.lift (.attach _ _ _ _ _)).bind fun _ => (Sim.newNode _).bind fun r =>
    (Sim.lift (.axesOf _ _)).bind fun ra => (Sim.lift (.attach _ _ _ _ _)).bind fun _ =>
    (Sim.lift (.nodeEdges _)).bind fun le => (Sim.lift (.nodeEdges _)).bind fun re => ?_
  rcases le.getLast? with _ | a
  · exact .throw _
  rcases re.head? with _ | b
  · exact .throw _
  exact (Sim.lift (.connect _ _)).bind fun _ => (Sim.freshEdges n).bind fun _ => .pure _

theorem NoGrow.sliceAxis (n axis : Nat) (s l : Int) : NoGrow (sliceAxis n axis s l : M R Unit) :=
  (NoGrow.nodeTensor n).bind fun _ => (NoGrow.lift _).bind fun _ => .setTensor _ _

theorem NoGrow.sliceEdge (e : EId) (s l : Int) : NoGrow (sliceEdge e s l : M R EId) := by
  unfold Graph.sliceEdge
  refine .ite (.throw _) <| (NoGrow.dimension e).bind fun d => .ite (.throw _) <| (NoGrow.getNodes e).bind fun ns =>
    (NoGrow.axis1 e).bind fun a1 => (NoGrow.axis2 e).bind fun a2 => ?_
  extract_lets j1 jp
  have hjp : ∀ u, NoGrow (jp u) := by
    intro u
    simp only [jp, j1]
    rcases ns.2 with _ | n2
    · exact .pure _
    · rcases a2 with _ | a2
      · exact (NoGrow.throw _).bind fun _ => .pure _
      · exact (NoGrow.sliceAxis _ _ _ _).bind fun _ => .pure _
  rcases ns.1 with _ | n1
  · exact hjp ()
  · exact (NoGrow.sliceAxis _ _ _ _).bind fun u => hjp u

theorem NoGrow.redirectEdge (e : EId) (new old : NId) : NoGrow (redirectEdge e new old : M R Unit) := by
  unfold Graph.redirectEdge
  refine (NoGrow.isTrace e).bind fun tr => .ite ((NoGrow.isDangling e).bind fun d => (NoGrow.node1 e).bind fun n1 => ?_)
    ((NoGrow.node1 e).bind fun n1 => .ite (.throw _) <| (NoGrow.modifyEdge _ _).bind fun _ =>
      (NoGrow.modifyEdge _ _).bind fun _ => (NoGrow.axis1 e).bind fun a1 => (NoGrow.axis2 e).bind fun a2 => ?_)
  · refine NoGrow.bind ?_ fun axis => (NoGrow.addEdge _ _ _ _).bind fun _ => (NoGrow.newDangling _ _).bind fun _ => .addEdge _ _ _ _
    refine .ite (.ite (.throw _) <| (NoGrow.modifyEdge _ _).bind fun _ => .axis1 e) <|
      .ite ((NoGrow.modifyEdge _ _).bind fun _ => .axis1 e) <| (NoGrow.node2 e).bind fun n2 => .ite ?_ (.throw _)
    refine (NoGrow.modifyEdge _ _).bind fun _ => (NoGrow.axis2 e).bind fun a => ?_
    rcases a with _ | a
    · exact .throw _
    · exact .pure _
  · rcases a2 with _ | a2
    · exact .throw _
    · exact (NoGrow.addEdge _ _ _ _).bind fun _ => (NoGrow.addEdge _ _ _ _).bind fun _ =>
        (NoGrow.newConnected _ _ _ _).bind fun _ => (NoGrow.addEdge _ _ _ _).bind fun _ => .addEdge _ _ _ _

end TN.Graph
