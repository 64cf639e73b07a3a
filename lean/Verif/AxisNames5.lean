import Verif.AxisNames4

/-!
# Graph operations with names

The remaining operations with the table of names: those that create nodes give them the default names, those that empty
nodes call `fresh_edges`.
-/

namespace TN.Graph

open TN

set_option linter.unusedSectionVars false

variable {R α β : Type}

/-- `_remove_edges(edges, node1, node2, new_node)` (network_components.py:1734-1799) -/
def removeEdgesN (edges : List EId) (n1 n2 new : NId) : NM R Unit :=
  if n1 = n2 then NM.throw .valueError
  else do
    let es1 ← NM.lift (nodeEdges n1)
    let es2 ← NM.lift (nodeEdges n2)
    NM.lift (M.forEach edges fun e => do
      let d ← isDangling e
      if d then M.throw .valueError
      else do
        let a ← node1 e
        let b ← node2 e
        if ¬ ((a = n1 ∧ b = some n2) ∨ (a = n2 ∧ b = some n1)) then M.throw .valueError
        else pure ())
    let rem1 := es1.filter (fun e => e ∉ edges)
    let idx1 := (es1.zipIdx.filter (fun p => p.1 ∉ edges)).zipIdx
    NM.lift (M.forEach idx1 fun p => updateAxis p.1.1 p.1.2 n1 p.2 new)
    let rem2 := es2.filter (fun e => e ∉ edges)
    let idx2 := (es2.zipIdx.filter (fun p => p.1 ∉ edges)).zipIdx rem1.length
    NM.lift (M.forEach idx2 fun p => updateAxis p.1.1 p.1.2 n2 p.2 new)
    NM.lift (M.forEach (rem1 ++ rem2).zipIdx fun p => addEdge new p.1 p.2 false)
    freshEdgesN n1
    freshEdgesN n2
    NM.lift (M.forEach edges disable)

/-- `contract(edge)` (network_components.py:1834-1885), without `axis_names` -/
def contractN [CommSemiring R] (e : EId) : NM R NId := do
  let d ← NM.lift (isDangling e)
  if d then NM.throw .valueError
  else do
    let n1 ← NM.lift (node1 e)
    let n2 ← NM.lift (node2 e)
    match n2 with
    | none => NM.throw .attributeError
    | some n2 =>
      if n1 = n2 then contractTraceN e
      else do
        let a1 ← NM.lift (axis1 e)
        let a2 ← NM.lift (axis2 e)
        match a2 with
        | none => NM.throw .typeError
        | some a2 => do
          let t1 ← NM.lift (nodeTensor n1)
          let t2 ← NM.lift (nodeTensor n2)
          let t ← NM.lift (M.lift (t1.tensordot t2 [a1] [a2]))
          let new ← newNodeN t
          removeEdgesN [e] n1 n2 new
          pure new

/-- `outer_product(node1, node2)` (network_components.py:2127-2186), without `axis_names` -/
def outerProductN [CommSemiring R] (n1 n2 : NId) : NM R NId := do
  let t1 ← NM.lift (nodeTensor n1)
  let t2 ← NM.lift (nodeTensor n2)
  let new ← newNodeN (t1.outerProduct t2)
  let additional := t1.ndim
  let es1 ← NM.lift (nodeEdges n1)
  NM.lift (M.forEach es1.zipIdx fun p => updateAxis p.1 p.2 n1 p.2 new)
  let es2 ← NM.lift (nodeEdges n2)
  NM.lift (M.forEach es2.zipIdx fun p => updateAxis p.1 p.2 n2 (p.2 + additional) new)
  NM.lift (M.forEach (es1 ++ es2).zipIdx fun p => addEdge new p.1 p.2 true)
  freshEdgesN n1
  freshEdgesN n2
  pure new

/-- `contract_between(node1, node2, allow_outer_product, output_edge_order)` (network_components.py:1984-2095), without
`axis_names` -/
def contractBetweenN [CommSemiring R] (fo : FlatOrder) (n1 n2 : NId) (allowOuter : Bool)
    (order : Option (List EId)) : NM R NId := do
  let order := order.getD []
  let shared ← NM.lift (getSharedEdges fo.so n1 n2)
  let new ← (if n1 = n2 then do
      let shared' ← NM.lift (getSharedEdges fo.so n1 n2)
      if shared' = [] then NM.throw .valueError
      else do
        let flat ← flattenEdgesN fo.swap shared'
        contractN flat
    else if shared = [] then
      if ¬ allowOuter then NM.throw .valueError else outerProductN n1 n2
    else do
      let h ← NM.lift M.get
      let axes1 := shared.map (fun e => if (h.edge e).node1 = some n1 then (h.edge e).axis1
        else (h.edge e).axis2.getD 0)
      let axes2 := shared.map (fun e => if (h.edge e).node1 = some n1 then
        (h.edge e).axis2.getD 0 else (h.edge e).axis1)
      let has (n : NId) (e : EId) : Bool := (h.edge e).node1 = some n ∨ (h.edge e).node2 = some n
      if ∃ e ∈ order, e ∈ shared ∨ (has n1 e = false ∧ has n2 e = false) then NM.throw .valueError
      else do
        let out1 := (order.zipIdx.filter (fun p => has n1 p.1)).map Prod.snd
        let out2 := (order.zipIdx.filter (fun p => ¬ has n1 p.1)).map Prod.snd
        let flip : Bool := out1 ≠ [] ∧ out2 ≠ [] ∧
          out1.sum * out2.length > out2.sum * out1.length
        let (m1, m2) := if flip then (n2, n1) else (n1, n2)
        let (ax1, ax2) := if flip then (axes2, axes1) else (axes1, axes2)
        let indSort := (sortNat ax1).map (fun l => ax1.idxOf l)
        let ax1' := indSort.map (fun i => ax1.getD i 0)
        let ax2' := indSort.map (fun i => ax2.getD i 0)
        let t1 ← NM.lift (nodeTensor m1)
        let t2 ← NM.lift (nodeTensor m2)
        let t ← NM.lift (M.lift (t1.tensordot t2 ax1' ax2'))
        let new ← newNodeN t
        removeEdgesN shared m1 m2 new
        pure new)
  if order ≠ [] then reorderEdgesN new order
  pure new

/-- `contract_parallel(edge)` (network_components.py:1923-1936) -/
def contractParallelN [CommSemiring R] (fo : FlatOrder) (e : EId) : NM R NId := do
  let d ← NM.lift (isDangling e)
  if d then NM.throw .valueError
  else do
    let n1 ← NM.lift (node1 e)
    let n2 ← NM.lift (node2 e)
    match n2 with
    | none => NM.throw .attributeError
    | some n2 => contractBetweenN fo n1 n2 false none

/-- `outer_product_final_nodes(nodes, edge_order)` (network_components.py:2098-2124) -/
def outerProductFinalNodesN [CommSemiring R] (nodes : List NId) (order : List EId) : NM R NId := do
  let h ← NM.lift M.get
  if ∃ n ∈ nodes, ∃ e ∈ (h.node n).edges, (h.edge e).dangling = false then NM.throw .valueError
  else match nodes with
    | [] => NM.throw .indexError
    | n :: rest => do
      let final ← rest.foldl (fun (acc : NM R NId) m => do let a ← acc; outerProductN a m) (pure n)
      reorderEdgesN final order
      pure final

/-- `split_node`, `split_node_qr`, `split_node_rq` (network_operations.py:130-443) without `edge_name`; then the new
nodes get the default names. -/
def splitNodeWithN (decomp : NDArray R → Nat → Py (NDArray R × NDArray R)) (n : NId)
    (left right : List EId) : NM R (NId × NId) := do
  let t ← NM.lift (tensorFromEdgeOrder n (left ++ right))
  let uv ← NM.lift (M.lift (decomp t left.length))
  let l ← newNodeN uv.1
  let la ← NM.lift (axesOf n left)
  NM.lift (attach left la 0 n l)
  let r ← newNodeN uv.2
  let ra ← NM.lift (axesOf n right)
  NM.lift (attach right ra 1 n r)
  let le ← NM.lift (nodeEdges l)
  let re ← NM.lift (nodeEdges r)
  match le.getLast?, re.head? with
  | some a, some b => do
    let _ ← NM.lift (connect a b)
    freshEdgesN n
    pure (l, r)
  | _, _ => NM.throw .indexError

/-! ### They do the same -/

theorem NoGrow.node1 (e : EId) : NoGrow (node1 e : M R NId) := (node1_keeps e).noGrow
theorem NoGrow.node2 (e : EId) : NoGrow (node2 e : M R (Option NId)) := (node2_keeps e).noGrow
theorem NoGrow.axis1 (e : EId) : NoGrow (axis1 e : M R Nat) := (axis1_keeps e).noGrow
theorem NoGrow.axis2 (e : EId) : NoGrow (axis2 e : M R (Option Nat)) := (axis2_keeps e).noGrow
theorem NoGrow.updateAxis (e : EId) (a : Nat) (n : NId) (b : Nat) (m : NId) :
    NoGrow (updateAxis e a n b m : M R Unit) := (updateAxis_node e a n b m).noGrow
theorem NoGrow.modifyEdge (e : EId) (f : Heap R → EdgeRec) : NoGrow (M.modify fun h => h.setEdge e (f h) : M R Unit) :=
  fun _ _ => le_refl _

theorem NoGrow.connect (a b : EId) : NoGrow (connect a b : M R EId) := by
  unfold Graph.connect
  refine (NoGrow.forEach (fun e => (NoGrow.isDangling e).bind fun d => .ite (.throw _) (.pure _)) _).bind fun _ =>
    .ite (.throw _) ?_
  exact (NoGrow.dimension a).bind fun d1 => (NoGrow.dimension b).bind fun d2 => .ite (.throw _) <|
    (NoGrow.node1 a).bind fun n1 => (NoGrow.node1 b).bind fun n2 => (NoGrow.axis1 a).bind fun a1 =>
    (NoGrow.axis1 b).bind fun a2 => (NoGrow.newConnected n1 a1 n2 a2).bind fun new =>
    (NoGrow.addEdge _ _ _ _).bind fun _ => (NoGrow.addEdge _ _ _ _).bind fun _ => .pure _

theorem NoGrow.disconnect (e : EId) : NoGrow (disconnect e : M R (EId × EId)) := by
  unfold Graph.disconnect
  refine (NoGrow.isDangling e).bind fun d => .ite (.throw _) <| (NoGrow.node1 e).bind fun n1 => (NoGrow.node2 e).bind fun n2 =>
    (NoGrow.axis1 e).bind fun a1 => (NoGrow.axis2 e).bind fun a2 => ?_
  rcases n2 with _ | n2
  · exact .throw _
  · rcases a2 with _ | a2
    · exact .throw _
    · exact (NoGrow.newDangling _ _).bind fun _ => (NoGrow.newDangling _ _).bind fun _ =>
        (NoGrow.addEdge _ _ _ _).bind fun _ => (NoGrow.addEdge _ _ _ _).bind fun _ => .pure _

theorem Sim.removeEdges (edges : List EId) (n1 n2 new : NId) :
    Sim (removeEdges edges n1 n2 new : M R Unit) (removeEdgesN edges n1 n2 new) := by
  unfold Graph.removeEdges removeEdgesN
  refine .ite (.throw _) ?_
  refine (Sim.lift (.nodeEdges n1)).bind fun es1 => (Sim.lift (.nodeEdges n2)).bind fun es2 => ?_
  refine (Sim.lift (NoGrow.forEach (fun e => (NoGrow.isDangling e).bind fun d => .ite (.throw _) <|
    (NoGrow.node1 e).bind fun a => (NoGrow.node2 e).bind fun b => .ite (.throw _) (.pure _)) _)).bind fun _ => ?_
  exact (Sim.lift (NoGrow.forEach (fun _ => .updateAxis _ _ _ _ _) _)).bind fun _ =>
    (Sim.lift (NoGrow.forEach (fun _ => .updateAxis _ _ _ _ _) _)).bind fun _ =>
    (Sim.lift (NoGrow.forEach (fun _ => .addEdge _ _ _ _) _)).bind fun _ =>
    (Sim.freshEdges n1).bind fun _ => (Sim.freshEdges n2).bind fun _ => Sim.lift (NoGrow.forEach (fun _ => .disable _) _)

theorem Sim.removeTraceEdge (e : EId) (new : NId) : Sim (removeTraceEdge e new : M R Unit) (removeTraceEdgeN e new) := by
  unfold Graph.removeTraceEdge removeTraceEdgeN
  refine (Sim.lift (.isDangling e)).bind fun d => .ite (.throw _) <| (Sim.lift (.node1 e)).bind fun n =>
    (Sim.lift (.node2 e)).bind fun n' => .ite (.throw _) <| (Sim.lift (.axis1 e)).bind fun a1 =>
    (Sim.lift (.axis2 e)).bind fun a2 => ?_
  rcases a2 with _ | a2
  · exact .throw _
  refine (Sim.lift (.nodeEdges n)).bind fun es => .ite (.throw _) ?_
  refine (Sim.lift (NoGrow.forEach (fun f => (NoGrow.node1 f).bind fun m1 => ?_) _)).bind fun _ => ?_
  · extract_lets jp
    have hjp : ∀ u, NoGrow (jp u) := fun _ => (NoGrow.node2 f).bind fun m2 => .ite (.modifyEdge _ _) (.pure _)
    exact .ite ((NoGrow.modifyEdge _ _).bind fun u => hjp u) (hjp ())
  · exact (Sim.lift (NoGrow.forEach (fun _ => .addEdge _ _ _ _) _)).bind fun _ => (Sim.freshEdges n).bind fun _ =>
      Sim.lift (.disable e)

theorem Sim.contractTrace [AddCommMonoid R] (e : EId) : Sim (contractTrace e : M R NId) (contractTraceN e) := by
  unfold Graph.contractTrace contractTraceN
  refine (Sim.lift (.isDangling e)).bind fun d => .ite (.throw _) <| (Sim.lift (.node1 e)).bind fun n =>
    (Sim.lift (.node2 e)).bind fun n' => .ite (.throw _) <| (Sim.lift (.axis1 e)).bind fun a1 =>
    (Sim.lift (.axis2 e)).bind fun a2 => ?_
  rcases a2 with _ | a2
  · exact .throw _
  exact (Sim.lift (.nodeTensor n)).bind fun t => (Sim.lift (.lift _)).bind fun t' => (Sim.lift (.lift _)).bind fun t'' =>
    (Sim.newNode _).bind fun new => (Sim.removeTraceEdge e new).bind fun _ => .pure _

theorem Sim.contract [CommSemiring R] (e : EId) : Sim (contract e : M R NId) (contractN e) := by
  unfold Graph.contract contractN
  refine (Sim.lift (.isDangling e)).bind fun d => .ite (.throw _) <| (Sim.lift (.node1 e)).bind fun n1 =>
    (Sim.lift (.node2 e)).bind fun n2 => ?_
  rcases n2 with _ | n2
  · exact .throw _
  refine .ite (.contractTrace e) <| (Sim.lift (.axis1 e)).bind fun a1 => (Sim.lift (.axis2 e)).bind fun a2 => ?_
  rcases a2 with _ | a2
  · exact .throw _
  exact (Sim.lift (.nodeTensor n1)).bind fun t => (Sim.lift (.nodeTensor n2)).bind fun t' => (Sim.lift (.lift _)).bind fun t'' =>
    (Sim.newNode _).bind fun new => (Sim.removeEdges _ _ _ new).bind fun _ => .pure _

theorem Sim.outerProduct [CommSemiring R] (n1 n2 : NId) : Sim (outerProduct n1 n2 : M R NId) (outerProductN n1 n2) := by
  unfold Graph.outerProduct outerProductN
  exact (Sim.lift (.nodeTensor n1)).bind fun t1 => (Sim.lift (.nodeTensor n2)).bind fun t2 => (Sim.newNode _).bind fun new =>
    (Sim.lift (.nodeEdges n1)).bind fun es1 => (Sim.lift (NoGrow.forEach (fun _ => .updateAxis _ _ _ _ _) _)).bind fun _ =>
    (Sim.lift (.nodeEdges n2)).bind fun es2 => (Sim.lift (NoGrow.forEach (fun _ => .updateAxis _ _ _ _ _) _)).bind fun _ =>
    (Sim.lift (NoGrow.forEach (fun _ => .addEdge _ _ _ _) _)).bind fun _ =>
    (Sim.freshEdges n1).bind fun _ => (Sim.freshEdges n2).bind fun _ => .pure _

end TN.Graph
