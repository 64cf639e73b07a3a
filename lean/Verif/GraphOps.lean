import Verif.Heap
import Mathlib.Data.List.Sort
import Mathlib.Algebra.BigOperators.Group.List.Basic

/-!
# Graph operations

Models of the functions of `network_components.py` (and some of `network_operations.py`)
that edit the graph.  `so` is the iteration order of a Python set: an arbitrary permutation.
-/

namespace TN.Graph

open TN

variable {R : Type}

/-- An arbitrary iteration order of Python sets of objects (their order depends on memory
addresses). -/
structure ObjOrder where
  ord : List Nat → List Nat
  perm : ∀ l, (ord l).Perm l

/-- `sorted` on axis numbers. -/
def sortNat (l : List Nat) : List Nat := l.mergeSort (fun a b => decide (a ≤ b))

/-- `sorted(set(range(r)) - set(l))`: the axes not in `l`, ascending. -/
def otherAxes (r : Nat) (l : List Nat) : List Nat := (List.range r).filter (fun p => p ∉ l)

/-- `connect(edge1, edge2)` (network_components.py:1939-1968). -/
def connect (e1 e2 : EId) : M R EId := do
  M.forEach [e1, e2] fun e => do
    let d ← isDangling e
    if ¬ d then M.throw .valueError else pure ()
  if e1 = e2 then M.throw .valueError
  else do
    let d1 ← dimension e1
    let d2 ← dimension e2
    if d1 ≠ d2 then M.throw .valueError
    else do
      let n1 ← node1 e1
      let n2 ← node1 e2
      let a1 ← axis1 e1
      let a2 ← axis1 e2
      let new ← newConnected n1 a1 n2 a2
      addEdge n1 new a1 true
      addEdge n2 new a2 true
      pure new

/-- `edge.disconnect()` (network_components.py:1233-1262).  The old edge is not disabled. -/
def disconnect (e : EId) : M R (EId × EId) := do
  let d ← isDangling e
  if d then M.throw .valueError
  else do
    let n1 ← node1 e
    let n2 ← node2 e
    let a1 ← axis1 e
    let a2 ← axis2 e
    match n2, a2 with
    | some n2, some a2 => do
      let new1 ← newDangling n1 a1
      let new2 ← newDangling n2 a2
      addEdge n1 new1 a1 true
      addEdge n2 new2 a2 true
      pure (new1, new2)
    | _, _ => M.throw .valueError

/-- `node.reorder_axes(perm)` (network_components.py:255-288). -/
def reorderAxes (n : NId) (perm : List Nat) : M R Unit := do
  let es ← nodeEdges n
  if ¬ (perm.toFinset = Finset.range es.length) then M.throw .valueError
  else do
    let t ← nodeTensor n
    let t' ← M.lift (t.transpose perm)
    setTensor n t'
    let tmp ← M.mapEach perm.zipIdx fun (position, i) => do
      match es[position]? with
      | none => M.throw .indexError
      | some e => do
        updateAxis e position n i n
        pure e
    setEdges n tmp

/-- `node.reorder_edges(edge_order)` (network_components.py:202-253). -/
def reorderEdges (n : NId) (order : List EId) : M R Unit := do
  let es ← nodeEdges n
  if ∃ e ∈ order, e ∉ es then M.throw .valueError
  else if ∃ e ∈ es, e ∉ order then M.throw .valueError
  else do
    M.forEach order fun e => do
      let a ← node1 e
      let b ← node2 e
      if some a = b then M.throw .valueError else pure ()
    let permutation ← M.mapEach order.zipIdx fun (e, i) => do
      let old := es.idxOf e
      updateAxis e old n i n
      pure old
    setEdges n order
    let t ← nodeTensor n
    let t' ← M.lift (t.transpose permutation)
    setTensor n t'

/-- `node.tensor_from_edge_order(perm)` (network_components.py:290-300). -/
def tensorFromEdgeOrder (n : NId) (order : List EId) : M R (NDArray R) := do
  let axes ← M.mapEach order fun e => do
    let a ← node1 e
    if a = n then axis1 e
    else do
      let b ← node2 e
      if b = some n then do
        let x ← axis2 e
        match x with
        | some x => pure x
        | none => M.throw .typeError
      else M.throw .valueError
  let t ← nodeTensor n
  M.lift (t.transpose axes)

/-- `_remove_edges(edges, node1, node2, new_node)` (network_components.py:1734-1799). -/
def removeEdges (edges : List EId) (n1 n2 new : NId) : M R Unit :=
  if n1 = n2 then M.throw .valueError
  else do
    let es1 ← nodeEdges n1
    let es2 ← nodeEdges n2
    M.forEach edges fun e => do
      let d ← isDangling e
      if d then M.throw .valueError
      else do
        let a ← node1 e
        let b ← node2 e
        if ¬ ((a = n1 ∧ b = some n2) ∨ (a = n2 ∧ b = some n1)) then M.throw .valueError
        else pure ()
    let rem1 := es1.filter (fun e => e ∉ edges)
    let idx1 := (es1.zipIdx.filter (fun p => p.1 ∉ edges)).zipIdx
    M.forEach idx1 fun p => updateAxis p.1.1 p.1.2 n1 p.2 new
    let rem2 := es2.filter (fun e => e ∉ edges)
    let idx2 := (es2.zipIdx.filter (fun p => p.1 ∉ edges)).zipIdx rem1.length
    M.forEach idx2 fun p => updateAxis p.1.1 p.1.2 n2 p.2 new
    M.forEach (rem1 ++ rem2).zipIdx fun p => addEdge new p.1 p.2 false
    freshEdges n1
    freshEdges n2
    M.forEach edges disable

/-- `_remove_trace_edge(edge, new_node)` (network_components.py:1685-1731).
`node_edges.pop(axes[0]); node_edges.pop(axes[1] - 1)` is written with `eraseIdx`. -/
def removeTraceEdge (e : EId) (new : NId) : M R Unit := do
  let d ← isDangling e
  if d then M.throw .valueError
  else do
    let n ← node1 e
    let n' ← node2 e
    if some n ≠ n' then M.throw .valueError
    else do
      let a1 ← axis1 e
      let a2 ← axis2 e
      match a2 with
      | none => M.throw .typeError
      | some a2 => do
        let lo := min a1 a2
        let hi := max a1 a2
        let es ← nodeEdges n
        if lo ≥ es.length ∨ hi - 1 ≥ (es.eraseIdx lo).length then M.throw .indexError
        else do
          let rest := (es.eraseIdx lo).eraseIdx (hi - 1)
          let reduce (a : Nat) : Nat := a - ((if a > lo then 1 else 0) + (if a > hi then 1 else 0))
          -- every edge once; `dedup` keeps one occurrence of each
          M.forEach rest.dedup fun f => do
            let m1 ← node1 f
            if m1 = n then
              M.modify fun h => h.setEdge f
                { h.edge f with axis1 := reduce (h.edge f).axis1, node1 := some new }
            else pure ()
            let m2 ← node2 f
            if m2 = some n then
              M.modify fun h => h.setEdge f
                { h.edge f with axis2 := ((h.edge f).axis2.map reduce), node2 := some new }
            else pure ()
          M.forEach rest.zipIdx fun p => addEdge new p.1 p.2 false
          freshEdges n
          disable e

/-- `_contract_trace(edge)` (network_components.py:1802-1831). -/
def contractTrace [AddCommMonoid R] (e : EId) : M R NId := do
  let d ← isDangling e
  if d then M.throw .valueError
  else do
    let n ← node1 e
    let n' ← node2 e
    if some n ≠ n' then M.throw .valueError
    else do
      let a1 ← axis1 e
      let a2 ← axis2 e
      match a2 with
      | none => M.throw .typeError
      | some a2 => do
        let t ← nodeTensor n
        let perm := otherAxes t.ndim [a1, a2] ++ [min a1 a2, max a1 a2]
        let t' ← M.lift (t.transpose perm)
        let t'' ← M.lift t'.trace
        let new ← newNode t''
        removeTraceEdge e new
        pure new

/-- `contract(edge)` (network_components.py:1834-1885). -/
def contract [CommSemiring R] (e : EId) : M R NId := do
  let d ← isDangling e
  if d then M.throw .valueError
  else do
    let n1 ← node1 e
    let n2 ← node2 e
    match n2 with
    | none => M.throw .attributeError
    | some n2 =>
      if n1 = n2 then contractTrace e
      else do
        let a1 ← axis1 e
        let a2 ← axis2 e
        match a2 with
        | none => M.throw .typeError
        | some a2 => do
          let t1 ← nodeTensor n1
          let t2 ← nodeTensor n2
          let t ← M.lift (t1.tensordot t2 [a1] [a2])
          let new ← newNode t
          removeEdges [e] n1 n2 new
          pure new

/-- `set(edge.get_nodes()) == {node1, node2}`, the test of `get_shared_edges`
(network_components.py:1282-1300). -/
def sharesBoth (r : EdgeRec) (n1 n2 : NId) : Bool :=
  (r.node1 = some n1 ∧ r.node2 = some n2) ∨ (r.node1 = some n2 ∧ r.node2 = some n1)

/-- `get_shared_edges(node1, node2)` (network_components.py:1282-1300), as a list in the
iteration order `so` of the set. -/
def getSharedEdges (so : ObjOrder) (n1 n2 : NId) : M R (List EId) := do
  let h ← M.get
  pure (so.ord (((h.node n1).edges.filter (fun e => sharesBoth (h.edge e) n1 n2)).dedup))

/-- `outer_product(node1, node2)` (network_components.py:2127-2186).  `backend.multiply`
with a rank-0 tensor equals the outer product, so one model covers both branches. -/
def outerProduct [CommSemiring R] (n1 n2 : NId) : M R NId := do
  let t1 ← nodeTensor n1
  let t2 ← nodeTensor n2
  let new ← newNode (t1.outerProduct t2)
  let additional := t1.ndim
  let es1 ← nodeEdges n1
  M.forEach es1.zipIdx fun p => updateAxis p.1 p.2 n1 p.2 new
  let es2 ← nodeEdges n2
  M.forEach es2.zipIdx fun p => updateAxis p.1 p.2 n2 (p.2 + additional) new
  M.forEach (es1 ++ es2).zipIdx fun p => addEdge new p.1 p.2 true
  freshEdges n1
  freshEdges n2
  pure new

/-- `_flatten_trace_edges(edges)` (network_components.py:1332-1364). -/
def flattenTraceEdges (edges : List EId) : M R EId :=
  match edges with
  | [] => M.throw .indexError
  | e0 :: _ => do
    let n ← node1 e0
    let ends ← M.mapEach edges fun e => do
      let a1 ← axis1 e
      let a2 ← axis2 e
      match a2 with
      | none => M.throw .typeError
      | some a2 => pure (a1, a2)
    let es ← nodeEdges n
    let permBack := ends.map (fun p => min p.1 p.2) ++ ends.map (fun p => max p.1 p.2)
    let permFront := otherAxes es.length permBack
    let t ← nodeTensor n
    let newDim := (ends.map (fun p => t.shape.getD p.1 0)).prod
    reorderAxes n (permFront ++ permBack)
    let t' ← nodeTensor n
    let t'' ← M.lift (t'.reshape (t'.shape.take permFront.length ++ [newDim, newDim]))
    setTensor n t''
    let edge1 ← newDangling n permFront.length
    let edge2 ← newDangling n (permFront.length + 1)
    let es' ← nodeEdges n
    setEdges n (es'.take permFront.length ++ [edge1, edge2])
    let new ← connect edge1 edge2
    M.forEach edges disable
    pure new

/-- One round of the loop over nodes in `flatten_edges`
(network_components.py:1412-1440). -/
def flattenAt (edges : List EId) (n : NId) : M R EId := do
  let es ← nodeEdges n
  if ∃ e ∈ edges, e ∉ es then M.throw .valueError
  else do
    let permBack := edges.map (fun e => es.idxOf e)
    let permFront := otherAxes es.length permBack
    reorderAxes n (permFront ++ permBack)
    let t ← nodeTensor n
    let t' ← M.lift (t.reshape (t.shape.take permFront.length ++
      [(t.shape.drop permFront.length).prod]))
    setTensor n t'
    let e ← newDangling n permFront.length
    let es' ← nodeEdges n
    setEdges n (es'.take permFront.length ++ [e])
    pure e

/-- `flatten_edges(edges)` (network_components.py:1367-1456).  The set of the two nodes is
visited in an arbitrary order, given by `swap`. -/
def flattenEdges (swap : Bool) (edges : List EId) : M R EId :=
  match edges with
  | [] => M.throw .valueError
  | e0 :: rest => do
    -- the backend check reads node1 and node2 of every edge
    M.forEach edges fun e => do
      let _ ← node1 e
      let _ ← node2 e
      pure ()
    if rest = [] then pure e0
    else do
      let h ← M.get
      let r0 := h.edge e0
      -- equal node sets
      if ∃ e ∈ edges, ¬ (((h.edge e).node1 = r0.node1 ∧ (h.edge e).node2 = r0.node2) ∨
          ((h.edge e).node1 = r0.node2 ∧ (h.edge e).node2 = r0.node1)) then M.throw .valueError
      else if r0.node1 = r0.node2 then flattenTraceEdges edges
      else match r0.node1, r0.node2 with
        | some n1, none => do
          let e ← flattenAt edges n1
          M.forEach edges disable
          pure e
        | some n1, some n2 => do
          let p := if swap then (n2, n1) else (n1, n2)
          let f1 ← flattenAt edges p.1
          let f2 ← flattenAt edges p.2
          M.forEach edges disable
          connect f1 f2
        | _, _ => M.throw .valueError

/-- The order in which `flatten_edges` visits the two nodes, and the order of a set of
shared edges. -/
structure FlatOrder where
  swap : Bool
  so : ObjOrder

/-- `contract_between(node1, node2, allow_outer_product, output_edge_order)`
(network_components.py:1984-2095).  `np.mean(a) > np.mean(b)` is compared exactly. -/
def contractBetween [CommSemiring R] (fo : FlatOrder) (n1 n2 : NId) (allowOuter : Bool)
    (order : Option (List EId)) : M R NId := do
  let order := order.getD []
  let shared ← getSharedEdges fo.so n1 n2
  let new ← (if n1 = n2 then do
      -- flatten_edges_between (network_components.py:1459-1477)
      let shared' ← getSharedEdges fo.so n1 n2
      if shared' = [] then M.throw .valueError
      else do
        let flat ← flattenEdges fo.swap shared'
        contract flat
    else if shared = [] then
      if ¬ allowOuter then M.throw .valueError else outerProduct n1 n2
    else do
      let h ← M.get
      let axes1 := shared.map (fun e => if (h.edge e).node1 = some n1 then (h.edge e).axis1
        else (h.edge e).axis2.getD 0)
      let axes2 := shared.map (fun e => if (h.edge e).node1 = some n1 then
        (h.edge e).axis2.getD 0 else (h.edge e).axis1)
      let has (n : NId) (e : EId) : Bool := (h.edge e).node1 = some n ∨ (h.edge e).node2 = some n
      if ∃ e ∈ order, e ∈ shared ∨ (has n1 e = false ∧ has n2 e = false) then M.throw .valueError
      else do
        let out1 := (order.zipIdx.filter (fun p => has n1 p.1)).map Prod.snd
        let out2 := (order.zipIdx.filter (fun p => ¬ has n1 p.1)).map Prod.snd
        let flip : Bool := out1 ≠ [] ∧ out2 ≠ [] ∧
          out1.sum * out2.length > out2.sum * out1.length
        let (m1, m2) := if flip then (n2, n1) else (n1, n2)
        let (ax1, ax2) := if flip then (axes2, axes1) else (axes1, axes2)
        let indSort := (sortNat ax1).map (fun l => ax1.idxOf l)
        let ax1' := indSort.map (fun i => ax1.getD i 0)
        let ax2' := indSort.map (fun i => ax2.getD i 0)
        let t1 ← nodeTensor m1
        let t2 ← nodeTensor m2
        let t ← M.lift (t1.tensordot t2 ax1' ax2')
        let new ← newNode t
        removeEdges shared m1 m2 new
        pure new)
  if order ≠ [] then reorderEdges new order
  pure new

/-- `contract_parallel(edge)` (network_components.py:1923-1936). -/
def contractParallel [CommSemiring R] (fo : FlatOrder) (e : EId) : M R NId := do
  let d ← isDangling e
  if d then M.throw .valueError
  else do
    let n1 ← node1 e
    let n2 ← node2 e
    match n2 with
    | none => M.throw .attributeError
    | some n2 => contractBetween fo n1 n2 false none

/-- `outer_product_final_nodes(nodes, edge_order)` (network_components.py:2098-2124). -/
def outerProductFinalNodes [CommSemiring R] (nodes : List NId) (order : List EId) : M R NId := do
  let h ← M.get
  if ∃ n ∈ nodes, ∃ e ∈ (h.node n).edges, (h.edge e).dangling = false then M.throw .valueError
  else match nodes with
    | [] => M.throw .indexError
    | n :: rest => do
      let final ← rest.foldl (fun (acc : M R NId) m => do let a ← acc; outerProduct a m) (pure n)
      reorderEdges final order
      pure final

/-- `_split_trace_edge(edge, shape)` (network_components.py:1495-1536). -/
def splitTraceEdge (e : EId) (shape : List Nat) : M R (List EId) := do
  let n ← node1 e
  let a1 ← axis1 e
  let a2 ← axis2 e
  match a2 with
  | none => M.throw .typeError
  | some a2 => do
    let es ← nodeEdges n
    let permBack := [min a1 a2, max a1 a2]
    let permFront := otherAxes es.length permBack
    reorderAxes n (permFront ++ permBack)
    let t ← nodeTensor n
    let t' ← M.lift (t.reshape (t.shape.take permFront.length ++ shape ++ shape))
    setTensor n t'
    let es' ← nodeEdges n
    let k := permFront.length
    -- placeholders `None`; every one is overwritten before it is read
    setEdges n (es'.take k ++ List.replicate (2 * shape.length) 0)
    let news ← M.mapEach (List.range shape.length) fun idx => do
      let e1 ← newDangling n (k + idx)
      let e2 ← newDangling n (k + shape.length + idx)
      let es'' ← nodeEdges n
      setEdges n ((es''.set (k + idx) e1).set (k + shape.length + idx) e2)
      connect e1 e2
    disable e
    pure news

/-- One round of the loop over nodes in `split_edge` (network_components.py:1585-1616). -/
def splitAt (e : EId) (shape : List Nat) (n : NId) : M R (List EId) := do
  let es ← nodeEdges n
  if e ∉ es then M.throw .valueError
  else do
    let permBack := [es.idxOf e]
    let permFront := otherAxes es.length permBack
    reorderAxes n (permFront ++ permBack)
    let t ← nodeTensor n
    let t' ← M.lift (t.reshape (t.shape.take permFront.length ++ shape))
    setTensor n t'
    let es' ← nodeEdges n
    setEdges n (es'.take permFront.length)
    M.mapEach (List.range shape.length) fun idx => do
      let f ← newDangling n (permFront.length + idx)
      let es'' ← nodeEdges n
      setEdges n (es'' ++ [f])
      pure f

/-- `split_edge(edge, shape)` (network_components.py:1539-1633). -/
def splitEdge (swap : Bool) (e : EId) (shape : List Nat) : M R (List EId) := do
  let d ← dimension e
  if shape.prod ≠ d then M.throw .valueError
  else if shape.length = 1 then pure [e]
  else do
    let tr ← isTrace e
    if tr then splitTraceEdge e shape
    else do
      let h ← M.get
      match (h.edge e).node1, (h.edge e).node2 with
      | some n1, none => do
        let news ← splitAt e shape n1
        disable e
        pure news
      | some n1, some n2 => do
        let p := if swap then (n2, n1) else (n1, n2)
        let f1 ← splitAt e shape p.1
        let f2 ← splitAt e shape p.2
        disable e
        M.mapEach (f1.zip f2) fun q => connect q.1 q.2
      | _, _ => M.throw .valueError

/-- `remove_node(node)` (network_operations.py:106-127): the new dangling edges of the
neighbours by axis of `node`. -/
def removeNode (n : NId) : M R (List (Nat × EId)) := do
  let es ← nodeEdges n
  let l ← M.mapEach (List.range es.length) fun i => do
    let cur ← nodeEdges n
    match cur[i]? with
    | none => M.throw .indexError
    | some e => do
      let d ← isDangling e
      if d then pure none
      else do
        let t ← isTrace e
        if t then pure none
        else do
          let (f1, f2) ← disconnect e
          let m ← node1 f1
          pure (some (i, if m ≠ n then f1 else f2))
  pure (l.filterMap id)

end TN.Graph
