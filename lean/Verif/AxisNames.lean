import Verif.GraphCopy
import Verif.GraphFlatten2
import Verif.GraphSplit2
import Verif.GraphRemove

/-!
# Axis names

`Node.axis_names` next to the graph: `get_axis_number`, `get_edge`, `add_axis_names` and the parts of `reorder_axes`,
`reorder_edges`, `fresh_edges`, `flatten_edges`, `split_edge`, `contract` of a trace edge, `remove_node` and `copy` that
read or write the names (network_components.py, network_operations.py).  `Heap` leaves the names out; here the methods
are repeated with a table of the names as a second part of the state.
-/

namespace TN.Graph

open TN

set_option linter.unusedSectionVars false

variable {R α β : Type}

/-- `axis_names` of every node. -/
abbrev AxTab := NId → List String

/-- A method that works on the graph and on the names. -/
def NM (R : Type) (α : Type) : Type := Heap R × AxTab → Py α × (Heap R × AxTab)

namespace NM

def pure (a : α) : NM R α := fun s => (.ok a, s)

def bind (x : NM R α) (f : α → NM R β) : NM R β := fun s =>
  match x s with
  | (.ok a, s') => f a s'
  | (.error e, s') => (.error e, s')

instance : Monad (NM R) where
  pure := NM.pure
  bind := NM.bind

def throw (e : PyErr) : NM R α := fun s => (.error e, s)

/-- A method that neither reads nor writes names. -/
def lift (x : M R α) : NM R α := fun s => ((x s.1).1, ((x s.1).2, s.2))

/-- `node._axis_names` -/
def names (n : NId) : NM R (List String) := fun s => (.ok (s.2 n), s)

/-- `node._axis_names = l` -/
def put (n : NId) (l : List String) : NM R Unit := fun s => (.ok (), (s.1, Function.update s.2 n l))

def forEach (l : List α) (f : α → NM R Unit) : NM R Unit :=
  match l with
  | [] => NM.pure ()
  | a :: l => NM.bind (f a) (fun _ => forEach l f)

def mapEach (l : List α) (f : α → NM R β) : NM R (List β) :=
  match l with
  | [] => NM.pure []
  | a :: l => NM.bind (f a) (fun b => NM.bind (mapEach l f) (fun bs => NM.pure (b :: bs)))

theorem bind_apply (x : NM R α) (f : α → NM R β) (s : Heap R × AxTab) :
    (x >>= f) s = match x s with
      | (.ok a, s') => f a s'
      | (.error e, s') => (.error e, s') := rfl

theorem bind_ok {x : NM R α} {f : α → NM R β} {s s' : Heap R × AxTab} {a : α} (hx : x s = (.ok a, s')) :
    (x >>= f) s = f a s' := by rw [bind_apply, hx]

theorem bind_error {x : NM R α} {f : α → NM R β} {s s' : Heap R × AxTab} {e : PyErr} (hx : x s = (.error e, s')) :
    (x >>= f) s = (.error e, s') := by rw [bind_apply, hx]

theorem lift_ok {x : M R α} {h h' : Heap R} {a : α} (hx : x h = (.ok a, h')) (nm : AxTab) :
    lift x (h, nm) = (.ok a, (h', nm)) := by rw [lift, hx]

end NM

/-- `str(i)` for the first `k` numbers. -/
def defaultNames (k : Nat) : List String := (List.range k).map toString

/-- The setter of `axis_names` (network_components.py:423-431). -/
def setAxisNames (n : NId) (l : List String) : NM R Unit := do
  let t ← NM.lift (nodeTensor n)
  if l.length ≠ t.ndim then NM.throw .valueError else NM.put n l

/-- `node.add_axis_names(axis_names)` (network_components.py:125-144) -/
def addAxisNames (n : NId) (l : List String) : NM R Unit := do
  let t ← NM.lift (nodeTensor n)
  if ¬ l.Nodup then NM.throw .valueError
  else if l.length ≠ t.ndim then NM.throw .valueError
  else setAxisNames n l

/-- `node.get_axis_number(name)` (network_components.py:302-310) -/
def axisNumber (n : NId) (name : String) : NM R Nat := do
  let l ← NM.names n
  if name ∈ l then pure (l.idxOf name) else NM.throw .valueError

/-- `node.get_edge(name)`, which is `node[name]` (network_components.py:328-330) -/
def getEdge (n : NId) (name : String) : NM R EId := do
  let k ← axisNumber n name
  let es ← NM.lift (nodeEdges n)
  match es[k]? with
  | none => NM.throw .indexError
  | some e => pure e

/-- `[l[i] for i in perm]` -/
def pickNames (l : List String) : List Nat → Py (List String)
  | [] => .ok []
  | i :: is => match l[i]? with
    | none => .error .indexError
    | some s => match pickNames l is with
      | .ok r => .ok (s :: r)
      | .error e => .error e

/-- The end of `reorder_axes` and `reorder_edges` (network_components.py:246-252, 281-287) -/
def permuteNames (n : NId) (perm : List Nat) : NM R Unit := do
  let l ← NM.names n
  match pickNames l perm with
  | .error e => NM.throw e
  | .ok r => setAxisNames n r

/-- `node.reorder_axes(perm)` (network_components.py:255-288) -/
def reorderAxesN (n : NId) (perm : List Nat) : NM R Unit := do
  NM.lift (reorderAxes n perm)
  permuteNames n perm

/-- `node.reorder_edges(edge_order)` (network_components.py:202-253) -/
def reorderEdgesN (n : NId) (order : List EId) : NM R Unit := do
  let es ← NM.lift (nodeEdges n)
  NM.lift (reorderEdges n order)
  permuteNames n (order.map (fun e => es.idxOf e))

/-- `node.fresh_edges(node.axis_names)` (network_components.py:524-531) -/
def freshEdgesN (n : NId) : NM R Unit := do
  let l ← NM.names n
  let es ← NM.lift (nodeEdges n)
  NM.forEach (List.range es.length) fun i => do
    if l ≠ [] ∧ l[i]? = none then NM.throw .indexError
    else do
      let e ← NM.lift (newDangling n i)
      NM.lift (addEdge n e i true)

/-- `Node(tensor)` without names (network_components.py:97-98) -/
def newNodeN (t : NDArray R) : NM R NId := do
  let n ← NM.lift (newNode t)
  NM.put n (defaultNames t.ndim)
  pure n

/-- The names that `flatten_edges` and `split_edge` leave (network_components.py:1443-1446, 1608-1617): the first `k` of
the old ones, followed by those of the new axes. -/
def trimNames (n : NId) (old : List String) (k : Nat) (new : List String) (all : Nat) : NM R Unit :=
  if old = [] then setAxisNames n (defaultNames all)
  else match pickNames old (List.range k) with
    | .error e => NM.throw e
    | .ok r => setAxisNames n (r ++ new)

/-- One round of the loop over nodes in `flatten_edges` (network_components.py:1412-1446) -/
def flattenAtN (edges : List EId) (n : NId) : NM R EId := do
  let old ← NM.names n
  let es ← NM.lift (nodeEdges n)
  if ∃ e ∈ edges, e ∉ es then NM.throw .valueError
  else do
    let permBack := edges.map (fun e => es.idxOf e)
    let permFront := otherAxes es.length permBack
    reorderAxesN n (permFront ++ permBack)
    let e ← NM.lift (do
      let t ← nodeTensor n
      let t' ← M.lift (t.reshape (t.shape.take permFront.length ++ [(t.shape.drop permFront.length).prod]))
      setTensor n t'
      let e ← newDangling n permFront.length
      let es' ← nodeEdges n
      setEdges n (es'.take permFront.length ++ [e])
      pure e)
    let es'' ← NM.lift (nodeEdges n)
    trimNames n old es''.length [] es''.length
    pure e

/-- `_flatten_trace_edges(edges)` (network_components.py:1332-1364).  The names are permuted by `reorder_axes` and not
trimmed. -/
def flattenTraceEdgesN (edges : List EId) : NM R EId :=
  match edges with
  | [] => NM.throw .indexError
  | e0 :: _ => do
    let n ← NM.lift (node1 e0)
    let ends ← NM.lift (M.mapEach edges fun e => do
      let a1 ← axis1 e
      let a2 ← axis2 e
      match a2 with
      | none => M.throw .typeError
      | some a2 => pure (a1, a2))
    let es ← NM.lift (nodeEdges n)
    let permBack := ends.map (fun p => min p.1 p.2) ++ ends.map (fun p => max p.1 p.2)
    let permFront := otherAxes es.length permBack
    let t ← NM.lift (nodeTensor n)
    let newDim := (ends.map (fun p => t.shape.getD p.1 0)).prod
    reorderAxesN n (permFront ++ permBack)
    NM.lift (do
      let t' ← nodeTensor n
      let t'' ← M.lift (t'.reshape (t'.shape.take permFront.length ++ [newDim, newDim]))
      setTensor n t''
      let edge1 ← newDangling n permFront.length
      let edge2 ← newDangling n (permFront.length + 1)
      let es' ← nodeEdges n
      setEdges n (es'.take permFront.length ++ [edge1, edge2])
      let new ← connect edge1 edge2
      M.forEach edges disable
      pure new)

/-- `flatten_edges(edges)` (network_components.py:1367-1456) -/
def flattenEdgesN (swap : Bool) (edges : List EId) : NM R EId :=
  match edges with
  | [] => NM.throw .valueError
  | e0 :: rest => do
    NM.lift (M.forEach edges fun e => do
      let _ ← node1 e
      let _ ← node2 e
      pure ())
    if rest = [] then pure e0
    else do
      let h ← NM.lift M.get
      let r0 := h.edge e0
      if ∃ e ∈ edges, ¬ (((h.edge e).node1 = r0.node1 ∧ (h.edge e).node2 = r0.node2) ∨
          ((h.edge e).node1 = r0.node2 ∧ (h.edge e).node2 = r0.node1)) then NM.throw .valueError
      else if r0.node1 = r0.node2 then flattenTraceEdgesN edges
      else match r0.node1, r0.node2 with
        | some n1, none => do
          let e ← flattenAtN edges n1
          NM.lift (M.forEach edges disable)
          pure e
        | some n1, some n2 => do
          let p := if swap then (n2, n1) else (n1, n2)
          let f1 ← flattenAtN edges p.1
          let f2 ← flattenAtN edges p.2
          NM.lift (M.forEach edges disable)
          NM.lift (connect f1 f2)
        | _, _ => NM.throw .valueError

/-- `_split_trace_edge(edge, shape)` (network_components.py:1495-1536).  The names are permuted by `reorder_axes`, and
none are added. -/
def splitTraceEdgeN (e : EId) (shape : List Nat) : NM R (List EId) := do
  let n ← NM.lift (node1 e)
  let a1 ← NM.lift (axis1 e)
  let a2 ← NM.lift (axis2 e)
  match a2 with
  | none => NM.throw .typeError
  | some a2 => do
    let es ← NM.lift (nodeEdges n)
    let permBack := [min a1 a2, max a1 a2]
    let permFront := otherAxes es.length permBack
    reorderAxesN n (permFront ++ permBack)
    NM.lift (do
      let t ← nodeTensor n
      let t' ← M.lift (t.reshape (t.shape.take permFront.length ++ shape ++ shape))
      setTensor n t'
      let es' ← nodeEdges n
      let k := permFront.length
      setEdges n (es'.take k ++ List.replicate (2 * shape.length) 0)
      let news ← M.mapEach (List.range shape.length) fun idx => do
        let e1 ← newDangling n (k + idx)
        let e2 ← newDangling n (k + shape.length + idx)
        let es'' ← nodeEdges n
        setEdges n ((es''.set (k + idx) e1).set (k + shape.length + idx) e2)
        connect e1 e2
      disable e
      pure news)

/-- One round of the loop over nodes in `split_edge` (network_components.py:1585-1617); `new` are the names of the new
edges, if given one for each. -/
def splitAtN (e : EId) (shape : List Nat) (new : Option (List String)) (n : NId) : NM R (List EId) := do
  let old ← NM.names n
  let es ← NM.lift (nodeEdges n)
  if e ∉ es then NM.throw .valueError
  else do
    let permBack := [es.idxOf e]
    let permFront := otherAxes es.length permBack
    reorderAxesN n (permFront ++ permBack)
    let f ← NM.lift (do
      let t ← nodeTensor n
      let t' ← M.lift (t.reshape (t.shape.take permFront.length ++ shape))
      setTensor n t'
      let es' ← nodeEdges n
      setEdges n (es'.take permFront.length)
      M.mapEach (List.range shape.length) fun idx => do
        let f ← newDangling n (permFront.length + idx)
        let es'' ← nodeEdges n
        setEdges n (es'' ++ [f])
        pure f)
    let es'' ← NM.lift (nodeEdges n)
    trimNames n old permFront.length
      (new.getD ((List.range (es''.length - permFront.length)).map (fun i => toString (permFront.length + i)))) es''.length
    pure f

/-- `split_edge(edge, shape, new_edge_names)` (network_components.py:1539-1633) -/
def splitEdgeN (swap : Bool) (e : EId) (shape : List Nat) (new : Option (List String)) : NM R (List EId) := do
  let d ← NM.lift (dimension e)
  if shape.prod ≠ d then NM.throw .valueError
  else if shape.length = 1 then pure [e]
  else do
    let tr ← NM.lift (isTrace e)
    if tr then splitTraceEdgeN e shape
    else do
      let h ← NM.lift M.get
      match (h.edge e).node1, (h.edge e).node2 with
      | some n1, none => do
        let news ← splitAtN e shape new n1
        NM.lift (disable e)
        pure news
      | some n1, some n2 => do
        let p := if swap then (n2, n1) else (n1, n2)
        let f1 ← splitAtN e shape new p.1
        let f2 ← splitAtN e shape new p.2
        NM.lift (disable e)
        NM.lift (M.mapEach (f1.zip f2) fun q => connect q.1 q.2)
      | _, _ => NM.throw .valueError

/-- `node.copy(conjugate)` (network_components.py:639-661); the constructor calls `add_axis_names`. -/
def nodeCopyN (cj : R → R) (conjugate : Bool) (n : NId) : NM R NId := do
  let l ← NM.names n
  let t ← NM.lift (nodeTensor n)
  if ¬ l.Nodup then NM.throw .valueError
  else if l.length ≠ t.ndim then NM.throw .valueError
  else do
    let m ← NM.lift (nodeCopy false cj conjugate n)
    NM.put m l
    pure m

/-- `remove_node(node)` (network_operations.py:106-127): the loop runs over the names.  The new dangling edges by
name. -/
def removeNodeN (n : NId) : NM R (List (String × EId)) := do
  let names ← NM.names n
  let l ← NM.mapEach names.zipIdx fun (name, i) => do
    let cur ← NM.lift (nodeEdges n)
    match cur[i]? with
    | none => NM.throw .indexError
    | some e => do
      let d ← NM.lift (isDangling e)
      if d then pure none
      else do
        let t ← NM.lift (isTrace e)
        if t then pure none
        else do
          let (f1, f2) ← NM.lift (disconnect e)
          let m ← NM.lift (node1 f1)
          pure (some (name, if m ≠ n then f1 else f2))
  pure (l.filterMap id)

/-- `_remove_trace_edge(edge, new_node)` (network_components.py:1685-1731) -/
def removeTraceEdgeN (e : EId) (new : NId) : NM R Unit := do
  let d ← NM.lift (isDangling e)
  if d then NM.throw .valueError
  else do
    let n ← NM.lift (node1 e)
    let n' ← NM.lift (node2 e)
    if some n ≠ n' then NM.throw .valueError
    else do
      let a1 ← NM.lift (axis1 e)
      let a2 ← NM.lift (axis2 e)
      match a2 with
      | none => NM.throw .typeError
      | some a2 => do
        let lo := min a1 a2
        let hi := max a1 a2
        let es ← NM.lift (nodeEdges n)
        if lo ≥ es.length ∨ hi - 1 ≥ (es.eraseIdx lo).length then NM.throw .indexError
        else do
          let rest := (es.eraseIdx lo).eraseIdx (hi - 1)
          let reduce (a : Nat) : Nat := a - ((if a > lo then 1 else 0) + (if a > hi then 1 else 0))
          NM.lift (M.forEach rest.dedup fun f => do
            let m1 ← node1 f
            if m1 = n then
              M.modify fun h => h.setEdge f
                { h.edge f with axis1 := reduce (h.edge f).axis1, node1 := some new }
            else pure ()
            let m2 ← node2 f
            if m2 = some n then
              M.modify fun h => h.setEdge f
                { h.edge f with axis2 := ((h.edge f).axis2.map reduce), node2 := some new }
            else pure ())
          NM.lift (M.forEach rest.zipIdx fun p => addEdge new p.1 p.2 false)
          freshEdgesN n
          NM.lift (disable e)

/-- `_contract_trace(edge)` (network_components.py:1802-1831) -/
def contractTraceN [AddCommMonoid R] (e : EId) : NM R NId := do
  let d ← NM.lift (isDangling e)
  if d then NM.throw .valueError
  else do
    let n ← NM.lift (node1 e)
    let n' ← NM.lift (node2 e)
    if some n ≠ n' then NM.throw .valueError
    else do
      let a1 ← NM.lift (axis1 e)
      let a2 ← NM.lift (axis2 e)
      match a2 with
      | none => NM.throw .typeError
      | some a2 => do
        let t ← NM.lift (nodeTensor n)
        let perm := otherAxes t.ndim [a1, a2] ++ [min a1 a2, max a1 a2]
        let t' ← NM.lift (M.lift (t.transpose perm))
        let t'' ← NM.lift (M.lift t'.trace)
        let new ← newNodeN t''
        removeTraceEdgeN e new
        pure new

end TN.Graph
