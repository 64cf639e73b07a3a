import Verif.Nd

/-!
# The object graph of nodes and edges

`Node` and `Edge` objects of `network_components.py` live in a heap; an object is an
address (`NId`, `EId`).  A method is a function from the heap to a result (a value or an
exception) *and a new heap*: as in Python, changes made before an exception is raised stay.

Simplifications: node names, edge names and axis names are not modelled here (axes are numbers; `AxisNames` adds their names);
all nodes use the numpy backend; nodes are never disabled by the modelled functions, so
`Node.is_disabled` is left out.
-/

namespace TN.Graph

open TN

/-- Addresses of nodes. -/
macro "NId" : term => `(Nat)
/-- Addresses of edges. -/
macro "EId" : term => `(Nat)

/-- The fields of an `Edge` (network_components.py:989-1022): `_nodes`, `_axes`,
`_is_dangling`, `is_disabled`. -/
structure EdgeRec where
  node1 : Option NId
  axis1 : Nat
  node2 : Option NId
  axis2 : Option Nat
  dangling : Bool
  disabled : Bool
deriving DecidableEq

/-- The fields of a `Node` (network_components.py:53-104, 574-587): tensor and edges. -/
structure NodeRec (R : Type) where
  tensor : NDArray R
  edges : List EId

/-- The heap.  Addresses below `nn` (`ne`) are allocated. -/
structure Heap (R : Type) where
  node : NId → NodeRec R
  edge : EId → EdgeRec
  nn : Nat
  ne : Nat

/-- A method: exceptions do not undo heap changes. -/
def M (R : Type) (α : Type) : Type := Heap R → Py α × Heap R

namespace M

variable {R α β : Type}

def pure (a : α) : M R α := fun h => (.ok a, h)

def bind (x : M R α) (f : α → M R β) : M R β := fun h =>
  match x h with
  | (.ok a, h') => f a h'
  | (.error e, h') => (.error e, h')

instance : Monad (M R) where
  pure := M.pure
  bind := M.bind

def throw (e : PyErr) : M R α := fun h => (.error e, h)

def get : M R (Heap R) := fun h => (.ok h, h)

def modify (f : Heap R → Heap R) : M R Unit := fun h => (.ok (), f h)

/-- A backend call: may raise, does not touch the heap. -/
def lift (x : Py α) : M R α := fun h => (x, h)

/-- A Python `for` loop. -/
def forEach (l : List α) (f : α → M R Unit) : M R Unit :=
  match l with
  | [] => M.pure ()
  | a :: l => M.bind (f a) (fun _ => forEach l f)

/-- A Python list comprehension or a loop that appends to a list. -/
def mapEach (l : List α) (f : α → M R β) : M R (List β) :=
  match l with
  | [] => M.pure []
  | a :: l => M.bind (f a) (fun b => M.bind (mapEach l f) (fun bs => M.pure (b :: bs)))

@[simp] theorem pure_apply (a : α) (h : Heap R) : (Pure.pure a : M R α) h = (.ok a, h) := rfl

@[simp] theorem throw_apply (e : PyErr) (h : Heap R) :
    (throw e : M R α) h = (.error e, h) := rfl

@[simp] theorem get_apply (h : Heap R) : (get : M R (Heap R)) h = (.ok h, h) := rfl

@[simp] theorem modify_apply (f : Heap R → Heap R) (h : Heap R) :
    modify f h = (.ok (), f h) := rfl

@[simp] theorem lift_apply (x : Py α) (h : Heap R) : (lift x : M R α) h = (x, h) := rfl

theorem bind_apply (x : M R α) (f : α → M R β) (h : Heap R) :
    (x >>= f) h = match x h with
      | (.ok a, h') => f a h'
      | (.error e, h') => (.error e, h') := rfl

theorem bind_ok {x : M R α} {f : α → M R β} {h h' : Heap R} {a : α} (hx : x h = (.ok a, h')) :
    (x >>= f) h = f a h' := by rw [bind_apply, hx]

theorem bind_error {x : M R α} {f : α → M R β} {h h' : Heap R} {e : PyErr}
    (hx : x h = (.error e, h')) : (x >>= f) h = (.error e, h') := by rw [bind_apply, hx]

@[simp] theorem forEach_nil (f : α → M R Unit) (h : Heap R) :
    forEach [] f h = (.ok (), h) := rfl

theorem forEach_cons (a : α) (l : List α) (f : α → M R Unit) (h : Heap R) :
    forEach (a :: l) f h = (f a >>= fun _ => forEach l f) h := rfl

@[simp] theorem mapEach_nil (f : α → M R β) (h : Heap R) :
    mapEach [] f h = (.ok [], h) := rfl

theorem mapEach_cons (a : α) (l : List α) (f : α → M R β) (h : Heap R) :
    mapEach (a :: l) f h = (f a >>= fun b => mapEach l f >>= fun bs => Pure.pure (b :: bs)) h := rfl

theorem forEach_append (l l' : List α) (f : α → M R Unit) (h : Heap R) :
    forEach (l ++ l') f h = (forEach l f >>= fun _ => forEach l' f) h := by
  induction l generalizing h with
  | nil => rfl
  | cons a l ih =>
    rw [List.cons_append, forEach_cons, bind_apply, bind_apply, forEach_cons, bind_apply]
    rcases f a h with ⟨_ | u, h'⟩
    · rfl
    · simp only
      rw [ih, bind_apply]

end M

namespace Heap

variable {R : Type}

def setNode (h : Heap R) (n : NId) (r : NodeRec R) : Heap R :=
  { h with node := Function.update h.node n r }

def setEdge (h : Heap R) (e : EId) (r : EdgeRec) : Heap R :=
  { h with edge := Function.update h.edge e r }

/-- `node.shape` (`Node.shape`: the shape of the tensor). -/
def shape (h : Heap R) (n : NId) : List Nat := (h.node n).tensor.shape

@[simp] theorem setNode_node (h : Heap R) (n : NId) (r : NodeRec R) :
    (h.setNode n r).node = Function.update h.node n r := rfl
@[simp] theorem setNode_edge (h : Heap R) (n : NId) (r : NodeRec R) :
    (h.setNode n r).edge = h.edge := rfl
@[simp] theorem setNode_nn (h : Heap R) (n : NId) (r : NodeRec R) :
    (h.setNode n r).nn = h.nn := rfl
@[simp] theorem setNode_ne (h : Heap R) (n : NId) (r : NodeRec R) :
    (h.setNode n r).ne = h.ne := rfl
@[simp] theorem setEdge_node (h : Heap R) (e : EId) (r : EdgeRec) :
    (h.setEdge e r).node = h.node := rfl
@[simp] theorem setEdge_edge (h : Heap R) (e : EId) (r : EdgeRec) :
    (h.setEdge e r).edge = Function.update h.edge e r := rfl
@[simp] theorem setEdge_nn (h : Heap R) (e : EId) (r : EdgeRec) : (h.setEdge e r).nn = h.nn := rfl
@[simp] theorem setEdge_ne (h : Heap R) (e : EId) (r : EdgeRec) : (h.setEdge e r).ne = h.ne := rfl

end Heap

variable {R : Type}

/-! ### Edge accessors -/

/-- `edge.node1` (network_components.py:1108-1115). -/
def node1 (e : EId) : M R NId := do
  let h ← M.get
  if (h.edge e).disabled then M.throw .valueError
  else match (h.edge e).node1 with
    | none => M.throw .valueError
    | some n => pure n

/-- `edge.node2` (network_components.py:1117-1126). -/
def node2 (e : EId) : M R (Option NId) := do
  let h ← M.get
  if (h.edge e).disabled then M.throw .valueError
  else if (h.edge e).dangling then pure none
  else match (h.edge e).node2 with
    | none => M.throw .valueError
    | some n => pure (some n)

/-- `edge.axis1` (network_components.py:1052-1057). -/
def axis1 (e : EId) : M R Nat := do
  let h ← M.get
  if (h.edge e).disabled then M.throw .valueError else pure (h.edge e).axis1

/-- `edge.axis2` (network_components.py:1066-1071). -/
def axis2 (e : EId) : M R (Option Nat) := do
  let h ← M.get
  if (h.edge e).disabled then M.throw .valueError else pure (h.edge e).axis2

/-- `edge.is_dangling()` (network_components.py:1150-1152); no check for disabled edges. -/
def isDangling (e : EId) : M R Bool := do
  let h ← M.get
  pure (h.edge e).dangling

/-- `edge.get_nodes()` (network_components.py:1080-1082): the raw pair. -/
def getNodes (e : EId) : M R (Option NId × Option NId) := do
  let h ← M.get
  pure ((h.edge e).node1, (h.edge e).node2)

/-- `edge.is_trace()` (network_components.py:1154-1155): `self.node1 is self.node2`. -/
def isTrace (e : EId) : M R Bool := do
  let a ← node1 e
  let b ← node2 e
  pure (decide (some a = b))

/-- `edge.disable()` (network_components.py:1031-1033). -/
def disable (e : EId) : M R Unit :=
  M.modify fun h => h.setEdge e { h.edge e with node1 := none, node2 := none, disabled := true }

/-- `edge.dimension` (network_components.py:1146-1148): `self.node1.shape[self.axis1]`. -/
def dimension (e : EId) : M R Nat := do
  let n ← node1 e
  let a ← axis1 e
  let h ← M.get
  match (h.shape n)[a]? with
  | some d => pure d
  | none => M.throw .indexError

/-- `Edge(node1, axis1)`: a new dangling edge (network_components.py:989-1022). -/
def newDangling (n : NId) (a : Nat) : M R EId := fun h =>
  (.ok h.ne, { h with
    edge := Function.update h.edge h.ne ⟨some n, a, none, none, true, false⟩
    ne := h.ne + 1 })

/-- `Edge(node1, axis1, node2=.., axis2=..)`: a new connected edge. -/
def newConnected (n1 : NId) (a1 : Nat) (n2 : NId) (a2 : Nat) : M R EId := fun h =>
  (.ok h.ne, { h with
    edge := Function.update h.edge h.ne ⟨some n1, a1, some n2, some a2, false, false⟩
    ne := h.ne + 1 })

/-- `edge.update_axis(old_axis, old_node, new_axis, new_node)`
(network_components.py:1083-1106). -/
def updateAxis (e : EId) (oldAxis : Nat) (oldNode : NId) (newAxis : Nat) (newNode : NId) :
    M R Unit := do
  let a1 ← axis1 e
  let first ← (if a1 = oldAxis then do
      let n1 ← node1 e
      pure (decide (n1 = oldNode))
    else pure false)
  if first then
    M.modify fun h => h.setEdge e { h.edge e with axis1 := newAxis, node1 := some newNode }
  else do
    let a2 ← axis2 e
    let second ← (if a2 = some oldAxis then do
        let n2 ← node2 e
        pure (decide (n2 = some oldNode))
      else pure false)
    if second then
      M.modify fun h => h.setEdge e { h.edge e with axis2 := some newAxis, node2 := some newNode }
    else M.throw .valueError

/-! ### Node methods -/

/-- `node.edges` -/
def nodeEdges (n : NId) : M R (List EId) := do
  let h ← M.get
  pure (h.node n).edges

/-- `node.tensor` -/
def nodeTensor (n : NId) : M R (NDArray R) := do
  let h ← M.get
  pure (h.node n).tensor

/-- `node.tensor = t` -/
def setTensor (n : NId) (t : NDArray R) : M R Unit :=
  M.modify fun h => h.setNode n { h.node n with tensor := t }

/-- `node.edges = es` -/
def setEdges (n : NId) (es : List EId) : M R Unit :=
  M.modify fun h => h.setNode n { h.node n with edges := es }

/-- `node.add_edge(edge, axis, override)` (network_components.py:146-167). -/
def addEdge (n : NId) (e : EId) (axis : Nat) (override : Bool) : M R Unit := do
  let h ← M.get
  if axis ≥ (h.shape n).length then M.throw .valueError
  else match (h.node n).edges[axis]? with
    | none => M.throw .indexError
    | some old =>
      if ¬ (h.edge old).dangling ∧ ¬ override then M.throw .valueError
      else setEdges n ((h.node n).edges.set axis e)

/-- `Node(tensor)` (network_components.py:53-104, 574-587): a fresh node with one fresh
dangling edge per axis. -/
def newNode (t : NDArray R) : M R NId := fun h =>
  (.ok h.nn,
   { node := Function.update h.node h.nn ⟨t, (List.range t.ndim).map (fun i => h.ne + i)⟩
     edge := fun e => if h.ne ≤ e ∧ e < h.ne + t.ndim then
         ⟨some h.nn, e - h.ne, none, none, true, false⟩ else h.edge e
     nn := h.nn + 1
     ne := h.ne + t.ndim })

/-- `node.fresh_edges(axis_names)` (network_components.py:524-531). -/
def freshEdges (n : NId) : M R Unit := do
  let es ← nodeEdges n
  M.forEach (List.range es.length) fun i => do
    let e ← newDangling n i
    addEdge n e i true

end TN.Graph
