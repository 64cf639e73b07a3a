import Verif.Label
import Mathlib.Algebra.Order.Round
import Mathlib.Data.Rat.Floor

/-!
# The Keras layers (tensornetwork/tn_keras)

Each layer turns the vectors along the last axis of its input into networks and contracts them.  The nodes of a network
are arrays with a label for each axis; two axes that have been connected have the same label.  `tn.contract_between`
sums over the common labels (`contractL`); that this is what it does to a network of nodes and edges is the content of
`C09_contract_between`.
-/

namespace TN.Keras

open Finset NDArray

variable {R : Type}

/-- An edge: the number of the node that made it, and the axis. -/
structure Leg where
  node : Nat
  axis : Nat
deriving DecidableEq, Inhabited

/-- A node with its edges. -/
abbrev LNode (R : Type) := NDArray R × List Leg

/-- `tn.contract_between(a, b)` and `a @ b` (network_components.py:1984-2095) -/
def contractL [CommSemiring R] (a b : LNode R) : Py (LNode R) :=
  let C := a.2.filter (· ∈ b.2)
  if C = [] then .error .valueError
  else do
    let t ← a.1.tensordot b.1 (C.map a.2.idxOf) (C.map b.2.idxOf)
    .ok (t, a.2.filter (· ∉ C) ++ b.2.filter (· ∉ C))

/-- `tf.reshape(tensor, (-1,))` -/
def flat (t : NDArray R) : List R := (List.range t.shape.prod).map fun k => t.get (unravel t.shape k)

/-- The array of the given shape with the elements of a list. -/
def ofList [Zero R] (s : List Nat) (l : List R) : NDArray R := ⟨s, fun i => l.getD (ravel s i) 0⟩

/-- `tf.reshape(x, s)` of a vector -/
def reshapeVec [Zero R] (s : List Nat) (l : List R) : Py (NDArray R) :=
  if s.prod = l.length then .ok (ofList s l) else .error .valueError

/-- `if use_bias: result += bias_var`, for two vectors, with broadcasting -/
def addBias [Add R] : Option (List R) → List R → Py (List R)
  | none, r => .ok r
  | some b, r =>
    if b.length = r.length then .ok (List.zipWith (· + ·) r b)
    else match b, r with
      | [c], _ => .ok (r.map (· + c))
      | _, [c] => .ok (b.map (c + ·))
      | _, _ => .error .valueError

/-- Python's `[f(x) for x in l]` -/
def mapPy {α β : Type} (f : α → Py β) : List α → Py (List β)
  | [] => .ok []
  | x :: l => do
    let y ← f x
    let ys ← mapPy f l
    .ok (y :: ys)

/-- The end of `call` of each dense layer (dense.py:127-136, expander.py:137-146, condenser.py:138-147,
entangler.py:173-182, mpo.py:177-186): the input, of shape `s ++ [d]`, becomes a matrix with rows of length `d`, `f` is
called for each row, the activation is applied, and the result gets the shape `[-1] + input_shape[1:-1] + [output_dim]`.
Simplifications: `tf.vectorized_map` is a loop, the activation works on the elements, and the exceptions of TensorFlow are
`ValueError`. -/
def callLayer [Zero R] (f : List R → Py (List R)) (act : R → R) (out : Nat) (s : List Nat) (d : Nat) (x : NDArray R) :
    Py (NDArray R) :=
  if d = 0 then .error .valueError
  else do
    let rows ← mapPy (fun r => f ((List.range d).map fun k => x.get (unravel (s ++ [d]) (r * d + k)))) (List.range s.prod)
    let data := (rows.flatten).map act
    let k := (s.drop 1).prod * out
    if k = 0 ∨ data.length % k ≠ 0 then .error .valueError
    else .ok (ofList (data.length / k :: (s.drop 1 ++ [out])) data)

/-! ## DenseDecomp -/

/-- `f` in `DenseDecomp.call` (dense.py:105-126) -/
def decompVec [CommSemiring R] (a b : NDArray R) (bias : Option (List R)) (x : List R) : Py (List R) := do
  let c ← contractL (a, [⟨0, 0⟩, ⟨1, 1⟩]) (ofList [x.length] x, [⟨0, 0⟩])
  let r ← contractL c (b, [⟨1, 1⟩, ⟨2, 1⟩])
  addBias bias (flat r.1)

/-! ## DenseExpander -/

/-- The loop in `DenseExpander.call` (expander.py:123-127); `e` is `operating_edge` and `i` the number of the next node. -/
def expandLoop [CommSemiring R] : Nat → List (NDArray R) → LNode R → Leg → Py (LNode R)
  | _, [], st, _ => .ok st
  | i, w :: ws, st, e => do
    let st ← contractL st (w, [e, ⟨i, 1⟩, ⟨i, 2⟩])
    expandLoop (i + 1) ws st ⟨i, 2⟩

/-- `f` in `DenseExpander.call` (expander.py:107-134) -/
def expandVec [CommSemiring R] (nodes : List (NDArray R)) (bias : Option (List R)) (x : List R) : Py (List R) := do
  let r ← expandLoop 1 nodes (ofList [x.length] x, [⟨0, 0⟩]) ⟨0, 0⟩
  addBias bias (flat r.1)

/-! ## DenseCondenser -/

/-- The loop in `DenseCondenser.call` (condenser.py:124-128): the last two edges of the state are connected with the node. -/
def condenseLoop [CommSemiring R] : Nat → List (NDArray R) → LNode R → Py (LNode R)
  | _, [], st => .ok st
  | i, w :: ws, st =>
    match st.2.reverse with
    | e1 :: e2 :: _ => do
      let st ← contractL st (w, [e1, e2, ⟨i, 2⟩])
      condenseLoop (i + 1) ws st
    | _ => .error .indexError

/-- `f` in `DenseCondenser.call` (condenser.py:107-135) -/
def condenseVec [CommSemiring R] (base out : Nat) (nodes : List (NDArray R)) (bias : Option (List R)) (x : List R) :
    Py (List R) := do
  let t ← reshapeVec (List.replicate nodes.length base ++ [out]) x
  let r ← condenseLoop 1 nodes (t, (List.range (nodes.length + 1)).map (fun a => ⟨0, a⟩))
  addBias bias (flat r.1)

/-! ## DenseEntangler -/

/-- Python's `round` of a number to an integer; ties go to the even one. -/
def pyRound (q : ℚ) : Int :=
  if Int.fract q < 1 / 2 then ⌊q⌋
  else if 1 / 2 < Int.fract q then ⌊q⌋ + 1
  else if ⌊q⌋ % 2 = 0 then ⌊q⌋ else ⌊q⌋ + 1

/-- The shape of the node `i` (entangler.py:122-133); `l` and `o` are `leg_dim` and `out_leg_dim`. -/
def gateShape (l o legs levels i : Nat) : List Nat :=
  let level := i / (legs - 1)
  let m := min l o
  [if i = 0 then l else m, if level = 0 then l else m, if level = levels - 1 then o else m,
    if i = levels * (legs - 1) - 1 then o else m]

/-- The loop in `DenseEntangler.call` (entangler.py:149-155); `E` is `edges`, and `i` is the index of the next node. -/
def entangleLoop [CommSemiring R] (legs : Nat) : Nat → List (NDArray R) → LNode R → List Leg → Py (LNode R)
  | _, [], st, _ => .ok st
  | i, w :: ws, st, E => do
    let p := i % legs
    let q := (i + 1) % legs
    let st ← contractL st (w, [E.getD p ⟨0, 0⟩, E.getD q ⟨0, 0⟩, ⟨i + 1, 2⟩, ⟨i + 1, 3⟩])
    entangleLoop legs (i + 1) ws st ((E.set p ⟨i + 1, 2⟩).set q ⟨i + 1, 3⟩)

/-- `f` in `DenseEntangler.call` (entangler.py:140-171) -/
def entangleVec [CommSemiring R] (legs l out : Nat) (nodes : List (NDArray R)) (bias : Option (List R)) (x : List R) :
    Py (List R) := do
  let t ← reshapeVec (List.replicate legs l) x
  let E := (List.range legs).map (fun a => (⟨0, a⟩ : Leg))
  let r ← entangleLoop legs 0 nodes (t, E) E
  if r.1.shape.prod ≠ out then .error .valueError else addBias bias (flat r.1)

/-! ## DenseMPO -/

/-- The sizes of the legs in `DenseMPO.build` (mpo.py:96-112): `rin` and `rout` are the floating point numbers
`input_dim**(1. / num_nodes)` and `output_dim**(1. / num_nodes)`.  The `AssertionError` is `RuntimeError` here. -/
def mpoBuild (n dim out : Nat) (rin rout : ℚ) : Py (Nat × Nat) :=
  if pyRound rin ^ n ≠ (dim : Int) ∨ pyRound rout ^ n ≠ (out : Int) then .error .runtimeError
  else .ok (⌈rin⌉.toNat, ⌈rout⌉.toNat)

/-- The loop `for i in range(1, len(tn_nodes)): temp = temp @ tn_nodes[i]` in `DenseMPO.call` (mpo.py:166-167), where
`bond` is the edge to the previous node.  A node with four axes is connected with the next one (mpo.py:152-155). -/
def mpoLoop [CommSemiring R] : Nat → List (NDArray R) → LNode R → Leg → Py (LNode R)
  | _, [], st, _ => .ok st
  | i, w :: ws, st, bond => do
    let st ← contractL st (w, if w.ndim = 4 then [⟨0, i⟩, bond, ⟨i + 1, 2⟩, ⟨i + 1, 3⟩] else [⟨0, i⟩, bond, ⟨i + 1, 2⟩])
    mpoLoop (i + 1) ws st ⟨i + 1, 2⟩

/-- `tf.reshape(result, (-1, output_dim))` and then the bias (mpo.py:169-173): the bias is added to each row. -/
def addBiasRows [CommSemiring R] (out : Nat) (bias : Option (List R)) (r : List R) : List R :=
  match bias with
  | none => r
  | some b => r.zipIdx.map fun p => p.1 + b.getD (p.2 % out) 0

/-- `f` in `DenseMPO.call` (mpo.py:136-175); `l` is `in_leg_dim` and `out` is `output_dim`. -/
def mpoVec [CommSemiring R] (l out : Nat) (nodes : List (NDArray R)) (bias : Option (List R)) (x : List R) :
    Py (List R) :=
  match nodes with
  | [] => .error .indexError
  | w :: ws => do
    let t ← reshapeVec (List.replicate nodes.length l) x
    let st ← contractL (t, (List.range nodes.length).map (fun a => ⟨0, a⟩)) (w, [⟨0, 0⟩, ⟨1, 1⟩, ⟨1, 2⟩])
    let r ← mpoLoop 1 ws st ⟨1, 1⟩
    if out = 0 ∨ r.1.shape.prod % out ≠ 0 then .error .valueError else .ok (addBiasRows out bias (flat r.1))

/-! ## Conv2DMPO -/

/-- The contraction of the nodes in `Conv2DMPO.call` (conv2d_mpo.py:194-201): the axis 2 of each node is connected with the
axis 1 of the next one.  Simplification: `greedy` contracts the chain from the left; the order does not change the value. -/
def convLoop [CommSemiring R] : Nat → List (NDArray R) → LNode R → Py (LNode R)
  | _, [], st => .ok st
  | i, w :: ws, st => do
    let st ← contractL st (w, [⟨i + 1, 0⟩, ⟨i, 2⟩, ⟨i + 1, 2⟩, ⟨i + 1, 3⟩])
    convLoop (i + 1) ws st

/-- The edges `n[axis] for n in tn_nodes` of `n` nodes, from node `i` on. -/
def nodeLegs (i n axis : Nat) : List Leg := (List.range' i n).map fun k => ⟨k, axis⟩

/-- The kernel in `Conv2DMPO.call` (conv2d_mpo.py:194-203): after the contraction the axes are the height and the width of
the kernel, the inputs and the outputs; `flatten_edges` then joins the inputs and the outputs. -/
def convKernel [CommSemiring R] (nodes : List (NDArray R)) : Py (NDArray R) :=
  match nodes with
  | [] => .error .indexError
  | w :: ws => do
    let n := ws.length + 1
    let r ← convLoop 1 ws (w, [⟨1, 0⟩, ⟨1, 1⟩, ⟨1, 2⟩, ⟨1, 3⟩])
    let t ← r.1.transpose ((([⟨1, 1⟩, ⟨n, 2⟩] : List Leg) ++ nodeLegs 1 n 0 ++ nodeLegs 1 n 3).map r.2.idxOf)
    t.reshape [t.shape.getD 0 0, t.shape.getD 1 0, ((t.shape.drop 2).take n).prod, ((t.shape.drop 2).drop n).prod]

/-- `result += tf.reshape(bias, (1, filters))` (conv2d_mpo.py:213-215) for an array with four axes: the bias is broadcast
along the last axis. -/
def convBias [Add R] [Zero R] (b : List R) (t : NDArray R) : Py (NDArray R) :=
  let m := t.shape.getD 3 0
  if m = b.length ∨ b.length = 1 then .ok ⟨t.shape, fun i => t.get i + b.getD (if b.length = 1 then 0 else i.getD 3 0) 0⟩
  else if m = 1 then .ok ⟨t.shape.take 3 ++ [b.length], fun i => t.get (i.take 3 ++ [0]) + b.getD (i.getD 3 0) 0⟩
  else .error .valueError

/-- `Conv2DMPO.call` (conv2d_mpo.py:192-219), where `conv` is `tf.nn.conv2d` with the options of the layer. -/
def convCall [CommSemiring R] (conv : NDArray R → NDArray R → Py (NDArray R)) (nodes : List (NDArray R))
    (bias : Option (List R)) (act : R → R) (x : NDArray R) : Py (NDArray R) := do
  let k ← convKernel nodes
  let r ← conv x k
  let r ← (match bias with | none => .ok r | some b => convBias b r)
  .ok ⟨r.shape, fun i => act (r.get i)⟩

end TN.Keras
