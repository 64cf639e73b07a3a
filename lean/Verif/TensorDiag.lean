import Verif.Einsum
import Mathlib.Data.List.Dedup

/-!
# Traces and diagonals of tensors in the three backends (C77), the model

`trace`, `diagonal`, `diagflat` and `pivot` of linalg/operations.py:213-297, as the numpy, PyTorch and
TensorFlow backends implement them.
-/

namespace TN.TensorOps

open TN NDArray Finset

variable {R : Type} [CommSemiring R]

/-- A Python axis of an `n`-dimensional array: negative axes count from the end, an axis outside
`-n … n-1` is refused (`numpy.AxisError`, a `ValueError`). -/
def axisOf (n : Nat) (a : Int) : Py Nat :=
  if 0 ≤ a ∧ a < n then .ok a.toNat
  else if a < 0 ∧ -(n : Int) ≤ a then .ok (a + n).toNat
  else .error .valueError

/-- The number of entries on diagonal `k` of a `d1` by `d2` matrix. -/
def diagLen (d1 d2 : Nat) (k : Int) : Nat := min (d1 - (-k).toNat) (d2 - k.toNat)

/-- `np.diagonal` (numpy_backend.py:643-671), and `torch.diagonal` on different axes: the axes `axis1`, `axis2`
are dropped and the diagonal is appended as the last axis; entry `m` of diagonal `k` is at row `m + max (-k) 0`
and column `m + max k 0`. -/
def diagonalNp (t : NDArray R) (k axis1 axis2 : Int) : Py (NDArray R) := do
  if t.ndim < 2 then .error .valueError
  else
    let a ← axisOf t.ndim axis1
    let b ← axisOf t.ndim axis2
    if a = b then .error .valueError
    else
      let f := freeAxes t.ndim [a, b]
      .ok { shape := f.map (fun p => t.shape.getD p 0) ++ [diagLen (t.shape.getD a 0) (t.shape.getD b 0) k]
            get := fun i =>
              let m := i.getD f.length 0
              t.get (mergeIdx t.ndim [a, b] [m + (-k).toNat, m + k.toNat] (i.take f.length)) }

/-- `diagonal` of the PyTorch backend (pytorch_backend.py:361-389). -/
def diagonalTorch (t : NDArray R) (k axis1 axis2 : Int) : Py (NDArray R) :=
  if axis1 = axis2 then .error .valueError else diagonalNp t k axis1 axis2

/-- `diagonal` of the TensorFlow backend (tensorflow_backend.py:268-303); `NotImplementedError` is a
`RuntimeError`.  Simplification: `tf.linalg.diag_part` refuses a diagonal that lies outside the matrix. -/
def diagonalTf (t : NDArray R) (k axis1 axis2 : Int) : Py (NDArray R) :=
  if axis1 ≠ -2 ∨ axis2 ≠ -1 then .error .runtimeError
  else if t.ndim < 2 then .error .valueError
  else if -(t.shape.getD (t.ndim - 2) 0 : Int) < k ∧ k < (t.shape.getD (t.ndim - 1) 0 : Int) then
    diagonalNp t k axis1 axis2
  else .error .valueError

/-- `np.trace` (numpy_backend.py:684-707): the sum of the entries on the diagonal. -/
def traceNp (t : NDArray R) (k axis1 axis2 : Int) : Py (NDArray R) := do
  if t.ndim < 2 then .error .valueError
  else
    let a ← axisOf t.ndim axis1
    let b ← axisOf t.ndim axis2
    if a = b then .error .valueError
    else
      .ok { shape := (freeAxes t.ndim [a, b]).map (fun p => t.shape.getD p 0)
            get := fun i => ∑ m ∈ range (diagLen (t.shape.getD a 0) (t.shape.getD b 0) k),
              t.get (mergeIdx t.ndim [a, b] [m + (-k).toNat, m + k.toNat] i) }

/-- The dimension of the letter `l` in an array with the letters `ins`. -/
def letterDim (t : NDArray R) (ins : List Nat) (l : Nat) : Nat := t.shape.getD (ins.idxOf l) 0

/-- `einsum(ins -> outs, tensor)` of one operand: a letter used twice in the output, a letter of the output which
the input lacks, or a letter with two sizes are refused; letters which are missing from the output are summed. -/
def einsum1 (t : NDArray R) (ins outs : List Nat) : Py (NDArray R) :=
  if ins.length = t.ndim ∧ outs.Nodup ∧ (∀ l ∈ outs, l ∈ ins) ∧
      (∀ p < ins.length, t.shape.getD p 0 = letterDim t ins (ins.getD p 0)) then
    let closed := ins.dedup.filter (fun l => l ∉ outs)
    .ok { shape := outs.map (letterDim t ins)
          get := fun i => sumIdx (closed.map (letterDim t ins)) fun c => t.get (ins.map (posOf outs i closed c)) }
  else .error .valueError

/-- `if axis < 0: axis = N + axis` (pytorch_backend.py:441-444). -/
def wrapAxis (n : Nat) (a : Int) : Int := if a < 0 then (n : Int) + a else a

/-- `inds[axis] = 'a'`: Python counts a negative index from the end, and raises `IndexError` out of range. -/
def setItem (l : List Nat) (a : Int) (x : Nat) : Py (List Nat) :=
  if 0 ≤ a ∧ a < l.length then .ok (l.set a.toNat x)
  else if a < 0 ∧ -(l.length : Int) ≤ a then .ok (l.set (a + l.length).toNat x)
  else .error .indexError

/-- `trace` of the PyTorch backend (pytorch_backend.py:402-451) and of the TensorFlow backend
(tensorflow_backend.py:317-363), the same code; letters are numbers, `'a'` is 97. -/
def traceEinsum (t : NDArray R) (k axis1 axis2 : Int) : Py (NDArray R) := do
  if k ≠ 0 then .error .runtimeError
  else if axis1 = axis2 then .error .valueError
  else
    let n := t.ndim
    if n > 25 then .error .valueError
    else
      let a := wrapAxis n axis1
      let b := wrapAxis n axis2
      let inds := List.range' 98 n
      let indsout := ((List.range n).filter (fun (p : Nat) => (p : Int) ≠ a ∧ (p : Int) ≠ b)).map
        (fun p => inds.getD p 0)
      let inds ← setItem inds a 97
      let inds ← setItem inds b 97
      einsum1 t inds indsout

/-- `np.diagflat` (numpy_backend.py:673-682): the flattened tensor on diagonal `k` of a square matrix of zeros. -/
def diagflatNp (t : NDArray R) (k : Int) : NDArray R where
  shape := [t.shape.prod + k.natAbs, t.shape.prod + k.natAbs]
  get := fun i =>
    if (i.getD 1 0 : Int) = i.getD 0 0 + k then t.get (unravel t.shape (i.getD 0 0 - (-k).toNat)) else 0

/-- `torch.diag_embed(tensor, offset=k)` (pytorch_backend.py:391-400) and `tf.linalg.diag(tensor, k=k)`
(tensorflow_backend.py:305-315): a matrix for every vector along the last axis. -/
def diagflatEmbed (t : NDArray R) (k : Int) : Py (NDArray R) :=
  if t.ndim = 0 then .error .valueError
  else
    let d := t.shape.getD (t.ndim - 1) 0 + k.natAbs
    let m := t.ndim - 1
    .ok { shape := t.shape.take m ++ [d, d]
          get := fun i =>
            if (i.getD (m + 1) 0 : Int) = i.getD m 0 + k then t.get (i.take m ++ [i.getD m 0 - (-k).toNat]) else 0 }

/-- `shape[:p]` and `shape[p:]` of Python, the place where the list is cut. -/
def cutAt (n : Nat) (p : Int) : Nat := if 0 ≤ p then min p.toNat n else (n + p).toNat

/-- `pivot` (abstract_backend.py:938-961). -/
def pivot (t : NDArray R) (p : Int) : Py (NDArray R) :=
  if p > t.ndim then .error .valueError
  else
    let c := cutAt t.ndim p
    t.reshape [(t.shape.take c).prod, (t.shape.drop c).prod]

end TN.TensorOps
