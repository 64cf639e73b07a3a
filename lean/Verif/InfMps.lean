import Verif.MpsCheck
import Verif.Lanczos

/-!
# Infinite matrix product states: the model

`InfiniteMPS` (`matrixproductstates/infinite_mps.py`) on the numpy backend: the transfer matrix of the
unit cell, its dominant eigenvectors and `canonicalize`.
-/

set_option linter.unusedSectionVars false

namespace TN.Inf

open TN NDArray Finset Ncon Mps

variable {K : Type} [RCLike K]

/-- What comes from LAPACK and ARPACK besides `Env`: `backend.eigs` with `numeig=1` and `which='LR'`
(numpy_backend.py:218-298; the first eigenvalue and eigenvector), `np.linalg.eigh`, `np.linalg.inv`,
`backend.randn` of a vector of a given length, and `backend.eps`. -/
structure Kern (K : Type) extends Env K where
  eigs : (NDArray K → Py (NDArray K)) → NDArray K → K × NDArray K
  eigh : Lanczos.Eigh K
  inv : NDArray K → Py (NDArray K)
  randn : Nat → NDArray K
  eps : ℝ

/-- The arguments of `canonicalize` that have an effect in exact arithmetic (infinite_mps.py:179-187). -/
structure Opts (K : Type) where
  left : Option (NDArray K) := none
  right : Option (NDArray K) := none
  thr : Option ℝ := some (1 / 10 ^ 15)
  D : Option Nat := none
  cutoff : Option ℝ := none

/-- The two directions of the transfer operators; other values raise `ValueError`
(base_mps.py:278-285). -/
inductive Dir where
  | left | right | other

/-- `apply_transfer_operator` (base_mps.py:264-285). -/
noncomputable def applyTransfer (E : Env K) (A : NDArray K) : Dir → NDArray K → Py (NDArray K)
  | .left, m => transferL E A m
  | .right, m => transferR E A m
  | .other, _ => .error .valueError

/-- `unit_cell_transfer_operator` (infinite_mps.py:94-102). -/
noncomputable def cellTransfer (E : Env K) (ts : List (NDArray K)) (d : Dir) (m : NDArray K) :
    Py (NDArray K) :=
  (match d with | .right => ts.reverse | _ => ts).foldlM (fun m A => applyTransfer E A d m) m

/-- `mv` in `transfer_matrix_eigs` (infinite_mps.py:129-132). -/
noncomputable def mv (E : Env K) (ts : List (NDArray K)) (d : Dir) (D : Nat) (v : NDArray K) :
    Py (NDArray K) := do
  let m ← v.reshape [D, D]
  let r ← cellTransfer E ts d m
  r.reshape [D * D]

/-- The choice of the initial vector (infinite_mps.py:134-139).  `not initial_state` is the truth value
of an array, which exists only for arrays with at most one entry; it is taken to be false for an empty
one. -/
noncomputable def initialVector (E : Kern K) (D : Nat) : Option (NDArray K) → Py (NDArray K)
  | none => .ok (E.randn (D ^ 2))
  | some t =>
    if 1 < t.shape.prod then .error .valueError
    else if t.shape.prod = 0 ∨ t.get (unravel t.shape 0) = 0 then .ok (E.randn (D ^ 2))
    else t.reshape [D ^ 2]

/-- `transfer_matrix_eigs` (infinite_mps.py:104-167). -/
noncomputable def transferEigs (E : Kern K) (ts : List (NDArray K)) (d : Dir)
    (init : Option (NDArray K)) : Py (K × NDArray K) := do
  let A ← tensorAt ts 0
  let D := A.shape.getD 0 0
  let v ← initialVector E D init
  if D = 1 then do
    let v ← divide v (Mps.norm v)
    let r ← mv E.toEnv ts d D v
    let m ← r.reshape [D, D]
    pure ((Mps.norm r : K), m)
  else do
    let (eta, x) := E.eigs (mv E.toEnv ts d D) v
    let m ← x.reshape [D, D]
    pure (eta, m)

/-- The entries of a matrix. -/
def toMat (a b : Nat) (t : NDArray K) : Matrix (Fin a) (Fin b) K := Matrix.of fun i j => t.get [i, j]

/-- The array with the given entries. -/
noncomputable def ofMat {a b : Nat} (M : Matrix (Fin a) (Fin b) K) : NDArray K :=
  ⟨[a, b], fun i => if h : i.getD 0 0 < a ∧ i.getD 1 0 < b then M ⟨_, h.1⟩ ⟨_, h.2⟩ else 0⟩

/-- The array with the given real entries. -/
noncomputable def ofVec {a : Nat} (v : Fin a → ℝ) : NDArray K :=
  ⟨[a], fun i => if h : i.getD 0 0 < a then (v ⟨_, h⟩ : K) else 0⟩

/-- The steps from an eigenvector of the transfer matrix to its square root (infinite_mps.py:231-251 for
the left one, 260-278 for the right one): normalise by the trace, symmetrise, diagonalise, normalise the
eigenvalues, set those up to the cutoff and their inverses to zero.  The result is the diagonal matrix of
the roots, that of the inverse roots, and the eigenvectors.  `n` is the number of rows. -/
noncomputable def spectralAt (E : Kern K) (cutoff : ℝ) (n : Nat) (m : NDArray K) :
    Py (NDArray K × NDArray K × NDArray K) :=
  let t := ∑ i ∈ range n, m.get [i, i]
  if t = 0 then .error .runtimeError
  else
    let m1 : NDArray K := ⟨m.shape, fun i => m.get i / t⟩
    let m2 : NDArray K := ⟨m.shape, fun i => (m1.get i + star (m1.get [i.getD 1 0, i.getD 0 0])) / 2⟩
    let e := (E.eigh n (toMat n n m2)).1
    let u := (E.eigh n (toMat n n m2)).2
    let z := Real.sqrt (∑ i, e i ^ 2)
    if z = 0 then .error .runtimeError
    else
      let e1 := fun i => e i / z
      let e2 := fun i => if e1 i ≤ cutoff then 0 else e1 i
      let inv := fun i => if e1 i ≤ cutoff then 0 else 1 / e2 i
      .ok (diagflat (ofVec fun i => Real.sqrt (e2 i)), diagflat (ofVec fun i => Real.sqrt (inv i)), ofMat u)

/-- `spectralAt` for a matrix with any number of rows. -/
noncomputable def spectral (E : Kern K) (cutoff : ℝ) (m : NDArray K) : Py (NDArray K × NDArray K × NDArray K) :=
  spectralAt E cutoff (m.shape.getD 0 0) m

/-- The four matrices `sqrtl`, `inv_sqrtl`, `sqrtr`, `inv_sqrtr` of `canonicalize`. -/
structure Roots (K : Type) where
  l : NDArray K
  li : NDArray K
  r : NDArray K
  ri : NDArray K

/-- `canonicalize` up to the roots of the eigenvectors (infinite_mps.py:211-278): the tensors and the
roots.  `/=` on an array of the model makes a new array; the Python code changes the first tensor in
place. -/
noncomputable def roots (E : Kern K) (st : Full K) (o : Opts K) : Py (List (NDArray K) × Roots K) := do
  let cutoff := o.cutoff.getD E.eps
  let (s1, _) ← position E.toEnv ⟨st.tensors, some (st.center.getD 0)⟩ 0 true none none
  let (eta, l) ← transferEigs E s1.tensors .left o.left
  let A ← tensorAt s1.tensors 0
  let A ← divide A (Real.sqrt ‖eta‖)
  let ts := s1.tensors.set 0 A
  let (dl, il, ul) ← spectral E cutoff l
  let sqrtl ← nconInt E.so [ul, dl] [[-2, 1], [1, -1]]
  let invl ← nconInt E.so [il, conjT ul] [[-2, 1], [-1, 1]]
  let (_, r) ← transferEigs E ts .right o.right
  let (dr, ir, ur) ← spectral E cutoff r
  let sqrtr ← nconInt E.so [ur, dr] [[-1, 1], [1, -2]]
  let invr ← nconInt E.so [ir, conjT ur] [[-1, 1], [-2, 1]]
  pure (ts, ⟨sqrtl, invl, sqrtr, invr⟩)

/-- The rest of `canonicalize` (infinite_mps.py:280-307): the singular values become the new bond. -/
noncomputable def finish (E : Kern K) (o : Opts K) (conn : Option (NDArray K)) (ts : List (NDArray K))
    (q : Roots K) : Py (Full K × ℝ) := do
  let tmp ← nconInt E.so [q.l, q.r] [[-1, 1], [1, -2]]
  let (u, s, v, _) ← Decomp.svd E.svd tmp 1 o.D o.thr true
  let lam := diagflat s
  let A ← tensorAt ts 0
  let A ← nconInt E.so [lam, v, q.ri, A] [[-1, 1], [1, 2], [2, 3], [3, -2, -3]]
  let ts := ts.set 0 A
  let B ← getTensor E.so ⟨ts, some 0, conn⟩ ((ts.length : Int) - 1)
  let B ← nconInt E.so [B, q.li, u, lam] [[-1, -2, 1], [1, 2], [2, 3], [3, -3]]
  let ts := ts.set (ts.length - 1) B
  let (s2, _) ← position E.toEnv ⟨ts, some 0⟩ ((ts.length : Int) - 1) true none none
  let z := Mps.norm s
  let lam ← divide lam z
  let c ← E.inv lam
  pure (⟨s2.tensors, some (ts.length - 1), some c⟩, z)

/-- `canonicalize` (infinite_mps.py:179-307). -/
noncomputable def canonicalize (E : Kern K) (st : Full K) (o : Opts K) : Py (Full K × ℝ) := do
  let (ts, q) ← roots E st o
  finish E o st.connector ts q

end TN.Inf
