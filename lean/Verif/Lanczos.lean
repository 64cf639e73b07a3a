import Verif.Mps
import Verif.LanczosAbs
import Mathlib.Analysis.InnerProductSpace.PiL2

/-!
# The Lanczos method: the model

`eigsh_lanczos` of the numpy backend (`backends/numpy/numpy_backend.py:415-535`).
-/

set_option linter.unusedSectionVars false

namespace TN.Lanczos

open TN NDArray Finset

variable {K : Type} [RCLike K]

/-- `np.linalg.eigh`: eigenvalues and the matrix of eigenvectors. -/
abbrev Eigh (K : Type) := ∀ m : Nat, Matrix (Fin m) (Fin m) K → (Fin m → ℝ) × Matrix (Fin m) (Fin m) K

/-- The numerical arguments of `eigsh_lanczos`. -/
structure Opts where
  numKrylov : Nat
  numeig : Nat
  tol : ℝ
  delta : ℝ
  ndiag : Nat
  reorth : Bool

/-- The lists `krylov_vecs`, `diag_elements` and `norms_vector_n`. -/
structure Krylov (K : Type) where
  vecs : List (NDArray K)
  diag : List K
  norms : List ℝ

/-- `np.dot(np.ravel(np.conj(a)), np.ravel(b))`.  Arrays of the same size but of different shapes, which numpy
accepts here, are refused by the model; the documentation of `A` requires equal shapes. -/
noncomputable def dot (a b : NDArray K) : Py K :=
  if a.shape = b.shape then .ok (sumIdx a.shape fun i => star (a.get i) * b.get i) else .error .valueError

/-- `a - c * b` for arrays of the same shape. -/
def subScaled (a : NDArray K) (c : K) (b : NDArray K) : NDArray K := ⟨a.shape, fun i => a.get i - c * b.get i⟩

/-- The loop of `reorthogonalize` (numpy_backend.py:492-494). -/
noncomputable def reorthogonalize : List (NDArray K) → NDArray K → Py (NDArray K)
  | [], x => .ok x
  | v :: vs, x => do
    let c ← dot v x
    reorthogonalize vs (subScaled x c v)

/-- `if reorthogonalize:` (numpy_backend.py:491). -/
noncomputable def orthStep (reorth : Bool) (vecs : List (NDArray K)) (q : NDArray K) : Py (NDArray K) :=
  if reorth then reorthogonalize vecs q else .ok q

/-- `np.diag(diag_elements) + np.diag(norms_vector_n[1:], 1) + np.diag(np.conj(norms_vector_n[1:]), -1)`
(numpy_backend.py:502-503, 519-520). -/
noncomputable def tridiag (k : Krylov K) : Matrix (Fin k.diag.length) (Fin k.diag.length) K := fun i j =>
  (if i = j then k.diag.getD i 0 else 0) +
  (if (i : Nat) + 1 = j then ((k.norms.tail.getD i 0 : ℝ) : K) else 0) +
  (if (j : Nat) + 1 = i then star ((k.norms.tail.getD j 0 : ℝ) : K) else 0)

/-- `eigvals[0:numeig]` for the current lists (numpy_backend.py:504). -/
noncomputable def eigvals (eigh : Eigh K) (numeig : Nat) (k : Krylov K) : List ℝ :=
  (List.ofFn (eigh _ (tridiag k)).1).take numeig

/-- `np.linalg.norm(a - b)` for two lists of the same length. -/
noncomputable def distance (a b : List ℝ) : ℝ := Real.sqrt ((List.zipWith (fun x y => (x - y) ^ 2) a b).sum)

/-- The loop (numpy_backend.py:483-516) with `n` iterations left.  `old` is `eigvalsold`, `none` while `first`
is true.  `A` is expected to return a new array, as the code subtracts from it in place. -/
noncomputable def loop (eigh : Eigh K) (A : NDArray K → Py (NDArray K)) (o : Opts) :
    Nat → Nat → NDArray K → Krylov K → Option (List ℝ) → Py (Krylov K)
  | 0, _, _, k, _ => .ok k
  | n + 1, it, v, k, old =>
    if |Mps.norm v| < o.delta then .ok k else do
    let q ← Mps.divide v (Mps.norm v)
    let q ← orthStep o.reorth k.vecs q
    let w ← A q
    let a ← dot q w
    let k' : Krylov K := ⟨k.vecs ++ [q], k.diag ++ [a], k.norms ++ [Mps.norm v]⟩
    let w' := if 0 < it then subScaled (subScaled w a q) ((Mps.norm v : ℝ) : K) (k.vecs.getLastD q)
      else subScaled w a q
    if 0 < it ∧ o.ndiag = 0 then .error .runtimeError
    else if 0 < it ∧ it % o.ndiag = 0 ∧ o.numeig ≤ k'.diag.length then
      if old.any (fun e => decide (distance (eigvals eigh o.numeig k') e < o.tol)) then .ok k'
      else loop eigh A o n (it + 1) w' k' (some (eigvals eigh o.numeig k'))
    else loop eigh A o n (it + 1) w' k' old

/-- `state += vec * u[n1, n2]` for all Krylov vectors (numpy_backend.py:526-528). -/
def combine (s : List Nat) (vecs : List (NDArray K)) (c : Nat → K) : NDArray K :=
  ⟨s, fun i => ∑ j ∈ range vecs.length, ((vecs.getD j ⟨s, fun _ => 0⟩).get i) * c j⟩

/-- The column `u[:, n]` of the eigenvectors, zero outside. -/
def column {m : Nat} (u : Matrix (Fin m) (Fin m) K) (n j : Nat) : K :=
  if h : j < m ∧ n < m then u ⟨j, h.1⟩ ⟨n, h.2⟩ else 0

/-- What the caller sees: eigenvalues, eigenvectors and the array `initial_state` after the call. -/
structure Result (K : Type) where
  vals : List ℝ
  vecs : List (NDArray K)
  initial : NDArray K

/-- `eigsh_lanczos` (numpy_backend.py:415-531) with an initial state.  `vector_n /= Z` is done in place, so the
caller's array is divided by its norm. -/
noncomputable def eigshLanczos (eigh : Eigh K) (A : NDArray K → Py (NDArray K)) (o : Opts) (x0 : NDArray K) :
    Py (Result K) :=
  if o.numKrylov < o.numeig then .error .valueError
  else if 1 < o.numeig ∧ o.reorth = false then .error .valueError
  else do
    let v ← Mps.divide x0 (Mps.norm x0)
    let k ← loop eigh A o o.numKrylov 0 v ⟨[], [], []⟩ none
    let e := eigh _ (tridiag k)
    let vecs ← (List.range (min o.numeig k.diag.length)).mapM fun n =>
      let state := combine x0.shape k.vecs (column e.2 n)
      Mps.divide state (Mps.norm state)
    pure ⟨(List.ofFn e.1).take o.numeig, vecs, v⟩

/-! ### Specification -/

/-- The entries of an array of shape `s` as a vector of Euclidean space. -/
noncomputable def vec (s : List Nat) (t : NDArray K) : EuclideanSpace K (Fin s.prod) :=
  WithLp.toLp 2 fun k => t.get (unravel s k)

/-- The function `A` is defined on arrays of shape `s` and acts as the linear operator `L`. -/
def ActsAs (s : List Nat) (A : NDArray K → Py (NDArray K))
    (L : EuclideanSpace K (Fin s.prod) →ₗ[K] EuclideanSpace K (Fin s.prod)) : Prop :=
  ∀ x : NDArray K, x.shape = s → ∃ y, A x = .ok y ∧ y.shape = s ∧ vec s y = L (vec s x)

/-- `np.linalg.eigh` diagonalises every Hermitian matrix, with ascending eigenvalues. -/
def EighOK (eigh : Eigh K) : Prop :=
  ∀ m (T : Matrix (Fin m) (Fin m) K), T.IsHermitian → IsEigh T (eigh m T).1 (eigh m T).2

/-- What the Lanczos method promises for a symmetric operator `L` and the initial vector `x`, with `m` Krylov
vectors. -/
structure Ritz (s : List Nat) (L : EuclideanSpace K (Fin s.prod) →ₗ[K] EuclideanSpace K (Fin s.prod))
    (x : EuclideanSpace K (Fin s.prod)) (o : Opts) (m : Nat) (r : Result K) : Prop where
  pos : 0 < m
  le : m ≤ o.numKrylov
  le_dim : m ≤ s.prod
  /-- as many pairs as requested, if the Krylov space is large enough -/
  vals : r.vals.length = min o.numeig m
  vecs : r.vecs.length = min o.numeig m
  sorted : r.vals.Pairwise (· ≤ ·)
  shape : ∀ t ∈ r.vecs, t.shape = s
  /-- the eigenvectors are orthonormal vectors of the Krylov space -/
  ortho : ∀ (i j : Nat) (t u : NDArray K), r.vecs[i]? = some t → r.vecs[j]? = some u →
    inner K (vec s t) (vec s u) = if i = j then 1 else 0
  inside : ∀ t ∈ r.vecs, vec s t ∈ krylovSpace L x m
  /-- the values are the matrix elements of the operator between them -/
  elem : ∀ (i j : Nat) (t u : NDArray K) (e : ℝ), r.vecs[i]? = some t → r.vecs[j]? = some u →
    r.vals[j]? = some e → inner K (vec s t) (L (vec s u)) = if i = j then (e : K) else 0
  /-- no vector of the Krylov space has a smaller expectation value than the first -/
  lowest : ∀ e ∈ r.vals.head?, ∀ y ∈ krylovSpace L x m, e * ‖y‖ ^ 2 ≤ RCLike.re (inner K y (L y))
  /-- if the loop ends early and not because of `tol`, the pairs are eigenpairs up to `delta` -/
  residual : o.tol ≤ 0 → m < o.numKrylov → ∀ (j : Nat) (t : NDArray K) (e : ℝ), r.vecs[j]? = some t →
    r.vals[j]? = some e → ‖L (vec s t) - (e : K) • vec s t‖ < o.delta

end TN.Lanczos
