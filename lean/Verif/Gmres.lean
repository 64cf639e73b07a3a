import Verif.Nd
import Mathlib.Analysis.InnerProductSpace.PiL2
import Mathlib.Analysis.InnerProductSpace.Orthonormal

/-!
# `gmres` of the jax backend (backends/jax/jitted_functions.py:1085-1498)

Vectors are elements of `EuclideanSpace 𝕜 (Fin n)`, arithmetic is exact.  A division by zero gives NaN in jax; the
model keeps track of it with a flag.  Following the documentation of jax, reading outside of an array reads its last
entry, and writing outside of it does nothing.
-/

set_option linter.unusedSectionVars false

namespace TN.Gmres

noncomputable section

open Classical

variable {𝕜 : Type} [RCLike 𝕜] {n : Nat}

/-- A vector of size `n`. -/
abbrev Vec (𝕜 : Type) (n : Nat) := EuclideanSpace 𝕜 (Fin n)

/-- `givens_rotation(v1, v2)` (jitted_functions.py:1476-1490); `none` if both numbers are NaN. -/
def givensRotation (sq : 𝕜 → 𝕜) (v1 v2 : 𝕜) : Option (𝕜 × 𝕜) :=
  let t := sq (v1 ^ 2 + v2 ^ 2)
  if t = 0 then none else some (v1 / t, -v2 / t)

/-- `apply_rotations(H_col, givens, k)` (jitted_functions.py:1406-1440); `cs` and `sn` are the rows of `givens`. -/
def applyRotations (cs sn col : Nat → 𝕜) : Nat → Nat → 𝕜
  | 0 => col
  | i + 1 =>
    let c := applyRotations cs sn col i
    let c' := Function.update c i (cs i * c i - sn i * c (i + 1))
    Function.update c' (i + 1) (sn i * c i + cs i * c (i + 1))

/-- `jax.lax.scan(_gs_step, init=v, xs=V.T)` over the first `m` columns (jitted_functions.py:1370-1389): the remaining
vector and the overlaps. -/
def gsScan (V : Nat → Vec 𝕜 n) (v : Vec 𝕜 n) : Nat → Vec 𝕜 n × (Nat → 𝕜)
  | 0 => (v, fun _ => 0)
  | i + 1 =>
    let s := gsScan V v i
    let h := inner 𝕜 (V i) s.1
    (s.1 - h • V i, Function.update s.2 i h)

/-- What `gmres_krylov` carries from one iteration to the next (jitted_functions.py:1265-1272).  The error is kept as a
numerator and a denominator.  `nan` says that the error is NaN. -/
structure Carry (𝕜 : Type) (n : Nat) where
  k : Nat
  V : Nat → Vec 𝕜 n
  R : Nat → Nat → 𝕜
  beta : Nat → 𝕜
  err : ℝ × ℝ
  cs : Nat → 𝕜
  sn : Nat → 𝕜
  nan : Bool

/-- `tol < err`, where `err` is a quotient: a positive number divided by zero is infinite, zero divided by zero is
NaN. -/
def Exceeds (tol : ℝ) (err : ℝ × ℝ) : Prop := if err.2 = 0 then 0 < err.1 else tol < err.1 / err.2

/-- `gmres_krylov_work` (jitted_functions.py:1280-1304) with `kth_arnoldi_step` (1352-1400) and `apply_givens_rotation`
(1443-1473).  `V` has `n_kry + 1` columns, `R` has `n_kry + 1` rows and `n_kry` columns, `givens` has `n_kry` columns and
`beta_vec` has `n_kry + 1` entries.  For `k = n_kry` the writes to `V`, `R`, `givens` and `beta_vec[k + 1]` are outside, and
the last column of `givens` is read. -/
def work (sq : 𝕜 → 𝕜) (A : Vec 𝕜 n → Vec 𝕜 n) (tol bNorm : ℝ) (nk : Nat) (st : Carry 𝕜 n) : Carry 𝕜 n :=
  if st.k < nk then
    let g := gsScan st.V (A (st.V st.k)) (nk + 1)
    let vNorm := ‖g.1‖
    let rNew := if tol < vNorm then ((1 / vNorm : ℝ) : 𝕜) • g.1 else 0
    let V := Function.update st.V (st.k + 1) rNew
    let col := applyRotations st.cs st.sn (Function.update g.2 (st.k + 1) (vNorm : 𝕜)) st.k
    match givensRotation sq (col st.k) (col (st.k + 1)) with
    | none => { st with k := st.k + 1, nan := true }
    | some (c, s) =>
      let rCol := Function.update (Function.update col st.k (c * col st.k - s * col (st.k + 1))) (st.k + 1) 0
      { k := st.k + 1
        V := V
        R := fun i j => if j = st.k then rCol i else st.R i j
        beta := Function.update (Function.update st.beta st.k (c * st.beta st.k)) (st.k + 1) (s * st.beta st.k)
        err := (‖s * st.beta st.k‖, bNorm)
        cs := Function.update st.cs st.k c
        sn := Function.update st.sn st.k s
        nan := false }
  else
    { st with
      k := st.k + 1
      beta := Function.update st.beta st.k (st.cs (nk - 1) * st.beta st.k)
      err := (‖st.sn (nk - 1) * st.beta st.k‖, bNorm) }

/-- The loop of `gmres_krylov` (jitted_functions.py:1306-1342).  Its condition takes the carry apart in the wrong order:
what it calls `k < n_kry` is `tol < err`, and what it calls `err >= tol` is `n_kry >= k`.  `fuel` bounds the number of
iterations; `n_kry + 2` is more than the loop can do. -/
def loop (sq : 𝕜 → 𝕜) (A : Vec 𝕜 n → Vec 𝕜 n) (tol bNorm : ℝ) (nk : Nat) : Nat → Carry 𝕜 n → Carry 𝕜 n
  | 0, st => st
  | fuel + 1, st =>
    if st.nan = false ∧ Exceeds tol st.err ∧ st.k ≤ nk then
      loop sq A tol bNorm nk fuel (work sq A tol bNorm nk st)
    else st

/-- The start of `gmres_krylov` (jitted_functions.py:1246-1272). -/
def start (r : Vec 𝕜 n) : Carry 𝕜 n :=
  { k := 0
    V := Function.update (fun _ => 0) 0 (((1 / ‖r‖ : ℝ) : 𝕜) • r)
    R := fun _ _ => 0
    beta := Function.update (fun _ => 0) 0 ((‖r‖ : ℝ) : 𝕜)
    err := (‖r‖, 1)
    cs := fun _ => 0
    sn := fun _ => 0
    nan := false }

/-- `gmres_krylov` (jitted_functions.py:1224-1347) -/
def krylov (sq : 𝕜 → 𝕜) (A : Vec 𝕜 n → Vec 𝕜 n) (nk : Nat) (r : Vec 𝕜 n) (tol bNorm : ℝ) : Carry 𝕜 n :=
  loop sq A tol bNorm nk (nk + 2) (start r)

/-- `gmres_update` (jitted_functions.py:1203-1222); `solve` stands for `jax.scipy.linalg.solve_triangular`. -/
def update (solve : Nat → (Nat → Nat → 𝕜) → (Nat → 𝕜) → Nat → 𝕜) (nk : Nat) (st : Carry 𝕜 n) (x0 : Vec 𝕜 n) : Vec 𝕜 n :=
  let q := min st.k nk
  x0 + ∑ j ∈ Finset.range q, solve q st.R st.beta j • st.V j

/-- `gmres` (jitted_functions.py:1155-1180): one restart.  `none` stands for a vector of NaN; its residual is NaN, so
that the loop is not entered and `x0` is returned. -/
def restart (sq : 𝕜 → 𝕜) (solve : Nat → (Nat → Nat → 𝕜) → (Nat → 𝕜) → Nat → 𝕜) (A : Vec 𝕜 n → Vec 𝕜 n) (b : Vec 𝕜 n)
    (nk : Nat) (x0 : Vec 𝕜 n) (tol : ℝ) : Option (Vec 𝕜 n) → Bool × Option (Vec 𝕜 n)
  | none => (decide (0 + 1 < nk), some x0)
  | some x =>
    let st := krylov sq A nk (b - A x) tol ‖b‖
    (decide (st.k + 1 < nk), if st.nan then none else some (update solve nk st x0))

/-- The loop of `gmres_m` (jitted_functions.py:1144-1152) with `rest` restarts to go: the vector, the last value of
`n_iter` and `done`. -/
def restarts (sq : 𝕜 → 𝕜) (solve : Nat → (Nat → Nat → 𝕜) → (Nat → 𝕜) → Nat → 𝕜) (A : Vec 𝕜 n → Vec 𝕜 n) (b : Vec 𝕜 n)
    (nk : Nat) (x0 : Vec 𝕜 n) (tol : ℝ) : Nat → Nat → Option (Vec 𝕜 n) → Py (Option (Vec 𝕜 n) × Nat × Bool)
  | 0, _, _ => .error .runtimeError
  | rest + 1, nIter, x =>
    let s := restart sq solve A b nk x0 tol x
    if s.1 ∨ rest = 0 then .ok (s.2, nIter, s.1) else restarts sq solve A b nk x0 tol rest (nIter + 1) s.2

/-- `gmres(A_mv, b, x0=x0, tol=tol, atol=atol, num_krylov_vectors=m, maxiter=maxiter)` of the jax backend
(abstract_backend.py:566-611, jax_backend.py:676-703, jitted_functions.py:1112-1152): the solution and `info`.  Without any
restart the variables `beta`, `n_iter` and `done` are unbound.  Left out: reshaping of `b`, the comparison of the shapes
and dtypes of `x0` and `b`, and the arguments `A_args`, `A_kwargs` and `M`. -/
def gmres (sq : 𝕜 → 𝕜) (solve : Nat → (Nat → Nat → 𝕜) → (Nat → 𝕜) → Nat → 𝕜) (A : Vec 𝕜 n → Vec 𝕜 n) (b : Vec 𝕜 n)
    (x0 : Option (Vec 𝕜 n)) (tol : ℝ) (atol : Option ℝ) (m : Int) (maxiter : Nat) : Py (Option (Vec 𝕜 n) × Nat) := do
  let x0 := x0.getD 0
  let m := min m n
  if tol < 0 then .error .valueError
  else
    let atol := atol.getD tol
    if atol < 0 then .error .valueError
    else if m ≤ 0 then .error .valueError
    else do
      let (x, nIter, done) ← restarts sq solve A b m.toNat x0 (max (tol * ‖b‖) atol) maxiter 0 (some x0)
      .ok (x, if done then 0 else nIter)

/-! ## Specification -/

/-- `solve_triangular` solves upper triangular systems without a zero on the diagonal. -/
def TriSolve (solve : Nat → (Nat → Nat → 𝕜) → (Nat → 𝕜) → Nat → 𝕜) : Prop :=
  ∀ q R β, (∀ i < q, ∀ j < i, R i j = 0) → (∀ i < q, R i i ≠ 0) →
    ∀ i < q, ∑ j ∈ Finset.range q, R i j * solve q R β j = β i

/-- The Krylov space of dimension at most `q`. -/
def Kry (A : Vec 𝕜 n →ₗ[𝕜] Vec 𝕜 n) (r : Vec 𝕜 n) (q : Nat) : Submodule 𝕜 (Vec 𝕜 n) :=
  Submodule.span 𝕜 (Set.range (fun i : Fin q => (A ^ (i : Nat)) r))

/-- `x` has the smallest residual among the vectors that differ from `x0` by an element of the Krylov space of the
residual of `x0`. -/
def Minimises (A : Vec 𝕜 n →ₗ[𝕜] Vec 𝕜 n) (b x0 : Vec 𝕜 n) (q : Nat) (x : Vec 𝕜 n) : Prop :=
  x - x0 ∈ Kry A (b - A x0) q ∧ ∀ z ∈ Kry A (b - A x0) q, ‖b - A x‖ ≤ ‖b - A (x0 + z)‖

end
end TN.Gmres
