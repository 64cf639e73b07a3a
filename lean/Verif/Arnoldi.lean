import Verif.Nd
import Mathlib.Analysis.InnerProductSpace.PiL2
import Mathlib.Analysis.InnerProductSpace.Orthonormal
import Mathlib.LinearAlgebra.Matrix.Charpoly.Basic

/-!
# `eigs` of the jax backend (backends/jax/jitted_functions.py:23-57, 352-876, jax_backend.py:234-333)

Vectors are elements of `EuclideanSpace 𝕜 (Fin n)`, arithmetic is exact, and the dtype is that of the factorisation
throughout.  `m` is `num_krylov_vecs`, the number of rows of `Vm`.  Following the documentation of jax, reading outside
of an array reads its last entry, and writing outside of it does nothing.  A vector divided by zero is NaN, written
`none`.
-/

set_option linter.unusedSectionVars false

namespace TN.Krylov

noncomputable section

open Classical

variable {𝕜 : Type} [RCLike 𝕜] {n m : Nat}

/-- A vector of size `n`. -/
abbrev Vec (𝕜 : Type) (n : Nat) := EuclideanSpace 𝕜 (Fin n)

/-- A matrix of size `num_krylov_vecs`. -/
abbrev Mat (𝕜 : Type) (m : Nat) := Matrix (Fin m) (Fin m) 𝕜

/-- `Vm.at[i, :].set(x)` -/
def setRow (V : Fin m → Vec 𝕜 n) (i : Nat) (x : Vec 𝕜 n) : Fin m → Vec 𝕜 n := fun l => if l.val = i then x else V l

/-- `H.at[:, i].set(c)` -/
def setCol (H : Mat 𝕜 m) (i : Nat) (c : Fin m → 𝕜) : Mat 𝕜 m := fun a b => if b.val = i then c a else H a b

/-- `H.at[i, j].set(x)` -/
def setEntry (H : Mat 𝕜 m) (i j : Nat) (x : 𝕜) : Mat 𝕜 m := fun a b => if a.val = i ∧ b.val = j then x else H a b

/-- `(i >= arange(m))[:, None] * Vm` -/
def upTo (i : Nat) (V : Fin m → Vec 𝕜 n) : Fin m → Vec 𝕜 n := fun l => if l.val ≤ i then V l else 0

/-- One pass of `iterative_classical_gram_schmidt` (jitted_functions.py:50-55). -/
def gsPass (V : Fin m → Vec 𝕜 n) (w : Vec 𝕜 n) : Vec 𝕜 n × (Fin m → 𝕜) :=
  (w - ∑ l, inner 𝕜 (V l) w • V l, fun l => inner 𝕜 (V l) w)

/-- `iterative_classical_gram_schmidt(vector, krylov_vectors)` with the default of two passes
(jitted_functions.py:26-57). -/
def gramSchmidt (V : Fin m → Vec 𝕜 n) (w : Vec 𝕜 n) : Vec 𝕜 n × (Fin m → 𝕜) :=
  let p := gsPass V w
  let q := gsPass V p.1
  (q.1, fun l => 0 + p.2 l + q.2 l)

/-- `x / norm` if the norm is larger than `tol`, else `x * 0.0` (jitted_functions.py:308-310, 490-492). -/
def normalize (tol : ℝ) (x : Vec 𝕜 n) : Vec 𝕜 n := if tol < ‖x‖ then ((1 / ‖x‖ : ℝ) : 𝕜) • x else 0

/-- What `_arnoldi_fact` carries from one iteration to the next (jitted_functions.py:530): `Vm`, `H`,
`previous_vector`, `norm` and `i`. -/
structure Carry (𝕜 : Type) (n m : Nat) where
  V : Fin m → Vec 𝕜 n
  H : Mat 𝕜 m
  vec : Vec 𝕜 n
  norm : ℝ
  i : Nat

/-- The body of the iteration of `_arnoldi_fact` (jitted_functions.py:498-519). -/
def arnoldiBody (A : Vec 𝕜 n → Vec 𝕜 n) (tol : ℝ) (c : Carry 𝕜 n m) : Carry 𝕜 n m :=
  let g := gramSchmidt (upTo c.i c.V) (A c.vec)
  let H := setCol c.H c.i g.2
  let w := normalize tol g.1
  if c.i + 1 < m then
    { V := setRow c.V (c.i + 1) w, H := setEntry H (c.i + 1) c.i (‖g.1‖ : 𝕜), vec := w, norm := ‖g.1‖, i := c.i + 1 }
  else { V := c.V, H := H, vec := w, norm := ‖g.1‖, i := c.i + 1 }

/-- The loop of `_arnoldi_fact` (jitted_functions.py:521-531); at most `m` iterations are possible. -/
def arnoldiLoop (A : Vec 𝕜 n → Vec 𝕜 n) (tol : ℝ) : Nat → Carry 𝕜 n m → Carry 𝕜 n m
  | 0, c => c
  | fuel + 1, c => if c.i < m ∧ tol < c.norm then arnoldiLoop A tol fuel (arnoldiBody A tol c) else c

/-- `_arnoldi_fact(matvec, args, v0, Vm, H, start, num_krylov_vecs, tol)` (jitted_functions.py:404-533) -/
def arnoldiFact (A : Vec 𝕜 n → Vec 𝕜 n) (tol : ℝ) (v0 : Vec 𝕜 n) (V : Fin m → Vec 𝕜 n) (H : Mat 𝕜 m) (start : Nat) :
    Carry 𝕜 n m :=
  let v := normalize tol v0
  arnoldiLoop A tol m
    { V := setRow V start v, H := if 0 < start then setEntry H start (start - 1) (‖v0‖ : 𝕜) else H, vec := v, norm := ‖v0‖,
      i := start }

/-- `fm = residual.ravel() * norm` (jitted_functions.py:762, 818) -/
def Carry.f (c : Carry 𝕜 n m) : Vec 𝕜 n := (c.norm : 𝕜) • c.vec

/-- The kernels: `jax.numpy.linalg.qr`, `jax.numpy.linalg.eig` (or `eigh`) and the order of the eigenvalues that
`argsort(..., kind='stable')[::-1]` of a list of keys finds. -/
structure Kernels (𝕜 : Type) (m : Nat) where
  qr : Mat 𝕜 m → Mat 𝕜 m × Mat 𝕜 m
  eig : Mat 𝕜 m → (Fin m → 𝕜) × Mat 𝕜 m
  desc : (Fin m → ℝ) → Fin m → Fin m

/-- Which eigenvalues to find. -/
inductive Which where
  | LR | LM | SA | LA
deriving DecidableEq

/-- The key by which `_LR_sort`, `_LM_sort`, `_LA_sort` and `_SA_sort` order the eigenvalues, the most wanted one first
(jitted_functions.py:540-578). -/
def Which.key : Which → 𝕜 → ℝ
  | .LR, z => RCLike.re z
  | .LM, z => ‖z‖
  | .LA, z => RCLike.re z
  | .SA, z => -RCLike.re z

/-- The indices of the eigenvalues in the order of `sort_fun`. -/
def order (K : Kernels 𝕜 m) (w : Which) (vals : Fin m → 𝕜) : Fin m → Fin m := K.desc fun j => w.key (vals j)

/-- `evals[inds][-p:]` for `p = num_krylov_vecs - numeig` (jitted_functions.py:546).  For `p = 0` these are all. -/
def shifts (K : Kernels 𝕜 m) (w : Which) (numeig : Nat) (vals : Fin m → 𝕜) : List 𝕜 :=
  (List.ofFn fun j => vals (order K w vals j)).drop (if m - numeig = 0 then 0 else m - (m - numeig))

/-- One shift of `shifted_QR` (jitted_functions.py:593-600) -/
def qrBody (K : Kernels 𝕜 m) (s : (Fin m → Vec 𝕜 n) × Mat 𝕜 m × (Fin m → 𝕜)) (μ : 𝕜) :
    (Fin m → Vec 𝕜 n) × Mat 𝕜 m × (Fin m → 𝕜) :=
  let QR := K.qr (s.2.1 - μ • 1)
  (fun a => ∑ b, QR.1 b a • s.1 b, QR.2 * QR.1 + μ • 1, Matrix.vecMul s.2.2 QR.1)

/-- A row of `Vm`. -/
def readRow (V : Fin m → Vec 𝕜 n) (i : Nat) : Vec 𝕜 n := if h : 0 < m then V ⟨min i (m - 1), by omega⟩ else 0

/-- An entry of a matrix. -/
def readEntry (H : Mat 𝕜 m) (i j : Nat) : 𝕜 :=
  if h : 0 < m then H ⟨min i (m - 1), by omega⟩ ⟨min j (m - 1), by omega⟩ else 0

/-- `shifted_QR(Vm, Hm, fm, shifts, numeig)` (jitted_functions.py:583-606) -/
def shiftedQR (K : Kernels 𝕜 m) (V : Fin m → Vec 𝕜 n) (H : Mat 𝕜 m) (f : Vec 𝕜 n) (sh : List 𝕜) (numeig : Nat) :
    (Fin m → Vec 𝕜 n) × Mat 𝕜 m × Vec 𝕜 n :=
  let s := sh.foldl (qrBody K) (V, H, fun j => if j.val + 1 = m then 1 else 0)
  let q := if h : 0 < m then s.2.2 ⟨min (numeig - 1) (m - 1), by omega⟩ else 0
  (s.1, s.2.1, readEntry s.2.1 numeig (numeig - 1) • readRow s.1 numeig + q • f)

/-- The Frobenius norm, `jax.numpy.linalg.norm`. -/
def frob (H : Mat 𝕜 m) : ℝ := Real.sqrt (∑ a, ∑ b, ‖H a b‖ ^ 2)

/-- `check_eigvals_convergence(beta_m, Hm, tol, numeig)` (jitted_functions.py:644-657); `eps` is the machine epsilon of the
dtype. -/
def eigConverged (K : Kernels 𝕜 m) (eps tol β : ℝ) (H : Mat 𝕜 m) (numeig : Nat) : Prop :=
  ∀ j : Fin m, j.val < numeig →
    β * ‖readEntry (K.eig H).2 (numeig - 1) j‖ < max (eps * frob H) (‖(K.eig H).1 j‖ * tol)

/-- What the outer loop carries (jitted_functions.py:843). -/
structure Outer (𝕜 : Type) (n m : Nat) where
  V : Fin m → Vec 𝕜 n
  H : Mat 𝕜 m
  f : Vec 𝕜 n
  numits : Nat
  arConverged : Bool
  converged : Bool
  norm : ℝ

/-- The outcome of `_arnoldi_fact` as a carry of the outer loop. -/
def Carry.toOuter (tol : ℝ) (c : Carry 𝕜 n m) : Outer 𝕜 n m :=
  { V := c.V, H := c.H, f := c.f, numits := c.i, arConverged := decide (c.norm < tol), converged := false,
    norm := c.norm }

/-- The body of the outer loop (jitted_functions.py:797-834). -/
def outerBody (K : Kernels 𝕜 m) (A : Vec 𝕜 n → Vec 𝕜 n) (eps tol : ℝ) (w : Which) (numeig : Nat) (o : Outer 𝕜 n m) :
    Outer 𝕜 n m :=
  let s := shiftedQR K o.V o.H o.f (shifts K w numeig (K.eig o.H).1) numeig
  let Vk : Fin m → Vec 𝕜 n := fun l => if numeig ≤ l.val then 0 else s.1 l
  let Hk : Mat 𝕜 m := fun a b => if numeig ≤ a.val ∨ numeig ≤ b.val then 0 else s.2.1 a b
  if eigConverged K eps tol ‖s.2.2‖ s.2.1 numeig then
    { V := Vk, H := Hk, f := s.2.2, numits := numeig, arConverged := false, converged := true, norm := ‖s.2.2‖ }
  else (arnoldiFact A tol s.2.2 Vk Hk numeig).toOuter tol

/-- The outer loop (jitted_functions.py:836-845); `rest` is `maxiter - it`. -/
def outerLoop (K : Kernels 𝕜 m) (A : Vec 𝕜 n → Vec 𝕜 n) (eps tol : ℝ) (w : Which) (numeig : Nat) :
    Nat → Outer 𝕜 n m → Outer 𝕜 n m
  | 0, o => o
  | rest + 1, o => if o.converged ∨ o.arConverged then o
    else outerLoop K A eps tol w numeig rest (outerBody K A eps tol w numeig o)

/-- `(numits > arange(m))[:, None] * Hm * (numits > arange(m))[None, :]` (jitted_functions.py:867-868) -/
def cut (k : Nat) (H : Mat 𝕜 m) : Mat 𝕜 m := fun a b => if a.val < k ∧ b.val < k then H a b else 0

/-- One row of `get_vectors(Vm, unitary, inds, numeig)` (jitted_functions.py:608-626) -/
def getVector (V : Fin m → Vec 𝕜 n) (u : Fin m → 𝕜) : Option (Vec 𝕜 n) :=
  let x := ∑ l, u l • V l
  if ‖x‖ = 0 then none else some (((1 / ‖x‖ : ℝ) : 𝕜) • x)

/-- The end of `implicitly_restarted_arnoldi_method` (jitted_functions.py:846-874).  Line 851 sets an entry of `Hm` in a row
that is then multiplied by zero. -/
def finish (K : Kernels 𝕜 m) (w : Which) (numeig : Nat) (V : Fin m → Vec 𝕜 n) (H : Mat 𝕜 m) (numits : Nat) :
    List (𝕜 × Option (Vec 𝕜 n)) :=
  let e := K.eig (cut numits H)
  ((List.ofFn fun j => (e.1 (order K w e.1 j), getVector V fun a => e.2 a (order K w e.1 j)))).take numeig

/-- `JaxBackend.eigs` (jax_backend.py:234-333) with `implicitly_restarted_arnoldi_method` (jitted_functions.py:700-874):
the list of pairs and `numits`. -/
def eigs (K : Kernels 𝕜 m) (eps : ℝ) (A : Vec 𝕜 n → Vec 𝕜 n) (init : Vec 𝕜 n) (numeig : Nat) (w : Which) (tol : ℝ)
    (maxiter : Nat) : Py (List (𝕜 × Option (Vec 𝕜 n)) × Nat) :=
  if w ≠ .LR ∧ w ≠ .LM then .error .valueError
  else if m < numeig then .error .valueError
  else if ¬ (numeig ≤ m ∧ m ≤ n) then .error .valueError
  else
    let c := (arnoldiFact A tol init (fun _ => 0) 0 0 : Carry 𝕜 n m)
    let o := outerLoop K A eps tol w numeig (maxiter - 1) (c.toOuter tol)
    .ok (finish K w numeig o.V o.H o.numits, o.numits)

end

end TN.Krylov
