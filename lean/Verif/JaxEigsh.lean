import Verif.Arnoldi

/-!
# `eigsh` of the jax backend (backends/jax/jitted_functions.py:249-349, 629-642, 878-1082, jax_backend.py:348-460)

The conventions are those of `Verif.Arnoldi`.
-/

set_option linter.unusedSectionVars false

namespace TN.Krylov

noncomputable section

open Classical

variable {𝕜 : Type} [RCLike 𝕜] {n m : Nat}

/-- `x.at[i].set(v)` -/
def setAt {k : Nat} (x : Fin k → 𝕜) (i : Nat) (v : 𝕜) : Fin k → 𝕜 := fun a => if a.val = i then v else x a

/-- `x[i]` -/
def readAt {k : Nat} (x : Fin k → 𝕜) (i : Nat) : 𝕜 := if h : 0 < k then x ⟨min i (k - 1), by omega⟩ else 0

/-- What `_lanczos_fact` carries from one iteration to the next (jitted_functions.py:345): `Vm`, `alphas`, `betas`,
`previous_vector`, `norm` and `i`. -/
structure LCarry (𝕜 : Type) (n m : Nat) where
  V : Fin m → Vec 𝕜 n
  al : Fin m → 𝕜
  be : Fin (m - 1) → 𝕜
  vec : Vec 𝕜 n
  norm : ℝ
  i : Nat

/-- The body of the iteration of `_lanczos_fact` (jitted_functions.py:317-335). -/
def lanczosBody (A : Vec 𝕜 n → Vec 𝕜 n) (tol : ℝ) (c : LCarry 𝕜 n m) : LCarry 𝕜 n m :=
  let g := gramSchmidt (upTo c.i c.V) (A c.vec)
  let al := setAt c.al c.i (readAt g.2 c.i)
  let w := normalize tol g.1
  if c.i + 1 < m then
    { V := setRow c.V (c.i + 1) w, al := al, be := setAt c.be c.i (‖g.1‖ : 𝕜), vec := w, norm := ‖g.1‖, i := c.i + 1 }
  else { V := c.V, al := al, be := c.be, vec := w, norm := ‖g.1‖, i := c.i + 1 }

/-- The loop of `_lanczos_fact` (jitted_functions.py:337-346); at most `m` iterations are possible. -/
def lanczosLoop (A : Vec 𝕜 n → Vec 𝕜 n) (tol : ℝ) : Nat → LCarry 𝕜 n m → LCarry 𝕜 n m
  | 0, c => c
  | fuel + 1, c => if c.i < m ∧ tol < c.norm then lanczosLoop A tol fuel (lanczosBody A tol c) else c

/-- `_lanczos_fact(matvec, args, v0, Vm, alphas, betas, start, num_krylov_vecs, tol)` (jitted_functions.py:249-348) -/
def lanczosFact (A : Vec 𝕜 n → Vec 𝕜 n) (tol : ℝ) (v0 : Vec 𝕜 n) (V : Fin m → Vec 𝕜 n) (al : Fin m → 𝕜)
    (be : Fin (m - 1) → 𝕜) (start : Nat) : LCarry 𝕜 n m :=
  let v := normalize tol v0
  lanczosLoop A tol m
    { V := setRow V start v, al := al, be := if 0 < start then setAt be (start - 1) (‖v0‖ : 𝕜) else be, vec := v,
      norm := ‖v0‖, i := start }

/-- `diag(alphas) + diag(betas, -1) + diag(betas.conj(), 1)` (jitted_functions.py:1009, 1068) -/
def tri (al : Fin m → 𝕜) (be : Fin (m - 1) → 𝕜) : Mat 𝕜 m := fun a b =>
  if a.val = b.val then al a
  else if h : a.val = b.val + 1 then be ⟨b.val, by omega⟩
  else if h : b.val = a.val + 1 then (starRingEnd 𝕜) (be ⟨a.val, by omega⟩)
  else 0

/-- What the outer loop carries (jitted_functions.py:1062). -/
structure LOuter (𝕜 : Type) (n m : Nat) where
  V : Fin m → Vec 𝕜 n
  al : Fin m → 𝕜
  be : Fin (m - 1) → 𝕜
  f : Vec 𝕜 n
  numits : Nat
  arConverged : Bool
  converged : Bool
  norm : ℝ

/-- The outcome of `_lanczos_fact` as a carry of the outer loop. -/
def LCarry.toOuter (tol : ℝ) (c : LCarry 𝕜 n m) : LOuter 𝕜 n m :=
  { V := c.V, al := c.al, be := c.be, f := (c.norm : 𝕜) • c.vec, numits := c.i, arConverged := decide (c.norm < tol),
    converged := false, norm := c.norm }

/-- `Hk[:numeig, :numeig]` (jitted_functions.py:1028) -/
def leading (k : Nat) (H : Mat 𝕜 m) : Mat 𝕜 k := fun a b => readEntry H a.val b.val

/-- `check_eigvals_convergence(beta_m, Hm, Hm_norm, tol)` (jitted_functions.py:629-642), for a matrix of size `k`. -/
def eighConverged {k : Nat} (T : Kernels 𝕜 k) (eps tol β : ℝ) (H : Mat 𝕜 k) : Prop :=
  ∀ j : Fin k, β * ‖readEntry (T.eig H).2 (k - 1) j‖ < max (eps * frob H) (‖(T.eig H).1 j‖ * tol)

/-- The body of the outer loop (jitted_functions.py:1006-1053).  `T` are the kernels for matrices of size `numeig`. -/
def louterBody (K : Kernels 𝕜 m) {numeig : Nat} (T : Kernels 𝕜 numeig) (A : Vec 𝕜 n → Vec 𝕜 n) (eps tol : ℝ) (w : Which)
    (o : LOuter 𝕜 n m) : LOuter 𝕜 n m :=
  let s := shiftedQR K o.V (tri o.al o.be) o.f (shifts K w numeig (K.eig (tri o.al o.be)).1) numeig
  let al : Fin m → 𝕜 := fun a => if numeig ≤ a.val then 0 else s.2.1 a a
  let be : Fin (m - 1) → 𝕜 := fun b => if numeig ≤ b.val + 1 then 0 else s.2.1 ⟨b.val + 1, by omega⟩ ⟨b.val, by omega⟩
  if eighConverged T eps tol ‖s.2.2‖ (leading numeig s.2.1) then
    { V := s.1, al := al, be := be, f := s.2.2, numits := numeig, arConverged := false, converged := true, norm := ‖s.2.2‖ }
  else (lanczosFact A tol s.2.2 s.1 al be numeig).toOuter tol

/-- The outer loop (jitted_functions.py:1055-1063); `rest` is `maxiter - it`. -/
def louterLoop (K : Kernels 𝕜 m) {numeig : Nat} (T : Kernels 𝕜 numeig) (A : Vec 𝕜 n → Vec 𝕜 n) (eps tol : ℝ)
    (w : Which) : Nat → LOuter 𝕜 n m → LOuter 𝕜 n m
  | 0, o => o
  | rest + 1, o => if o.converged ∨ o.arConverged then o
    else louterLoop K T A eps tol w rest (louterBody K T A eps tol w o)

/-- The state of the method after at most `i` restarts. -/
def eigshState (K : Kernels 𝕜 m) {numeig : Nat} (T : Kernels 𝕜 numeig) (eps : ℝ) (A : Vec 𝕜 n → Vec 𝕜 n)
    (init : Vec 𝕜 n) (w : Which) (tol : ℝ) (i : Nat) : LOuter 𝕜 n m :=
  louterLoop K T A eps tol w i ((lanczosFact A tol init (fun _ => 0) (fun _ => 0) (fun _ => 0) 0).toOuter tol)

/-- `JaxBackend.eigsh` (jax_backend.py:348-460) with `implicitly_restarted_lanczos_method`
(jitted_functions.py:918-1081): the list of pairs and `numits`. -/
def eigsh (K : Kernels 𝕜 m) {numeig : Nat} (T : Kernels 𝕜 numeig) (eps : ℝ) (A : Vec 𝕜 n → Vec 𝕜 n)
    (init : Vec 𝕜 n) (w : Which) (tol : ℝ) (maxiter : Nat) : Py (List (𝕜 × Option (Vec 𝕜 n)) × Nat) :=
  if w ≠ .SA ∧ w ≠ .LA ∧ w ≠ .LM then .error .valueError
  else if m < numeig then .error .valueError
  else if m ≤ numeig ∧ numeig < n then .error .valueError
  else if n < numeig then .error .valueError
  else
    let o : LOuter 𝕜 n m := eigshState K T eps A init w tol (maxiter - 1)
    .ok (finish K w numeig o.V (tri o.al o.be) o.numits, o.numits)

end

end TN.Krylov
