import Verif.JaxEigsh

/-!
# `eigsh_lanczos` of the jax backend (backends/jax/jitted_functions.py:60-235, jax_backend.py:463-577)

The conventions are those of `Verif.Arnoldi`.  `m` is `num_krylov_vecs`.  A vector that is divided by a zero norm is NaN,
and so are then all the numbers that follow, the matrix that is diagonalised and everything that is returned; this
outcome is written `none`.
-/

set_option linter.unusedSectionVars false

namespace TN.Krylov

noncomputable section

open Classical

variable {𝕜 : Type} [RCLike 𝕜] {n m : Nat}

/-- What `body_lanczos` carries (jitted_functions.py:141): `krylov_vectors`, `alphas`, `betas` and `i`.  The entries of `betas`
are norms. -/
structure JCarry (𝕜 : Type) (n m : Nat) where
  kv : Fin (m + 2) → Vec 𝕜 n
  al : Fin m → 𝕜
  be : Fin (m + 1) → ℝ
  i : Nat

/-- `(i > arange(ncv + 2))[mask_slice] * kv` (jitted_functions.py:146) -/
def before (i : Nat) (V : Fin m → Vec 𝕜 n) : Fin m → Vec 𝕜 n := fun l => if l.val < i then V l else 0

/-- `body_lanczos` (jitted_functions.py:140-179).  The two inner `while_loop`s run once or not at all, depending on
`reortho`. -/
def jlBody (reortho : Bool) (A : Vec 𝕜 n → Vec 𝕜 n) (s : JCarry 𝕜 n m) : Option (JCarry 𝕜 n m) :=
  let x := readRow s.kv s.i
  let pv := if reortho then (gramSchmidt (before s.i s.kv) x).1 else x
  let β := ‖pv‖
  if β = 0 then none
  else
    let w := ((1 / β : ℝ) : 𝕜) • pv
    let α := inner 𝕜 w (A w)
    let next := if reortho then A w else A w - α • w - (β : 𝕜) • readRow s.kv (s.i - 1)
    some { kv := setRow (setRow s.kv s.i w) (s.i + 1) next, al := setAt s.al (s.i - 1) α, be := setAt s.be s.i β, i := s.i + 1 }

/-- The `while_loop` (jitted_functions.py:181-185, 202-203); at most `m` iterations are possible. -/
def jlLoop (reortho : Bool) (A : Vec 𝕜 n → Vec 𝕜 n) (delta : ℝ) : Nat → JCarry 𝕜 n m → Option (JCarry 𝕜 n m)
  | 0, s => some s
  | fuel + 1, s =>
    if s.i ≤ m ∧ delta < readAt s.be (s.i - 1) then (jlBody reortho A s).bind (jlLoop reortho A delta fuel) else some s

/-- `initvals` (jitted_functions.py:187-201) -/
def jlInit (init : Vec 𝕜 n) : JCarry 𝕜 n m :=
  { kv := setRow (fun _ => 0) 1 init, al := fun _ => 0, be := setAt (fun _ => 0) 0 1, i := 1 }

/-- `diag(alphas) + diag(betas[2:], 1) + diag(conj(betas[2:]), -1)` (jitted_functions.py:215-216) -/
def JCarry.mat (s : JCarry 𝕜 n m) : Mat 𝕜 m := tri s.al fun b => ((s.be ⟨b.val + 2, by omega⟩ : ℝ) : 𝕜)

/-- `krv[m + 1]` (jitted_functions.py:226) -/
def JCarry.rows (s : JCarry 𝕜 n m) : Fin m → Vec 𝕜 n := fun a => s.kv ⟨a.val + 1, by omega⟩

/-- `JaxBackend.eigsh_lanczos` (jax_backend.py:463-577) with `jax_lanczos` (jitted_functions.py:95-233): the list of pairs and
`numits`, or `none` if they are all NaN.  `eigh` is `jax.numpy.linalg.eigh`.  The loop over `neig * (ncv + 1)` indices
(jitted_functions.py:221-231) adds each of the `ncv` components of each of the `neig` vectors once; what it adds to a vector
after the last one is dropped.  The warning about `numeig > numits` and the creation of a random initial state are left
out. -/
def eigshLanczos (eigh : Mat 𝕜 m → (Fin m → 𝕜) × Mat 𝕜 m) (A : Vec 𝕜 n → Vec 𝕜 n) (init : Vec 𝕜 n) (numeig : Nat) (delta : ℝ)
    (reortho : Bool) : Py (Option (List (𝕜 × Option (Vec 𝕜 n)) × Nat)) :=
  if m < numeig then .error .valueError
  else if 1 < numeig ∧ reortho = false then .error .valueError
  else .ok ((jlLoop reortho A delta m (jlInit init : JCarry 𝕜 n m)).map fun s =>
    ((List.ofFn fun j => ((eigh s.mat).1 j, getVector s.rows fun a => (eigh s.mat).2 a j)).take numeig, s.i))

end

end TN.Krylov
