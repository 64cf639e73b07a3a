import Verif.MpsNcon
import Verif.Decomp

/-!
# Finite matrix product states: the model

`BaseMPS` and `FiniteMPS` (`matrixproductstates/base_mps.py`, `finite_mps.py`) on the numpy backend.
The contractions are calls of the modelled `ncon`, the decompositions are the modelled `qr`, `rq` and
`svd` of the numpy backend; the numerical kernels below them are the parameters `Env`.
-/

set_option linter.unusedSectionVars false

namespace TN.Mps

open TN NDArray Finset Ncon

variable {K : Type} [RCLike K]

/-- What comes from the interpreter and from LAPACK: the iteration order of sets, `np.linalg.qr`,
`np.sign` and `np.linalg.svd`. -/
structure Env (K : Type) where
  so : SetOrder
  qr : NDArray K → NDArray K × NDArray K
  sign : K → K
  svd : NDArray K → NDArray K × List ℝ × NDArray K

/-- The attributes of an MPS.  `connector_matrix` is `None` for a `FiniteMPS` and is left out. -/
structure State (K : Type) where
  tensors : List (NDArray K)
  center : Option Nat

/-- `backend.norm` (numpy_backend.py:108-109). -/
noncomputable def norm (t : NDArray K) : ℝ := Real.sqrt (sumIdx t.shape fun i => ‖t.get i‖ ^ 2)

/-- `tensor /= Z`.  numpy fills the tensor with NaN when `Z` is zero; the model stops instead. -/
noncomputable def divide (t : NDArray K) (z : ℝ) : Py (NDArray K) :=
  if z = 0 then .error .runtimeError else .ok ⟨t.shape, fun i => t.get i / (z : K)⟩

/-- `if normalize: tensor /= Z`. -/
noncomputable def rescale (normalize : Bool) (t : NDArray K) (z : ℝ) : Py (NDArray K) :=
  if normalize then divide t z else .ok t

/-- `backend.diagflat` of a vector. -/
noncomputable def diagflat (s : NDArray K) : NDArray K :=
  ⟨[s.shape.getD 0 0, s.shape.getD 0 0], fun i => if i.getD 0 0 = i.getD 1 0 then s.get [i.getD 0 0] else 0⟩

/-- `use_svd` (base_mps.py:179-180, 204-205): `bond` is the dimension of the bond in question. -/
def useSvd (D : Option Nat) (err : Option ℝ) (bond : Nat) : Bool :=
  (match D with | some d => decide (d < bond) | none => false) || err.isSome

/-- `isometry, rest` of a move to the right (base_mps.py:181-187). -/
noncomputable def factorRight (E : Env K) (D : Option Nat) (err : Option ℝ) (bond : Nat)
    (t : NDArray K) : Py (NDArray K × NDArray K) :=
  if useSvd D err bond then do
    let (u, s, v, _) ← Decomp.svd E.svd t 2 D err true
    let rest ← nconInt E.so [diagflat s, v] [[-1, 1], [1, -2]]
    pure (u, rest)
  else Decomp.qr E.qr E.sign t 2 false

/-- `rest, isometry` of a move to the left (base_mps.py:206-212). -/
noncomputable def factorLeft (E : Env K) (D : Option Nat) (err : Option ℝ) (bond : Nat)
    (t : NDArray K) : Py (NDArray K × NDArray K) :=
  if useSvd D err bond then do
    let (u, s, v, _) ← Decomp.svd E.svd t 1 D err true
    let rest ← nconInt E.so [u, diagflat s] [[-1, 1], [1, -2]]
    pure (rest, v)
  else Decomp.rq E.qr E.sign t 1 false

/-- One move to the right, on the two tensors concerned (base_mps.py:178-197). -/
noncomputable def pairRight (E : Env K) (normalize : Bool) (D : Option Nat) (err : Option ℝ)
    (A B : NDArray K) : Py (NDArray K × NDArray K × ℝ) := do
  let (iso, rest) ← factorRight E D err (B.shape.getD 0 0) A
  let b ← nconInt E.so [rest, B] [[-1, 1], [1, -2, -3]]
  let b' ← rescale normalize b (norm b)
  pure (iso, b', norm b)

/-- One move to the left, on the two tensors concerned (base_mps.py:203-222). -/
noncomputable def pairLeft (E : Env K) (normalize : Bool) (D : Option Nat) (err : Option ℝ)
    (A B : NDArray K) : Py (NDArray K × NDArray K × ℝ) := do
  let (rest, iso) ← factorLeft E D err (B.shape.getD 0 0) B
  let a ← nconInt E.so [A, rest] [[-1, -2, 1], [1, -3]]
  let a' ← rescale normalize a (norm a)
  pure (a', iso, norm a)

/-- The body of one of the two loops for the bond between `n` and `n + 1`. -/
def atBond (f : NDArray K → NDArray K → Py (NDArray K × NDArray K × ℝ)) (ts : List (NDArray K))
    (n : Nat) : Py (List (NDArray K) × ℝ) :=
  match ts[n]?, ts[n + 1]? with
  | some A, some B => do
    let (A', B', z) ← f A B
    pure ((ts.set n A').set (n + 1) B', z)
  | _, _ => .error .indexError

/-- The loops over the bonds; `z` is the value of `Z` so far. -/
def sweep (f : NDArray K → NDArray K → Py (NDArray K × NDArray K × ℝ)) :
    List Nat → List (NDArray K) → ℝ → Py (List (NDArray K) × ℝ)
  | [], ts, z => .ok (ts, z)
  | n :: ns, ts, _ => do
    let (ts, z) ← atBond f ts n
    sweep f ns ts z

/-- `BaseMPS.position` (base_mps.py:139-226).  The loop to the left runs over the sites
`center_position, …, site + 1`, that is over the bonds `center_position - 1, …, site`. -/
noncomputable def position (E : Env K) (st : State K) (site : Int) (normalize : Bool)
    (D : Option Nat) (err : Option ℝ) : Py (State K × ℝ) :=
  match st.center with
  | none => .error .valueError
  | some c =>
    if err.any (fun e => decide (1 ≤ e)) then .error .valueError
    else if site ≥ st.tensors.length ∨ site < 0 then .error .valueError
    else if site = c then
      match st.tensors[c]? with
      | none => .error .indexError
      | some A => do
        let A' ← rescale normalize A (norm A)
        pure (⟨st.tensors.set c A', some c⟩, norm A)
    else if site > c then do
      let (ts, z) ← sweep (pairRight E normalize D err) (List.range' c (site.toNat - c)) st.tensors 0
      pure (⟨ts, some site.toNat⟩, z)
    else do
      let (ts, z) ← sweep (pairLeft E normalize D err)
        (List.range' site.toNat (c - site.toNat)).reverse st.tensors 0
      pure (⟨ts, some site.toNat⟩, z)

/-- `FiniteMPS.__init__` (finite_mps.py:49-85).  The check of equal dtypes is not modelled. -/
noncomputable def init (E : Env K) (ts : List (NDArray K)) (center : Option Int) (canon : Bool) :
    Py (State K) :=
  if center.any (fun c : Int => decide (c < 0 ∨ c ≥ ts.length)) then .error .valueError
  else if center.isSome ∧ canon = false then .error .valueError
  else if canon then
    let c := center.getD 0
    let last : Int := ts.length - 1
    if c = last then do
      let (st, _) ← position E ⟨ts, some (ts.length - 1)⟩ 0 true none none
      let (st, _) ← position E st last true none none
      pure st
    else do
      let (st, _) ← position E ⟨ts, some 0⟩ last true none none
      let (st, _) ← position E st c true none none
      pure st
  else .ok ⟨ts, none⟩

/-- `FiniteMPS.canonicalize` (finite_mps.py:123-146). -/
noncomputable def canonicalize (E : Env K) (st : State K) (normalize : Bool) : Py (State K × ℝ) :=
  let N := st.tensors.length
  match st.center with
  | some pos =>
    if pos ≥ N / 2 then do
      let (st, _) ← position E ⟨st.tensors, some 0⟩ ((N : Int) - 1) normalize none none
      position E st pos normalize none none
    else do
      let (st, _) ← position E ⟨st.tensors, some (N - 1)⟩ 0 normalize none none
      position E st pos normalize none none
  | none => position E ⟨st.tensors, some (N - 1)⟩ 0 normalize none none

end TN.Mps
