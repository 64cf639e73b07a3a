import Verif.MpsMeasure
import Verif.Mpo
import Verif.Lanczos

/-!
# DMRG: the model

`BaseDMRG` and `FiniteDMRG` (`matrixproductstates/dmrg.py`) on the numpy backend.  The contractions are calls of
the modelled `ncon`, the moves of the centre those of the modelled `FiniteMPS`, and the local eigenproblems are
solved by the modelled `eigsh_lanczos`.  A method that raises leaves the objects in an intermediate state; the
model returns the exception only.  Messages printed on the way are left out.
-/

set_option linter.unusedSectionVars false

namespace TN.Dmrg

open TN NDArray Finset Ncon Mps

variable {K : Type} [RCLike K]

/-- What comes from the interpreter and from LAPACK. -/
structure Kern (K : Type) extends Mps.Env K where
  eigh : Lanczos.Eigh K

/-- The attributes of a DMRG object: the MPS, the tensors of the MPO and the two dictionaries. -/
structure Sim (K : Type) where
  mps : Mps.State K
  mpo : List (NDArray K)
  left : Envs K
  right : Envs K

/-- `envs[site] = t`. -/
def put (d : Envs K) (s : Int) (t : NDArray K) : Envs K := (s, t) :: d

/-- `del envs[m]` for all `m` with `p m`, without an error for missing keys. -/
def remove (d : Envs K) (p : Int → Bool) : Envs K := d.filter fun x => !p x.1

/-- `BaseDMRG.__init__` (dmrg.py:29-73).  The checks of backends and dtypes are not modelled. -/
def init (mps : Mps.State K) (mpo : List (NDArray K)) (lb rb : NDArray K) : Py (Sim K) :=
  if mps.tensors.length ≠ mpo.length then .error .valueError
  else match mps.center with
    | none => .error .valueError
    | some _ => .ok ⟨mps, mpo, [(0, lb)], [((mps.tensors.length : Int) - 1, rb)]⟩

/-- `backend.ones`. -/
def ones (s : List Nat) : NDArray K := ⟨s, fun _ => 1⟩

/-- `FiniteDMRG.__init__` (dmrg.py:576-604). -/
def finite (mps : Mps.State K) (mpo : List (NDArray K)) : Py (Sim K) :=
  match mpo.head?, mps.tensors.head?, mpo.getLast?, mps.tensors.getLast? with
  | some W, some A, some W', some A' =>
    init mps mpo (ones [W.shape.getD 0 0, A.shape.getD 0 0, A.shape.getD 0 0])
      (ones [W'.shape.getD 1 0, A'.shape.getD 2 0, A'.shape.getD 2 0])
  | _, _, _, _ => .error .indexError

/-- `single_site_matvec` (dmrg.py:89-92). -/
def siteMatvec (E : Kern K) (L W R x : NDArray K) : Py (NDArray K) :=
  nconInt E.so [L, x, W, R] [[3, 1, -1], [1, 2, 4], [3, 5, -2, 2], [5, 4, -3]]

/-- `two_site_matvec` (dmrg.py:94-99). -/
def bondMatvec (E : Kern K) (L W V R x : NDArray K) : Py (NDArray K) :=
  nconInt E.so [L, x, W, V, R] [[3, 1, -1], [1, 2, 5, 6], [3, 4, -2, 2], [4, 7, -3, 5], [7, 6, -4]]

/-- `add_left_layer` (dmrg.py:101-105). -/
def addLeft (E : Kern K) (L A W : NDArray K) : Py (NDArray K) :=
  nconInt E.so [L, A, W, conjT A] [[2, 1, 5], [1, 3, -2], [2, -1, 4, 3], [5, 4, -3]]

/-- `add_right_layer` (dmrg.py:107-111). -/
def addRight (E : Kern K) (R A W : NDArray K) : Py (NDArray K) :=
  nconInt E.so [R, A, W, conjT A] [[2, 1, 5], [-2, 3, 1], [-1, 2, 4, 3], [-3, 4, 5]]

/-- The loops that fill `left_envs[n + 1]` from `left_envs[n]` (dmrg.py:134-137, 165-168). -/
def leftLoop (E : Kern K) (ts Ws : List (NDArray K)) : List Nat → Envs K → Py (Envs K)
  | [], d => .ok d
  | n :: ns, d => do
    let L ← d.find n
    let A ← tensorAt ts n
    let W ← tensorAt Ws n
    let L' ← addLeft E L A W
    leftLoop E ts Ws ns (put d ((n : Int) + 1) L')

/-- The loops that fill `right_envs[n - 1]` from `right_envs[n]` (dmrg.py:142-145, 177-180), over the sites `n`. -/
def rightLoop (E : Kern K) (ts Ws : List (NDArray K)) : List Nat → Envs K → Py (Envs K)
  | [], d => .ok d
  | n :: ns, d => do
    let R ← d.find n
    let A ← tensorAt ts n
    let W ← tensorAt Ws n
    let R' ← addRight E R A W
    rightLoop E ts Ws ns (put d ((n : Int) - 1) R')

/-- The deletions at the end of `position` (dmrg.py:147-156). -/
def prune (d : Sim K) (site : Nat) : Sim K :=
  { d with
    left := remove d.left fun m => decide ((site : Int) + 1 ≤ m ∧ m ≤ d.mps.tensors.length)
    right := remove d.right fun m => decide (-1 ≤ m ∧ m < site) }

/-- `BaseDMRG.position` (dmrg.py:113-158). -/
noncomputable def position (E : Kern K) (d : Sim K) (site : Int) : Py (Sim K) :=
  if site ≥ d.mps.tensors.length then .error .indexError
  else if site < 0 then .error .indexError
  else match d.mps.center with
    | none => .error .typeError
    | some c =>
      if site = c then .ok d
      else if site > c then do
        let (st, _) ← Mps.position E.toEnv d.mps site true none none
        let left ← leftLoop E st.tensors d.mpo (List.range' c (site.toNat - c)) d.left
        pure (prune { d with mps := st, left := left } site.toNat)
      else do
        let (st, _) ← Mps.position E.toEnv d.mps site true none none
        let right ← rightLoop E st.tensors d.mpo (List.range' (site.toNat + 1) (c - site.toNat)).reverse d.right
        pure (prune { d with mps := st, right := right } site.toNat)

/-- `compute_left_envs` (dmrg.py:160-169). -/
def computeLeft (E : Kern K) (d : Sim K) : Py (Sim K) :=
  match d.mps.center with
  | none => .error .typeError
  | some c => do
    let lb ← d.left.find 0
    let left ← leftLoop E d.mps.tensors d.mpo (List.range c) [(0, lb)]
    pure { d with left := left }

/-- `compute_right_envs` (dmrg.py:171-180). -/
def computeRight (E : Kern K) (d : Sim K) : Py (Sim K) :=
  match d.mps.center with
  | none => .error .typeError
  | some c => do
    let last : Int := d.mps.tensors.length - 1
    let rb ← d.right.find last
    let right ← rightLoop E d.mps.tensors d.mpo
      (List.range' (c + 1) (d.mps.tensors.length - (c + 1))).reverse [(last, rb)]
    pure { d with right := right }

/-- The options of a run that are passed on to `eigsh_lanczos`. -/
structure Lopts where
  numKrylov : Nat
  tol : ℝ
  delta : ℝ
  ndiag : Nat

/-- One eigenpair and no reorthogonalisation (dmrg.py:212-217). -/
def Lopts.full (o : Lopts) : Lanczos.Opts := ⟨o.numKrylov, 1, o.tol, o.delta, o.ndiag, false⟩

/-- `energies[0]`, `states[0]` and the normalisation of the state (dmrg.py:204-220, 272-289, 308-325). -/
noncomputable def ground (E : Kern K) (A : NDArray K → Py (NDArray K)) (o : Lopts) (x : NDArray K) :
    Py (ℝ × NDArray K) := do
  let r ← Lanczos.eigshLanczos E.eigh A o.full x
  match r.vals, r.vecs with
  | e :: _, t :: _ => do
    let t' ← divide t (norm t)
    pure (e, t')
  | _, _ => .error .indexError

/-- `_optimize_1s_local` (dmrg.py:182-247); `toRight` says that the direction is 'right'. -/
noncomputable def optimizeSite (E : Kern K) (o : Lopts) (toRight : Bool) (d : Sim K) : Py (Sim K × ℝ) :=
  match d.mps.center with
  | none => .error .typeError
  | some c => do
    let L ← d.left.find c
    let R ← d.right.find c
    let W ← tensorAt d.mpo c
    let A ← tensorAt d.mps.tensors c
    let (e, t) ← ground E (siteMatvec E L W R) o A
    if toRight then do
      let (Q, T) ← Decomp.qr E.qr E.sign t 2 false
      if c + 1 < d.mps.tensors.length then do
        let B ← tensorAt d.mps.tensors (c + 1)
        let B' ← nconInt E.so [T, B] [[-1, 1], [1, -2, -3]]
        let L' ← addLeft E L Q W
        pure (⟨⟨(d.mps.tensors.set c Q).set (c + 1) B', some (c + 1)⟩, d.mpo,
          put d.left ((c : Int) + 1) L', d.right⟩, e)
      else pure ({ d with mps := ⟨d.mps.tensors.set c Q, some c⟩ }, e)
    else do
      let (T, Q) ← Decomp.rq E.qr E.sign t 1 false
      if 0 < c then do
        let B ← tensorAt d.mps.tensors (c - 1)
        let B' ← nconInt E.so [B, T] [[-1, -2, 1], [1, -3]]
        let R' ← addRight E R Q W
        pure (⟨⟨(d.mps.tensors.set c Q).set (c - 1) B', some (c - 1)⟩, d.mpo,
          d.left, put d.right ((c : Int) - 1) R'⟩, e)
      else pure ({ d with mps := ⟨d.mps.tensors.set c Q, some c⟩ }, e)

/-- `_optimize_2s_local` (dmrg.py:249-342).  With 'left' at site 0 the code would use the last tensor of the
chain; no caller does that and the model refuses. -/
noncomputable def optimizeBond (E : Kern K) (o : Lopts) (D : Option Nat) (toRight : Bool) (d : Sim K) :
    Py (Sim K × ℝ) :=
  match d.mps.center with
  | none => .error .typeError
  | some c =>
    if toRight then do
      let A ← tensorAt d.mps.tensors c
      let B ← tensorAt d.mps.tensors (c + 1)
      let x ← nconInt E.so [A, B] [[-1, -2, 1], [1, -3, -4]]
      let L ← d.left.find c
      let W ← tensorAt d.mpo c
      let V ← tensorAt d.mpo (c + 1)
      let R ← d.right.find ((c : Int) + 1)
      let (e, t) ← ground E (bondMatvec E L W V R) o x
      let (u, s, v, _) ← Decomp.svd E.svd t 2 D none true
      let B' ← nconInt E.so [diagflat s, v] [[-1, 1], [1, -2, -3]]
      let L' ← addLeft E L u W
      pure (⟨⟨(d.mps.tensors.set c u).set (c + 1) B', some (c + 1)⟩, d.mpo,
        put d.left ((c : Int) + 1) L', d.right⟩, e)
    else if 0 < c then do
      let A ← tensorAt d.mps.tensors (c - 1)
      let B ← tensorAt d.mps.tensors c
      let x ← nconInt E.so [A, B] [[-1, -2, 1], [1, -3, -4]]
      let L ← d.left.find ((c : Int) - 1)
      let W ← tensorAt d.mpo (c - 1)
      let V ← tensorAt d.mpo c
      let R ← d.right.find c
      let (e, t) ← ground E (bondMatvec E L W V R) o x
      let (u, s, v, _) ← Decomp.svd E.svd t 2 D none true
      let A' ← nconInt E.so [u, diagflat s] [[-1, -2, 1], [1, -3]]
      let R' ← addRight E R v V
      pure (⟨⟨(d.mps.tensors.set c v).set (c - 1) A', some (c - 1)⟩, d.mpo,
        d.left, put d.right ((c : Int) - 1) R'⟩, e)
    else .error .runtimeError

/-- `while cond: energy = step()`; the fuel is a bound on the number of iterations. -/
noncomputable def whileStep (cond : Sim K → Bool) (step : Sim K → Py (Sim K × ℝ)) :
    Nat → Sim K → ℝ → Py (Sim K × ℝ)
  | 0, d, e => if cond d then .error .runtimeError else .ok (d, e)
  | n + 1, d, e =>
    if cond d then do
      let (d', e') ← step d
      whileStep cond step n d' e'
    else .ok (d, e)

/-- `self.mps.center_position < len(self.mps) - 1`. -/
def notLast (d : Sim K) : Bool := d.mps.center.any fun c => decide (c + 1 < d.mps.tensors.length)

/-- `self.mps.center_position > 0`. -/
def notFirst (d : Sim K) : Bool := d.mps.center.any fun c => decide (0 < c)

/-- The part of the sweep before the loops, `if initial_site == 0` (dmrg.py:407-418, 506-518).  `e` is the value
of `energy` so far. -/
noncomputable def firstStep (E : Kern K) (step : Bool → Sim K → Py (Sim K × ℝ)) (first : Bool) (d : Sim K) (e : ℝ) :
    Py (Sim K × ℝ) :=
  if first then do
    let d ← position E d 0
    step true d
  else .ok (d, e)

/-- One sweep to the right and back (dmrg.py:406-443, 505-544). -/
noncomputable def sweep (E : Kern K) (step : Bool → Sim K → Py (Sim K × ℝ)) (first : Bool) (d : Sim K) (e : ℝ) :
    Py (Sim K × ℝ) := do
  let (d, e) ← firstStep E step first d e
  let (d, e) ← whileStep notLast (step true) d.mps.tensors.length d e
  let d ← position E d ((d.mps.tensors.length : Int) - 1)
  whileStep notFirst (step false) d.mps.tensors.length d e

open Classical in
/-- The loop `while not converged` (dmrg.py:405-455, 504-556) with at most `n + 1` sweeps left; `final` is
`final_energy`. -/
noncomputable def sweeps (E : Kern K) (step : Bool → Sim K → Py (Sim K × ℝ)) (precision : ℝ) :
    Nat → Bool → Sim K → ℝ → ℝ → Py (Sim K × ℝ)
  | 0, first, d, e, _ => sweep E step first d e
  | n + 1, first, d, e, final => do
    let (d', e') ← sweep E step first d e
    if |final - e'| < precision then .ok (d', e')
    else sweeps E step precision n false d' e' e'

/-- `compute_energy` (dmrg.py:558-567). -/
noncomputable def computeEnergy (E : Kern K) (d : Sim K) : Py (Sim K × K) := do
  let (st, _) ← Mps.position E.toEnv d.mps 0 true none none
  let d ← computeRight E { d with mps := st }
  let R ← d.right.find 0
  let A ← tensorAt d.mps.tensors 0
  let W ← tensorAt d.mpo 0
  let X ← addRight E R A W
  let L ← d.left.find 0
  let v ← nconInt E.so [X, L] [[1, 2, 3], [1, 2, 3]]
  pure (d, v.get [])

/-- The common part of `run_one_site` and `run_two_site` (dmrg.py:386-456, 482-557).  A negative number of sweeps
gives one sweep, as in the code. -/
noncomputable def run (E : Kern K) (step : Bool → Sim K → Py (Sim K × ℝ)) (numSweeps : Int) (precision : ℝ)
    (d : Sim K) : Py (Sim K × K) :=
  if numSweeps = 0 then computeEnergy E d else do
    let (st, _) ← Mps.position E.toEnv d.mps 0 true none none
    let d ← computeRight E { d with mps := st }
    let (d, e) ← sweeps E step precision (numSweeps - 1).toNat true d 0 (10 ^ 100)
    pure (d, (e : K))

/-- `run_one_site` (dmrg.py:344-456). -/
noncomputable def runOneSite (E : Kern K) (o : Lopts) (numSweeps : Int) (precision : ℝ) (d : Sim K) :
    Py (Sim K × K) :=
  run E (optimizeSite E o) numSweeps precision d

/-- `run_two_site` (dmrg.py:458-557). -/
noncomputable def runTwoSite (E : Kern K) (o : Lopts) (D : Option Nat) (numSweeps : Int) (precision : ℝ) (d : Sim K) :
    Py (Sim K × K) :=
  run E (optimizeBond E o D) numSweeps precision d

/-! ### Specification -/

/-- The tensors of an MPO with outer bonds `v` and `w` on sites of dimensions `ds`. -/
def OpBonds : List (NDArray K) → Nat → List Nat → Nat → Prop
  | [], v, ds, w => ds = [] ∧ v = w
  | W :: Ws, v, ds, w => ∃ p u ds', ds = p :: ds' ∧ W.shape = [v, u, p, p] ∧ OpBonds Ws u ds' w

/-- The matrix element of the operator between two states. -/
noncomputable def sand (bra Ws ket : List (NDArray K)) (ds : List Nat) : K :=
  sumIdx ds fun os => sumIdx ds fun is => star (amp bra 0 os 0) * Mpo.mpoElem Ws 0 os is 0 * amp ket 0 is 0

/-- The operator is Hermitian. -/
def Hermitian (Ws : List (NDArray K)) (ds : List Nat) : Prop :=
  ∀ os is, InB ds os → InB ds is → star (Mpo.mpoElem Ws 0 os is 0) = Mpo.mpoElem Ws 0 is os 0

/-- The expectation value of the operator in the state. -/
noncomputable def energy (ts Ws : List (NDArray K)) (ds : List Nat) : ℝ :=
  RCLike.re (sand ts Ws ts ds) / normSq ts 1 ds 1

/-- A DMRG object as `FiniteDMRG` makes it and as all its methods leave it: a nonzero MPS in canonical form with
outer bonds of dimension one, an MPO for the same sites, and boundary environments equal to one. -/
structure SimOK (d : Sim K) (ds : List Nat) : Prop where
  bonds : Bonds d.mps.tensors 1 ds 1
  mpo : OpBonds d.mpo 1 ds 1
  ne : d.mps.tensors ≠ []
  center : ∃ c, d.mps.center = some c ∧ c < d.mps.tensors.length ∧ Canonical d.mps.tensors c
  nonzero : Nonzero d.mps.tensors 1 ds 1
  left : ∃ L, d.left.find 0 = .ok L ∧ L.shape = [1, 1, 1] ∧ L.get [0, 0, 0] = 1
  right : ∃ R, d.right.find ((d.mps.tensors.length : Int) - 1) = .ok R ∧ R.shape = [1, 1, 1] ∧ R.get [0, 0, 0] = 1

end TN.Dmrg
