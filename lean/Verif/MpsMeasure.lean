import Verif.MpsGateProps

/-!
# Expectation values in matrix product states: the model

`left_envs`, `right_envs` (finite_mps.py:168-314) and `measure_local_operator`,
`measure_two_body_correlator` (base_mps.py:287-479).  The nodes and edges that these functions build, and
contract with `@` and `contract_between`, are modelled as calls of `ncon` with the corresponding labels,
one call per group of nodes contracted into one.
-/

set_option linter.unusedSectionVars false

namespace TN.Mps

open TN NDArray Finset Ncon

variable {K : Type} [RCLike K]

/-- `conj` of a node. -/
def conjT (A : NDArray K) : NDArray K := ⟨A.shape, fun i => star (A.get i)⟩

/-- `backend.eye`. -/
def eyeT (K : Type) [RCLike K] (n : Nat) : NDArray K := ⟨[n, n], fun i => if i.getD 0 0 = i.getD 1 0 then 1 else 0⟩

/-- `left_transfer_operator` (base_mps.py:128-130) at a tensor and its conjugate. -/
noncomputable def transferL (E : Env K) (A L : NDArray K) : Py (NDArray K) :=
  nconInt E.so [A, L, conjT A] [[1, 2, -1], [1, 3], [3, 2, -2]]

/-- `right_transfer_operator` (base_mps.py:132-134) at a tensor and its conjugate. -/
noncomputable def transferR (E : Env K) (A R : NDArray K) : Py (NDArray K) :=
  nconInt E.so [A, R, conjT A] [[-1, 2, 1], [1, 3], [-2, 2, 3]]

/-- A dictionary from sites to tensors. -/
abbrev Envs (K : Type) := List (Int × NDArray K)

/-- `envs[site]`. -/
def Envs.find (d : Envs K) (s : Int) : Py (NDArray K) :=
  match d.lookup s with
  | some t => .ok t
  | none => .error .keyError

/-- `self.tensors[n]`. -/
def tensorAt (ts : List (NDArray K)) (n : Nat) : Py (NDArray K) :=
  match ts[n]? with
  | some A => .ok A
  | none => .error .indexError

/-- The loop of `left_envs` over `site, …, site + k - 1` (finite_mps.py:234-239), with all the
environments; those that are not requested are dropped below. -/
noncomputable def leftLoop (E : Env K) (ts : List (NDArray K)) : Nat → Nat → NDArray K → Py (Envs K)
  | _, 0, _ => .ok []
  | site, k + 1, env => do
    let A ← tensorAt ts site
    let env' ← transferL E A env
    let rest ← leftLoop E ts (site + 1) k env'
    pure ((((site + 1 : Nat) : Int), env') :: rest)

/-- The part of `left_envs` for sites right of the centre (finite_mps.py:210-239). -/
noncomputable def leftFar (E : Env K) (ts : List (NDArray K)) (c n2 : Nat) : Py (Envs K) :=
  if n2 > c then do
    let A ← tensorAt ts c
    let env ← nconInt E.so [A, conjT A] [[1, 2, -1], [1, 2, -2]]
    let rest ← leftLoop E ts (c + 1) (n2 - (c + 1)) env
    pure ((((c + 1 : Nat) : Int), env) :: rest)
  else .ok []

/-- `FiniteMPS.left_envs` (finite_mps.py:168-240). -/
noncomputable def leftEnvs (E : Env K) (st : State K) (sites : List Int) : Py (Envs K) :=
  if sites = [] then .ok [] else
  let c := st.center.getD 0
  if ¬ ∀ s ∈ sites, s ≤ st.tensors.length then .error .valueError
  else if ¬ ∀ s ∈ sites, 0 ≤ s then .error .valueError
  else do
    let near ← (sites.filter (fun s : Int => decide (s ≤ (c : Int)))).mapM fun s => do
      let A ← tensorAt st.tensors s.toNat
      pure (s, eyeT K (A.shape.getD 0 0))
    let far ← leftFar E st.tensors c (sites.foldr max 0).toNat
    pure (near ++ far.filter (fun x => decide (x.1 ∈ sites)))

/-- The loop of `right_envs` over `site - 1, …, site - k` (finite_mps.py:308-313). -/
noncomputable def rightLoop (E : Env K) (ts : List (NDArray K)) : Nat → Nat → NDArray K → Py (Envs K)
  | _, 0, _ => .ok []
  | site, k + 1, env => do
    let A ← tensorAt ts (site - 1)
    let env' ← transferR E A env
    let rest ← rightLoop E ts (site - 1) k env'
    pure (((site : Int) - 2, env') :: rest)

/-- The part of `right_envs` for sites left of the centre (finite_mps.py:284-313). -/
noncomputable def rightFar (E : Env K) (ts : List (NDArray K)) (c : Nat) (n1 : Int) : Py (Envs K) :=
  if n1 < c then do
    let A ← tensorAt ts c
    let env ← nconInt E.so [A, conjT A] [[-1, 2, 1], [-2, 2, 1]]
    let rest ← rightLoop E ts c (c - (n1 + 1).toNat) env
    pure (((c : Int) - 1, env) :: rest)
  else .ok []

/-- `FiniteMPS.right_envs` (finite_mps.py:242-314). -/
noncomputable def rightEnvs (E : Env K) (st : State K) (sites : List Int) : Py (Envs K) :=
  if sites = [] then .ok [] else
  let N := st.tensors.length
  let c := st.center.getD (N - 1)
  if ¬ ∀ s ∈ sites, s < N then .error .valueError
  else if ¬ ∀ s ∈ sites, -1 ≤ s then .error .valueError
  else do
    let near ← (sites.filter (fun s : Int => decide ((c : Int) ≤ s))).mapM fun s => do
      let A ← tensorAt st.tensors s.toNat
      pure (s, eyeT K (A.shape.getD 2 0))
    let far ← rightFar E st.tensors c (sites.foldr min N)
    pure (near ++ far.filter (fun x => decide (x.1 ∈ sites)))

/-- `L @ A @ O @ conj_A @ R`, a number (base_mps.py:307-318, 395-406, 417-432, 462-472). -/
noncomputable def sandwich (E : Env K) (L A O R : NDArray K) : Py K := do
  let v ← nconInt E.so [L, A, O, conjT A, R] [[1, 2], [1, 3, 4], [5, 3], [2, 5, 6], [4, 6]]
  pure (v.get [])

/-- `BaseMPS.measure_local_operator` (base_mps.py:287-320). -/
noncomputable def measureLocal (E : Env K) (st : State K) (ops : List (NDArray K)) (sites : List Int) :
    Py (List K) :=
  if ops.length ≠ sites.length then .error .valueError
  else do
    let rs ← rightEnvs E st sites
    let ls ← leftEnvs E st sites
    (ops.zip sites).mapM fun x => do
      let R ← rs.find x.2
      let L ← ls.find x.2
      let A ← tensorAt st.tensors x.2.toNat
      sandwich E L A x.1 R

/-- `((R @ A) @ O1) @ conj_A` (base_mps.py:369-377). -/
noncomputable def startR (E : Env K) (R A O : NDArray K) : Py (NDArray K) :=
  nconInt E.so [R, A, O, conjT A] [[1, 3], [-1, 2, 1], [4, 2], [-2, 4, 3]]

/-- `L @ A @ O1 @ conj_A` (base_mps.py:437-445). -/
noncomputable def startL (E : Env K) (L A O : NDArray K) : Py (NDArray K) :=
  nconInt E.so [L, A, O, conjT A] [[1, 3], [1, 2, -1], [4, 2], [3, 4, -2]]

/-- `self.tensors[n % N]`. -/
def tensorMod (ts : List (NDArray K)) (n : Int) : Py (NDArray K) := tensorAt ts (n % (ts.length : Int)).toNat

/-- `if n in sites: …; c.append(…)`. -/
noncomputable def valueAt (wanted : List Int) (n : Int) (get : Py (NDArray K)) (f : NDArray K → Py K) :
    Py (List K) :=
  if n ∈ wanted then do
    let X ← get
    let v ← f X
    pure [v]
  else .ok []

/-- The values for the sites left of `site1`, in the order in which they are computed
(base_mps.py:393-411). -/
noncomputable def corrLeft (E : Env K) (ts : List (NDArray K)) (op2 : NDArray K) (ls : Envs K)
    (wanted : List Int) (n1 : Int) : List Int → NDArray K → Py (List K)
  | [], _ => .ok []
  | n :: ns, R => do
    let A ← tensorMod ts n
    let v ← valueAt wanted n (ls.find (n % (ts.length : Int))) fun L => sandwich E L A op2 R
    let R' ← if n > n1 then transferR E A R else .ok R
    let rest ← corrLeft E ts op2 ls wanted n1 ns R'
    pure (v ++ rest)

/-- The values for the sites right of `site1` (base_mps.py:460-478). -/
noncomputable def corrRight (E : Env K) (ts : List (NDArray K)) (op2 : NDArray K) (rs : Envs K)
    (wanted : List Int) (n2 : Int) : List Int → NDArray K → Py (List K)
  | [], _ => .ok []
  | n :: ns, L => do
    let A ← tensorMod ts n
    let v ← valueAt wanted n (rs.find (n % (ts.length : Int))) fun R => sandwich E L A op2 R
    let L' ← if n < n2 then transferL E A L else .ok L
    let rest ← corrRight E ts op2 rs wanted n2 ns L'
    pure (v ++ rest)

/-- The part of the correlator for sites left of `site1` (base_mps.py:367-413). -/
noncomputable def partLeft (E : Env K) (st : State K) (op1 op2 : NDArray K) (site1 : Int) (rs ls : Envs K)
    (left : List Int) : Py (List K) :=
  match left with
  | [] => .ok []
  | x :: xs => do
    let A ← tensorAt st.tensors site1.toNat
    let R ← rs.find site1
    let R' ← startR E R A op1
    let n1 := xs.foldr min x
    let c ← corrLeft E st.tensors op2 ls left n1
      ((List.range (site1 - n1).toNat).map (fun k : Nat => site1 - 1 - k)) R'
    pure c.reverse

/-- The part for `site1` itself (base_mps.py:416-433). -/
noncomputable def partHere (E : Env K) (st : State K) (op1 op2 : NDArray K) (site1 : Int) (rs ls : Envs K)
    (sites2 : List Int) : Py (List K) :=
  if site1 ∈ sites2 then do
    let L ← ls.find site1
    let R ← rs.find site1
    let A ← tensorAt st.tensors site1.toNat
    let O ← nconInt E.so [op1, op2] [[-1, 1], [1, -2]]
    let v ← sandwich E L A O R
    pure [v]
  else pure []

/-- The part for sites right of `site1` (base_mps.py:436-478). -/
noncomputable def partRight (E : Env K) (st : State K) (op1 op2 : NDArray K) (site1 : Int) (rs ls : Envs K)
    (right : List Int) : Py (List K) :=
  match right with
  | [] => .ok []
  | x :: xs => do
    let A ← tensorAt st.tensors site1.toNat
    let L ← ls.find site1
    let L' ← startL E L A op1
    let n2 := xs.foldr max x
    corrRight E st.tensors op2 rs right n2
      ((List.range (n2 - site1).toNat).map (fun k : Nat => site1 + 1 + k)) L'

/-- `BaseMPS.measure_two_body_correlator` (base_mps.py:322-479).  `np.sort` of the two groups of sites has
no effect on the result, as they are only searched; it is left out. -/
noncomputable def measureTwo (E : Env K) (st : State K) (op1 op2 : NDArray K) (site1 : Int)
    (sites2 : List Int) : Py (List K) :=
  if site1 < 0 then .error .valueError
  else do
    let N : Int := st.tensors.length
    let left := sites2.filter (fun s => decide (s < site1))
    let right := sites2.filter (fun s => decide (site1 < s))
    let rs ← rightEnvs E st (site1 :: right.map (fun s => s % N))
    let ls ← leftEnvs E st (left.map (fun s => s % N) ++ [site1])
    let a ← partLeft E st op1 op2 site1 rs ls left
    let b ← partHere E st op1 op2 site1 rs ls sites2
    let c ← partRight E st op1 op2 site1 rs ls right
    pure (a ++ b ++ c)

end TN.Mps
