import Verif.Net
import Mathlib.Analysis.Complex.Basic
import Mathlib.Analysis.Calculus.Deriv.Basic

/-!
# The example `simple_mera`

examples/simple_mera/simple_mera.py.  The nodes of the network are numbered in the order of their creation; the network is the
list of the connections of their axes; what `contractors.branch` returns is the value of the network
(GraphContractors, C80).
-/

set_option linter.unusedSectionVars false

namespace TN.Mera

open TN Finset

/-- An axis of a node: `iso_l`, `iso_c`, `iso_r`, `iso_l_con`, `iso_c_con`, `iso_r_con`, `op`, `rho`, `un_l`, `un_l_con`,
`un_r`, `un_r_con` are the nodes 0 to 11 (simple_mera.py:55-70). -/
abbrev Axis := Nat × Nat

/-- The loop variable `dirn`. -/
inductive Dirn
  | left
  | right
  deriving DecidableEq

/-- The connections before the branch (simple_mera.py:72-81). -/
def connTop : List (Axis × Axis) :=
  [((0, 2), (7, 0)), ((1, 2), (7, 1)), ((2, 2), (7, 2)),
   ((0, 0), (3, 0)), ((0, 1), (8, 2)), ((1, 0), (8, 3)), ((1, 1), (10, 2)), ((2, 0), (10, 3)), ((2, 1), (5, 1))]

/-- The connections of the branch (simple_mera.py:83-98). -/
def connOp : Dirn → List (Axis × Axis)
  | .right => [((8, 0), (9, 0)), ((8, 1), (6, 3)), ((10, 0), (6, 4)), ((10, 1), (6, 5)),
     ((6, 0), (9, 1)), ((6, 1), (11, 0)), ((6, 2), (11, 1))]
  | .left => [((8, 0), (6, 3)), ((8, 1), (6, 4)), ((10, 0), (6, 5)), ((10, 1), (11, 1)),
     ((6, 0), (9, 0)), ((6, 1), (9, 1)), ((6, 2), (11, 0))]

/-- The connections after the branch (simple_mera.py:100-107). -/
def connBottom : List (Axis × Axis) :=
  [((9, 2), (3, 1)), ((9, 3), (4, 0)), ((11, 2), (4, 1)), ((11, 3), (5, 0)),
   ((3, 2), (7, 3)), ((4, 2), (7, 4)), ((5, 2), (7, 5))]

/-- All connections. -/
def conns (d : Dirn) : List (Axis × Axis) := connTop ++ connOp d ++ connBottom

/-- The edge of an axis is the connection it takes part in. -/
def edgeOf (d : Dirn) (x : Axis) : Nat := (conns d).findIdx fun c => c.1 = x ∨ c.2 = x

/-- The edges of a node. -/
def edgesOf (d : Dirn) (n rank : Nat) : List Nat := (List.range rank).map fun a => edgeOf d (n, a)

/-- `node_linalg.conj` of a node -/
def conjT (t : NDArray ℂ) : NDArray ℂ := ⟨t.shape, fun i => star (t.get i)⟩

/-- The nodes (simple_mera.py:55-70) with their edges. -/
def network (d : Dirn) (op rho iso dis : NDArray ℂ) : List (NDArray ℂ × List Nat) :=
  [(iso, edgesOf d 0 3), (iso, edgesOf d 1 3), (iso, edgesOf d 2 3),
   (conjT iso, edgesOf d 3 3), (conjT iso, edgesOf d 4 3), (conjT iso, edgesOf d 5 3),
   (op, edgesOf d 6 6), (rho, edgesOf d 7 6),
   (dis, edgesOf d 8 4), (conjT dis, edgesOf d 9 4), (dis, edgesOf d 10 4), (conjT dis, edgesOf d 11 4)]

/-- `binary_mera_energy` (simple_mera.py:36-114).  `branch` contracts everything that is reachable from `rho`, and all
edges are connected: the value does not depend on positions of open edges. -/
noncomputable def energy (op rho iso dis : NDArray ℂ) : ℂ :=
  1 / 2 * (netVal (network .left op rho iso dis) (fun _ => 0) + netVal (network .right op rho iso dis) (fun _ => 0))

/-- The array with the entry at `i` replaced. -/
def setEntry (t : NDArray ℂ) (i : List Nat) (z : ℂ) : NDArray ℂ := ⟨t.shape, Function.update t.get i z⟩

/-- `descend = jax.grad(binary_mera_energy, argnums=0, holomorphic=True)` (simple_mera.py:117): the complex derivatives by the
entries of the first argument. -/
noncomputable def descend (op rho iso dis : NDArray ℂ) : NDArray ℂ :=
  ⟨op.shape, fun i => deriv (fun z => energy (setEntry op i z) rho iso dis) (op.get i)⟩

/-- `ascend = jax.grad(binary_mera_energy, argnums=1, holomorphic=True)` (simple_mera.py:130) -/
noncomputable def ascend (op rho iso dis : NDArray ℂ) : NDArray ℂ :=
  ⟨rho.shape, fun i => deriv (fun z => energy op (setEntry rho i z) iso dis) (rho.get i)⟩

/-! ### Specification -/

/-- The layer: three sites above, six sites below. -/
noncomputable def layer (a b : Nat) (iso dis : NDArray ℂ) (A p0 p1 p2 p3 B r0 r1 r2 : Nat) : ℂ :=
  ∑ x ∈ range b, ∑ y ∈ range a, ∑ u ∈ range b, ∑ v ∈ range a,
    iso.get [A, x, r0] * iso.get [y, u, r1] * iso.get [v, B, r2] * dis.get [p0, p1, x, y] * dis.get [p2, p3, u, v]

/-- The state of the six sites below: `layer * rho * layer^†`, the first three axes of `rho` are its kets. -/
noncomputable def below (a b t : Nat) (rho iso dis : NDArray ℂ) (A p0 p1 p2 p3 B A' q0 q1 q2 q3 B' : Nat) : ℂ :=
  ∑ r0 ∈ range t, ∑ r1 ∈ range t, ∑ r2 ∈ range t, ∑ s0 ∈ range t, ∑ s1 ∈ range t, ∑ s2 ∈ range t,
    layer a b iso dis A p0 p1 p2 p3 B r0 r1 r2 * rho.get [r0, r1, r2, s0, s1, s2] *
      star (layer a b iso dis A' q0 q1 q2 q3 B' s0 s1 s2)

/-- The reduced state of the three sites below that the operator acts on. -/
noncomputable def reduced (a b t e : Nat) (rho iso dis : NDArray ℂ) : Dirn → Nat → Nat → Nat → Nat → Nat → Nat → ℂ
  | .left, i0, i1, i2, o0, o1, o2 => ∑ A ∈ range a, ∑ z ∈ range e, ∑ B ∈ range b, below a b t rho iso dis A i0 i1 i2 z B A o0 o1 o2 z B
  | .right, i0, i1, i2, o0, o1, o2 => ∑ A ∈ range a, ∑ z ∈ range e, ∑ B ∈ range b, below a b t rho iso dis A z i0 i1 i2 B A z o0 o1 o2 B

/-- Fitting shapes. -/
structure Fits (a b t e : Nat) (op rho iso dis : NDArray ℂ) : Prop where
  op : op.shape = [e, e, e, e, e, e]
  rho : rho.shape = [t, t, t, t, t, t]
  iso : iso.shape = [a, b, t]
  dis : dis.shape = [e, e, b, a]

/-! ### The value -/

/-- The dimensions of the edges. -/
def mdim (a b t e : Nat) (l : Nat) : Nat :=
  if l ∈ [0, 1, 2, 20, 21, 22] then t
  else if l ∈ [3, 5, 7, 17, 19] then a
  else if l ∈ [4, 6, 8, 16, 18] then b
  else e

theorem consistent {a b t e : Nat} {op rho iso dis : NDArray ℂ} (f : Fits a b t e op rho iso dis) (d : Dirn) :
    Consistent (mdim a b t e) (network d op rho iso dis) := by
  have hi : (conjT iso).shape = [a, b, t] := f.iso
  have hd : (conjT dis).shape = [e, e, b, a] := f.dis
  cases d <;>
  · intro p hp
    simp only [network, List.mem_cons, List.not_mem_nil, or_false] at hp
    rcases hp with rfl | rfl | rfl | rfl | rfl | rfl | rfl | rfl | rfl | rfl | rfl | rfl <;>
      simp only [Shaped, f.op, f.rho, f.iso, f.dis, hi, hd] <;> rfl

theorem edges_left : (List.map (fun n => edgesOf .left n 3) [0, 1, 2, 3, 4, 5] = [[3, 4, 0], [5, 6, 1], [7, 8, 2], [3, 16, 20], [17, 18, 21], [19, 8, 22]]) ∧
    List.map (fun n => edgesOf .left n 6) [6, 7] = [[13, 14, 15, 9, 10, 11], [0, 1, 2, 20, 21, 22]] ∧
    List.map (fun n => edgesOf .left n 4) [8, 9, 10, 11] = [[9, 10, 4, 5], [13, 14, 16, 17], [11, 12, 6, 7], [15, 12, 18, 19]] := by
  decide +kernel

theorem edges_right : (List.map (fun n => edgesOf .right n 3) [0, 1, 2, 3, 4, 5] = [[3, 4, 0], [5, 6, 1], [7, 8, 2], [3, 16, 20], [17, 18, 21], [19, 8, 22]]) ∧
    List.map (fun n => edgesOf .right n 6) [6, 7] = [[13, 14, 15, 10, 11, 12], [0, 1, 2, 20, 21, 22]] ∧
    List.map (fun n => edgesOf .right n 4) [8, 9, 10, 11] = [[9, 10, 4, 5], [9, 13, 16, 17], [11, 12, 6, 7], [14, 15, 18, 19]] := by
  decide +kernel

/-- The order of summation. -/
def order : Dirn → List Nat
  | .left => [13, 14, 15, 9, 10, 11, 3, 12, 8, 0, 1, 2, 20, 21, 22, 4, 5, 6, 7, 16, 17, 18, 19]
  | .right => [13, 14, 15, 10, 11, 12, 3, 9, 8, 0, 1, 2, 20, 21, 22, 4, 5, 6, 7, 16, 17, 18, 19]

theorem flat_left {op rho iso dis : NDArray ℂ} : flatL (network .left op rho iso dis) =
    [3, 4, 0, 5, 6, 1, 7, 8, 2, 3, 16, 20, 17, 18, 21, 19, 8, 22, 13, 14, 15, 9, 10, 11, 0, 1, 2, 20, 21, 22,
     9, 10, 4, 5, 13, 14, 16, 17, 11, 12, 6, 7, 15, 12, 18, 19] := by
  obtain ⟨h1, h2, h3⟩ := edges_left
  simp only [List.map_cons, List.map_nil, List.cons.injEq, and_true] at h1 h2 h3
  simp only [network, flatL, h1, h2, h3, List.flatMap_cons, List.flatMap_nil, List.cons_append, List.nil_append]

theorem flat_right {op rho iso dis : NDArray ℂ} : flatL (network .right op rho iso dis) =
    [3, 4, 0, 5, 6, 1, 7, 8, 2, 3, 16, 20, 17, 18, 21, 19, 8, 22, 13, 14, 15, 10, 11, 12, 0, 1, 2, 20, 21, 22,
     9, 10, 4, 5, 9, 13, 16, 17, 11, 12, 6, 7, 14, 15, 18, 19] := by
  obtain ⟨h1, h2, h3⟩ := edges_right
  simp only [List.map_cons, List.map_nil, List.cons.injEq, and_true] at h1 h2 h3
  simp only [network, flatL, h1, h2, h3, List.flatMap_cons, List.flatMap_nil, List.cons_append, List.nil_append]

theorem closed_perm (d : Dirn) {op rho iso dis : NDArray ℂ} : (closedL (network d op rho iso dis)).Perm (order d) := by
  cases d
  · rw [closedL, flat_left]; decide +kernel
  · rw [closedL, flat_right]; decide +kernel

theorem mdim_at {a b t e : Nat} : mdim a b t e 0 = t ∧ mdim a b t e 1 = t ∧ mdim a b t e 2 = t ∧ mdim a b t e 3 = a ∧ mdim a b t e 4 = b ∧ mdim a b t e 5 = a ∧ mdim a b t e 6 = b ∧ mdim a b t e 7 = a ∧ mdim a b t e 8 = b ∧ mdim a b t e 9 = e ∧ mdim a b t e 10 = e ∧ mdim a b t e 11 = e ∧ mdim a b t e 12 = e ∧ mdim a b t e 13 = e ∧ mdim a b t e 14 = e ∧ mdim a b t e 15 = e ∧ mdim a b t e 16 = b ∧ mdim a b t e 17 = a ∧ mdim a b t e 18 = b ∧ mdim a b t e 19 = a ∧ mdim a b t e 20 = t ∧ mdim a b t e 21 = t ∧ mdim a b t e 22 = t := by
  refine ⟨rfl, rfl, rfl, rfl, rfl, rfl, rfl, rfl, rfl, rfl, rfl, rfl, rfl, rfl, rfl, rfl, rfl, rfl, rfl, rfl, rfl, rfl, rfl⟩

theorem sumOver_map {dim : Nat → Nat} {C : List Nat} (hC : C.Nodup) (f : List Nat → ℂ) (σ : Nat → Nat) :
    sumOver dim C (fun τ => f (C.map τ)) σ = sumIdx (C.map dim) f := by
  induction C generalizing σ f with
  | nil => rfl
  | cons c C ih =>
    rw [List.nodup_cons] at hC
    simp only [sumOver, List.map_cons, sumIdx]
    refine sum_congr rfl fun i _ => ?_
    rw [← ih hC.2 (fun is => f (i :: is)) (Function.update σ c i)]
    refine sumOver_congr fun τ h1 _ => ?_
    rw [h1 c hC.1, Function.update_self]

/-- The product of the entries in the order of summation. -/
def term_left (op rho iso dis : NDArray ℂ) (c : List Nat) : ℂ :=
      (iso).get [c.getD 6 0, c.getD 15 0, c.getD 9 0] *
      (iso).get [c.getD 16 0, c.getD 17 0, c.getD 10 0] *
      (iso).get [c.getD 18 0, c.getD 8 0, c.getD 11 0] *
      (conjT iso).get [c.getD 6 0, c.getD 19 0, c.getD 12 0] *
      (conjT iso).get [c.getD 20 0, c.getD 21 0, c.getD 13 0] *
      (conjT iso).get [c.getD 22 0, c.getD 8 0, c.getD 14 0] *
      (op).get [c.getD 0 0, c.getD 1 0, c.getD 2 0, c.getD 3 0, c.getD 4 0, c.getD 5 0] *
      (rho).get [c.getD 9 0, c.getD 10 0, c.getD 11 0, c.getD 12 0, c.getD 13 0, c.getD 14 0] *
      (dis).get [c.getD 3 0, c.getD 4 0, c.getD 15 0, c.getD 16 0] *
      (conjT dis).get [c.getD 0 0, c.getD 1 0, c.getD 19 0, c.getD 20 0] *
      (dis).get [c.getD 5 0, c.getD 7 0, c.getD 17 0, c.getD 18 0] *
      (conjT dis).get [c.getD 2 0, c.getD 7 0, c.getD 21 0, c.getD 22 0]

/-- The expectation value of the operator at the three sites. -/
theorem value_left {a b t e : Nat} {op rho iso dis : NDArray ℂ} (f : Fits a b t e op rho iso dis) (σ : Nat → Nat) :
    netVal (network .left op rho iso dis) σ = ∑ o0 ∈ range e, ∑ o1 ∈ range e, ∑ o2 ∈ range e, ∑ i0 ∈ range e, ∑ i1 ∈ range e, ∑ i2 ∈ range e,
      op.get [o0, o1, o2, i0, i1, i2] * reduced a b t e rho iso dis .left i0 i1 i2 o0 o1 o2 := by
  rw [netVal_eq (consistent f .left), sumOver_perm (closed_perm .left)]
  obtain ⟨h1, h2, h3⟩ := edges_left
  simp only [List.map_cons, List.map_nil, List.cons.injEq, and_true] at h1 h2 h3
  have hp : prodVal (network .left op rho iso dis) = fun τ => term_left op rho iso dis ((order .left).map τ) := by
    funext τ
    simp only [prodVal, network, h1, h2, h3, List.map_cons, List.map_nil, val, List.prod_cons, List.prod_nil, order]
    simp only [mul_one]
    rw [term_left]
    simp only [mul_assoc]
    rfl
  rw [hp, sumOver_map (by decide) (term_left op rho iso dis), show (order .left).map (mdim a b t e) = [e, e, e, e, e, e, a, e, b, t, t, t, t, t, t, b, a, b, a, b, a, b, a] from rfl]
  iterate 6
    rw [sumIdx]
    refine sum_congr rfl fun _ _ => ?_
  rw [reduced]
  iterate 3
    rw [sumIdx, mul_sum]
    refine sum_congr rfl fun _ _ => ?_
  rw [below]
  iterate 6
    rw [sumIdx, mul_sum]
    refine sum_congr rfl fun _ _ => ?_
  rw [layer]
  iterate 4
    rw [sumIdx, sum_mul, sum_mul, mul_sum]
    refine sum_congr rfl fun _ _ => ?_
  rw [layer]
  iterate 4
    rw [sumIdx, star_sum, mul_sum, mul_sum]
    refine sum_congr rfl fun _ _ => ?_
  rw [sumIdx, term_left]
  simp only [conjT, star_mul', List.getD_cons_zero, List.getD_eq_getElem?_getD, List.getElem?_cons_succ, List.getElem?_cons_zero, Option.getD_some]
  ring

/-- The product of the entries in the order of summation. -/
def term_right (op rho iso dis : NDArray ℂ) (c : List Nat) : ℂ :=
      (iso).get [c.getD 6 0, c.getD 15 0, c.getD 9 0] *
      (iso).get [c.getD 16 0, c.getD 17 0, c.getD 10 0] *
      (iso).get [c.getD 18 0, c.getD 8 0, c.getD 11 0] *
      (conjT iso).get [c.getD 6 0, c.getD 19 0, c.getD 12 0] *
      (conjT iso).get [c.getD 20 0, c.getD 21 0, c.getD 13 0] *
      (conjT iso).get [c.getD 22 0, c.getD 8 0, c.getD 14 0] *
      (op).get [c.getD 0 0, c.getD 1 0, c.getD 2 0, c.getD 3 0, c.getD 4 0, c.getD 5 0] *
      (rho).get [c.getD 9 0, c.getD 10 0, c.getD 11 0, c.getD 12 0, c.getD 13 0, c.getD 14 0] *
      (dis).get [c.getD 7 0, c.getD 3 0, c.getD 15 0, c.getD 16 0] *
      (conjT dis).get [c.getD 7 0, c.getD 0 0, c.getD 19 0, c.getD 20 0] *
      (dis).get [c.getD 4 0, c.getD 5 0, c.getD 17 0, c.getD 18 0] *
      (conjT dis).get [c.getD 1 0, c.getD 2 0, c.getD 21 0, c.getD 22 0]

theorem value_right {a b t e : Nat} {op rho iso dis : NDArray ℂ} (f : Fits a b t e op rho iso dis) (σ : Nat → Nat) :
    netVal (network .right op rho iso dis) σ = ∑ o0 ∈ range e, ∑ o1 ∈ range e, ∑ o2 ∈ range e, ∑ i0 ∈ range e, ∑ i1 ∈ range e, ∑ i2 ∈ range e,
      op.get [o0, o1, o2, i0, i1, i2] * reduced a b t e rho iso dis .right i0 i1 i2 o0 o1 o2 := by
  rw [netVal_eq (consistent f .right), sumOver_perm (closed_perm .right)]
  obtain ⟨h1, h2, h3⟩ := edges_right
  simp only [List.map_cons, List.map_nil, List.cons.injEq, and_true] at h1 h2 h3
  have hp : prodVal (network .right op rho iso dis) = fun τ => term_right op rho iso dis ((order .right).map τ) := by
    funext τ
    simp only [prodVal, network, h1, h2, h3, List.map_cons, List.map_nil, val, List.prod_cons, List.prod_nil, order]
    simp only [mul_one]
    rw [term_right]
    simp only [mul_assoc]
    rfl
  rw [hp, sumOver_map (by decide) (term_right op rho iso dis), show (order .right).map (mdim a b t e) = [e, e, e, e, e, e, a, e, b, t, t, t, t, t, t, b, a, b, a, b, a, b, a] from rfl]
  iterate 6
    rw [sumIdx]
    refine sum_congr rfl fun _ _ => ?_
  rw [reduced]
  iterate 3
    rw [sumIdx, mul_sum]
    refine sum_congr rfl fun _ _ => ?_
  rw [below]
  iterate 6
    rw [sumIdx, mul_sum]
    refine sum_congr rfl fun _ _ => ?_
  rw [layer]
  iterate 4
    rw [sumIdx, sum_mul, sum_mul, mul_sum]
    refine sum_congr rfl fun _ _ => ?_
  rw [layer]
  iterate 4
    rw [sumIdx, star_sum, mul_sum, mul_sum]
    refine sum_congr rfl fun _ _ => ?_
  rw [sumIdx, term_right]
  simp only [conjT, star_mul', List.getD_cons_zero, List.getD_eq_getElem?_getD, List.getElem?_cons_succ, List.getElem?_cons_zero, Option.getD_some]
  ring

end TN.Mera
