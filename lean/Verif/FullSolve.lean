import Verif.Greedy
import Mathlib.Algebra.Order.Group.Nat
import Mathlib.Algebra.Order.Monoid.Canonical.Defs

/-!
# The full search for a contraction order

Model of `full_solve_complete`, `_full_solve_single` and `_reduce_nets`
(contractors/custom_path_solvers/pathsolvers.py:145-204, 207-368, 371-419).

Simplifications: the groups of tensors, a power-of-two encoding in `uint64` in the code, are finite
sets; `np.unique` also sorts the networks by this encoding, the model keeps them sorted by cost;
ties of `np.argsort` are broken by position; the two percentages of `_reduce_nets` are computed
exactly.
-/

set_option linter.unusedSectionVars false

namespace TN.Solver

open Finset

variable {K C : Type} [CommRing K] [LinearOrder K] [Inhabited K]

/-- An intermediate network: one slice of the arrays `log_adj`, `costs`, `groups`, `orders` and
`stable`.  `cost = none` before the first contraction (`costs.size == 0`). -/
structure Item (K C : Type) where
  adj : Mat K
  cost : Option C
  groups : List (Finset Nat)
  orders : List (Nat × Nat)
  stable : Bool

/-- Keep the first element for each key: `np.unique(..., return_index=True)`. -/
def firstBy {α β : Type} [DecidableEq β] (key : α → β) : List α → List α
  | [] => []
  | x :: l => x :: (firstBy key l).filter (fun y => key y ≠ key x)

variable [AddCommMonoid C] [LinearOrder C]

/-- The cost as a number. -/
def Item.c (x : Item K C) : C := x.cost.getD 0

/-- `np.argsort(costs)` -/
def sortCost (l : List (Item K C)) : List (Item K C) := l.insertionSort (fun x y => x.c ≤ y.c)

/-- `_reduce_nets` (pathsolvers.py:371-419): the kept networks and the number of truncated ones. -/
def reduceNets (l : List (Item K C)) (maxBranch : Option Nat) : List (Item K C) × Nat :=
  let u := firstBy Item.groups (sortCost l)
  match maxBranch with
  | none => (u, 0)
  | some b =>
    if u.length > b then
      let numStable := (b + 4) / 5
      let numCheapest := (4 * b + 4) / 5
      let keep := u.take numCheapest ++ ((u.drop numCheapest).filter Item.stable).take numStable
      (keep, u.length - keep.length)
    else (u, 0)

/-- The network after the contraction of the positions `j < i` (pathsolvers.py:277-284, 312-337).
`n` is the number of tensors. -/
def child (P : Params K C) (n : Nat) (p : Nat × Nat) (x : Item K C) : Item K C where
  adj := contractAdj x.adj p.1 p.2
  cost := match x.cost with
    | none => some (P.ex (single n x.adj p.1 p.2))
    | some c => some (c + P.ex (single n x.adj p.1 p.2))
  groups := mergeG x.groups p
  orders := x.orders ++ [p]
  stable := decide (dim n x.adj p.1 + dim n x.adj p.2 - 2 * x.adj p.1 p.2 <
    max (dim n x.adj p.1) (dim n x.adj p.2) + P.tol)

/-- The local variables of the loop of `_full_solve_single`. -/
structure Acc (K C : Type) where
  final : List (Item K C)
  onlyOuter : Bool
  noneInbounds : Bool
  truncated : Nat

/-- `mid_kept` (pathsolvers.py:242-245) -/
def midKept : Option Nat → Nat
  | none => 10000
  | some b => b

/-- The body of the loop of `_full_solve_single` (pathsolvers.py:262-352). -/
def pairStep (P : Params K C) (n : Nat) (items : List (Item K C)) (bound : C)
    (maxBranch : Option Nat) (allowOuter : Bool) (acc : Acc K C) (p : Nat × Nat) : Acc K C :=
  let kept := if allowOuter then items else items.filter (fun x => 0 < x.adj p.1 p.2)
  if kept.isEmpty then acc
  else
    let new := (kept.map (child P n p)).filter (fun x => x.c < bound)
    if new.isEmpty then { acc with onlyOuter := false }
    else
      let final := acc.final ++ firstBy Item.groups (sortCost new)
      if final.length > midKept maxBranch then
        let r := reduceNets final maxBranch
        { final := r.1, onlyOuter := false, noneInbounds := false,
          truncated := acc.truncated + r.2 }
      else { final := final, onlyOuter := false, noneInbounds := false,
             truncated := acc.truncated }

/-- The pairs `j < i` in the order of the two loops. -/
def stepPairs (n : Nat) : List (Nat × Nat) :=
  (List.range n).flatMap (fun i => (List.range i).map (fun j => (j, i)))

/-- The two loops. -/
def runPairs (P : Params K C) (n : Nat) (items : List (Item K C)) (bound : C)
    (maxBranch : Option Nat) (allowOuter : Bool) : Acc K C :=
  (stepPairs n).foldl (pairStep P n items bound maxBranch allowOuter)
    { final := [], onlyOuter := !allowOuter, noneInbounds := true, truncated := 0 }

/-- The end of `_full_solve_single` without the recursive call (pathsolvers.py:354-357, 369-376). -/
def finish (acc : Acc K C) : List (Item K C) × Nat :=
  if acc.noneInbounds then ([], 0) else ((reduceNets acc.final none).1, acc.truncated)

/-- `_full_solve_single` (pathsolvers.py:207-368) -/
def solveSingle (P : Params K C) (n : Nat) (items : List (Item K C)) (bound : C)
    (maxBranch : Option Nat) : List (Item K C) × Nat :=
  let acc := runPairs P n items bound maxBranch false
  if acc.onlyOuter then finish (runPairs P n items bound maxBranch true) else finish acc

/-- The loop of `full_solve_complete` (pathsolvers.py:189-200); `none` if no path is found. -/
def fullLoop (P : Params K C) (bound : C) (maxBranch : Option Nat) :
    Nat → Nat → List (Item K C) → Nat → Option (List (Item K C) × Nat)
  | 0, _, items, t => some (items, t)
  | s + 1, n, items, t =>
    match solveSingle P n items bound maxBranch with
    | ([], _) => none
    | (items', k) => fullLoop P bound maxBranch s (n - 1) items' (t + k)

/-- `full_solve_complete` (pathsolvers.py:145-204): the order, its cost and whether it is claimed to
be optimal. -/
def fullSolve (P : Params K C) (n : Nat) (A : Mat K) (maxBranch : Option Nat) :
    Py (List (Nat × Nat) × C × Bool) :=
  match greedySize P n A, greedyCost P n A with
  | .error e, _ => .error e
  | _, .error e => .error e
  | .ok (o0, some c0), .ok (o1, some c1) =>
    let greedy := if c0 < c1 then (o0, c0) else (o1, c1)
    if maxBranch = some 1 then .ok (greedy.1, greedy.2, false)
    else
      match fullLoop P (P.slack greedy.2) maxBranch (n - 1) n
          [{ adj := A, cost := none, groups := startG n, orders := [], stable := false }] 0 with
      | none => .ok (greedy.1, greedy.2, false)
      | some ([x], t) => .ok (x.orders, x.c, decide (t = 0))
      -- `costs.item()` of another number of networks
      | some _ => .error .valueError
  -- comparison of `None` with `None`
  | _, _ => .error .typeError

/-! ## Specification -/

/-- All contractions are over bonds of dimension greater than one. -/
def Nontrivial (A : Mat K) : List (Finset Nat) → List (Nat × Nat) → Prop
  | _, [] => True
  | G, p :: ps => 0 < ∑ x ∈ G.getD p.1 ∅, ∑ y ∈ G.getD p.2 ∅, A x y ∧ Nontrivial A (mergeG G p) ps

/-- Two vectors and a tensor that shares a leg with each and has an open leg.  The search claims
that its result is optimal, but it never tries to multiply the two vectors first, which is
cheaper. -/
def starNet : Mat Int := fun a b =>
  if (a, b) = (0, 2) ∨ (a, b) = (2, 0) ∨ (a, b) = (1, 2) ∨ (a, b) = (2, 1) then 1
  else if (a, b) = (2, 2) then 2 else 0

theorem C45_optimal_false :
    fullSolve base2 3 starNet none = .ok ([(0, 2), (0, 1)], 24, true) ∧
    Steps 3 [(0, 1), (0, 1)] ∧ seqCost base2.ex 3 starNet (startG 3) [(0, 1), (0, 1)] = 20 := by
  refine ⟨by decide, by simp [Steps], by decide⟩

/-! ## Sequences of steps -/

/-- Steps from `n` tensors to `m` tensors. -/
def StepsTo : Nat → List (Nat × Nat) → Nat → Prop
  | n, [], m => n = m
  | n, p :: ps, m => p.1 < p.2 ∧ p.2 < n ∧ StepsTo (n - 1) ps m

theorem steps_iff {n : Nat} {ps : List (Nat × Nat)} : Steps n ps ↔ StepsTo n ps 1 := by
  induction ps generalizing n with
  | nil => rfl
  | cons p ps ih => simp [Steps, StepsTo, ih]

theorem stepsTo_snoc {n m : Nat} {ps : List (Nat × Nat)} {p : Nat × Nat} :
    StepsTo n (ps ++ [p]) m ↔ ∃ k, StepsTo n ps k ∧ p.1 < p.2 ∧ p.2 < k ∧ m = k - 1 := by
  induction ps generalizing n with
  | nil => simp [StepsTo, eq_comm]
  | cons q ps ih =>
    simp only [List.cons_append, StepsTo, ih]
    constructor
    · rintro ⟨h1, h2, k, h3, h4⟩; exact ⟨k, ⟨h1, h2, h3⟩, h4⟩
    · rintro ⟨k, ⟨h1, h2, h3⟩, h4⟩; exact ⟨h1, h2, k, h3, h4⟩

theorem seqCost_snoc (ex : K → C) (n : Nat) (A : Mat K) (G : List (Finset Nat))
    (ps : List (Nat × Nat)) (p : Nat × Nat) :
    seqCost ex n A G (ps ++ [p]) = seqCost ex n A G ps +
      ex (pairCost n A ((ps.foldl mergeG G).getD p.1 ∅) ((ps.foldl mergeG G).getD p.2 ∅)) := by
  induction ps generalizing G with
  | nil => simp [seqCost]
  | cons q ps ih => simp only [List.cons_append, seqCost, ih, List.foldl_cons, add_assoc]

theorem nontrivial_snoc {A : Mat K} {G : List (Finset Nat)} {ps : List (Nat × Nat)}
    {p : Nat × Nat} : Nontrivial A G (ps ++ [p]) ↔ Nontrivial A G ps ∧
      0 < ∑ x ∈ (ps.foldl mergeG G).getD p.1 ∅, ∑ y ∈ (ps.foldl mergeG G).getD p.2 ∅, A x y := by
  induction ps generalizing G with
  | nil => simp [Nontrivial]
  | cons q ps ih => simp [Nontrivial, ih, and_assoc]

theorem part_foldl {n m : Nat} {ps : List (Nat × Nat)} {N : Nat} {G : List (Finset Nat)}
    (hG : Part N G) (hl : G.length = n) (h : StepsTo n ps m) :
    Part N (ps.foldl mergeG G) ∧ (ps.foldl mergeG G).length = m := by
  induction ps generalizing n G with
  | nil => exact ⟨hG, hl.trans h⟩
  | cons p ps ih =>
    obtain ⟨h1, h2, h3⟩ := h
    subst hl
    exact ih (hG.merge h1 h2) (mergeG_length (j := p.1) h2) h3

/-! ## Sorting and reducing -/

theorem firstBy_subset {α β : Type} [DecidableEq β] (key : α → β) (l : List α) :
    ∀ x ∈ firstBy key l, x ∈ l := by
  induction l with
  | nil => simp [firstBy]
  | cons a l ih =>
    intro x hx
    rcases List.mem_cons.1 hx with rfl | hx
    · simp
    · exact List.mem_cons_of_mem _ (ih x (List.mem_filter.1 hx).1)

theorem firstBy_nodup {α β : Type} [DecidableEq β] (key : α → β) (l : List α) :
    ((firstBy key l).map key).Nodup := by
  induction l with
  | nil => simp [firstBy]
  | cons a l ih =>
    rw [firstBy, List.map_cons, List.nodup_cons]
    constructor
    · intro hc
      obtain ⟨y, hy, he⟩ := List.mem_map.1 hc
      have := (List.mem_filter.1 hy).2
      simp [he] at this
    · exact ih.sublist (List.filter_sublist.map _)

/-- Some element of the list has the groups `g` and costs at most `c`. -/
def Covers (l : List (Item K C)) (g : List (Finset Nat)) (c : C) : Prop :=
  ∃ x ∈ l, x.groups = g ∧ x.c ≤ c

theorem firstBy_covers {l : List (Item K C)} (hs : l.Pairwise (fun x y => x.c ≤ y.c))
    {g : List (Finset Nat)} {c : C} (h : Covers l g c) : Covers (firstBy Item.groups l) g c := by
  induction l with
  | nil => obtain ⟨x, hx, _⟩ := h; simp at hx
  | cons a l ih =>
    rw [List.pairwise_cons] at hs
    obtain ⟨x, hx, h1, h2⟩ := h
    by_cases hg : a.groups = g
    · refine ⟨a, by simp [firstBy], hg, ?_⟩
      rcases List.mem_cons.1 hx with rfl | hx
      · exact h2
      · exact le_trans (hs.1 x hx) h2
    · rcases List.mem_cons.1 hx with rfl | hx
      · exact absurd h1 hg
      · obtain ⟨y, hy, k1, k2⟩ := ih hs.2 ⟨x, hx, h1, h2⟩
        refine ⟨y, List.mem_cons_of_mem _ (List.mem_filter.2 ⟨hy, ?_⟩), k1, k2⟩
        simpa [k1] using Ne.symm hg

theorem sortCost_perm (l : List (Item K C)) : (sortCost l).Perm l := List.perm_insertionSort _ _

theorem sortCost_sorted (l : List (Item K C)) :
    (sortCost l).Pairwise (fun x y => x.c ≤ y.c) := by
  have : IsTrans (Item K C) (fun x y => x.c ≤ y.c) := ⟨fun _ _ _ h1 h2 => le_trans h1 h2⟩
  have : Std.Total (α := Item K C) (fun x y => x.c ≤ y.c) := ⟨fun _ _ => le_total _ _⟩
  exact List.pairwise_insertionSort _ _

theorem unique_covers {l : List (Item K C)} {g : List (Finset Nat)} {c : C} (h : Covers l g c) :
    Covers (firstBy Item.groups (sortCost l)) g c := by
  obtain ⟨x, hx, h1⟩ := h
  exact firstBy_covers (sortCost_sorted l) ⟨x, (sortCost_perm l).mem_iff.2 hx, h1⟩

theorem unique_subset {l : List (Item K C)} :
    ∀ x ∈ firstBy Item.groups (sortCost l), x ∈ l := fun x hx =>
  (sortCost_perm l).mem_iff.1 (firstBy_subset _ _ x hx)

theorem reduceNets_subset (l : List (Item K C)) (mb : Option Nat) :
    ∀ x ∈ (reduceNets l mb).1, x ∈ l := by
  intro x hx
  unfold reduceNets at hx
  cases mb with
  | none => exact unique_subset x hx
  | some b =>
    simp only at hx
    split_ifs at hx
    · rcases List.mem_append.1 hx with h | h
      · exact unique_subset x (List.mem_of_mem_take h)
      · exact unique_subset x (List.mem_of_mem_drop (List.mem_filter.1 (List.mem_of_mem_take h)).1)
    · exact unique_subset x hx

/-- Nothing is lost if nothing is truncated. -/
theorem reduceNets_covers {l : List (Item K C)} {mb : Option Nat} (h0 : (reduceNets l mb).2 = 0)
    {g : List (Finset Nat)} {c : C} (h : Covers l g c) : Covers (reduceNets l mb).1 g c := by
  have hu := unique_covers h
  unfold reduceNets at h0 ⊢
  cases mb with
  | none => exact hu
  | some b =>
    simp only at h0 ⊢
    by_cases hb : (firstBy Item.groups (sortCost l)).length > b
    · rw [if_pos hb] at h0 ⊢
      simp only at h0 ⊢
      generalize firstBy Item.groups (sortCost l) = u at *
      generalize (b + 4) / 5 = k1 at *
      generalize (4 * b + 4) / 5 = k2 at *
      have e1 : u.take k2 ++ u.drop k2 = u := List.take_append_drop _ _
      have e2 : ((u.drop k2).filter Item.stable).take k1 = u.drop k2 := by
        refine List.Sublist.eq_of_length_le
          ((List.take_sublist _ _).trans List.filter_sublist) ?_
        have := congrArg List.length e1
        rw [List.length_append] at this h0
        omega
      rw [e2, e1]
      exact hu
    · rw [if_neg hb]
      exact hu

/-! ## One step of the search -/

/-- A network of the search, with `m` tensors. -/
structure ItemOK (P : Params K C) (n : Nat) (A : Mat K) (m : Nat) (x : Item K C) : Prop where
  rep : Rep n A x.groups x.adj
  adj : LogAdj x.adj
  len : x.groups.length = m
  groups : x.groups = x.orders.foldl mergeG (startG n)
  steps : StepsTo n x.orders m
  cost : x.c = seqCost P.ex n A (startG n) x.orders

theorem child_ok [IsStrictOrderedRing K] {P : Params K C} {n : Nat} {A : Mat K} (hA : LogAdj A)
    {m : Nat} {x : Item K C} (h : ItemOK P n A m x) {p : Nat × Nat} (h1 : p.1 < p.2)
    (h2 : p.2 < m) : ItemOK P n A (m - 1) (child P m p x) ∧
      (child P m p x).c = x.c + P.ex (pairCost n A (x.groups.getD p.1 ∅) (x.groups.getD p.2 ∅)) := by
  have hl : p.2 < x.groups.length := h.len ▸ h2
  have e1 : single m x.adj p.1 p.2 = pairCost n A (x.groups.getD p.1 ∅) (x.groups.getD p.2 ∅) := by
    rw [← h.len]
    exact h.rep.single_eq hA.symm (by omega) hl (by omega)
  have e2 : (child P m p x).c =
      x.c + P.ex (pairCost n A (x.groups.getD p.1 ∅) (x.groups.getD p.2 ∅)) := by
    rw [← e1]
    rcases hx : x.cost with _ | c <;> simp [child, Item.c, hx]
  refine ⟨⟨h.rep.merge h.adj.symm h1 hl, h.adj.contract (by omega), ?_, ?_, ?_, ?_⟩, e2⟩
  · exact (mergeG_length hl).trans (by rw [h.len])
  · simp only [child, List.foldl_append, List.foldl_cons, List.foldl_nil, ← h.groups]
  · exact stepsTo_snoc.2 ⟨m, h.steps, h1, h2, rfl⟩
  · rw [e2, h.cost]
    simp only [child]
    rw [seqCost_snoc, ← h.groups]

theorem mem_stepPairs {n : Nat} {p : Nat × Nat} : p ∈ stepPairs n ↔ p.1 < p.2 ∧ p.2 < n := by
  obtain ⟨j, i⟩ := p
  simp only [stepPairs, List.mem_flatMap, List.mem_range, List.mem_map, Prod.mk.injEq]
  constructor
  · rintro ⟨i', h1, j', h2, rfl, rfl⟩; exact ⟨h2, h1⟩
  · rintro ⟨h1, h2⟩; exact ⟨i, h2, j, h1, rfl, rfl⟩

section Step
variable {P : Params K C} {m : Nat} {items : List (Item K C)} {bound : C} {mb : Option Nat}
  {allow : Bool}

theorem pairStep_mono (acc : Acc K C) (p : Nat × Nat) :
    acc.truncated ≤ (pairStep P m items bound mb allow acc p).truncated ∧
    (acc.onlyOuter = false → (pairStep P m items bound mb allow acc p).onlyOuter = false) ∧
    (acc.noneInbounds = false → (pairStep P m items bound mb allow acc p).noneInbounds = false) := by
  simp only [pairStep]
  split_ifs <;> simp_all

/-- Every network in the result is a child of a network of the input. -/
theorem pairStep_mem (acc : Acc K C) (p : Nat × Nat) :
    ∀ x ∈ (pairStep P m items bound mb allow acc p).final,
      x ∈ acc.final ∨ ∃ y ∈ items, x = child P m p y ∧ x.c < bound := by
  obtain ⟨kept, hkept⟩ : ∃ kept, kept =
    if allow then items else items.filter (fun x => 0 < x.adj p.1 p.2) := ⟨_, rfl⟩
  have hsub : ∀ y ∈ kept, y ∈ items := by
    intro y hy
    cases allow with
    | true => simpa [hkept] using hy
    | false =>
      rw [hkept] at hy
      exact (List.mem_filter.1 hy).1
  have key : ∀ x ∈ acc.final ++ firstBy Item.groups (sortCost
      ((kept.map (child P m p)).filter (fun x => x.c < bound))),
      x ∈ acc.final ∨ ∃ y ∈ items, x = child P m p y ∧ x.c < bound := by
    intro x hx
    rcases List.mem_append.1 hx with hx | hx
    · exact Or.inl hx
    · right
      have h1 := List.mem_filter.1 (unique_subset x hx)
      obtain ⟨y, hy, rfl⟩ := List.mem_map.1 h1.1
      exact ⟨y, hsub y hy, rfl, by simpa using h1.2⟩
  intro x hx
  simp only [pairStep, ← hkept] at hx
  split_ifs at hx
  · exact Or.inl hx
  · exact Or.inl hx
  · exact key x (reduceNets_subset _ _ x hx)
  · exact key x hx

theorem pairStep_covers {acc : Acc K C} {p : Nat × Nat}
    (ht : (pairStep P m items bound mb allow acc p).truncated = 0) {g : List (Finset Nat)} {c : C}
    (h : Covers acc.final g c) : Covers (pairStep P m items bound mb allow acc p).final g c := by
  have up : ∀ l : List (Item K C), Covers (acc.final ++ l) g c := by
    intro l
    obtain ⟨x, hx, h1⟩ := h
    exact ⟨x, List.mem_append_left _ hx, h1⟩
  obtain ⟨kept, hkept⟩ : ∃ kept, kept =
    if allow then items else items.filter (fun x => 0 < x.adj p.1 p.2) := ⟨_, rfl⟩
  simp only [pairStep, ← hkept] at ht ⊢
  split_ifs at ht ⊢
  · exact h
  · exact h
  · exact reduceNets_covers (by simp only at ht; omega) (up _)
  · exact up _

theorem pairStep_new {acc : Acc K C} {p : Nat × Nat}
    (ht : (pairStep P m items bound mb allow acc p).truncated = 0) {x : Item K C}
    (hx : x ∈ items) (hk : allow = true ∨ 0 < x.adj p.1 p.2) (hb : (child P m p x).c < bound) :
    Covers (pairStep P m items bound mb allow acc p).final (child P m p x).groups
      (child P m p x).c ∧
    (pairStep P m items bound mb allow acc p).onlyOuter = false ∧
    (pairStep P m items bound mb allow acc p).noneInbounds = false := by
  obtain ⟨kept, hkept⟩ : ∃ kept, kept =
    if allow then items else items.filter (fun x => 0 < x.adj p.1 p.2) := ⟨_, rfl⟩
  have hxk : x ∈ kept := by
    cases allow with
    | true => simpa [hkept] using hx
    | false => simpa [hkept] using ⟨hx, by simpa using hk⟩
  obtain ⟨new, hnew⟩ : ∃ new, new = (kept.map (child P m p)).filter (fun x => x.c < bound) :=
    ⟨_, rfl⟩
  have hxn : child P m p x ∈ new := by
    rw [hnew, List.mem_filter]
    exact ⟨List.mem_map_of_mem hxk, by simpa using hb⟩
  have hcov : Covers (acc.final ++ firstBy Item.groups (sortCost new)) (child P m p x).groups
      (child P m p x).c := by
    obtain ⟨y, hy, h1⟩ := unique_covers (l := new) ⟨_, hxn, rfl, le_rfl⟩
    exact ⟨y, List.mem_append_right _ hy, h1⟩
  have e1 : kept.isEmpty = false := by
    cases kept with
    | nil => simp at hxk
    | cons _ _ => rfl
  have e2 : new.isEmpty = false := by
    cases new with
    | nil => simp at hxn
    | cons _ _ => rfl
  simp only [pairStep, ← hkept, ← hnew, e1, e2, Bool.false_eq_true, if_false] at ht ⊢
  split_ifs at ht ⊢ with h3
  · exact ⟨reduceNets_covers (by simp only at ht; omega) hcov, rfl, rfl⟩
  · exact ⟨hcov, rfl, rfl⟩

theorem fold_mono (l : List (Nat × Nat)) (acc : Acc K C) :
    acc.truncated ≤ (l.foldl (pairStep P m items bound mb allow) acc).truncated ∧
    (acc.onlyOuter = false →
      (l.foldl (pairStep P m items bound mb allow) acc).onlyOuter = false) ∧
    (acc.noneInbounds = false →
      (l.foldl (pairStep P m items bound mb allow) acc).noneInbounds = false) := by
  induction l generalizing acc with
  | nil => exact ⟨le_rfl, id, id⟩
  | cons p l ih =>
    obtain ⟨h1, h2, h3⟩ := pairStep_mono (P := P) (m := m) (items := items) (bound := bound)
      (mb := mb) (allow := allow) acc p
    obtain ⟨h4, h5, h6⟩ := ih (pairStep P m items bound mb allow acc p)
    exact ⟨h1.trans h4, fun h => h5 (h2 h), fun h => h6 (h3 h)⟩

theorem fold_mem (l : List (Nat × Nat)) (acc : Acc K C) :
    ∀ x ∈ (l.foldl (pairStep P m items bound mb allow) acc).final,
      x ∈ acc.final ∨ ∃ p ∈ l, ∃ y ∈ items, x = child P m p y ∧ x.c < bound := by
  induction l generalizing acc with
  | nil => intro x hx; exact Or.inl hx
  | cons p l ih =>
    intro x hx
    rcases ih _ x hx with h | ⟨q, hq, h⟩
    · rcases pairStep_mem acc p x h with h | h
      · exact Or.inl h
      · exact Or.inr ⟨p, List.mem_cons_self, h⟩
    · exact Or.inr ⟨q, List.mem_cons_of_mem _ hq, h⟩

theorem fold_covers (l : List (Nat × Nat)) {acc : Acc K C}
    (ht : (l.foldl (pairStep P m items bound mb allow) acc).truncated = 0)
    {g : List (Finset Nat)} {c : C} (h : Covers acc.final g c) :
    Covers (l.foldl (pairStep P m items bound mb allow) acc).final g c := by
  induction l generalizing acc with
  | nil => exact h
  | cons p l ih =>
    have h1 := (fold_mono (P := P) (m := m) (items := items) (bound := bound) (mb := mb)
      (allow := allow) l (pairStep P m items bound mb allow acc p)).1
    rw [List.foldl_cons] at ht
    exact ih ht (pairStep_covers (by omega) h)

theorem fold_new (l : List (Nat × Nat)) {acc : Acc K C}
    (ht : (l.foldl (pairStep P m items bound mb allow) acc).truncated = 0) {p : Nat × Nat}
    (hp : p ∈ l) {x : Item K C} (hx : x ∈ items) (hk : allow = true ∨ 0 < x.adj p.1 p.2)
    (hb : (child P m p x).c < bound) :
    Covers (l.foldl (pairStep P m items bound mb allow) acc).final (child P m p x).groups
      (child P m p x).c ∧
    (l.foldl (pairStep P m items bound mb allow) acc).onlyOuter = false ∧
    (l.foldl (pairStep P m items bound mb allow) acc).noneInbounds = false := by
  induction l generalizing acc with
  | nil => simp at hp
  | cons q l ih =>
    rw [List.foldl_cons] at ht ⊢
    obtain ⟨h1, h2, h3⟩ := fold_mono (P := P) (m := m) (items := items) (bound := bound) (mb := mb)
      (allow := allow) l (pairStep P m items bound mb allow acc q)
    rcases List.mem_cons.1 hp with rfl | hp
    · obtain ⟨k1, k2, k3⟩ := pairStep_new (P := P) (acc := acc) (mb := mb) (by omega) hx hk hb
      exact ⟨fold_covers l ht k1, h2 k2, h3 k3⟩
    · exact ih ht hp

theorem pairStep_inv {acc : Acc K C} (p : Nat × Nat)
    (h : acc.noneInbounds = true → acc.truncated = 0) :
    (pairStep P m items bound mb allow acc p).noneInbounds = true →
      (pairStep P m items bound mb allow acc p).truncated = 0 := by
  simp only [pairStep]
  split_ifs <;> simp_all

theorem fold_inv (l : List (Nat × Nat)) {acc : Acc K C}
    (h : acc.noneInbounds = true → acc.truncated = 0) :
    (l.foldl (pairStep P m items bound mb allow) acc).noneInbounds = true →
      (l.foldl (pairStep P m items bound mb allow) acc).truncated = 0 := by
  induction l generalizing acc with
  | nil => exact h
  | cons p l ih => exact ih (pairStep_inv p h)

theorem fold_none (l : List (Nat × Nat)) {acc : Acc K C} (h : acc.truncated = 0) :
    (l.foldl (pairStep P m items bound none allow) acc).truncated = 0 := by
  induction l generalizing acc with
  | nil => exact h
  | cons p l ih =>
    refine ih ?_
    simp only [pairStep]
    split_ifs <;> simp [reduceNets, h]

theorem finish_mem (acc : Acc K C) : ∀ x ∈ (finish acc).1, x ∈ acc.final := by
  intro x hx
  unfold finish at hx
  split_ifs at hx
  · simp at hx
  · exact reduceNets_subset _ _ x hx

theorem solveSingle_mem : ∀ x ∈ (solveSingle P m items bound mb).1,
    ∃ p ∈ stepPairs m, ∃ y ∈ items, x = child P m p y ∧ x.c < bound := by
  intro x hx
  have key : ∀ allow, x ∈ (finish (runPairs P m items bound mb allow)).1 →
      ∃ p ∈ stepPairs m, ∃ y ∈ items, x = child P m p y ∧ x.c < bound := by
    intro allow h
    rcases fold_mem _ _ x (finish_mem _ x h) with h | h
    · simp at h
    · exact h
  simp only [solveSingle] at hx
  split_ifs at hx
  · exact key true hx
  · exact key false hx

theorem solveSingle_nodup : ((solveSingle P m items bound mb).1.map Item.groups).Nodup := by
  have key : ∀ acc : Acc K C, ((finish acc).1.map Item.groups).Nodup := by
    intro acc
    unfold finish
    split_ifs
    · simp
    · exact firstBy_nodup _ _
  simp only [solveSingle]
  split_ifs <;> exact key _

theorem solveSingle_covers (ht : (solveSingle P m items bound mb).2 = 0) {p : Nat × Nat}
    (hp : p ∈ stepPairs m) {x : Item K C} (hx : x ∈ items) (hk : 0 < x.adj p.1 p.2)
    (hb : (child P m p x).c < bound) :
    Covers (solveSingle P m items bound mb).1 (child P m p x).groups (child P m p x).c := by
  obtain ⟨acc, hacc⟩ : ∃ acc, acc = runPairs P m items bound mb false := ⟨_, rfl⟩
  have hinv : acc.noneInbounds = true → acc.truncated = 0 := by
    rw [hacc]; exact fold_inv _ (by simp)
  -- without outer products something is found
  have hfl : acc.onlyOuter = false := by
    have : ∀ (l : List (Nat × Nat)) (a : Acc K C), p ∈ l →
        (l.foldl (pairStep P m items bound mb false) a).onlyOuter = false := by
      intro l
      induction l with
      | nil => intro a h; simp at h
      | cons q l ih =>
        intro a h
        rcases List.mem_cons.1 h with rfl | h
        · refine (fold_mono (P := P) (m := m) (items := items) (bound := bound) (mb := mb)
            (allow := false) l _).2.1 ?_
          have h1 : (items.filter (fun x => 0 < x.adj p.1 p.2)).isEmpty = false := by
            rw [List.isEmpty_eq_false_iff]
            exact List.ne_nil_of_mem (List.mem_filter.2 ⟨hx, by simpa using hk⟩)
          simp only [pairStep, Bool.false_eq_true, if_false, h1]
          split_ifs <;> rfl
        · exact ih _ h
    rw [hacc]; exact this _ _ hp
  simp only [solveSingle, ← hacc, hfl, Bool.false_eq_true, if_false] at ht ⊢
  have ht0 : acc.truncated = 0 := by
    by_cases h : acc.noneInbounds = true
    · exact hinv h
    · simpa [finish, h] using ht
  have h1 := fold_new (P := P) (m := m) (items := items) (bound := bound) (mb := mb)
    (allow := false) (stepPairs m) (acc := ⟨[], !false, true, 0⟩) (by
      have h9 := ht0; rw [hacc] at h9; exact h9) hp hx (Or.inr hk) hb
  obtain ⟨k1, -, k3⟩ := h1
  change Covers (runPairs P m items bound mb false).final _ _ at k1
  change (runPairs P m items bound mb false).noneInbounds = false at k3
  rw [← hacc] at k1 k3
  simp only [finish, k3, Bool.false_eq_true, if_false]
  exact reduceNets_covers rfl k1

theorem solveSingle_none : (solveSingle P m items bound none).2 = 0 := by
  have key : ∀ allow, (finish (runPairs P m items bound none allow)).2 = 0 := by
    intro allow
    unfold finish
    split_ifs
    · rfl
    · exact fold_none _ rfl
  simp only [solveSingle]
  split_ifs <;> exact key _

end Step

/-! ## The search -/

theorem seqCost_nonneg [IsOrderedAddMonoid C] {ex : K → C} (hex : ∀ x, 0 ≤ ex x) (n : Nat)
    (A : Mat K) (G : List (Finset Nat)) (ps : List (Nat × Nat)) : 0 ≤ seqCost ex n A G ps := by
  induction ps generalizing G with
  | nil => exact le_rfl
  | cons p ps ih => exact add_nonneg (hex _) (ih _)

theorem Covers.mono {l : List (Item K C)} {g : List (Finset Nat)} {c c' : C} (h : Covers l g c)
    (hc : c ≤ c') : Covers l g c' := by
  obtain ⟨x, h1, h2, h3⟩ := h
  exact ⟨x, h1, h2, h3.trans hc⟩

section Search
variable [IsStrictOrderedRing K] [IsOrderedAddMonoid C] {P : Params K C} {n : Nat} {A : Mat K}
  {bound : C} {mb : Option Nat}

theorem solveSingle_ok (hA : LogAdj A) {m : Nat} {items : List (Item K C)}
    (h : ∀ x ∈ items, ItemOK P n A m x) :
    ∀ x ∈ (solveSingle P m items bound mb).1, ItemOK P n A (m - 1) x ∧ x.c < bound := by
  intro x hx
  obtain ⟨p, hp, y, hy, rfl, hb⟩ := solveSingle_mem x hx
  obtain ⟨h1, h2⟩ := mem_stepPairs.1 hp
  exact ⟨(child_ok hA (h y hy) h1 h2).1, hb⟩

theorem step_covers (hP : P.OK) (hA : LogAdj A) {m : Nat} {items : List (Item K C)}
    (h : ∀ x ∈ items, ItemOK P n A m x) (ht : (solveSingle P m items bound mb).2 = 0)
    {g : List (Finset Nat)} {c : C} (hcov : Covers items g c) {p : Nat × Nat}
    {ps : List (Nat × Nat)} (h1 : p.1 < p.2) (h2 : p.2 < m)
    (hpos : 0 < ∑ x ∈ g.getD p.1 ∅, ∑ y ∈ g.getD p.2 ∅, A x y)
    (hb : c + seqCost P.ex n A g (p :: ps) < bound) :
    Covers (solveSingle P m items bound mb).1 (mergeG g p)
      (c + P.ex (pairCost n A (g.getD p.1 ∅) (g.getD p.2 ∅))) := by
  obtain ⟨x, hx, rfl, hxc⟩ := hcov
  obtain ⟨k1, k2⟩ := child_ok hA (h x hx) h1 h2
  have hle : (child P m p x).c ≤
      c + P.ex (pairCost n A (x.groups.getD p.1 ∅) (x.groups.getD p.2 ∅)) := by
    rw [k2]; exact add_le_add_left hxc _
  have hlt : (child P m p x).c < bound := by
    refine lt_of_le_of_lt hle (lt_of_le_of_lt ?_ hb)
    rw [seqCost, ← add_assoc]
    exact le_add_of_nonneg_right (seqCost_nonneg hP.ex_nonneg _ _ _ _)
  have hadj : 0 < x.adj p.1 p.2 := by
    have hl := (h x hx).len
    rw [(h x hx).rep.eq p.1 p.2 (by omega) (by omega), adjOf, if_neg (by omega)]
    exact hpos
  exact (solveSingle_covers ht (mem_stepPairs.2 ⟨h1, h2⟩) hx hadj hlt).mono hle

theorem fullLoop_some (hP : P.OK) (hA : LogAdj A) (s : Nat) {items : List (Item K C)} {t : Nat}
    (h : ∀ x ∈ items, ItemOK P n A (s + 1) x ∧ (x.orders ≠ [] → x.c < bound))
    (hnd : (items.map Item.groups).Nodup) (hne : items ≠ [])
    {items' : List (Item K C)} {t' : Nat}
    (hr : fullLoop P bound mb s (s + 1) items t = some (items', t')) :
    (∀ x ∈ items', ItemOK P n A 1 x ∧ (x.orders ≠ [] → x.c < bound)) ∧
    (items'.map Item.groups).Nodup ∧ items' ≠ [] ∧ t ≤ t' ∧
    ∀ g c ps, t' = 0 → Covers items g c → StepsTo (s + 1) ps 1 → Nontrivial A g ps →
      c + seqCost P.ex n A g ps < bound →
      Covers items' (ps.foldl mergeG g) (c + seqCost P.ex n A g ps) := by
  induction s generalizing items t with
  | zero =>
    simp only [fullLoop, Option.some.injEq, Prod.mk.injEq] at hr
    obtain ⟨rfl, rfl⟩ := hr
    refine ⟨h, hnd, hne, le_rfl, ?_⟩
    intro g c ps _ hcov hst _ _
    cases ps with
    | nil => simpa [seqCost] using hcov
    | cons p ps =>
      have := hst.1
      have := hst.2.1
      omega
  | succ s ih =>
    rw [fullLoop] at hr
    rcases hsol : solveSingle P (s + 1 + 1) items bound mb with ⟨_ | ⟨y, l⟩, k⟩
    · rw [hsol] at hr; cases hr
    · rw [hsol] at hr
      simp only [Nat.add_sub_cancel] at hr
      have hok := solveSingle_ok (bound := bound) (mb := mb) hA (fun x hx => (h x hx).1)
      have hnd' := solveSingle_nodup (P := P) (m := s + 1 + 1) (items := items) (bound := bound)
        (mb := mb)
      rw [hsol] at hok hnd'
      obtain ⟨i1, i2, i3, i4, i5⟩ := ih (fun x hx => ⟨(hok x hx).1, fun _ => (hok x hx).2⟩) hnd'
        (by simp) hr
      refine ⟨i1, i2, i3, by omega, ?_⟩
      intro g c ps ht hcov hst hnt hb
      cases ps with
      | nil => exact absurd hst (by simp [StepsTo])
      | cons p ps =>
        obtain ⟨h1, h2, h3⟩ := hst
        have hc := step_covers (bound := bound) (mb := mb) hP hA (fun x hx => (h x hx).1)
          (by rw [hsol]; simp only; omega) hcov h1 h2 hnt.1 hb
        rw [hsol] at hc
        rw [seqCost, ← add_assoc] at hb ⊢
        exact i5 _ _ ps ht hc h3 hnt.2 hb

theorem fullLoop_none (hP : P.OK) (hA : LogAdj A) (s : Nat) {items : List (Item K C)} {t : Nat}
    (h : ∀ x ∈ items, ItemOK P n A (s + 1) x)
    (hr : fullLoop P bound none s (s + 1) items t = none)
    {g : List (Finset Nat)} {c : C} {ps : List (Nat × Nat)} (hcov : Covers items g c)
    (hst : StepsTo (s + 1) ps 1) (hnt : Nontrivial A g ps) :
    bound ≤ c + seqCost P.ex n A g ps := by
  induction s generalizing items t g c ps with
  | zero => simp [fullLoop] at hr
  | succ s ih =>
    rw [← not_lt]
    intro hb
    cases ps with
    | nil => exact absurd hst (by simp [StepsTo])
    | cons p ps =>
      obtain ⟨h1, h2, h3⟩ := hst
      have hc := step_covers (bound := bound) (mb := none) hP hA h solveSingle_none hcov h1 h2
        hnt.1 hb
      rw [fullLoop] at hr
      have hok := solveSingle_ok (bound := bound) (mb := none) hA h
      rcases hsol : solveSingle P (s + 1 + 1) items bound none with ⟨_ | ⟨y, l⟩, k⟩
      · rw [hsol] at hc
        obtain ⟨x, hx, _⟩ := hc
        simp at hx
      · rw [hsol] at hr hc hok
        simp only [Nat.add_sub_cancel] at hr
        rw [seqCost, ← add_assoc] at hb
        exact absurd hb (not_lt.2 (ih (fun x hx => (hok x hx).1) hr hc h3 hnt.2))

/-- For every network of at least two tensors that is connected or has an open leg,
`full_solve_complete` returns a complete sequence of pairwise contractions and its cost.  If there
is no limit on the number of branches, or if the result is flagged as optimal, no complete sequence
of contractions over bonds of dimension greater than one is cheaper.  What is missing: sequences
with an outer product, for which the claim is false. -/
theorem C45_optimal_partial (hP : P.OK) (hn : 2 ≤ n) (hA : LogAdj A)
    (hc : Connected n A ∨ ∃ x < n, 0 < A x x) :
    ∃ o c opt, fullSolve P n A mb = .ok (o, c, opt) ∧ Steps n o ∧
      c = seqCost P.ex n A (startG n) o ∧
      (opt = true ∨ mb = none → ∀ ps, Steps n ps → Nontrivial A (startG n) ps →
        c ≤ seqCost P.ex n A (startG n) ps) := by
  obtain ⟨o0, s0, e0⟩ := C35_greedy_size hP hn hA
  obtain ⟨o1, s1, e1⟩ := C35_greedy_cost_partial hP hn hA hc
  obtain ⟨og, hog⟩ : ∃ og, og = if seqCost P.ex n A (startG n) o0 < seqCost P.ex n A (startG n) o1
    then (o0, seqCost P.ex n A (startG n) o0) else (o1, seqCost P.ex n A (startG n) o1) := ⟨_, rfl⟩
  have hg : Steps n og.1 ∧ og.2 = seqCost P.ex n A (startG n) og.1 := by
    rw [hog]; split_ifs
    · exact ⟨s0, rfl⟩
    · exact ⟨s1, rfl⟩
  have hl : (startG n).length = n := by simp [startG]
  simp only [fullSolve, e0, e1, ← hog]
  by_cases hmb : mb = some 1
  · rw [if_pos hmb]
    refine ⟨_, _, _, rfl, hg.1, hg.2, ?_⟩
    rintro (h | h)
    · cases h
    · rw [hmb] at h; cases h
  · rw [if_neg hmb]
    obtain ⟨x0, hx0⟩ : ∃ x0 : Item K C, x0 =
      { adj := A, cost := none, groups := startG n, orders := [], stable := false } := ⟨_, rfl⟩
    rw [← hx0]
    have hok : ItemOK P n A (n - 1 + 1) x0 := by
      rw [hx0, show n - 1 + 1 = n by omega]
      exact ⟨rep_start n A, hA, hl, rfl, rfl, rfl⟩
    have hcov : Covers [x0] (startG n) 0 := ⟨x0, by simp, by rw [hx0], by rw [hx0]; exact le_rfl⟩
    rcases hr : fullLoop P (P.slack og.2) mb (n - 1) n [x0] 0 with _ | ⟨items', t⟩
    · refine ⟨_, _, _, rfl, hg.1, hg.2, ?_⟩
      rintro (h | h)
      · cases h
      · subst h
        intro ps hps hnt
        have h1 := fullLoop_none (n := n) (A := A) hP hA (n - 1) (items := [x0]) (t := 0)
          (by simpa using hok) (by rw [show n - 1 + 1 = n by omega]; exact hr) hcov
          (by rw [show n - 1 + 1 = n by omega]; exact steps_iff.1 hps) hnt
        rw [zero_add] at h1
        exact le_of_lt (lt_of_lt_of_le (hP.slack_lt _) h1)
    · obtain ⟨i1, i2, i3, -, i5⟩ := fullLoop_some (n := n) (A := A) hP hA (n - 1) (items := [x0])
        (t := 0) (by
          intro x hx
          rw [List.mem_singleton] at hx
          subst hx
          exact ⟨hok, fun h => absurd (by rw [hx0]) h⟩) (by simp) (by simp)
        (by rw [show n - 1 + 1 = n by omega]; exact hr)
      have hall : ∀ x ∈ items', x.groups = [range n] := by
        intro x hx
        have h1 := (i1 x hx).1
        obtain ⟨S, hS⟩ := List.length_eq_one_iff.1 h1.len
        have h2 := h1.rep.part.cover
        rw [hS] at h2 ⊢
        simpa using h2
      obtain ⟨x, rfl⟩ : ∃ x, items' = [x] := by
        rcases items' with _ | ⟨x, _ | ⟨y, l⟩⟩
        · exact absurd rfl i3
        · exact ⟨x, rfl⟩
        · have h1 := hall x (by simp)
          have h2 := hall y (by simp)
          simp [h1, h2] at i2
      obtain ⟨k1, k2⟩ := i1 x (by simp)
      refine ⟨x.orders, x.c, decide (t = 0), rfl, steps_iff.2 k1.steps, k1.cost, ?_⟩
      intro hopt ps hps hnt
      have ht : t = 0 := by
        rcases hopt with h | h
        · simpa using h
        · subst h
          have : ∀ (s m : Nat) (its : List (Item K C)) (u : Nat) (r : List (Item K C) × Nat),
              fullLoop P (P.slack og.2) none s m its u = some r → r.2 = u := by
            intro s
            induction s with
            | zero =>
              intro m its u r h
              simp only [fullLoop, Option.some.injEq] at h
              rw [← h]
            | succ s ih =>
              intro m its u r h
              rw [fullLoop] at h
              have h0 := solveSingle_none (P := P) (m := m) (items := its) (bound := P.slack og.2)
              rcases hsol : solveSingle P m its (P.slack og.2) none with ⟨_ | ⟨y, l⟩, k⟩
              · rw [hsol] at h; cases h
              · rw [hsol] at h h0
                simp only at h h0
                rw [ih _ _ _ _ h, h0]; rfl
          exact this _ _ _ _ _ hr
      have hxo : x.orders ≠ [] := by
        intro h0
        have := k1.steps
        rw [h0] at this
        simp only [StepsTo] at this
        omega
      rcases lt_or_ge (seqCost P.ex n A (startG n) ps) (P.slack og.2) with hlt | hge
      · obtain ⟨y, hy, -, h3⟩ := i5 (startG n) 0 ps ht hcov
          (by rw [show n - 1 + 1 = n by omega]; exact steps_iff.1 hps) hnt (by rwa [zero_add])
        rw [List.mem_singleton] at hy
        subst hy
        rwa [zero_add] at h3
      · exact le_of_lt (lt_of_lt_of_le (k2 hxo) hge)

end Search

theorem base2_ok : base2.OK := by
  refine ⟨by decide, fun a b h => ?_, fun x => Nat.zero_le _, fun c => Nat.lt_succ_self c⟩
  simp only [base2]
  omega

/-- The hypotheses hold for the chain of three tensors, and the search finds the best order. -/
example : fullSolve base2 3 chain3 none = .ok ([(1, 2), (0, 1)], 80, true) ∧
    Nontrivial chain3 (startG 3) [(0, 1), (0, 1)] := ⟨by decide, by decide, by decide, trivial⟩

example := C45_optimal_partial (mb := none) base2_ok (n := 3) (by decide) (A := chain3)
  ⟨fun a b => by
    simp only [chain3, Prod.mk.injEq]
    split_ifs <;> first | rfl | omega, fun a b => by
    simp only [chain3]; split_ifs <;> decide⟩ (Or.inr ⟨0, by decide, by decide⟩)

end TN.Solver
