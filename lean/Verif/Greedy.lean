import Verif.OrdToNcon
import Mathlib.Algebra.Order.Ring.Defs
import Mathlib.Algebra.Order.BigOperators.Group.Finset
import Mathlib.Algebra.BigOperators.Ring.Finset
import Mathlib.Tactic.Linarith
import Mathlib.Tactic.Ring
import Mathlib.Data.Finset.Basic

/-!
# The greedy path solvers

Model of `greedy_size_solve` and `greedy_cost_solve`
(contractors/custom_path_solvers/pathsolvers.py:18-85, 88-142).

A log-adjacency matrix is a function `Nat → Nat → K` with a size, `K` a linearly ordered ring (the
code has floats; rounding is not modelled).  Contraction costs are kept as numbers of operations in
an ordered additive monoid `C`, where the code keeps their logarithms: `ex x` is `10 ** x`, and the
update `costs + log10(1 + 10**(single - costs))` is the sum.
-/

set_option linter.unusedSectionVars false

namespace TN.Solver

open Finset

variable {K C : Type}

/-- A matrix. -/
abbrev Mat (K : Type) := Nat → Nat → K

/-- The numerical constants and functions of the solvers. -/
structure Params (K C : Type) where
  /-- `tol` (pathsolvers.py:101) -/
  tol : K
  /-- `((1 / tol) * x).astype(int)` (pathsolvers.py:47) -/
  tr : K → Int
  /-- `10 ** x` -/
  ex : K → C
  /-- `cost + tol`, on the side of the numbers of operations (pathsolvers.py:186) -/
  slack : C → C

/-- What the theorems use of them. -/
structure Params.OK [Zero K] [LinearOrder K] [Zero C] [LinearOrder C] (P : Params K C) : Prop where
  tol_pos : 0 < P.tol
  tr_mono : Monotone P.tr
  ex_nonneg : ∀ x, 0 ≤ P.ex x
  slack_lt : ∀ c, c < P.slack c

/-- All pairs of positions, row by row. -/
def pairs (n : Nat) : List (Nat × Nat) :=
  (List.range n).flatMap (fun a => (List.range n).map (fun b => (a, b)))

/-- `np.max`, `max` of a non-empty list -/
def maxOf {α : Type} [LinearOrder α] [Inhabited α] : List α → α
  | [] => default
  | x :: l => l.foldl max x

/-- `np.min` of a non-empty list -/
def minOf {α : Type} [LinearOrder α] [Inhabited α] : List α → α
  | [] => default
  | x :: l => l.foldl min x

variable [CommRing K] [LinearOrder K] [Inhabited K]

/-- `dims = np.sum(log_adj, axis=0)` -/
def dim (n : Nat) (A : Mat K) (b : Nat) : K := ∑ a ∈ range n, A a b

/-- `single_cost = comb_dims - log_adj` -/
def single (n : Nat) (A : Mat K) (a b : Nat) : K := dim n A a + dim n A b - A a b

/-- The position in the old list of the element at position `a` after the deletion of `i`. -/
def skip (i a : Nat) : Nat := if a < i then a else a + 1

/-- "build new log adjacency" (pathsolvers.py:68-73) -/
def contractAdj (A : Mat K) (j i : Nat) : Mat K :=
  let A1 : Mat K := fun a b => if a = j ∧ b = j then A j j - 2 * A j i else A a b
  let A2 : Mat K := fun a b => if a = j then A1 j b + A1 i b else A1 a b
  let A3 : Mat K := fun a b => if b = j then A2 a j + A2 a i else A2 a b
  fun a b => A3 (skip i a) (skip i b)

/-- The choice of a pair in `greedy_size_solve` (pathsolvers.py:36-66).  `np.where` gives the
pairs row by row. -/
def chooseSize (P : Params K C) (n : Nat) (A : Mat K) : Py (Nat × Nat) :=
  let nd : Nat × Nat → K := fun p => dim n A p.1 + dim n A p.2 - 2 * A p.1 p.2
  let m := maxOf ((pairs n).map nd)
  let nd' : Nat × Nat → K := fun p => nd p + m * (if p.1 = p.2 then 1 else 0)
  let dc : Nat × Nat → Int := fun p => P.tr (nd' p - max (dim n A p.2) (dim n A p.1))
  let cands := (pairs n).filter (fun p => dc p = minOf ((pairs n).map dc) ∧ p.1 < p.2)
  let costs := cands.map (fun p => single n A p.1 p.2)
  let cont := cands.map (fun p => A p.1 p.2)
  -- `max` of an empty sequence
  if cands = [] then .error .valueError
  else
    let cost : Nat × Nat → K := fun p =>
      if 0 < maxOf cont ∧ A p.1 p.2 = 0 then single n A p.1 p.2 + (maxOf costs + 1)
      else single n A p.1 p.2
    match cands.find? (fun p => cost p = minOf (cands.map cost)) with
    | some p => .ok p
    | none => .error .valueError

/-- The choice of a pair in `greedy_cost_solve` (pathsolvers.py:107-121).  `np.argmin` of the
flattened matrix and `np.divmod` give the first minimal pair, row by row. -/
def chooseCost (P : Params K C) (n : Nat) (A : Mat K) : Py (Nat × Nat) :=
  let S : Nat × Nat → K := fun p => single n A p.1 p.2
  let m := maxOf ((pairs n).map S)
  let T1 : Nat × Nat → K := fun p => S p + m * (if A p.1 p.2 < P.tol then 1 else 0)
  let m1 := maxOf ((pairs n).map T1)
  let T : Nat × Nat → K := fun p => T1 p + m1 * (if p.1 = p.2 then 1 else 0)
  match (pairs n).find? (fun p => T p = minOf ((pairs n).map T)) with
  | some p => .ok p
  | none => .error .valueError

/-- The loop of both solvers: `s` steps are left, the matrix has size `n`. -/
def greedyLoop [Add C] (P : Params K C) (choose : Nat → Mat K → Py (Nat × Nat)) :
    Nat → Nat → Mat K → List (Nat × Nat) → Option C → Py (List (Nat × Nat) × Option C)
  | 0, _, _, orders, cost => .ok (orders, cost)
  | s + 1, n, A, orders, cost =>
    match choose n A with
    | .error e => .error e
    | .ok p =>
      let i := max p.1 p.2
      let j := min p.1 p.2
      let c := P.ex (single n A i j)
      greedyLoop P choose s (n - 1) (contractAdj A j i) (orders ++ [p])
        (match cost with
          | none => some c
          | some c' => some (c' + c))

/-- `greedy_size_solve` (pathsolvers.py:18-85) -/
def greedySize [Add C] (P : Params K C) (n : Nat) (A : Mat K) :
    Py (List (Nat × Nat) × Option C) :=
  greedyLoop P (chooseSize P) (n - 1) n A [] none

/-- `greedy_cost_solve` (pathsolvers.py:88-142) -/
def greedyCost [Add C] (P : Params K C) (n : Nat) (A : Mat K) :
    Py (List (Nat × Nat) × Option C) :=
  greedyLoop P (chooseCost P) (n - 1) n A [] none

/-! ## Specification -/

/-- A complete sequence of pairwise contractions of `n` tensors: in each step two positions
`j < i` of the current list; the tensor at `i` is merged into the one at `j`; one tensor is left
at the end. -/
def Steps : Nat → List (Nat × Nat) → Prop
  | n, [] => n = 1
  | n, p :: ps => p.1 < p.2 ∧ p.2 < n ∧ Steps (n - 1) ps

/-- A list of tensor groups after merging the group at `i` into the group at `j`. -/
def mergeG (G : List (Finset Nat)) (p : Nat × Nat) : List (Finset Nat) :=
  (G.set p.1 (G.getD p.1 ∅ ∪ G.getD p.2 ∅)).eraseIdx p.2

/-- The groups at the start: one for each tensor. -/
def startG (n : Nat) : List (Finset Nat) := (List.range n).map (fun a => {a})

/-- Logarithm of the number of operations to contract the groups `S` and `T` of tensors: the sum
over the open legs of both, the bonds between them (once) and the bonds to all other tensors. -/
def pairCost (n : Nat) (A : Mat K) (S T : Finset Nat) : K :=
  ∑ x ∈ S ∪ T, A x x + ∑ x ∈ S, ∑ y ∈ T, A x y +
    ∑ x ∈ S ∪ T, ∑ y ∈ range n \ (S ∪ T), A x y

/-- The total cost of a sequence of contractions. -/
def seqCost [AddCommMonoid C] (ex : K → C) (n : Nat) (A : Mat K) :
    List (Finset Nat) → List (Nat × Nat) → C
  | _, [] => 0
  | G, p :: ps => ex (pairCost n A (G.getD p.1 ∅) (G.getD p.2 ∅)) + seqCost ex n A (mergeG G p) ps

/-- A matrix of logarithms of dimensions. -/
structure LogAdj [CommRing K] [LinearOrder K] (A : Mat K) : Prop where
  symm : ∀ a b, A a b = A b a
  nonneg : ∀ a b, 0 ≤ A a b

/-! ## Lists of pairs, minima and maxima -/

theorem mem_pairs {n a b : Nat} : (a, b) ∈ pairs n ↔ a < n ∧ b < n := by
  simp [pairs]

theorem pairs_sorted (n : Nat) :
    (pairs n).Pairwise (fun p q => p.1 < q.1 ∨ p.1 = q.1 ∧ p.2 < q.2) := by
  rw [pairs, List.pairwise_flatMap]
  constructor
  · intro a _
    rw [List.pairwise_map]
    exact List.pairwise_lt_range.imp (fun h => Or.inr ⟨rfl, h⟩)
  · refine List.pairwise_lt_range.imp (fun {a b} h => ?_)
    intro x hx y hy
    obtain ⟨_, _, rfl⟩ := List.mem_map.1 hx
    obtain ⟨_, _, rfl⟩ := List.mem_map.1 hy
    exact Or.inl h

section MinMax
variable {α : Type} [LinearOrder α] [Inhabited α]

theorem foldl_max_ge (l : List α) (x : α) : x ≤ l.foldl max x ∧ ∀ y ∈ l, y ≤ l.foldl max x := by
  induction l generalizing x with
  | nil => simp
  | cons z l ih =>
    obtain ⟨h1, h2⟩ := ih (max x z)
    refine ⟨le_trans (le_max_left _ _) h1, ?_⟩
    intro y hy
    rcases List.mem_cons.1 hy with rfl | hy
    · exact le_trans (le_max_right _ _) h1
    · exact h2 y hy

theorem le_maxOf {l : List α} {x : α} (h : x ∈ l) : x ≤ maxOf l := by
  cases l with
  | nil => simp at h
  | cons z l =>
    rcases List.mem_cons.1 h with rfl | h
    · exact (foldl_max_ge l x).1
    · exact (foldl_max_ge l z).2 x h

theorem foldl_min_le (l : List α) (x : α) : l.foldl min x ≤ x ∧ (∀ y ∈ l, l.foldl min x ≤ y) ∧
    (l.foldl min x = x ∨ l.foldl min x ∈ l) := by
  induction l generalizing x with
  | nil => simp
  | cons z l ih =>
    obtain ⟨h1, h2, h3⟩ := ih (min x z)
    refine ⟨le_trans h1 (min_le_left _ _), ?_, ?_⟩
    · intro y hy
      rcases List.mem_cons.1 hy with rfl | hy
      · exact le_trans h1 (min_le_right _ _)
      · exact h2 y hy
    · simp only [List.foldl_cons]
      rcases h3 with h3 | h3
      · rcases min_choice x z with h | h
        · left; rw [h3, h]
        · right; rw [h3, h]; exact List.mem_cons_self
      · right; exact List.mem_cons_of_mem _ h3

theorem minOf_le {l : List α} {x : α} (h : x ∈ l) : minOf l ≤ x := by
  cases l with
  | nil => simp at h
  | cons z l =>
    rcases List.mem_cons.1 h with rfl | h
    · exact (foldl_min_le l x).1
    · exact (foldl_min_le l z).2.1 x h

theorem minOf_mem {l : List α} (h : l ≠ []) : minOf l ∈ l := by
  cases l with
  | nil => exact absurd rfl h
  | cons z l =>
    rcases (foldl_min_le l z).2.2 with h | h
    · rw [minOf, h]; exact List.mem_cons_self
    · exact List.mem_cons_of_mem _ h

theorem find_min {β : Type} {l : List β} (hl : l ≠ []) (f : β → α) :
    ∃ p ∈ l, l.find? (fun p => f p = minOf (l.map f)) = some p ∧ ∀ q ∈ l, f p ≤ f q := by
  obtain ⟨p, hp, he⟩ := List.mem_map.1 (minOf_mem (l := l.map f) (by simpa using hl))
  have h1 : (l.find? (fun p => decide (f p = minOf (l.map f)))).isSome := by
    rw [List.find?_isSome]
    exact ⟨p, hp, by simpa using he⟩
  obtain ⟨q, hq⟩ := Option.isSome_iff_exists.1 h1
  refine ⟨q, List.mem_of_find?_eq_some hq, hq, ?_⟩
  intro x hx
  have h2 := List.find?_some hq
  simp only [decide_eq_true_eq] at h2
  rw [h2]
  exact minOf_le (List.mem_map_of_mem hx)

end MinMax

/-! ## The matrix after a contraction -/

theorem skip_ne (i a : Nat) : skip i a ≠ i := by
  unfold skip; split_ifs <;> omega

theorem skip_lt {i a n : Nat} (_ha : a < n - 1) : skip i a < n := by
  unfold skip; split_ifs <;> omega

theorem skip_inj {i a b : Nat} : skip i a = skip i b ↔ a = b := by
  unfold skip; split_ifs <;> omega

theorem contractAdj_apply {A : Mat K} (hs : ∀ a b, A a b = A b a) {j i : Nat} (hji : j ≠ i)
    (a b : Nat) :
    contractAdj A j i a b =
      if skip i a = j then
        if skip i b = j then A j j + A i i else A j (skip i b) + A i (skip i b)
      else if skip i b = j then A (skip i a) j + A (skip i a) i else A (skip i a) (skip i b) := by
  have h1 := skip_ne i a
  have h2 := skip_ne i b
  by_cases ha : skip i a = j <;> by_cases hb : skip i b = j <;>
    simp [contractAdj, ha, hb, hji.symm]
  rw [hs i j]; ring

theorem LogAdj.contract [IsStrictOrderedRing K] {A : Mat K} (h : LogAdj A) {j i : Nat}
    (hji : j ≠ i) : LogAdj (contractAdj A j i) := by
  constructor
  · intro a b
    rw [contractAdj_apply h.symm hji, contractAdj_apply h.symm hji]
    by_cases ha : skip i a = j <;> by_cases hb : skip i b = j <;> simp only [ha, hb, if_true, if_false]
    · rw [h.symm j, h.symm i]
    · rw [h.symm j, h.symm i]
    · rw [h.symm]
  · intro a b
    rw [contractAdj_apply h.symm hji]
    split_ifs
    · exact add_nonneg (h.nonneg _ _) (h.nonneg _ _)
    · exact add_nonneg (h.nonneg _ _) (h.nonneg _ _)
    · exact add_nonneg (h.nonneg _ _) (h.nonneg _ _)
    · exact h.nonneg _ _

theorem LogAdj.le_dim [IsStrictOrderedRing K] {A : Mat K} (h : LogAdj A) {n a b : Nat}
    (ha : a < n) : A a b ≤ dim n A b :=
  Finset.single_le_sum (f := fun x => A x b) (fun x _ => h.nonneg x b) (Finset.mem_range.2 ha)

theorem LogAdj.dim_nonneg [IsStrictOrderedRing K] {A : Mat K} (h : LogAdj A) (n b : Nat) :
    0 ≤ dim n A b := Finset.sum_nonneg (fun x _ => h.nonneg x b)

/-! ## The groups of tensors -/

theorem mergeG_getD {G : List (Finset Nat)} {j i : Nat} (hji : j < i) (hi : i < G.length)
    {a : Nat} (_ha : a < G.length - 1) :
    (mergeG G (j, i)).getD a ∅ =
      if skip i a = j then G.getD j ∅ ∪ G.getD i ∅ else G.getD (skip i a) ∅ := by
  simp only [mergeG, List.getD_eq_getElem?_getD, List.getElem?_eraseIdx]
  by_cases h : a < i
  · have e : skip i a = a := by simp [skip, h]
    rw [if_pos h, e]
    by_cases hj : a = j
    · subst hj
      rw [List.getElem?_set_self (by omega), if_pos rfl]
      simp
    · rw [List.getElem?_set_ne (Ne.symm hj), if_neg hj]
  · have e : skip i a = a + 1 := by simp [skip, h]
    rw [if_neg h, e, List.getElem?_set_ne (by omega), if_neg (by omega)]

theorem mergeG_length {G : List (Finset Nat)} {j i : Nat} (hi : i < G.length) :
    (mergeG G (j, i)).length = G.length - 1 := by
  rw [mergeG, List.length_eraseIdx_of_lt (by simpa using hi), List.length_set]

/-- The groups are a partition of the `n` tensors. -/
structure Part (n : Nat) (G : List (Finset Nat)) : Prop where
  disj : ∀ a b, a < G.length → b < G.length → a ≠ b → Disjoint (G.getD a ∅) (G.getD b ∅)
  cover : (range G.length).biUnion (fun a => G.getD a ∅) = range n
  nonempty : ∀ a < G.length, (G.getD a ∅).Nonempty

theorem startG_getD {n a : Nat} (h : a < n) : (startG n).getD a ∅ = {a} := by
  simp [startG, List.getD_eq_getElem?_getD, h]

theorem startG_part (n : Nat) : Part n (startG n) := by
  have hl : (startG n).length = n := by simp [startG]
  constructor
  · intro a b ha hb hab
    rw [hl] at ha hb
    rw [startG_getD ha, startG_getD hb]
    simpa using hab
  · rw [hl]
    ext x
    simp only [mem_biUnion, Finset.mem_range]
    constructor
    · rintro ⟨a, ha, hx⟩
      rw [startG_getD ha, Finset.mem_singleton] at hx
      omega
    · intro hx
      exact ⟨x, hx, by rw [startG_getD hx]; simp⟩
  · intro a ha
    rw [hl] at ha
    rw [startG_getD ha]
    simp

theorem skip_surj {i b n : Nat} (hb : b < n) (hbi : b ≠ i) (hi : i < n) :
    ∃ a < n - 1, skip i a = b := by
  by_cases h : b < i
  · exact ⟨b, by omega, by simp [skip, h]⟩
  · refine ⟨b - 1, by omega, ?_⟩
    have : ¬ b - 1 < i := by omega
    simp only [skip, this, if_false]
    omega

theorem Part.merge {n : Nat} {G : List (Finset Nat)} (h : Part n G) {j i : Nat} (hji : j < i)
    (hi : i < G.length) : Part n (mergeG G (j, i)) := by
  have hl := mergeG_length (G := G) (j := j) hi
  constructor
  · intro a b ha hb hab
    rw [hl] at ha hb
    rw [mergeG_getD hji hi ha, mergeG_getD hji hi hb]
    have sa := skip_lt (i := i) ha
    have sb := skip_lt (i := i) hb
    have sne : skip i a ≠ skip i b := fun hc => hab (skip_inj.1 hc)
    split_ifs with h1 h2 h2
    · exact absurd (h1.trans h2.symm) sne
    · rw [Finset.disjoint_union_left]
      exact ⟨h.disj _ _ (by omega) sb (Ne.symm h2), h.disj _ _ hi sb (skip_ne i b).symm⟩
    · rw [Finset.disjoint_union_right]
      exact ⟨h.disj _ _ sa (by omega) h1, h.disj _ _ sa hi (skip_ne i a)⟩
    · exact h.disj _ _ sa sb sne
  · rw [← h.cover, hl]
    ext x
    simp only [mem_biUnion, Finset.mem_range]
    constructor
    · rintro ⟨a, ha, hx⟩
      rw [mergeG_getD hji hi ha] at hx
      split_ifs at hx with h1
      · rcases Finset.mem_union.1 hx with hx | hx
        · exact ⟨j, by omega, hx⟩
        · exact ⟨i, hi, hx⟩
      · exact ⟨_, skip_lt ha, hx⟩
    · rintro ⟨b, hb, hx⟩
      by_cases hbi : b = i
      · obtain ⟨a, ha, hs⟩ := skip_surj (i := i) (b := j) (n := G.length) (by omega) (by omega) hi
        refine ⟨a, ha, ?_⟩
        rw [mergeG_getD hji hi ha, if_pos hs]
        exact Finset.mem_union_right _ (hbi ▸ hx)
      · obtain ⟨a, ha, hs⟩ := skip_surj (i := i) hb hbi hi
        refine ⟨a, ha, ?_⟩
        rw [mergeG_getD hji hi ha, hs]
        split_ifs with h1
        · exact Finset.mem_union_left _ (h1 ▸ hx)
        · exact hx
  · intro a ha
    rw [hl] at ha
    rw [mergeG_getD hji hi ha]
    split_ifs
    · exact (h.nonempty j (by omega)).mono Finset.subset_union_left
    · exact h.nonempty _ (skip_lt ha)

/-- The entries of the matrix in terms of the groups: the sum of the bonds between two groups, and
of the open legs of a group. -/
def adjOf (A : Mat K) (G : List (Finset Nat)) : Mat K := fun a b =>
  if a = b then ∑ x ∈ G.getD a ∅, A x x else ∑ x ∈ G.getD a ∅, ∑ y ∈ G.getD b ∅, A x y

/-- The matrix of the solver belongs to the groups. -/
structure Rep (n : Nat) (A₀ : Mat K) (G : List (Finset Nat)) (A : Mat K) : Prop where
  part : Part n G
  eq : ∀ a b, a < G.length → b < G.length → A a b = adjOf A₀ G a b

theorem rep_start (n : Nat) (A : Mat K) : Rep n A (startG n) A := by
  refine ⟨startG_part n, ?_⟩
  have hl : (startG n).length = n := by simp [startG]
  intro a b ha hb
  rw [hl] at ha hb
  rw [adjOf, startG_getD ha, startG_getD hb]
  by_cases h : a = b
  · simp [h]
  · simp [h]

theorem Rep.merge {n : Nat} {A₀ A : Mat K} {G : List (Finset Nat)} (h : Rep n A₀ G A)
    (hs : ∀ a b, A a b = A b a) {j i : Nat} (hji : j < i) (hi : i < G.length) :
    Rep n A₀ (mergeG G (j, i)) (contractAdj A j i) := by
  refine ⟨h.part.merge hji hi, ?_⟩
  intro a b ha hb
  rw [mergeG_length hi] at ha hb
  have sa := skip_lt (i := i) ha
  have sb := skip_lt (i := i) hb
  have na := skip_ne i a
  have nb := skip_ne i b
  have hj : j < G.length := by omega
  have dj := h.part.disj j i hj hi (by omega)
  rw [contractAdj_apply hs (by omega), adjOf, mergeG_getD hji hi ha, mergeG_getD hji hi hb]
  by_cases hab : a = b
  · subst hab
    by_cases h1 : skip i a = j
    · rw [if_pos h1, if_pos h1, if_pos rfl, if_pos h1, Finset.sum_union dj, h.eq j j hj hj,
        h.eq i i hi hi]
      simp [adjOf]
    · rw [if_neg h1, if_neg h1, if_pos rfl, if_neg h1, h.eq _ _ sa sa]
      simp [adjOf]
  · have sne : skip i a ≠ skip i b := fun hc => hab (skip_inj.1 hc)
    by_cases h1 : skip i a = j
    · have h2 : skip i b ≠ j := fun hc => sne (h1.trans hc.symm)
      rw [if_pos h1, if_neg h2, if_neg hab, if_pos h1, if_neg h2, Finset.sum_union dj,
        h.eq _ _ hj sb, h.eq _ _ hi sb]
      simp [adjOf, Ne.symm h2, Ne.symm nb]
    · by_cases h2 : skip i b = j
      · rw [if_neg h1, if_pos h2, if_neg hab, if_neg h1, if_pos h2, h.eq _ _ sa hj, h.eq _ _ sa hi]
        simp only [adjOf, if_neg h1, if_neg na]
        rw [← Finset.sum_add_distrib]
        exact Finset.sum_congr rfl (fun x _ => (Finset.sum_union dj).symm)
      · rw [if_neg h1, if_neg h2, if_neg hab, if_neg h1, if_neg h2, h.eq _ _ sa sb]
        simp [adjOf, sne]

theorem Rep.dim_eq {n : Nat} {A₀ A : Mat K} {G : List (Finset Nat)} (h : Rep n A₀ G A)
    (hs : ∀ a b, A₀ a b = A₀ b a) {a : Nat} (ha : a < G.length) :
    dim G.length A a = ∑ x ∈ G.getD a ∅, A₀ x x +
      ∑ x ∈ G.getD a ∅, ∑ y ∈ range n \ G.getD a ∅, A₀ x y := by
  have e1 : dim G.length A a = A a a + ∑ b ∈ (range G.length).erase a, A b a := by
    rw [dim, Finset.add_sum_erase _ (fun b => A b a) (Finset.mem_range.2 ha)]
  have e2 : range n \ G.getD a ∅ = ((range G.length).erase a).biUnion (fun b => G.getD b ∅) := by
    rw [← h.part.cover]
    ext x
    simp only [mem_sdiff, mem_biUnion, Finset.mem_range, mem_erase]
    constructor
    · rintro ⟨⟨b, hb, hx⟩, hxa⟩
      exact ⟨b, ⟨fun hc => hxa (hc ▸ hx), hb⟩, hx⟩
    · rintro ⟨b, ⟨hba, hb⟩, hx⟩
      exact ⟨⟨b, hb, hx⟩, fun hxa => Finset.disjoint_left.1 (h.part.disj b a hb ha hba) hx hxa⟩
  rw [e1, h.eq a a ha ha, e2]
  congr 1
  · simp [adjOf]
  · rw [Finset.sum_comm, Finset.sum_biUnion]
    · refine Finset.sum_congr rfl (fun b hb => ?_)
      obtain ⟨hba, hb⟩ := Finset.mem_erase.1 hb
      rw [h.eq b a (Finset.mem_range.1 hb) ha, adjOf, if_neg hba]
      exact Finset.sum_congr rfl (fun x _ => Finset.sum_congr rfl (fun y _ => hs _ _))
    · intro b hb c hc hbc
      simp only [coe_erase, Set.mem_sdiff, SetLike.mem_coe, Finset.mem_range] at hb hc
      exact h.part.disj b c hb.1 hc.1 hbc

theorem Part.subset {n : Nat} {G : List (Finset Nat)} (h : Part n G) {a : Nat}
    (ha : a < G.length) : G.getD a ∅ ⊆ range n := by
  rw [← h.cover]
  exact Finset.subset_biUnion_of_mem (fun a => G.getD a ∅) (Finset.mem_range.2 ha)

/-- `single_cost` is the logarithm of the number of operations. -/
theorem Rep.single_eq {n : Nat} {A₀ A : Mat K} {G : List (Finset Nat)} (h : Rep n A₀ G A)
    (hs : ∀ a b, A₀ a b = A₀ b a) {a b : Nat} (ha : a < G.length) (hb : b < G.length)
    (hab : a ≠ b) :
    single G.length A a b = pairCost n A₀ (G.getD a ∅) (G.getD b ∅) := by
  have hd := h.part.disj a b ha hb hab
  have sa := h.part.subset ha
  have sb := h.part.subset hb
  rw [single, h.dim_eq hs ha, h.dim_eq hs hb, h.eq a b ha hb, adjOf, if_neg hab, pairCost]
  generalize G.getD a ∅ = S at *
  generalize G.getD b ∅ = T at *
  have e1 : range n \ S = T ∪ (range n \ (S ∪ T)) := by
    ext x
    have := @sb x
    have h9 : x ∈ S → x ∉ T := fun h1 h2 => Finset.disjoint_left.1 hd h1 h2
    simp only [mem_sdiff, mem_union]
    tauto
  have e2 : range n \ T = S ∪ (range n \ (S ∪ T)) := by
    ext x
    have := @sa x
    have h9 : x ∈ S → x ∉ T := fun h1 h2 => Finset.disjoint_left.1 hd h1 h2
    simp only [mem_sdiff, mem_union]
    tauto
  have d1 : Disjoint T (range n \ (S ∪ T)) :=
    Finset.disjoint_left.2 (fun x hx hx' => (Finset.mem_sdiff.1 hx').2 (Finset.mem_union_right _ hx))
  have d2 : Disjoint S (range n \ (S ∪ T)) :=
    Finset.disjoint_left.2 (fun x hx hx' => (Finset.mem_sdiff.1 hx').2 (Finset.mem_union_left _ hx))
  have e3 : ∑ x ∈ T, ∑ y ∈ S, A₀ x y = ∑ x ∈ S, ∑ y ∈ T, A₀ x y := by
    rw [Finset.sum_comm]
    exact Finset.sum_congr rfl (fun x _ => Finset.sum_congr rfl (fun y _ => hs _ _))
  rw [Finset.sum_union hd, Finset.sum_union hd, e1, e2]
  simp only [Finset.sum_union d1, Finset.sum_union d2, Finset.sum_add_distrib]
  rw [e3]
  ring

/-! ## The solvers -/

theorem single_symm {A : Mat K} (h : ∀ a b, A a b = A b a) (n a b : Nat) :
    single n A a b = single n A b a := by
  rw [single, single, h a b]; ring

theorem chooseSize_ok [IsStrictOrderedRing K] [Zero C] [LinearOrder C] {P : Params K C} (hP : P.OK)
    {n : Nat} (hn : 2 ≤ n) {A : Mat K} (hA : LogAdj A) :
    ∃ p, chooseSize P n A = .ok p ∧ p.1 < p.2 ∧ p.2 < n := by
  obtain ⟨nd, hnd⟩ : ∃ nd : Nat × Nat → K,
    nd = fun p => dim n A p.1 + dim n A p.2 - 2 * A p.1 p.2 := ⟨_, rfl⟩
  obtain ⟨m, hm⟩ : ∃ m, m = maxOf ((pairs n).map nd) := ⟨_, rfl⟩
  obtain ⟨dc, hdc⟩ : ∃ dc : Nat × Nat → Int, dc = fun p =>
    P.tr (nd p + m * (if p.1 = p.2 then 1 else 0) - max (dim n A p.2) (dim n A p.1)) := ⟨_, rfl⟩
  obtain ⟨cands, hc⟩ : ∃ cands, cands =
    (pairs n).filter (fun p => dc p = minOf ((pairs n).map dc) ∧ p.1 < p.2) := ⟨_, rfl⟩
  have hne : pairs n ≠ [] := List.ne_nil_of_mem (mem_pairs.2 ⟨by omega, by omega⟩ : (0, 0) ∈ _)
  have hsym : ∀ a b, dc (a, b) = dc (b, a) := by
    intro a b
    simp only [hdc, hnd]
    rw [hA.symm a b, max_comm, add_comm (dim n A a)]
    simp only [eq_comm]
  have hcne : cands ≠ [] := by
    obtain ⟨⟨x, y⟩, hp, he⟩ := List.mem_map.1 (minOf_mem (l := (pairs n).map dc) (by simpa using hne))
    have key : ∃ x y, x < n ∧ y < n ∧ x ≠ y ∧ dc (x, y) = minOf ((pairs n).map dc) := by
      obtain ⟨hx, hy⟩ := mem_pairs.1 hp
      by_cases hxy : x = y
      · subst hxy
        obtain ⟨z, hz, hzx⟩ : ∃ z, z < n ∧ x ≠ z := by
          by_cases h : x = 0
          · exact ⟨1, by omega, by omega⟩
          · exact ⟨0, by omega, h⟩
        refine ⟨x, z, hx, hz, hzx, le_antisymm ?_ (minOf_le (List.mem_map_of_mem
          (mem_pairs.2 ⟨hx, hz⟩)))⟩
        rw [← he, hdc]
        refine hP.tr_mono ?_
        have h1 : nd (x, z) ≤ m := hm ▸ le_maxOf (List.mem_map_of_mem (mem_pairs.2 ⟨hx, hz⟩))
        have h2 := hA.le_dim (b := x) hx
        have h3 := le_max_right (dim n A z) (dim n A x)
        simp only [hnd, if_neg hzx, if_true, max_self] at h1 ⊢
        linarith
      · exact ⟨x, y, hx, hy, hxy, he⟩
    obtain ⟨x, y, hx, hy, hxy, he⟩ := key
    rcases Nat.lt_or_gt_of_ne hxy with h | h
    · exact List.ne_nil_of_mem (hc ▸ List.mem_filter.2 ⟨mem_pairs.2 ⟨hx, hy⟩, by simp [he, h]⟩)
    · refine List.ne_nil_of_mem (a := (y, x))
        (hc ▸ List.mem_filter.2 ⟨mem_pairs.2 ⟨hy, hx⟩, ?_⟩)
      rw [hsym] at he
      simp [he, h]
  obtain ⟨cost, hcost⟩ : ∃ cost : Nat × Nat → K, cost = fun p =>
    if 0 < maxOf (cands.map (fun p => A p.1 p.2)) ∧ A p.1 p.2 = 0 then
      single n A p.1 p.2 + (maxOf (cands.map (fun p => single n A p.1 p.2)) + 1)
    else single n A p.1 p.2 := ⟨_, rfl⟩
  obtain ⟨⟨x, y⟩, hp, he, -⟩ := find_min hcne cost
  have h1 := hp
  rw [hc, List.mem_filter, decide_eq_true_eq] at h1
  refine ⟨(x, y), ?_, h1.2.2, (mem_pairs.1 h1.1).2⟩
  subst hcost hc hdc hm hnd
  simp only [chooseSize]
  rw [if_neg hcne, he]

theorem chooseCost_ok [IsStrictOrderedRing K] [Zero C] [LinearOrder C] {P : Params K C} (hP : P.OK)
    {n : Nat} (hn : 2 ≤ n) {A : Mat K} (hA : LogAdj A)
    (hpos : ∃ a < n, ∃ b < n, 0 < A a b) :
    ∃ p, chooseCost P n A = .ok p ∧ p.1 < p.2 ∧ p.2 < n := by
  obtain ⟨S, hS⟩ : ∃ S : Nat × Nat → K, S = fun p => single n A p.1 p.2 := ⟨_, rfl⟩
  obtain ⟨m, hm⟩ : ∃ m, m = maxOf ((pairs n).map S) := ⟨_, rfl⟩
  obtain ⟨T1, hT1⟩ : ∃ T1 : Nat × Nat → K,
    T1 = fun p => S p + m * (if A p.1 p.2 < P.tol then 1 else 0) := ⟨_, rfl⟩
  obtain ⟨m1, hm1⟩ : ∃ m1, m1 = maxOf ((pairs n).map T1) := ⟨_, rfl⟩
  obtain ⟨T, hT⟩ : ∃ T : Nat × Nat → K,
    T = fun p => T1 p + m1 * (if p.1 = p.2 then 1 else 0) := ⟨_, rfl⟩
  have hne : pairs n ≠ [] := List.ne_nil_of_mem (mem_pairs.2 ⟨by omega, by omega⟩ : (0, 0) ∈ _)
  have hsym : ∀ a b, T (a, b) = T (b, a) := by
    intro a b
    simp only [hT, hT1, hS]
    rw [hA.symm a b, single_symm hA.symm]
    simp only [eq_comm]
  -- the largest cost is positive
  have hmpos : 0 < m := by
    obtain ⟨a, ha, b, hb, hab⟩ := hpos
    have h1 : 0 < dim n A b := lt_of_lt_of_le hab (hA.le_dim ha)
    obtain ⟨z, hz, hzb⟩ : ∃ z, z < n ∧ z ≠ b := by
      by_cases h : b = 0
      · exact ⟨1, by omega, by omega⟩
      · exact ⟨0, by omega, fun h' => h h'.symm⟩
    have h2 : S (z, b) ≤ m := hm ▸ le_maxOf (List.mem_map_of_mem (mem_pairs.2 ⟨hz, hb⟩))
    have h3 := hA.le_dim (b := z) hb
    have h4 := hA.symm z b
    simp only [hS, single] at h2
    linarith
  have hoff : ∀ x < n, ∀ y < n, x ≠ y → ∀ z < n, T (x, y) < T (z, z) := by
    intro x hx y hy hxy z hz
    have h1 : T1 (x, y) ≤ m1 := hm1 ▸ le_maxOf (List.mem_map_of_mem (mem_pairs.2 ⟨hx, hy⟩))
    have h2 : 0 < T1 (z, z) := by
      have h3 := hA.le_dim (b := z) hz
      have h4 := hA.nonneg z z
      simp only [hT1, hS, single]
      by_cases h5 : A z z < P.tol
      · rw [if_pos h5]; linarith
      · rw [if_neg h5]
        have := hP.tol_pos
        linarith [not_lt.1 h5]
    simp only [hT, if_neg hxy, if_true]
    linarith
  obtain ⟨⟨x, y⟩, hp, he, hmin⟩ := find_min hne T
  obtain ⟨hx, hy⟩ := mem_pairs.1 hp
  have hxy : x < y := by
    rcases Nat.lt_trichotomy x y with h | h | h
    · exact h
    · subst h
      have h1 := hoff 0 (by omega) 1 (by omega) (by omega) x hx
      have h2 := hmin (0, 1) (mem_pairs.2 ⟨by omega, by omega⟩)
      exact absurd h1 (not_lt.2 h2)
    · -- the transposed pair comes first
      rw [List.find?_eq_some_iff_append] at he
      obtain ⟨h1, as, bs, h2, h3⟩ := he
      have h4 : (y, x) ∈ as ++ (x, y) :: bs := h2 ▸ mem_pairs.2 ⟨hy, hx⟩
      rcases List.mem_append.1 h4 with h5 | h5
      · have h6 := h3 _ h5
        rw [hsym y x] at h6
        simp only [decide_eq_true_eq] at h1
        simp [h1] at h6
      · rcases List.mem_cons.1 h5 with h5 | h5
        · cases h5; omega
        · have h7 := pairs_sorted n
          rw [h2, List.pairwise_append] at h7
          have h8 := (List.pairwise_cons.1 h7.2.1).1 _ h5
          simp only at h8
          omega
  refine ⟨(x, y), ?_, hxy, hy⟩
  subst hT hm1 hT1 hm hS
  simp only [chooseCost]
  rw [he]

/-- The loop makes a complete sequence of contractions and adds up its cost, if the choice is
always a pair of positions. -/
theorem greedyLoop_ok [IsStrictOrderedRing K] [AddCommMonoid C] {P : Params K C}
    {choose : Nat → Mat K → Py (Nat × Nat)} {n : Nat} {A₀ : Mat K}
    (hs : ∀ a b, A₀ a b = A₀ b a)
    (hch : ∀ G A, Rep n A₀ G A → LogAdj A → 2 ≤ G.length →
      ∃ p, choose G.length A = .ok p ∧ p.1 < p.2 ∧ p.2 < G.length)
    (s : Nat) {G : List (Finset Nat)} {A : Mat K} (h : Rep n A₀ G A) (hA : LogAdj A)
    (hlen : G.length = s + 1) (orders : List (Nat × Nat)) (cost : Option C) :
    ∃ ps, Steps (s + 1) ps ∧ greedyLoop P choose s G.length A orders cost =
      .ok (orders ++ ps, if s = 0 then cost else some (cost.getD 0 + seqCost P.ex n A₀ G ps)) := by
  induction s generalizing G A orders cost with
  | zero => exact ⟨[], rfl, by simp [greedyLoop]⟩
  | succ s ih =>
    obtain ⟨⟨j, i⟩, h1, h2, h3⟩ := hch G A h hA (by omega)
    simp only at h2 h3
    have hl := mergeG_length (j := j) h3
    obtain ⟨ps, h4, h5⟩ := ih (h.merge hA.symm h2 h3) (hA.contract (by omega)) (by omega)
      (orders ++ [(j, i)]) (match cost with
          | none => some (P.ex (single G.length A i j))
          | some c' => some (c' + P.ex (single G.length A i j)))
    refine ⟨(j, i) :: ps, ⟨h2, by simp only; omega, h4⟩, ?_⟩
    rw [greedyLoop, h1]
    simp only [max_eq_right (Nat.le_of_lt h2), min_eq_left (Nat.le_of_lt h2)]
    rw [hl] at h5
    rw [h5, List.append_assoc, List.singleton_append]
    have e1 : single G.length A i j = pairCost n A₀ (G.getD j ∅) (G.getD i ∅) := by
      rw [single_symm hA.symm, h.single_eq hs (by omega) h3 (by omega)]
    rw [e1]
    congr 2
    rw [if_neg (Nat.succ_ne_zero s)]
    have e2 : s = 0 → seqCost P.ex n A₀ (mergeG G (j, i)) ps = 0 := by
      rintro rfl
      cases ps with
      | nil => rfl
      | cons p ps => exact absurd h4.2.1 (by have := h4.1; omega)
    cases cost with
    | none =>
      by_cases h0 : s = 0
      · simp [h0, seqCost, e2 h0]
      · simp [h0, seqCost]
    | some c =>
      by_cases h0 : s = 0
      · simp [h0, seqCost, e2 h0]
      · simp [h0, seqCost, add_assoc]

/-- For every network of at least two tensors `greedy_size_solve` returns a complete sequence of
pairwise contractions, and the cost of this sequence. -/
theorem C35_greedy_size [IsStrictOrderedRing K] [AddCommMonoid C] [LinearOrder C]
    {P : Params K C} (hP : P.OK) {n : Nat} (hn : 2 ≤ n) {A : Mat K} (hA : LogAdj A) :
    ∃ orders, Steps n orders ∧
      greedySize P n A = .ok (orders, some (seqCost P.ex n A (startG n) orders)) := by
  have hl : (startG n).length = n := by simp [startG]
  obtain ⟨ps, h1, h2⟩ := greedyLoop_ok (P := P) (choose := chooseSize P) hA.symm
    (fun G A' _ h2 h3 => chooseSize_ok hP h3 h2) (n - 1) (rep_start n A) hA (by omega) [] none
  rw [show n - 1 + 1 = n by omega] at h1
  refine ⟨ps, h1, ?_⟩
  rw [hl] at h2
  rw [greedySize, h2, if_neg (by omega)]
  simp

/-- There is a bond of dimension greater than one between every set of tensors and the rest. -/
def Connected (n : Nat) (A : Mat K) : Prop :=
  ∀ S ⊂ range n, S.Nonempty → ∃ x ∈ S, ∃ y ∈ range n \ S, 0 < A x y

theorem Rep.pos_of_connected [IsStrictOrderedRing K] {n : Nat} {A₀ A : Mat K}
    {G : List (Finset Nat)} (h : Rep n A₀ G A) (hA : LogAdj A₀) (hc : Connected n A₀)
    (h2 : 2 ≤ G.length) : ∃ a < G.length, ∃ b < G.length, 0 < A a b := by
  obtain ⟨x, hx, y, hy, hxy⟩ := hc (G.getD 0 ∅) (by
    refine Finset.ssubset_iff_subset_ne.2 ⟨h.part.subset (by omega), fun he => ?_⟩
    obtain ⟨z, hz⟩ := h.part.nonempty 1 (by omega)
    have h3 := h.part.subset (by omega) hz
    rw [← he] at h3
    exact Finset.disjoint_left.1 (h.part.disj 0 1 (by omega) (by omega) (by omega)) h3 hz)
    (h.part.nonempty 0 (by omega))
  rw [Finset.mem_sdiff, ← h.part.cover, Finset.mem_biUnion] at hy
  obtain ⟨⟨b, hb, hyb⟩, hy0⟩ := hy
  rw [Finset.mem_range] at hb
  have hb0 : (0 : Nat) ≠ b := fun hc => hy0 (hc ▸ hyb)
  refine ⟨0, by omega, b, hb, ?_⟩
  rw [h.eq 0 b (by omega) hb, adjOf, if_neg hb0]
  refine Finset.sum_pos' (fun i _ => Finset.sum_nonneg (fun j _ => hA.nonneg _ _)) ⟨x, hx, ?_⟩
  exact Finset.sum_pos' (fun j _ => hA.nonneg _ _) ⟨y, hyb, hxy⟩

theorem Rep.pos_of_open [IsStrictOrderedRing K] {n : Nat} {A₀ A : Mat K}
    {G : List (Finset Nat)} (h : Rep n A₀ G A) (hA : LogAdj A₀) {x : Nat} (hx : x < n)
    (hpos : 0 < A₀ x x) : ∃ a < G.length, ∃ b < G.length, 0 < A a b := by
  have h1 := Finset.mem_range.2 hx
  rw [← h.part.cover, Finset.mem_biUnion] at h1
  obtain ⟨a, ha, hxa⟩ := h1
  rw [Finset.mem_range] at ha
  refine ⟨a, ha, a, ha, ?_⟩
  rw [h.eq a a ha ha, adjOf, if_pos rfl]
  exact Finset.sum_pos' (fun j _ => hA.nonneg _ _) ⟨x, hxa, hpos⟩

/-- `greedy_cost_solve` returns a complete sequence of pairwise contractions and its cost for every
network that is connected or has an open leg, counting only legs of dimension greater than one.
What is missing: other networks, where the claim is false. -/
theorem C35_greedy_cost_partial [IsStrictOrderedRing K] [AddCommMonoid C] [LinearOrder C]
    {P : Params K C} (hP : P.OK) {n : Nat} (hn : 2 ≤ n) {A : Mat K} (hA : LogAdj A)
    (hc : Connected n A ∨ ∃ x < n, 0 < A x x) :
    ∃ orders, Steps n orders ∧
      greedyCost P n A = .ok (orders, some (seqCost P.ex n A (startG n) orders)) := by
  have hl : (startG n).length = n := by simp [startG]
  obtain ⟨ps, h1, h2⟩ := greedyLoop_ok (P := P) (choose := chooseCost P) hA.symm
    (fun G A' h1 h2 h3 => chooseCost_ok hP h3 h2 (by
      rcases hc with hc | ⟨x, hx, hpos⟩
      · exact h1.pos_of_connected hA hc h3
      · exact h1.pos_of_open hA hx hpos)) (n - 1) (rep_start n A) hA (by omega) [] none
  rw [show n - 1 + 1 = n by omega] at h1
  refine ⟨ps, h1, ?_⟩
  rw [hl] at h2
  rw [greedyCost, h2, if_neg (by omega)]
  simp

/-- A complete sequence is accepted by `ord_to_ncon`. -/
theorem Steps.valid {n : Nat} {ps : List (Nat × Nat)} (h : Steps n ps) :
    ps.length + 1 = n ∧ ValidOrders n ps := by
  induction ps generalizing n with
  | nil => exact ⟨by simpa [Steps] using h.symm, trivial⟩
  | cons p ps ih =>
    obtain ⟨h1, h2, h3⟩ := h
    obtain ⟨h4, h5⟩ := ih h3
    exact ⟨by simp; omega, by omega, h2, by omega, h5⟩

/-- The numbers of the examples: logarithms to the base two. -/
def base2 : Params Int Nat where
  tol := 1
  tr := fun x => 1000000 * x
  ex := fun x => 2 ^ x.toNat
  slack := fun c => c + 1

/-- The claim of C35 is false for `greedy_cost_solve`: for two tensors with bonds of dimension one
it returns the contraction of tensor `0` with itself, and `ord_to_ncon` makes of it an order that
contains an open label. -/
theorem C35_greedy_cost_false :
    greedyCost base2 2 (fun _ _ => 0) = .ok ([(0, 0)], some 1) ∧
    ordToNcon [[1, -1], [1, -2]] [(0, 0)] = .ok [-1, 1] := by
  constructor <;> decide

/-- A network of two closed components shows the same. -/
example : greedyCost base2 4 (fun a b => if a / 2 = b / 2 ∧ a ≠ b then 1 else 0) =
    .ok ([(0, 1), (1, 2), (0, 0)], some 5) := by decide

/-- A chain of three tensors with two open legs. -/
def chain3 : Mat Int := fun a b =>
  if (a, b) = (0, 1) ∨ (a, b) = (1, 0) then 2
  else if (a, b) = (1, 2) ∨ (a, b) = (2, 1) then 3
  else if (a, b) = (0, 0) ∨ (a, b) = (2, 2) then 1 else 0

example : greedySize base2 3 chain3 = .ok ([(1, 2), (0, 1)], some 80) := by decide

end TN.Solver
