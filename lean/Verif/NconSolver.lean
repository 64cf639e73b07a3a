import Verif.FullSolve
import Mathlib.Algebra.BigOperators.Ring.List

/-!
# `ncon_solver`

Model of `ncon_to_adj` and `ncon_solver`
(contractors/custom_path_solvers/nconinterface.py:21-45, 48-81), on top of the models of
`full_solve_complete` and `ord_to_ncon`.

`lg d` is `np.log10(d)`; rounding is not modelled.
-/

set_option linter.unusedSectionVars false

namespace TN.Solver

open Finset

variable {K C : Type} [CommRing K] [LinearOrder K] [Inhabited K]

/-- The positions of a label, tensor and axis: `tensor_counter[flat_labels == ele]` and
`index_counter[flat_labels == ele]` (nconinterface.py:62-65, 72-73). -/
def occ (labels : List (List Int)) (x : Int) : List (Nat × Nat) :=
  labels.zipIdx.flatMap (fun t => (t.1.zipIdx.filter (fun y => y.1 = x)).map (fun y => (t.2, y.2)))

/-- `log_adj[i, j] += v` -/
def addAt (A : Mat K) (i j : Nat) (v : K) : Mat K :=
  fun a b => if a = i ∧ b = j then A a b + v else A a b

/-- `tensors[p.1].shape[p.2]` -/
def shapeAt (shapes : List (List Nat)) (p : Nat × Nat) : Py Nat :=
  match shapes[p.1]? with
  | none => .error .indexError
  | some s =>
    match s[p.2]? with
    | none => .error .indexError
    | some d => .ok d

/-- The body of the loop of `ncon_to_adj` (nconinterface.py:70-79). -/
def adjStep (lg : Nat → K) (shapes : List (List Nat)) (labels : List (List Int)) (A : Mat K)
    (x : Int) : Py (Mat K) :=
  match occ labels x with
  | [p] =>
    match shapeAt shapes p with
    | .error e => .error e
    | .ok d => .ok (addAt A p.1 p.1 (lg d))
  | [p, q] =>
    if p.1 = q.1 then .ok A
    else
      match shapeAt shapes p with
      | .error e => .error e
      | .ok d => .ok (addAt (addAt A p.1 q.1 (lg d)) q.1 p.1 (lg d))
  | _ => .ok A

/-- `ncon_to_adj` (nconinterface.py:48-81).  `np.hstack` of an empty list raises `ValueError`. -/
def nconToAdj (lg : Nat → K) (shapes : List (List Nat)) (labels : List (List Int)) :
    Py (Mat K) :=
  if labels = [] then .error .valueError
  else (npUnique labels.flatten).foldlM (adjStep lg shapes labels) (fun _ _ => 0)

/-- `ncon_solver` (nconinterface.py:21-45): the order for `ncon`, its cost as a number of
operations, and whether it is claimed to be optimal. -/
def nconSolver [AddCommMonoid C] [LinearOrder C] (P : Params K C) (lg : Nat → K)
    (shapes : List (List Nat)) (labels : List (List Int)) (maxBranch : Option Nat) :
    Py (List Int × C × Bool) :=
  match nconToAdj lg shapes labels with
  | .error e => .error e
  | .ok A =>
    match fullSolve P labels.length A maxBranch with
    | .error e => .error e
    | .ok (order, cost, opt) =>
      match ordToNcon labels order with
      | .error e => .error e
      | .ok con => .ok (con, cost, opt)

/-! ## Specification -/

/-- Every label has one dimension, and every tensor an axis of this dimension where the label
is. -/
def Dims (labels : List (List Int)) (shapes : List (List Nat)) (dm : Int → Nat) : Prop :=
  ∀ (i : Nat) (t : List Int) (j : Nat) (x : Int), labels[i]? = some t → t[j]? = some x →
    ∃ s, shapes[i]? = some s ∧ s[j]? = some (dm x)

/-- How often a label is attached to the tensors of a group. -/
def countIn (labels : List (List Int)) (S : Finset Nat) (x : Int) : Nat :=
  ∑ i ∈ S, (labels.getD i []).count x

/-- The legs of a group of tensors after all contractions inside of it: the labels that the group
has once. -/
def legs (labels : List (List Int)) (S : Finset Nat) : Finset Int :=
  {x ∈ labels.flatten.toFinset | countIn labels S x = 1}

/-- The number of multiplications of a sequence of pairwise contractions: for each one the product
of the dimensions of all legs of the two tensors, shared legs counted once. -/
def opsOf [CommSemiring C] (labels : List (List Int)) (dm : Int → Nat) :
    List (Finset Nat) → List (Nat × Nat) → C
  | _, [] => 0
  | G, p :: ps =>
    ∏ x ∈ legs labels (G.getD p.1 ∅) ∪ legs labels (G.getD p.2 ∅), (dm x : C) +
      opsOf labels dm (mergeG G p) ps

/-- All contractions are over a leg of dimension greater than one. -/
def OverBonds (labels : List (List Int)) (dm : Int → Nat) :
    List (Finset Nat) → List (Nat × Nat) → Prop
  | _, [] => True
  | G, p :: ps =>
    (∃ x ∈ legs labels (G.getD p.1 ∅) ∩ legs labels (G.getD p.2 ∅), 1 < dm x) ∧
      OverBonds labels dm (mergeG G p) ps

/-- What the claims use of the logarithm and of the exponential function: they are inverse to each
other on the dimensions of the network. -/
structure LogOK [Semiring C] (ex : K → C) (lg : Nat → K) (labels : List (List Int))
    (dm : Int → Nat) : Prop where
  ex_zero : ex 0 = 1
  ex_add : ∀ a b, 0 ≤ a → 0 ≤ b → ex (a + b) = ex a * ex b
  ex_lg : ∀ x ∈ labels.flatten, ex (lg (dm x)) = dm x
  nonneg : ∀ x ∈ labels.flatten, 0 ≤ lg (dm x)
  pos_iff : ∀ x ∈ labels.flatten, 0 < lg (dm x) ↔ 1 < dm x

/-- The network is connected by legs of dimension greater than one, or has an open leg of dimension
greater than one. -/
def ConnectedOrOpen (labels : List (List Int)) (dm : Int → Nat) : Prop :=
  (∀ S ⊂ range labels.length, S.Nonempty →
    ∃ x ∈ legs labels S ∩ legs labels (range labels.length \ S), 1 < dm x) ∨
  ∃ x, labels.flatten.count x = 1 ∧ 1 < dm x

/-! ## Positions of labels -/

theorem mem_occ {labels : List (List Int)} {x : Int} {p : Nat × Nat} :
    p ∈ occ labels x ↔ ∃ t, labels[p.1]? = some t ∧ t[p.2]? = some x := by
  obtain ⟨i, j⟩ := p
  simp only [occ, List.mem_flatMap, List.mem_map, List.mem_filter, decide_eq_true_eq, Prod.exists,
    List.mem_zipIdx_iff_getElem?, Prod.mk.injEq]
  constructor
  · rintro ⟨t, i', h1, y, j', ⟨h2, h3⟩, rfl, rfl⟩
    subst h3
    exact ⟨t, h1, h2⟩
  · rintro ⟨t, h1, h2⟩
    exact ⟨t, i, h1, x, j, ⟨h2, rfl⟩, rfl, rfl⟩

theorem zipIdx_filter_length (l : List Int) (x : Int) (k : Nat) :
    ((l.zipIdx k).filter (fun y => y.1 = x)).length = l.count x := by
  induction l generalizing k with
  | nil => rfl
  | cons a l ih =>
    rw [List.zipIdx_cons, List.filter_cons, List.count_cons]
    by_cases h : a = x
    · simp [h, ih]
    · simp [h, ih]

/-- The number of positions in a tensor. -/
theorem occ_count (labels : List (List Int)) (x : Int) (i : Nat) :
    ((occ labels x).map Prod.fst).count i = (labels.getD i []).count x := by
  have key : ∀ (l : List (List Int)) (k i : Nat),
      (((l.zipIdx k).flatMap (fun t => (t.1.zipIdx.filter (fun y => y.1 = x)).map
        (fun y => (t.2, y.2)))).map Prod.fst).count (k + i) = (l.getD i []).count x := by
    intro l
    induction l with
    | nil => intro k i; simp
    | cons a l ih =>
      intro k i
      rw [List.zipIdx_cons, List.flatMap_cons, List.map_append, List.count_append, List.map_map]
      have h1 : (Prod.fst ∘ fun y : Int × Nat => ((a, k).2, y.2)) = fun _ => k := rfl
      rw [h1, List.map_const', zipIdx_filter_length]
      cases i with
      | zero =>
        have h2 : ∀ b ∈ ((l.zipIdx (k + 1)).flatMap (fun t => (t.1.zipIdx.filter
            (fun y => y.1 = x)).map (fun y => (t.2, y.2)))).map Prod.fst, b ≠ k := by
          intro b hb
          simp only [List.mem_map, List.mem_flatMap, List.mem_filter] at hb
          obtain ⟨_, ⟨⟨t, m⟩, h3, _, -, rfl⟩, rfl⟩ := hb
          have := (List.mem_zipIdx h3).1
          dsimp only
          omega
        rw [Nat.add_zero, List.count_eq_zero.2 (fun hc => h2 _ hc rfl)]
        simp
      | succ i =>
        have := ih (k + 1) i
        rw [show k + 1 + i = k + (i + 1) by omega] at this
        rw [this, List.count_replicate, if_neg (by simp)]
        simp
  have := key labels 0 i
  rwa [Nat.zero_add] at this

theorem occ_length (labels : List (List Int)) (x : Int) :
    (occ labels x).length = labels.flatten.count x := by
  have key : ∀ (l : List (List Int)) (k : Nat),
      ((l.zipIdx k).flatMap (fun t => (t.1.zipIdx.filter (fun y => y.1 = x)).map
        (fun y => (t.2, y.2)))).length = l.flatten.count x := by
    intro l
    induction l with
    | nil => intro k; rfl
    | cons a l ih =>
      intro k
      rw [List.zipIdx_cons, List.flatMap_cons, List.length_append, ih, List.length_map,
        zipIdx_filter_length, List.flatten_cons, List.count_append]
  exact key labels 0

/-- The number of positions in a group. -/
theorem countIn_eq (labels : List (List Int)) (S : Finset Nat) (x : Int) :
    countIn labels S x = ((occ labels x).map Prod.fst).countP (· ∈ S) := by
  rw [countIn, Finset.sum_congr rfl (fun i _ => (occ_count labels x i).symm)]
  generalize (occ labels x).map Prod.fst = l
  induction l with
  | nil => simp
  | cons a l ih =>
    rw [List.countP_cons, ← ih]
    simp only [List.count_cons, Finset.sum_add_distrib, beq_iff_eq, Finset.sum_ite_eq,
      decide_eq_true_eq]

theorem mem_legs {labels : List (List Int)} {S : Finset Nat} {x : Int} :
    x ∈ legs labels S ↔ countIn labels S x = 1 := by
  rw [legs, Finset.mem_filter, and_iff_right_iff_imp]
  intro h
  rw [countIn_eq] at h
  have h2 : (0 : Nat) < (occ labels x).length := by
    have := List.countP_le_length (p := (· ∈ S)) (l := (occ labels x).map Prod.fst)
    rw [List.length_map] at this
    omega
  rw [occ_length] at h2
  exact List.mem_toFinset.2 (List.count_pos_iff.1 h2)

/-! ## The adjacency matrix -/

/-- What a label adds to the entries of the matrix. -/
def wt (labels : List (List Int)) (v : K) (x : Int) (a b : Nat) : K :=
  match occ labels x with
  | [p] => if a = p.1 ∧ b = p.1 then v else 0
  | [p, q] => if p.1 ≠ q.1 ∧ (a = p.1 ∧ b = q.1 ∨ a = q.1 ∧ b = p.1) then v else 0
  | _ => 0

theorem Dims.shapeAt {labels : List (List Int)} {shapes : List (List Nat)} {dm : Int → Nat}
    (h : Dims labels shapes dm) {x : Int} {p : Nat × Nat} (hp : p ∈ occ labels x) :
    shapeAt shapes p = .ok (dm x) := by
  obtain ⟨t, h1, h2⟩ := mem_occ.1 hp
  obtain ⟨s, h3, h4⟩ := h _ _ _ _ h1 h2
  simp [Solver.shapeAt, h3, h4]

theorem adjStep_ok {lg : Nat → K} {labels : List (List Int)} {shapes : List (List Nat)}
    {dm : Int → Nat} (h : Dims labels shapes dm) (A : Mat K) (x : Int) :
    adjStep lg shapes labels A x = .ok (fun a b => A a b + wt labels (lg (dm x)) x a b) := by
  have hm : ∀ p ∈ occ labels x, shapeAt shapes p = .ok (dm x) := fun p hp => h.shapeAt hp
  rw [adjStep]
  rcases hocc : occ labels x with _ | ⟨p, _ | ⟨q, _ | ⟨r, l⟩⟩⟩ <;> rw [hocc] at hm
  · simp [wt, hocc]
  · simp only [hm p (by simp), wt, hocc, Except.ok.injEq]
    funext a b
    simp only [addAt]
    split_ifs <;> simp
  · simp only [hm p (by simp), wt, hocc]
    by_cases hpq : p.1 = q.1
    · simp [hpq]
    · simp only [if_neg hpq, Except.ok.injEq]
      funext a b
      simp only [addAt]
      by_cases ha : a = p.1 <;> by_cases hb : b = q.1 <;> by_cases ha' : a = q.1 <;>
        by_cases hb' : b = p.1 <;> simp_all
  · simp [wt, hocc]

theorem adjFold_ok {lg : Nat → K} {labels : List (List Int)} {shapes : List (List Nat)}
    {dm : Int → Nat} (h : Dims labels shapes dm) (l : List Int) (A : Mat K) :
    l.foldlM (adjStep lg shapes labels) A =
      .ok (fun a b => A a b + (l.map (fun x => wt labels (lg (dm x)) x a b)).sum) := by
  induction l generalizing A with
  | nil => simp [pure, Except.pure]
  | cons x l ih =>
    rw [List.foldlM_cons, adjStep_ok h]
    change l.foldlM (adjStep lg shapes labels) _ = _
    rw [ih]
    simp [add_assoc]

/-- The matrix of a network. -/
def adjMat (lg : Nat → K) (labels : List (List Int)) (dm : Int → Nat) : Mat K := fun a b =>
  ∑ x ∈ labels.flatten.toFinset, wt labels (lg (dm x)) x a b

theorem nconToAdj_ok {lg : Nat → K} {labels : List (List Int)} {shapes : List (List Nat)}
    {dm : Int → Nat} (hne : labels ≠ []) (h : Dims labels shapes dm) :
    nconToAdj lg shapes labels = .ok (adjMat lg labels dm) := by
  rw [nconToAdj, if_neg hne, adjFold_ok h]
  congr 1
  funext a b
  rw [zero_add, adjMat]
  rw [← List.sum_toFinset _ (npUnique_nodup _)]
  congr 1
  ext x
  simp [mem_npUnique]

theorem mem_tensor {labels : List (List Int)} {x : Int} {a : Nat} :
    x ∈ labels.getD a [] ↔ a ∈ (occ labels x).map Prod.fst := by
  rw [← List.count_pos_iff, ← List.count_pos_iff, occ_count]

theorem mem_flat {labels : List (List Int)} {x : Int} {a : Nat} (h : x ∈ labels.getD a []) :
    x ∈ labels.flatten := by
  rw [mem_tensor] at h
  have h2 : 0 < (occ labels x).length := by
    have := List.length_pos_of_mem h
    rwa [List.length_map] at this
  rw [occ_length] at h2
  exact List.count_pos_iff.1 h2

/-- For all labels and tensors with equal dimensions for equal labels: the entry of two different
tensors is the sum of the logarithms of the dimensions of the labels between them, the
diagonal entry the same for the labels that occur once in the network.  A label that occurs more
than twice, or twice at a tensor, does not count. -/
theorem C81_ncon_to_adj {lg : Nat → K} {labels : List (List Int)} {shapes : List (List Nat)}
    {dm : Int → Nat} (hne : labels ≠ []) (h : Dims labels shapes dm) :
    ∃ A, nconToAdj lg shapes labels = .ok A ∧
      (∀ a, A a a = ∑ x ∈ (labels.getD a []).toFinset with labels.flatten.count x = 1,
        lg (dm x)) ∧
      ∀ a b, a ≠ b → A a b = ∑ x ∈ (labels.getD a []).toFinset ∩ (labels.getD b []).toFinset with
        labels.flatten.count x = 2, lg (dm x) := by
  refine ⟨_, nconToAdj_ok hne h, ?_, ?_⟩
  · intro a
    have h1 : (labels.getD a []).toFinset.filter (fun x => labels.flatten.count x = 1) =
        labels.flatten.toFinset.filter
          (fun x => x ∈ labels.getD a [] ∧ labels.flatten.count x = 1) := by
      ext x
      simp only [Finset.mem_filter, List.mem_toFinset]
      exact ⟨fun h => ⟨mem_flat h.1, h⟩, fun h => h.2⟩
    rw [h1, Finset.sum_filter, adjMat]
    refine Finset.sum_congr rfl (fun x _ => ?_)
    simp only [mem_tensor, ← occ_length, wt]
    rcases occ labels x with _ | ⟨p, _ | ⟨q, _ | ⟨r, l⟩⟩⟩
    · simp
    · simp
    · simp only [List.length_cons, List.length_nil]
      rw [if_neg (by rintro ⟨h1, h2 | h2⟩ <;> exact h1 (by omega)), if_neg (by simp)]
    · simp
  · intro a b hab
    have h1 : ((labels.getD a []).toFinset ∩ (labels.getD b []).toFinset).filter
          (fun x => labels.flatten.count x = 2) = labels.flatten.toFinset.filter
          (fun x => (x ∈ labels.getD a [] ∧ x ∈ labels.getD b []) ∧
            labels.flatten.count x = 2) := by
      ext x
      simp only [Finset.mem_filter, Finset.mem_inter, List.mem_toFinset]
      exact ⟨fun h => ⟨mem_flat h.1.1, h⟩, fun h => h.2⟩
    rw [h1, Finset.sum_filter, adjMat]
    refine Finset.sum_congr rfl (fun x _ => ?_)
    simp only [mem_tensor, ← occ_length, wt]
    rcases occ labels x with _ | ⟨p, _ | ⟨q, _ | ⟨r, l⟩⟩⟩
    · simp
    · simp only [List.length_cons, List.length_nil]
      rw [if_neg (by rintro ⟨h1, h2⟩; exact hab (by omega)), if_neg (by simp)]
    · simp only [List.length_cons, List.length_nil, List.map_cons, List.map_nil, List.mem_cons,
        List.not_mem_nil, or_false]
      congr 1
      rw [eq_iff_iff]
      constructor
      · rintro ⟨h1, ⟨rfl, rfl⟩ | ⟨rfl, rfl⟩⟩ <;> simp
      · rintro ⟨⟨h1, h2⟩, -⟩
        exact ⟨by omega, by omega⟩
    · simp

/-! ## The cost -/

theorem delta_sum (U V : Finset Nat) (i j : Nat) (v : K) :
    ∑ a ∈ U, ∑ b ∈ V, (if a = i ∧ b = j then v else 0) = if i ∈ U ∧ j ∈ V then v else 0 := by
  simp only [ite_and]
  rw [Finset.sum_congr rfl (g := fun a => if a = i then (if j ∈ V then v else 0) else 0)]
  · rw [Finset.sum_ite_eq']
  · intro a _
    split_ifs <;> simp_all

theorem wt_pair {labels : List (List Int)} {n : Nat} (hn : labels.length = n) {x : Int}
    (hx : labels.flatten.count x ≤ 2) {v : K} {S T : Finset Nat} (hd : Disjoint S T) :
    ∑ a ∈ S ∪ T, wt labels v x a a + ∑ a ∈ S, ∑ b ∈ T, wt labels v x a b +
      ∑ a ∈ S ∪ T, ∑ b ∈ range n \ (S ∪ T), wt labels v x a b =
    if x ∈ legs labels S ∪ legs labels T then v else 0 := by
  have hmem : ∀ p ∈ occ labels x, p.1 < n := by
    intro p hp
    obtain ⟨t, h1, -⟩ := mem_occ.1 hp
    rw [← hn]
    exact (List.getElem?_eq_some_iff.1 h1).1
  have hST : ∀ a, a ∈ S → a ∉ T := fun a h => Finset.disjoint_left.1 hd h
  simp only [Finset.mem_union, mem_legs, countIn_eq]
  rw [← occ_length] at hx
  unfold wt
  generalize occ labels x = o at hmem hx ⊢
  rcases o with _ | ⟨p, _ | ⟨q, _ | ⟨r, l⟩⟩⟩
  · simp
  · have hp := hmem p (by simp)
    simp only [delta_sum, and_self, Finset.sum_ite_eq', Finset.mem_union, Finset.mem_sdiff,
      List.map_cons, List.map_nil, List.countP_cons, List.countP_nil, Finset.mem_range]
    have := hST p.1
    by_cases h1 : p.1 ∈ S <;> by_cases h2 : p.1 ∈ T <;> simp_all
  · have hp := hmem p (by simp)
    have hq := hmem q (by simp)
    by_cases hpq : p.1 = q.1
    · simp only [hpq, ne_eq, not_true_eq_false, false_and, if_false, Finset.sum_const_zero,
        List.map_cons, List.map_nil, List.countP_cons, List.countP_nil]
      by_cases h1 : q.1 ∈ S <;> by_cases h2 : q.1 ∈ T <;> simp_all
    · have h3 : ∀ a b : Nat, (if p.1 ≠ q.1 ∧ (a = p.1 ∧ b = q.1 ∨ a = q.1 ∧ b = p.1) then v
          else 0) = (if a = p.1 ∧ b = q.1 then v else 0) + if a = q.1 ∧ b = p.1 then v else 0 := by
        intro a b
        by_cases ha : a = p.1 <;> by_cases hb : b = q.1 <;> by_cases ha' : a = q.1 <;>
          by_cases hb' : b = p.1 <;> simp_all
      have h4 : ∀ a : Nat, (if a = p.1 ∧ a = q.1 then v else 0) = 0 :=
        fun a => if_neg (fun h => hpq (h.1.symm.trans h.2))
      have h5 : ∀ a : Nat, (if a = q.1 ∧ a = p.1 then v else 0) = 0 :=
        fun a => if_neg (fun h => hpq (h.2.symm.trans h.1))
      simp only [h3, h4, h5, Finset.sum_add_distrib, delta_sum, Finset.sum_const_zero, add_zero,
        zero_add, Finset.mem_union, Finset.mem_sdiff, List.map_cons, List.map_nil,
        List.countP_cons, List.countP_nil, Finset.mem_range]
      have e1 := hST p.1
      have e2 := hST q.1
      by_cases k1 : p.1 ∈ S <;> by_cases k2 : p.1 ∈ T <;> by_cases k3 : q.1 ∈ S <;>
        by_cases k4 : q.1 ∈ T <;> simp_all
  · simp at hx

theorem sum_rotate (S T : Finset Nat) (F : Finset Int) (f : Int → Nat → Nat → K) :
    ∑ a ∈ S, ∑ b ∈ T, ∑ x ∈ F, f x a b = ∑ x ∈ F, ∑ a ∈ S, ∑ b ∈ T, f x a b := by
  rw [Finset.sum_congr rfl (fun a _ => Finset.sum_comm), Finset.sum_comm]

theorem pairCost_eq {lg : Nat → K} {labels : List (List Int)} {dm : Int → Nat}
    (hc : ∀ x, labels.flatten.count x ≤ 2) {S T : Finset Nat} (hd : Disjoint S T) :
    pairCost labels.length (adjMat lg labels dm) S T =
      ∑ x ∈ legs labels S ∪ legs labels T, lg (dm x) := by
  have hsub : legs labels S ∪ legs labels T ⊆ labels.flatten.toFinset := by
    intro x hx
    rw [Finset.mem_union] at hx
    rcases hx with hx | hx <;> exact (Finset.mem_filter.1 hx).1
  rw [← Finset.inter_eq_right.2 hsub, ← Finset.sum_ite_mem,
    Finset.sum_congr rfl (fun x _ => (wt_pair (v := lg (dm x)) rfl (hc x) hd).symm)]
  simp only [pairCost, adjMat, Finset.sum_add_distrib]
  rw [sum_rotate, sum_rotate, Finset.sum_comm]

theorem wt_cross {labels : List (List Int)} {x : Int}
    (hx : labels.flatten.count x ≤ 2) {v : K} {S T : Finset Nat} (hd : Disjoint S T) :
    ∑ a ∈ S, ∑ b ∈ T, wt labels v x a b =
    if x ∈ legs labels S ∩ legs labels T then v else 0 := by
  have hST : ∀ a, a ∈ S → a ∉ T := fun a h => Finset.disjoint_left.1 hd h
  simp only [Finset.mem_inter, mem_legs, countIn_eq]
  rw [← occ_length] at hx
  unfold wt
  generalize occ labels x = o at hx ⊢
  rcases o with _ | ⟨p, _ | ⟨q, _ | ⟨r, l⟩⟩⟩
  · simp
  · simp only [delta_sum, List.map_cons, List.map_nil, List.countP_cons, List.countP_nil]
    have := hST p.1
    by_cases h1 : p.1 ∈ S <;> by_cases h2 : p.1 ∈ T <;> simp_all
  · by_cases hpq : p.1 = q.1
    · simp only [hpq, ne_eq, not_true_eq_false, false_and, if_false, Finset.sum_const_zero,
        List.map_cons, List.map_nil, List.countP_cons, List.countP_nil]
      by_cases h1 : q.1 ∈ S <;> by_cases h2 : q.1 ∈ T <;> simp_all
    · have h3 : ∀ a b : Nat, (if p.1 ≠ q.1 ∧ (a = p.1 ∧ b = q.1 ∨ a = q.1 ∧ b = p.1) then v
          else 0) = (if a = p.1 ∧ b = q.1 then v else 0) + if a = q.1 ∧ b = p.1 then v else 0 := by
        intro a b
        by_cases ha : a = p.1 <;> by_cases hb : b = q.1 <;> by_cases ha' : a = q.1 <;>
          by_cases hb' : b = p.1 <;> simp_all
      simp only [h3, Finset.sum_add_distrib, delta_sum, List.map_cons, List.map_nil,
        List.countP_cons, List.countP_nil]
      have e1 := hST p.1
      have e2 := hST q.1
      by_cases k1 : p.1 ∈ S <;> by_cases k2 : p.1 ∈ T <;> by_cases k3 : q.1 ∈ S <;>
        by_cases k4 : q.1 ∈ T <;> simp_all
  · simp at hx

theorem legs_subset (labels : List (List Int)) (S : Finset Nat) :
    legs labels S ⊆ labels.flatten.toFinset := Finset.filter_subset _ _

theorem cross_eq {lg : Nat → K} {labels : List (List Int)} {dm : Int → Nat}
    (hc : ∀ x, labels.flatten.count x ≤ 2) {S T : Finset Nat} (hd : Disjoint S T) :
    ∑ a ∈ S, ∑ b ∈ T, adjMat lg labels dm a b =
      ∑ x ∈ legs labels S ∩ legs labels T, lg (dm x) := by
  have hsub : legs labels S ∩ legs labels T ⊆ labels.flatten.toFinset :=
    Finset.inter_subset_left.trans (legs_subset _ _)
  rw [← Finset.inter_eq_right.2 hsub, ← Finset.sum_ite_mem,
    Finset.sum_congr rfl (fun x _ => (wt_cross (v := lg (dm x)) (hc x) hd).symm)]
  simp only [adjMat]
  rw [sum_rotate]

variable [IsStrictOrderedRing K]

theorem LogOK.sum_nonneg [Semiring C] {ex : K → C} {lg : Nat → K} {labels : List (List Int)}
    {dm : Int → Nat} (h : LogOK ex lg labels dm) {F : Finset Int}
    (hF : F ⊆ labels.flatten.toFinset) : 0 ≤ ∑ x ∈ F, lg (dm x) :=
  Finset.sum_nonneg (fun x hx => h.nonneg x (List.mem_toFinset.1 (hF hx)))

theorem LogOK.ex_sum [CommSemiring C] {ex : K → C} {lg : Nat → K} {labels : List (List Int)}
    {dm : Int → Nat} (h : LogOK ex lg labels dm) {F : Finset Int}
    (hF : F ⊆ labels.flatten.toFinset) :
    ex (∑ x ∈ F, lg (dm x)) = ∏ x ∈ F, (dm x : C) := by
  induction F using Finset.induction with
  | empty => simpa using h.ex_zero
  | insert a F ha ih =>
    have h1 := hF (Finset.mem_insert_self a F)
    have h2 : F ⊆ labels.flatten.toFinset := (Finset.subset_insert a F).trans hF
    rw [List.mem_toFinset] at h1
    rw [Finset.sum_insert ha, Finset.prod_insert ha, h.ex_add _ _ (h.nonneg a h1)
      (h.sum_nonneg h2), ih h2, h.ex_lg a h1]

theorem seqCost_ops [CommSemiring C] {ex : K → C} {lg : Nat → K} {labels : List (List Int)}
    {dm : Int → Nat} (h : LogOK ex lg labels dm) (hc : ∀ x, labels.flatten.count x ≤ 2)
    (ps : List (Nat × Nat)) {G : List (Finset Nat)} (hG : Part labels.length G)
    (hps : Steps G.length ps) :
    seqCost ex labels.length (adjMat lg labels dm) G ps = opsOf labels dm G ps := by
  induction ps generalizing G with
  | nil => rfl
  | cons p ps ih =>
    obtain ⟨h1, h2, h3⟩ := hps
    have hd := hG.disj p.1 p.2 (by omega) h2 (by omega)
    rw [seqCost, opsOf, pairCost_eq hc hd, h.ex_sum, ih (hG.merge h1 h2)]
    · rwa [mergeG_length h2]
    · exact Finset.union_subset (legs_subset _ _) (legs_subset _ _)

theorem overBonds_iff [CommSemiring C] {ex : K → C} {lg : Nat → K} {labels : List (List Int)}
    {dm : Int → Nat} (h : LogOK ex lg labels dm) (hc : ∀ x, labels.flatten.count x ≤ 2)
    (ps : List (Nat × Nat)) {G : List (Finset Nat)} (hG : Part labels.length G)
    (hps : Steps G.length ps) :
    Nontrivial (adjMat lg labels dm) G ps ↔ OverBonds labels dm G ps := by
  induction ps generalizing G with
  | nil => exact Iff.rfl
  | cons p ps ih =>
    obtain ⟨h1, h2, h3⟩ := hps
    have hd := hG.disj p.1 p.2 (by omega) h2 (by omega)
    have hF : legs labels (G.getD p.1 ∅) ∩ legs labels (G.getD p.2 ∅) ⊆
      labels.flatten.toFinset := Finset.inter_subset_left.trans (legs_subset _ _)
    rw [Nontrivial, OverBonds, cross_eq hc hd, ih (hG.merge h1 h2) (by rwa [mergeG_length h2]),
      Finset.sum_pos_iff_of_nonneg (fun x hx => h.nonneg x (List.mem_toFinset.1 (hF hx)))]
    refine and_congr_left' (exists_congr fun x => and_congr_right fun hx => ?_)
    exact h.pos_iff x (List.mem_toFinset.1 (hF hx))

theorem adjMat_logAdj [CommSemiring C] {ex : K → C} {lg : Nat → K} {labels : List (List Int)}
    {dm : Int → Nat} (h : LogOK ex lg labels dm) : LogAdj (adjMat lg labels dm) := by
  constructor
  · intro a b
    refine Finset.sum_congr rfl (fun x _ => ?_)
    unfold wt
    rcases occ labels x with _ | ⟨p, _ | ⟨q, _ | ⟨r, l⟩⟩⟩
    · rfl
    · simp only [and_comm]
    · simp only
      congr 1
      rw [eq_iff_iff]
      tauto
    · rfl
  · intro a b
    refine Finset.sum_nonneg (fun x hx => ?_)
    have h1 := h.nonneg x (List.mem_toFinset.1 hx)
    unfold wt
    rcases occ labels x with _ | ⟨p, _ | ⟨q, _ | ⟨r, l⟩⟩⟩
    · exact le_rfl
    · simp only; split_ifs <;> simp [h1]
    · simp only; split_ifs <;> simp [h1]
    · exact le_rfl

theorem adjMat_connected [CommSemiring C] {ex : K → C} {lg : Nat → K} {labels : List (List Int)}
    {dm : Int → Nat} (h : LogOK ex lg labels dm) (hc : ∀ x, labels.flatten.count x ≤ 2)
    (hcon : ConnectedOrOpen labels dm) :
    Connected labels.length (adjMat lg labels dm) ∨
      ∃ x < labels.length, 0 < adjMat lg labels dm x x := by
  have hA := adjMat_logAdj h
  rcases hcon with hcon | ⟨x, hx1, hx2⟩
  · left
    intro S hS hne
    obtain ⟨x, hx, hd⟩ := hcon S hS hne
    have hF : legs labels S ∩ legs labels (range labels.length \ S) ⊆
      labels.flatten.toFinset := Finset.inter_subset_left.trans (legs_subset _ _)
    have h1 : 0 < ∑ a ∈ S, ∑ b ∈ range labels.length \ S, adjMat lg labels dm a b := by
      rw [cross_eq hc Finset.disjoint_sdiff, Finset.sum_pos_iff_of_nonneg
        (fun x hx => h.nonneg x (List.mem_toFinset.1 (hF hx)))]
      exact ⟨x, hx, (h.pos_iff x (List.mem_toFinset.1 (hF hx))).2 hd⟩
    rw [Finset.sum_pos_iff_of_nonneg (fun a _ => Finset.sum_nonneg (fun b _ => hA.nonneg _ _))]
      at h1
    obtain ⟨a, ha, h2⟩ := h1
    rw [Finset.sum_pos_iff_of_nonneg (fun b _ => hA.nonneg _ _)] at h2
    obtain ⟨b, hb, h3⟩ := h2
    exact ⟨a, ha, b, hb, h3⟩
  · right
    have h1 := occ_length labels x
    rw [hx1, List.length_eq_one_iff] at h1
    obtain ⟨p, hp⟩ := h1
    obtain ⟨t, h2, -⟩ := mem_occ.1 (by rw [hp]; simp : p ∈ occ labels x)
    have hmem : x ∈ labels.flatten := List.count_pos_iff.1 (by omega)
    refine ⟨p.1, (List.getElem?_eq_some_iff.1 h2).1, ?_⟩
    rw [adjMat, Finset.sum_pos_iff_of_nonneg]
    · refine ⟨x, List.mem_toFinset.2 hmem, ?_⟩
      simp only [wt, hp, and_self, if_true]
      exact (h.pos_iff x hmem).2 hx2
    · intro y hy
      have h1 := h.nonneg y (List.mem_toFinset.1 hy)
      unfold wt
      rcases occ labels y with _ | ⟨p, _ | ⟨q, _ | ⟨r, l⟩⟩⟩
      · exact le_rfl
      · simp only; split_ifs <;> simp [h1]
      · simp only; split_ifs <;> simp [h1]
      · exact le_rfl

/-- For every network of at least two tensors in which closed labels occur twice, open labels once
and equal labels have equal dimensions, and that is connected by legs of dimension greater than one
or has an open leg of dimension greater than one: `ncon_solver` returns an order with
every closed label exactly once, made from a complete sequence of pairwise contractions, and the
cost is the number of multiplications of this sequence.  If there is no limit on the
number of branches, or the result is flagged as optimal, no sequence of contractions over
legs of dimension greater than one needs fewer multiplications.  What is missing: sequences with
outer products, see `C45_optimal_false`. -/
theorem C81_ncon_solver_partial [CommSemiring C] [LinearOrder C] [IsOrderedAddMonoid C] {P : Params K C} (hP : P.OK)
    {lg : Nat → K} {labels : List (List Int)} {shapes : List (List Nat)} {dm : Int → Nat}
    {mb : Option Nat} (hlog : LogOK P.ex lg labels dm) (hn : 2 ≤ labels.length)
    (hdim : Dims labels shapes dm)
    (hcnt : ∀ l ∈ labels.flatten, labels.flatten.count l = if l < 0 then 1 else 2)
    (hcon : ConnectedOrOpen labels dm) :
    ∃ con cost opt o, nconSolver P lg shapes labels mb = .ok (con, cost, opt) ∧ con.Nodup ∧
      (∀ l, l ∈ con ↔ l ∈ labels.flatten ∧ 0 ≤ l) ∧ Steps labels.length o ∧
      ordToNcon labels o = .ok con ∧ cost = opsOf labels dm (startG labels.length) o ∧
      (opt = true ∨ mb = none → ∀ ps, Steps labels.length ps →
        OverBonds labels dm (startG labels.length) ps →
        cost ≤ opsOf labels dm (startG labels.length) ps) := by
  have hc : ∀ x, labels.flatten.count x ≤ 2 := by
    intro x
    by_cases hx : x ∈ labels.flatten
    · rw [hcnt x hx]; split_ifs <;> omega
    · rw [List.count_eq_zero.2 hx]; omega
  have hl : (startG labels.length).length = labels.length := by simp [startG]
  obtain ⟨o, c, opt, h1, h2, h3, h4⟩ := C45_optimal_partial (mb := mb) hP hn
    (adjMat_logAdj hlog) (adjMat_connected hlog hc hcon)
  obtain ⟨con, k1, k2, k3⟩ := C34_ord_to_ncon hcnt h2.valid.1 h2.valid.2
  refine ⟨con, c, opt, o, ?_, k2, k3, h2, k1, ?_, ?_⟩
  · simp only [nconSolver, nconToAdj_ok (by rintro rfl; simp at hn) hdim, h1, k1]
  · rw [h3, seqCost_ops hlog hc _ (startG_part _) (by rwa [hl])]
  · intro hopt ps hps hov
    rw [← seqCost_ops hlog hc _ (startG_part _) (by rwa [hl])]
    exact h4 hopt ps hps ((overBonds_iff hlog hc _ (startG_part _) (by rwa [hl])).2 hov)

/-- A chain of three tensors with a traced label in the middle. -/
def chainLabels : List (List Int) := [[1, -1], [5, 1, 5, 2], [2, -2]]

def chainDims (x : Int) : Nat := if x = 1 then 4 else if x = 2 then 8 else 2

theorem chain_dims : Dims chainLabels [[4, 2], [2, 4, 2, 8], [8, 2]] chainDims := by
  intro i t j x h1 h2
  have h3 := (List.getElem?_eq_some_iff.1 h1).1
  simp only [chainLabels, List.length_cons, List.length_nil] at h3
  interval_cases i <;> simp only [chainLabels, List.getElem?_cons_zero, List.getElem?_cons_succ,
    Option.some.injEq] at h1 <;> subst h1 <;> have h4 := (List.getElem?_eq_some_iff.1 h2).1 <;>
    simp only [List.length_cons, List.length_nil] at h4 <;> interval_cases j <;>
    simp_all [chainDims] <;> subst h2 <;> decide

theorem chain_log : LogOK base2.ex (fun d => (Nat.log2 d : Int)) chainLabels chainDims := by
  refine ⟨by decide, ?_, by decide, by decide, by decide⟩
  intro a b ha hb
  simp only [base2]
  rw [← pow_add, Int.toNat_add ha hb]

example := C81_ncon_to_adj (lg := fun d => (Nat.log2 d : Int)) (by simp [chainLabels]) chain_dims

example := C81_ncon_solver_partial base2_ok (mb := none) chain_log (by decide) chain_dims
  (by decide) (Or.inr ⟨-1, by decide, by decide⟩)

/-- The sequence that it finds. -/
example : nconSolver base2 (fun d => (Nat.log2 d : Int)) [[4, 2], [2, 4, 2, 8], [8, 2]]
    chainLabels none = .ok ([5, 2, 1], 80, true) := by decide

end TN.Solver
