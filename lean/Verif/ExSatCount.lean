import Verif.ExSat
import Mathlib.Logic.Equiv.Fin.Basic
import Mathlib.Data.Fintype.BigOperators
import Mathlib.Algebra.BigOperators.Fin
import Mathlib.Algebra.BigOperators.Ring.Finset

/-!
# examples/sat/sat_tensornetwork.py, counting

Model of `sat_count_tn` (sat_tensornetwork.py:101-120): two copies of the network are connected at
the edges of the variables, and the nodes that can be reached from the first variable are returned.
-/

set_option linter.unusedSectionVars false

namespace TN.Ex

open TN Finset

variable {R : Type} [CommSemiring R]

/-! ### Model -/

/-- The edge that takes the place of `e` when the edges `e2` are connected to the edges `e1`. -/
def joinEdge (e1 e2 : List Nat) (e : Nat) : Nat := if e ∈ e2 then e1.getD (e2.idxOf e) 0 else e

/-- The nodes with renamed edges. -/
def renameNet (ρ : Nat → Nat) (net : List (NDArray R × List Nat)) : List (NDArray R × List Nat) :=
  net.map fun p => (p.1, p.2.map ρ)

/-- Two edges are at nodes that are connected. -/
def Conn (net : List (NDArray R × List Nat)) : Nat → Nat → Prop :=
  Relation.EqvGen fun a b => ∃ p ∈ net, a ∈ p.2 ∧ b ∈ p.2

open Classical in
/-- `reachable(edge.node1)` (network_operations.py: `reachable`): the nodes that are connected to
the node of an edge. -/
noncomputable def reachFrom (net : List (NDArray R × List Nat)) (e : Nat) :
    List (NDArray R × List Nat) :=
  net.filter fun p => ∃ l ∈ p.2, Conn net e l

/-- The two networks connected at the edges of the variables (sat_tensornetwork.py:117-118), and
the first edge. -/
def satDouble (clauses : List Clause) : Py (List (NDArray R × List Nat) × Nat) := do
  let s1 ← satTn 0 clauses
  let s2 ← satTn s1.next clauses
  .ok (s1.net ++ renameNet (joinEdge s1.state s2.state) s2.net, s1.state.getD 0 0)

/-- `sat_count_tn(clauses)` (sat_tensornetwork.py:101-120). -/
noncomputable def satCountTn (clauses : List Clause) : Py (List (NDArray R × List Nat)) := do
  let r ← satDouble clauses
  .ok (reachFrom r.1 r.2)

/-! ### Specification -/

/-- The number of assignments to the variables `1, …, n` that satisfy all clauses. -/
def numSolutions (clauses : List Clause) : Nat :=
  (Finset.univ.filter fun w : Fin (numVars clauses) → Fin 2 =>
    Satisfies clauses (List.ofFn fun k => (w k).val)).card

/-- Two variables occur together in a clause, or there is a chain of such pairs. -/
def VarConn (clauses : List Clause) : Nat → Nat → Prop :=
  Relation.EqvGen fun a b => ∃ c ∈ clauses, a ∈ (lits c).map Int.natAbs ∧ b ∈ (lits c).map Int.natAbs

/-! ### The value -/

theorem sumIdx_ofFn (n : Nat) (f : List Nat → R) :
    sumIdx (List.replicate n 2) f = ∑ w : Fin n → Fin 2, f (List.ofFn fun k => (w k).val) := by
  induction n generalizing f with
  | zero => simp [sumIdx]
  | succ n ih =>
    rw [List.replicate_succ, sumIdx, ← (Fin.consEquiv (fun _ => Fin 2)).sum_comp,
      Fintype.sum_prod_type, Finset.sum_range]
    refine Finset.sum_congr rfl fun i _ => ?_
    rw [ih]
    refine Finset.sum_congr rfl fun w _ => ?_
    simp [List.ofFn_succ, Fin.consEquiv]

theorem sum_ind (clauses : List Clause) :
    sumIdx (List.replicate (numVars clauses) 2)
      (fun w => if Satisfies clauses w then (1 : R) else 0) = numSolutions clauses := by
  rw [sumIdx_ofFn, numSolutions, Finset.sum_boole]

theorem sumOver_comp {dim : Nat → Nat} {ρ : Nat → Nat} (C : List Nat)
    (hρ : ∀ c ∈ C, ∀ x, ρ x = c ↔ x = c) (f : (Nat → Nat) → R) (τ : Nat → Nat) :
    sumOver dim C (fun τ => f (τ ∘ ρ)) τ = sumOver dim C f (τ ∘ ρ) := by
  induction C generalizing τ with
  | nil => rfl
  | cons c C ih =>
    simp only [sumOver]
    refine Finset.sum_congr rfl fun i _ => ?_
    rw [ih (fun c hc => hρ c (by simp [hc]))]
    congr 1
    funext x
    by_cases h : x = c
    · subst h
      have := (hρ x (by simp) x).2 rfl
      simp [this]
    · have : ρ x ≠ c := fun h' => h ((hρ c (by simp) x).1 h')
      simp [Function.update_of_ne h, Function.update_of_ne this]

theorem prodVal_rename (ρ : Nat → Nat) (net : List (NDArray R × List Nat)) (τ : Nat → Nat) :
    prodVal (renameNet ρ net) τ = prodVal net (τ ∘ ρ) := by
  simp [prodVal, renameNet, val, Function.comp_def]

theorem flatL_rename (ρ : Nat → Nat) (net : List (NDArray R × List Nat)) :
    flatL (renameNet ρ net) = (flatL net).map ρ := by
  simp [flatL, renameNet, List.flatMap_map, List.map_flatMap]

theorem count_rename {ρ : Nat → Nat} {l : List Nat} {e e' : Nat} (h : ∀ x ∈ l, ρ x = e ↔ x = e') :
    (l.map ρ).count e = l.count e' := by
  rw [List.count, List.countP_map, List.count]
  refine List.countP_congr fun x hx => ?_
  simpa using h x hx

theorem joined_value {s1 s2 : St R} {n : Nat} {f : List Nat → R}
    (h1 : SInv s1 0 [] (fun w _ => f w)) (h2 : SInv s2 s1.next [] (fun w _ => f w))
    (hl1 : s1.state.length = n) (hl2 : s2.state.length = n) :
    (∀ e, ¬ Dangling (s1.net ++ renameNet (joinEdge s1.state s2.state) s2.net) e) ∧
    ∀ σ, netVal (s1.net ++ renameNet (joinEdge s1.state s2.state) s2.net) σ =
      sumIdx (List.replicate n 2) (fun w => f w * f w) := by
  set ρ := joinEdge s1.state s2.state with hρ
  have hn1 : s1.state.Nodup := by simpa using h1.nodup
  have hn2 : s2.state.Nodup := by simpa using h2.nodup
  have hm1 : ∀ e ∈ s1.state, e ∈ flatL s1.net := fun e he => h1.mem e (by simpa using he)
  have hm2 : ∀ e ∈ s2.state, e ∈ flatL s2.net := fun e he => h2.mem e (by simpa using he)
  have hlt1 : ∀ e ∈ s1.state, e < s1.next := fun e he => (h1.lt e (hm1 e he)).2
  have hge2 : ∀ e ∈ flatL s2.net, s1.next ≤ e := fun e he => (h2.lt e he).1
  have hρ_mem : ∀ x ∈ s2.state, ρ x ∈ s1.state := by
    intro x hx
    have hk := List.idxOf_lt_length_of_mem hx
    have hk' : s2.state.idxOf x < s1.state.length := by omega
    simp only [hρ, joinEdge, if_pos hx, List.getD_eq_getElem?_getD, List.getElem?_eq_getElem hk',
      Option.getD_some]
    exact List.getElem_mem _
  have hρ_not : ∀ x, x ∉ s2.state → ρ x = x := fun x hx => by simp [hρ, joinEdge, hx]
  have hρ_get : ∀ k (hk : k < n), ρ (s2.state[k]'(by omega)) = s1.state[k]'(by omega) := by
    intro k hk
    simp only [hρ, joinEdge, List.getElem_mem, if_true, hn2.idxOf_getElem]
    simp [hl1, hk]
  have hcons : Consistent (fun _ => 2) (s1.net ++ renameNet ρ s2.net) := by
    intro p hp
    rw [List.mem_append] at hp
    rcases hp with hp | hp
    · exact h1.cons p hp
    · rw [renameNet, List.mem_map] at hp
      obtain ⟨q, hq, rfl⟩ := hp
      have := h2.cons q hq
      rw [Shaped] at this ⊢
      rw [this, List.map_map]
      rfl
  have hcl2 : ∀ c, c ∈ closedL s2.net ↔ c ∈ flatL s2.net ∧ c ∉ s2.state := by
    intro c
    rw [mem_closedL]
    constructor
    · intro h
      have hm : c ∈ flatL s2.net := List.count_pos_iff.1 (by omega)
      refine ⟨hm, fun hs => ?_⟩
      rw [h2.cnt c hm, if_pos (by simpa using hs)] at h
      omega
    · rintro ⟨hm, hs⟩
      rw [h2.cnt c hm, if_neg (by simpa using hs)]
  have hcl1 : ∀ c, c ∈ closedL s1.net ↔ c ∈ flatL s1.net ∧ c ∉ s1.state := by
    intro c
    rw [mem_closedL]
    constructor
    · intro h
      have hm : c ∈ flatL s1.net := List.count_pos_iff.1 (by omega)
      refine ⟨hm, fun hs => ?_⟩
      rw [h1.cnt c hm, if_pos (by simpa using hs)] at h
      omega
    · rintro ⟨hm, hs⟩
      rw [h1.cnt c hm, if_neg (by simpa using hs)]
  have hcount : ∀ e, (flatL (s1.net ++ renameNet ρ s2.net)).count e =
      if e ∈ s1.state ++ (closedL s1.net ++ closedL s2.net) then 2 else 0 := by
    intro e
    rw [flatL_append, flatL_rename, List.count_append, if_congr (Q := e ∈ s1.state ∨
      (e ∈ flatL s1.net ∧ e ∉ s1.state) ∨ e ∈ flatL s2.net ∧ e ∉ s2.state)
      (by rw [List.mem_append, List.mem_append, hcl1, hcl2]) rfl rfl]
    by_cases hes : e ∈ s1.state
    · have hc1 : (flatL s1.net).count e = 1 := by
        rw [h1.cnt e (hm1 e hes), if_pos (by simpa using hes)]
      obtain ⟨k, hk, rfl⟩ := List.getElem_of_mem hes
      have hk2 : k < s2.state.length := by omega
      have hc2 : ((flatL s2.net).map ρ).count s1.state[k] = 1 := by
        rw [count_rename (e' := s2.state[k])]
        · rw [h2.cnt _ (hm2 _ (List.getElem_mem _)), if_pos (by simp)]
        · intro x hx
          constructor
          · intro hx'
            by_cases hxs : x ∈ s2.state
            · obtain ⟨j, hj, rfl⟩ := List.getElem_of_mem hxs
              rw [hρ_get j (by omega)] at hx'
              have := (hn1.getElem_inj_iff).1 hx'
              subst this
              rfl
            · rw [hρ_not x hxs] at hx'
              have h5 := hge2 x hx
              have h6 := hlt1 _ hes
              omega
          · rintro rfl
            exact hρ_get k (by omega)
      simp [hc1, hc2]
    · by_cases he1 : e ∈ flatL s1.net
      · have hc1 : (flatL s1.net).count e = 2 := by
          rw [h1.cnt e he1, if_neg (by simpa using hes)]
        have hc2 : ((flatL s2.net).map ρ).count e = 0 := by
          rw [List.count_eq_zero, List.mem_map]
          rintro ⟨x, hx, hxe⟩
          by_cases hxs : x ∈ s2.state
          · exact hes (hxe ▸ hρ_mem x hxs)
          · rw [hρ_not x hxs] at hxe
            have h5 := hge2 x hx
            have h6 := (h1.lt e he1).2
            omega
        simp [hc1, hc2, he1, hes]
      · have hc1 : (flatL s1.net).count e = 0 := List.count_eq_zero.2 he1
        by_cases he2 : e ∈ flatL s2.net ∧ e ∉ s2.state
        · have hc2 : ((flatL s2.net).map ρ).count e = 2 := by
            rw [count_rename (e' := e)]
            · rw [h2.cnt e he2.1, if_neg (by simpa using he2.2)]
            · intro x hx
              constructor
              · intro hx'
                by_cases hxs : x ∈ s2.state
                · exact absurd (hx' ▸ hρ_mem x hxs) hes
                · rw [hρ_not x hxs] at hx'; exact hx'
              · rintro rfl; exact hρ_not _ he2.2
          simp [hc1, hc2, he2]
        · have hc2 : ((flatL s2.net).map ρ).count e = 0 := by
            rw [List.count_eq_zero, List.mem_map]
            rintro ⟨x, hx, hxe⟩
            by_cases hxs : x ∈ s2.state
            · exact hes (hxe ▸ hρ_mem x hxs)
            · rw [hρ_not x hxs] at hxe
              subst hxe
              exact he2 ⟨hx, hxs⟩
          simp only [hc1, hc2, hes, he1, he2]
          simp
  have hperm : (closedL (s1.net ++ renameNet ρ s2.net)).Perm
      (s1.state ++ (closedL s1.net ++ closedL s2.net)) := by
    rw [List.perm_ext_iff_of_nodup (closedL_nodup _)]
    · intro e
      rw [mem_closedL, hcount]
      split_ifs with h' <;> simp [h']
    · rw [List.nodup_append', List.nodup_append']
      refine ⟨hn1, ⟨closedL_nodup _, closedL_nodup _, ?_⟩, ?_⟩
      · intro e ha hb
        have h5 := (h1.lt e ((hcl1 e).1 ha).1).2
        have h6 := hge2 e ((hcl2 e).1 hb).1
        omega
      · intro e ha hb
        rw [List.mem_append, hcl1, hcl2] at hb
        rcases hb with hb | hb
        · exact hb.2 ha
        · have h5 := hlt1 e ha
          have h6 := hge2 e hb.1
          omega
  refine ⟨fun e he => ?_, fun σ => ?_⟩
  · rw [Dangling, hcount] at he
    split_ifs at he; omega
  rw [netVal_eq hcons, sumOver_perm hperm, sumOver_append]
  have hinner : ∀ τ, (∀ e ∈ s1.state, τ e < 2) →
      sumOver (fun _ => 2) (closedL s1.net ++ closedL s2.net)
        (prodVal (s1.net ++ renameNet ρ s2.net)) τ =
      f (s1.state.map τ) * f (s1.state.map τ) := by
    intro τ hτ
    rw [sumOver_append]
    have e1 : ∀ τ, sumOver (fun _ => 2) (closedL s2.net)
        (prodVal (s1.net ++ renameNet ρ s2.net)) τ =
        prodVal s1.net τ * netVal s2.net (τ ∘ ρ) := by
      intro τ
      have : prodVal (s1.net ++ renameNet ρ s2.net) =
          fun τ => prodVal s1.net τ * (fun τ => prodVal s2.net (τ ∘ ρ)) τ := by
        funext τ
        rw [prodVal_append, prodVal_rename]
      rw [this, sumOver_mul_left (prodVal_dependsOn s1.net), sumOver_comp, netVal_eq h2.cons]
      · intro c hc x
        rw [hcl2] at hc
        constructor
        · intro hx
          by_cases hxs : x ∈ s2.state
          · have h5 := hlt1 _ (hρ_mem x hxs)
            have h6 := hge2 c hc.1
            omega
          · rw [hρ_not x hxs] at hx; exact hx
        · rintro rfl; exact hρ_not _ hc.2
      · intro l hl hc
        rw [hcl2] at hc
        have h5 := (h1.lt l hl).2
        have h6 := hge2 l hc.1
        omega
    have hdep : DependsOn (fun τ : Nat → Nat => netVal s2.net (τ ∘ ρ))
        (s1.state ++ (flatL s2.net).filter (· ∉ s2.state)) := by
      intro τ τ' hh
      refine netVal_congr h2.cons fun e he hc => ?_
      have hes : e ∈ s2.state := by
        by_contra h'
        exact hc ((hcl2 e).2 ⟨he, h'⟩)
      exact hh _ (List.mem_append.2 (.inl (hρ_mem e hes)))
    have e2 : (sumOver (fun _ => 2) (closedL s2.net)
        (prodVal (s1.net ++ renameNet ρ s2.net))) =
        fun τ => prodVal s1.net τ * (fun τ : Nat → Nat => netVal s2.net (τ ∘ ρ)) τ := funext e1
    rw [e2, sumOver_mul_right hdep, ← netVal_eq h1.cons, h1.value τ (by simpa using hτ),
      h2.value]
    · congr 2
      apply List.ext_getElem (by simp; omega)
      intro k hk1 hk2
      simp only [List.length_map] at hk1
      simp only [List.getElem_map, Function.comp_apply]
      rw [hρ_get k (by omega)]
    · intro e he
      rw [List.append_nil] at he
      exact hτ _ (hρ_mem e he)
    · intro l hl hc
      rw [hcl1] at hc
      rw [List.mem_append, List.mem_filter] at hl
      rcases hl with hl | hl
      · exact hc.2 hl
      · have h5 := (h1.lt l hc.1).2
        have h6 := hge2 l hl.1
        omega
  rw [sumOver_congr (g := fun τ => f (s1.state.map τ) * f (s1.state.map τ))
    (fun τ _ hτ => hinner τ hτ), sumOver_eq_sumIdx]
  have hrep : s1.state.map (fun _ => 2) = List.replicate n 2 := by
    rw [List.map_const', hl1]
  rw [hrep]
  refine sumIdx_congr fun c hc => ?_
  rw [assign_map_self hn1]
  have := hc.length_eq
  simpa [hl1] using this

/-! ### Connected networks -/

theorem Conn.mono {a b : List (NDArray R × List Nat)} (h : a ⊆ b) {x y : Nat} (hc : Conn a x y) :
    Conn b x y :=
  Relation.EqvGen.mono (fun _ _ ⟨p, hp, h'⟩ => ⟨p, h hp, h'⟩) x y hc

theorem Conn.node {net : List (NDArray R × List Nat)} {p : NDArray R × List Nat} (hp : p ∈ net)
    {x y : Nat} (hx : x ∈ p.2) (hy : y ∈ p.2) : Conn net x y := .rel _ _ ⟨p, hp, hx, hy⟩

theorem Conn.symm {net : List (NDArray R × List Nat)} {x y : Nat} (h : Conn net x y) :
    Conn net y x := Relation.EqvGen.symm _ _ h

theorem Conn.trans {net : List (NDArray R × List Nat)} {x y z : Nat} (h : Conn net x y)
    (h' : Conn net y z) : Conn net x z := Relation.EqvGen.trans _ _ _ h h'

theorem Conn.rename {ρ : Nat → Nat} {net : List (NDArray R × List Nat)} {x y : Nat}
    (h : Conn net x y) : Conn (renameNet ρ net) (ρ x) (ρ y) := by
  induction h with
  | rel x y h =>
    obtain ⟨p, hp, hx, hy⟩ := h
    exact Conn.node (p := (p.1, p.2.map ρ)) (List.mem_map.2 ⟨p, hp, rfl⟩)
      (List.mem_map_of_mem hx) (List.mem_map_of_mem hy)
  | refl x => exact .refl _
  | symm x y _ ih => exact ih.symm
  | trans x y z _ _ ih1 ih2 => exact ih1.trans ih2

theorem connectVars_conn (xs : List Int) (pend : List Nat) (s : St R)
    (hlen : xs.length = pend.length) (hv : ∀ x ∈ xs, x.natAbs - 1 < s.state.length) :
    s.net ⊆ (connectVars s xs pend).net ∧
    (∀ v < s.state.length, Conn (connectVars s xs pend).net (s.state.getD v 0)
      ((connectVars s xs pend).state.getD v 0)) ∧
    (∀ q ∈ xs.zip pend, Conn (connectVars s xs pend).net q.2
      ((connectVars s xs pend).state.getD (q.1.natAbs - 1) 0)) ∧
    (∀ e ∈ flatL (connectVars s xs pend).net, e ∈ flatL s.net ∨
      ∃ c ∈ pend, Conn (connectVars s xs pend).net e c) ∧
    ((∀ p ∈ s.net, p.2 ≠ []) → ∀ p ∈ (connectVars s xs pend).net, p.2 ≠ []) := by
  induction xs generalizing pend s with
  | nil =>
    have : connectVars s [] pend = s := by cases pend <;> rfl
    rw [this]
    exact ⟨fun _ h => h, fun _ _ => .refl _, by simp, fun e he => .inl he, fun h => h⟩
  | cons x xs ih =>
    cases pend with
    | nil => simp at hlen
    | cons c pend =>
      have hx := hv x (by simp)
      set s1 : St R := ⟨s.net ++ [(Copy.makeCopyTensor 3 2,
        [c, s.state.getD (x.natAbs - 1) 0, s.next])], s.state.set (x.natAbs - 1) s.next,
        s.next + 1⟩ with hs1
      have hrun : connectVars s (x :: xs) (c :: pend) = connectVars s1 xs pend := rfl
      rw [hrun]
      have hl1 : s1.state.length = s.state.length := by simp [hs1]
      obtain ⟨i1, i2, i3, i4, i5⟩ := ih pend s1 (by simpa using hlen)
        (fun y hy => by rw [hl1]; exact hv y (by simp [hy]))
      have hsub : s.net ⊆ s1.net := fun p hp => by simp [hs1, hp]
      have hnode : ((Copy.makeCopyTensor 3 2 : NDArray R),
          [c, s.state.getD (x.natAbs - 1) 0, s.next]) ∈ (connectVars s1 xs pend).net :=
        i1 (by simp [hs1])
      have hnew : s1.state.getD (x.natAbs - 1) 0 = s.next := by
        simp [hs1, hx]
      have hcx : Conn (connectVars s1 xs pend).net c
          ((connectVars s1 xs pend).state.getD (x.natAbs - 1) 0) := by
        have h1 := i2 (x.natAbs - 1) (by omega)
        rw [hnew] at h1
        exact (Conn.node hnode (by simp) (by simp)).trans h1
      refine ⟨fun p hp => i1 (hsub hp), ?_, ?_, ?_, ?_⟩
      · intro v hvl
        by_cases hvx : v = x.natAbs - 1
        · subst hvx
          exact (Conn.node hnode (by simp) (by simp)).trans hcx
        · have h1 := i2 v (by omega)
          have h2 : s1.state.getD v 0 = s.state.getD v 0 := by
            simp [hs1, List.getElem?_set_ne (Ne.symm hvx)]
          rwa [h2] at h1
      · intro q hq
        rw [List.zip_cons_cons, List.mem_cons] at hq
        rcases hq with rfl | hq
        · exact hcx
        · exact i3 q hq
      · intro e he
        rcases i4 e he with h1 | ⟨c', hc', h1⟩
        · have hfl : flatL s1.net =
              flatL s.net ++ [c, s.state.getD (x.natAbs - 1) 0, s.next] := by
            simp only [hs1]; rw [flatL_append]; simp [flatL]
          rw [hfl, List.mem_append] at h1
          rcases h1 with h1 | h1
          · exact .inl h1
          · exact .inr ⟨c, by simp, Conn.node hnode h1 (by simp)⟩
        · exact .inr ⟨c', by simp [hc'], h1⟩
      · intro h
        refine i5 fun p hp => ?_
        simp only [hs1, List.mem_append, List.mem_singleton] at hp
        rcases hp with hp | rfl
        · exact h p hp
        · simp

/-- What is known about the connections after some clauses. -/
structure CInv (s : St R) (n : Nat) (done : List Clause) : Prop where
  len : s.state.length = n
  owner : ∀ e ∈ flatL s.net, ∃ v < n, Conn s.net e (s.state.getD v 0)
  clause : ∀ c ∈ done, ∀ x ∈ lits c, ∀ y ∈ lits c,
    Conn s.net (s.state.getD (x.natAbs - 1) 0) (s.state.getD (y.natAbs - 1) 0)
  nonempty : ∀ p ∈ s.net, p.2 ≠ []

theorem cinv_clause {s : St R} {n : Nat} {done : List Clause} {c : Clause}
    (hc : ∀ d ∈ done ++ [c], ∀ x ∈ lits d, x.natAbs - 1 < n) (h : CInv s n done) :
    CInv (addClause s c) n (done ++ [c]) := by
  obtain ⟨i1, i2, i3, i4, i5⟩ := connectVars_conn (R := R) (lits c)
    [s.next, s.next + 1, s.next + 2]
    ⟨s.net ++ [(clauseTensor c, [s.next, s.next + 1, s.next + 2])], s.state, s.next + 3⟩ rfl
    (fun x hx => by dsimp only; rw [h.len]; exact hc c (by simp) x hx)
  have hl := (connectVars_len (R := R)
    ⟨s.net ++ [(clauseTensor c, [s.next, s.next + 1, s.next + 2])], s.state, s.next + 3⟩ (lits c)
    [s.next, s.next + 1, s.next + 2]).1
  rw [← addClause] at i1 i2 i3 i4 i5 hl
  dsimp only at i1 i2 hl
  have hnode : ((clauseTensor c : NDArray R), [s.next, s.next + 1, s.next + 2]) ∈
      (addClause s c).net := i1 (by simp)
  have hsub : s.net ⊆ (addClause s c).net := fun p hp => i1 (by simp [hp])
  have hlit : ∀ x ∈ lits c, Conn (addClause s c).net s.next
      ((addClause s c).state.getD (x.natAbs - 1) 0) := by
    intro x hx
    have : ∃ l ∈ [s.next, s.next + 1, s.next + 2],
        (x, l) ∈ (lits c).zip [s.next, s.next + 1, s.next + 2] := by
      simp only [lits, List.mem_cons, List.not_mem_nil, or_false] at hx
      rcases hx with rfl | rfl | rfl
      · exact ⟨s.next, by simp, by simp [lits]⟩
      · exact ⟨s.next + 1, by simp, by simp [lits]⟩
      · exact ⟨s.next + 2, by simp, by simp [lits]⟩
    obtain ⟨l, hl, hz⟩ := this
    exact (Conn.node hnode (by simp) hl).trans (i3 _ hz)
  refine ⟨by rw [hl, h.len], ?_, ?_, ?_⟩
  · intro e he
    have hcl : ∀ l ∈ [s.next, s.next + 1, s.next + 2],
        ∃ v < n, Conn (addClause s c).net l ((addClause s c).state.getD v 0) := fun l hl =>
      ⟨c.1.natAbs - 1, hc c (by simp) _ (by simp [lits]),
        (Conn.node hnode hl (by simp)).trans (hlit c.1 (by simp [lits]))⟩
    rcases i4 e he with h1 | ⟨l, hl, h1⟩
    · rw [flatL_append, List.mem_append] at h1
      rcases h1 with h1 | h1
      · obtain ⟨v, hv, h2⟩ := h.owner e h1
        exact ⟨v, hv, (h2.mono hsub).trans (i2 v (by rw [h.len]; exact hv))⟩
      · exact hcl e (by simpa [flatL] using h1)
    · obtain ⟨v, hv, h2⟩ := hcl l hl
      exact ⟨v, hv, h1.trans h2⟩
  · intro d hd x hx y hy
    rw [List.mem_append, List.mem_singleton] at hd
    rcases hd with hd | rfl
    · have h1 := (h.clause d hd x hx y hy).mono hsub
      have h2 := i2 (x.natAbs - 1) (by rw [h.len]; exact hc d (by simp [hd]) x hx)
      have h3 := i2 (y.natAbs - 1) (by rw [h.len]; exact hc d (by simp [hd]) y hy)
      exact (h2.symm.trans h1).trans h3
    · exact (hlit x hx).symm.trans (hlit y hy)
  · refine i5 fun p hp => ?_
    simp only [List.mem_append, List.mem_singleton] at hp
    rcases hp with hp | rfl
    · exact h.nonempty p hp
    · simp

theorem cinv_fold {n : Nat} (cs done : List Clause) {s : St R}
    (hc : ∀ d ∈ done ++ cs, ∀ x ∈ lits d, x.natAbs - 1 < n) (h : CInv s n done) :
    CInv (cs.foldl addClause s) n (done ++ cs) := by
  induction cs generalizing s done with
  | nil => simpa using h
  | cons c cs ih =>
    have := ih (done ++ [c]) (s := addClause s c) (by simpa using hc)
      (cinv_clause (fun d hd => hc d (by
        rw [List.mem_append, List.mem_singleton] at hd
        rw [List.mem_append, List.mem_cons]
        tauto)) h)
    simpa using this

theorem cinv_start (next n : Nat) : CInv (varNodes next n : St R) n [] := by
  refine ⟨by simp [varNodes], ?_, by simp, ?_⟩
  · intro e he
    rw [mem_flatL] at he
    obtain ⟨p, hp, he⟩ := he
    simp only [varNodes, List.mem_map, List.mem_range] at hp
    obtain ⟨v, hv, rfl⟩ := hp
    rw [List.mem_singleton] at he
    subst he
    refine ⟨v, hv, ?_⟩
    have : (varNodes next n : St R).state.getD v 0 = next + v := by simp [varNodes, hv]
    rw [this]
    exact .refl _
  · intro p hp
    simp only [varNodes, List.mem_map] at hp
    obtain ⟨v, _, rfl⟩ := hp
    simp

theorem lit_lt {clauses : List Clause} (h0 : ∀ c ∈ clauses, 0 ∉ lits c) {c : Clause}
    (hc : c ∈ clauses) {x : Int} (hx : x ∈ lits c) : x.natAbs - 1 < numVars clauses := by
  have h1 := numVars_le hc hx
  have : x ≠ 0 := fun h => h0 c hc (h ▸ hx)
  omega

theorem satTn_conn {next : Nat} {clauses : List Clause} (h0 : ∀ c ∈ clauses, 0 ∉ lits c)
    {s : St R} (hs : satTn next clauses = .ok s)
    (hcon : ∀ v, 0 < v → v ≤ numVars clauses → VarConn clauses 1 v) :
    (∀ e ∈ flatL s.net, Conn s.net (s.state.getD 0 0) e) ∧ ∀ p ∈ s.net, p.2 ≠ [] := by
  have h := cinv_fold (R := R) (n := numVars clauses) clauses []
    (s := varNodes next (numVars clauses)) (fun d hd x hx => lit_lt h0 (by simpa using hd) hx)
    (cinv_start _ _)
  rw [satTn] at hs
  split_ifs at hs with h1 h2
  rw [Except.ok.injEq] at hs
  rw [hs, List.nil_append] at h
  have hvar : ∀ a b, VarConn clauses a b →
      Conn s.net (s.state.getD (a - 1) 0) (s.state.getD (b - 1) 0) := by
    intro a b hab
    induction hab with
    | rel a b hr =>
      obtain ⟨c, hc, ha, hb⟩ := hr
      rw [List.mem_map] at ha hb
      obtain ⟨x, hx, rfl⟩ := ha
      obtain ⟨y, hy, rfl⟩ := hb
      exact h.clause c hc x hx y hy
    | refl a => exact .refl _
    | symm a b _ ih => exact ih.symm
    | trans a b c _ _ ih1 ih2 => exact ih1.trans ih2
  refine ⟨fun e he => ?_, h.nonempty⟩
  obtain ⟨v, hv, hc⟩ := h.owner e he
  have := hvar 1 (v + 1) (hcon (v + 1) (by omega) (by omega))
  exact this.trans (by simpa using hc.symm)

/-- `sat_count_tn` returns a closed network whose value is the number of solutions.
Missing: the variables must be connected through clauses, otherwise only the part of the first
variable is returned (`C83_sat_count_false`). -/
theorem C83_sat_count_partial {clauses : List Clause} (hne : clauses ≠ [])
    (h0 : ∀ c ∈ clauses, 0 ∉ lits c)
    (hcon : ∀ v, 0 < v → v ≤ numVars clauses → VarConn clauses 1 v) :
    ∃ net : List (NDArray R × List Nat), satCountTn clauses = .ok net ∧
      (∀ e, ¬ Dangling net e) ∧ ∀ σ, netVal net σ = numSolutions clauses := by
  obtain ⟨s1, r1, l1, _, i1⟩ := satTn_ok (R := R) (next := 0) hne h0
  obtain ⟨s2, r2, l2, _, i2⟩ := satTn_ok (R := R) (next := s1.next) hne h0
  have c1 := satTn_conn h0 r1 hcon
  have c2 := satTn_conn h0 r2 hcon
  have hpos : 0 < numVars clauses := by
    obtain ⟨c, cs, rfl⟩ := List.exists_cons_of_ne_nil hne
    have := lit_lt h0 (c := c) (by simp) (x := c.1) (by simp [lits])
    omega
  set ρ := joinEdge s1.state s2.state with hρ
  have hρ0 : ρ (s2.state.getD 0 0) = s1.state.getD 0 0 := by
    have hk : 0 < s2.state.length := by omega
    have hm : s2.state.getD 0 0 ∈ s2.state := by
      simp only [List.getD_eq_getElem?_getD, List.getElem?_eq_getElem hk, Option.getD_some]
      exact List.getElem_mem _
    have hi : s2.state.idxOf (s2.state.getD 0 0) = 0 := by
      simp only [List.getD_eq_getElem?_getD, List.getElem?_eq_getElem hk, Option.getD_some]
      have hn : s2.state.Nodup := by simpa using i2.nodup
      exact hn.idxOf_getElem 0 hk
    rw [hρ, joinEdge, if_pos hm, hi]
  have hall : reachFrom (s1.net ++ renameNet ρ s2.net) (s1.state.getD 0 0) =
      s1.net ++ renameNet ρ s2.net := by
    rw [reachFrom, List.filter_eq_self]
    intro p hp
    simp only [decide_eq_true_eq]
    rw [List.mem_append] at hp
    rcases hp with hp | hp
    · obtain ⟨l, ls, hl⟩ := List.exists_cons_of_ne_nil (c1.2 p hp)
      refine ⟨l, by simp [hl], (c1.1 l (mem_flatL.2 ⟨p, hp, by simp [hl]⟩)).mono ?_⟩
      exact fun q hq => List.mem_append.2 (.inl hq)
    · have hp' := hp
      rw [renameNet, List.mem_map] at hp
      obtain ⟨q, hq, rfl⟩ := hp
      obtain ⟨l, ls, hl⟩ := List.exists_cons_of_ne_nil (c2.2 q hq)
      refine ⟨ρ l, by simp [hl], ?_⟩
      have := (c2.1 l (mem_flatL.2 ⟨q, hq, by simp [hl]⟩)).rename (ρ := ρ)
      rw [hρ0] at this
      exact this.mono fun q hq => List.mem_append.2 (.inr hq)
  refine ⟨s1.net ++ renameNet ρ s2.net, ?_, ?_, ?_⟩
  · simp only [satCountTn, satDouble, r1, r2, bind, Except.bind, ← hρ, hall]
  · exact (joined_value i1 i2 l1 l2).1
  · intro σ
    rw [(joined_value i1 i2 l1 l2).2, ← sum_ind]
    refine sumIdx_congr fun w _ => ?_
    split_ifs <;> simp

/-- Three variables in two clauses. -/
example := C83_sat_tn (R := Int) (next := 0) (clauses := [(1, -2, 3), (-1, 2, 2)]) (by simp)
  (by simp [lits])

/-- The variables are connected. -/
example := C83_sat_count_partial (R := Int) (clauses := [(1, -2, 2), (-2, 3, 3)]) (by simp)
  (by simp [lits])
  (by
    have h12 : VarConn [(1, -2, 2), (-2, 3, 3)] 1 2 :=
      .rel _ _ ⟨(1, -2, 2), by simp, by simp [lits], by simp [lits]⟩
    have h23 : VarConn [(1, -2, 2), (-2, 3, 3)] 2 3 :=
      .rel _ _ ⟨(-2, 3, 3), by simp, by simp [lits], by simp [lits]⟩
    intro v h1 h2
    have h3 : numVars [(1, -2, 2), (-2, 3, 3)] = 3 := by decide
    rw [h3] at h2
    interval_cases v
    · exact .refl _
    · exact h12
    · exact .trans _ _ _ h12 h23)

/-- The network of two variables that occur in a clause and one that does not. -/
theorem satDouble_ex : ∃ a b : List (NDArray ℕ × List Nat),
    satDouble [(2, 2, 3)] = .ok ((ones [2], [0]) :: a ++ ((ones [2], [0]) :: b), 0) ∧
      ∀ p ∈ a ++ b, 0 ∉ p.2 := by
  refine ⟨[(_, [1]), (_, [2]), (_, [3, 4, 5]), (_, [3, 1, 6]), (_, [4, 6, 7]), (_, [5, 2, 8])],
    [(_, [10]), (_, [11]), (_, [12, 13, 14]), (_, [12, 10, 15]), (_, [13, 15, 7]),
      (_, [14, 11, 8])], rfl, ?_⟩
  simp

/-- The value is not the number of solutions when the variables are not connected: the value is
two, and there are six solutions. -/
theorem C83_sat_count_false : ∃ net : List (NDArray ℕ × List Nat),
    satCountTn [(2, 2, 3)] = .ok net ∧ netVal net (fun _ => 0) = 2 ∧
      numSolutions [(2, 2, 3)] = 6 := by
  obtain ⟨a, b, hd, h0⟩ := satDouble_ex
  refine ⟨[(ones [2], [0]), (ones [2], [0])], ?_, ?_, by decide⟩
  · have hconn : ∀ x y, Conn ((ones [2], [0]) :: a ++ ((ones [2], [0]) :: b)) x y →
        (x = 0 ↔ y = 0) := by
      intro x y h
      induction h with
      | rel x y h =>
        obtain ⟨p, hp, hx, hy⟩ := h
        by_cases hp0 : p = (ones [2], [0])
        · subst hp0
          simp only [List.mem_singleton] at hx hy
          simp [hx, hy]
        · have hm : p ∈ a ++ b := by
            simp only [List.cons_append, List.mem_cons, List.mem_append, hp0, false_or] at hp ⊢
            exact hp
          have h1 := h0 p hm
          have hx0 : x ≠ 0 := fun h => h1 (h ▸ hx)
          have hy0 : y ≠ 0 := fun h => h1 (h ▸ hy)
          simp [hx0, hy0]
      | refl x => exact Iff.rfl
      | symm x y _ ih => exact ih.symm
      | trans x y z _ _ ih1 ih2 => exact ih1.trans ih2
    have hno : ∀ p ∈ a ++ b, ¬ ∃ l ∈ p.2, Conn ((ones [2], [0]) :: a ++ ((ones [2], [0]) :: b)) 0 l := by
      rintro p hp ⟨l, hl, hc⟩
      have := (hconn 0 l hc).1 rfl
      exact h0 p hp (this ▸ hl)
    have hyes : ∃ l ∈ [0], Conn ((ones [2], [0]) :: a ++ ((ones [2], [0]) :: b)) 0 l :=
      ⟨0, by simp, .refl _⟩
    simp only [satCountTn, hd, bind, Except.bind, reachFrom]
    rw [List.cons_append, List.filter_cons_of_pos, List.filter_append, List.filter_cons_of_pos,
      List.filter_eq_nil_iff.2, List.filter_eq_nil_iff.2]
    · rfl
    · intro p hp
      simpa using hno p (by simp [hp])
    · intro p hp
      simpa using hno p (by simp [hp])
    · simpa using hyes
    · simpa using hyes
  · simp [netVal, closedL, flatL, sumOver, ldim, prodVal, val, ones]

end TN.Ex
