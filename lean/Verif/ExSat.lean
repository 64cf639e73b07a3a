import Verif.ExNet
import Verif.CopyNode
import Mathlib.Logic.Relation
import Mathlib.Tactic.IntervalCases

/-!
# examples/sat/sat_tensornetwork.py

Model of `sat_tn` and `sat_count_tn` (sat_tensornetwork.py:46-120).  A network is a list of arrays
with the names of their edges.  Connecting an open edge to an axis of a new node is modelled by
giving the axis the name of the edge.  Entries are elements of a commutative semiring; that they
are 32 bit integers is not modelled.
-/

set_option linter.unusedSectionVars false

namespace TN.Ex

open TN Finset

/-- A clause: three variables with signs. -/
abbrev Clause := Int × Int × Int

/-- `for x in clause`. -/
def lits (c : Clause) : List Int := [c.1, c.2.1, c.2.2]

variable {R : Type} [CommSemiring R]

/-! ### Model -/

/-- `np.ones(shape)`. -/
def ones (shape : List Nat) : NDArray R := ⟨shape, fun _ => 1⟩

/-- The position `(-np.sign(a) + 1) // 2` (sat_tensornetwork.py:87-88). -/
def zeroPos (a : Int) : Nat := ((-a.sign + 1) / 2).toNat

/-- The tensor of a clause (sat_tensornetwork.py:86-88): ones with one entry set to zero. -/
def clauseTensor (c : Clause) : NDArray R :=
  ⟨[2, 2, 2], fun idx => if idx = (lits c).map zeroPos then 0 else 1⟩

/-- The loop over the variables of a clause (sat_tensornetwork.py:92-96).  `pend` has the edges
of the clause node from axis `i` on. -/
def connectVars (s : St R) : List Int → List Nat → St R
  | x :: xs, c :: pend =>
    let v := x.natAbs - 1
    connectVars ⟨s.net ++ [(Copy.makeCopyTensor 3 2, [c, s.state.getD v 0, s.next])],
      s.state.set v s.next, s.next + 1⟩ xs pend
  | _, _ => s

/-- One clause (sat_tensornetwork.py:84-96). -/
def addClause (s : St R) (c : Clause) : St R :=
  connectVars ⟨s.net ++ [(clauseTensor c, [s.next, s.next + 1, s.next + 2])], s.state, s.next + 3⟩
    (lits c) [s.next, s.next + 1, s.next + 2]

/-- `max(var_set)` (sat_tensornetwork.py:70-73). -/
def numVars (clauses : List Clause) : Nat :=
  ((clauses.flatMap lits).map Int.natAbs).foldl max 0

/-- The variable nodes (sat_tensornetwork.py:77-81), the first edge has the name `next`. -/
def varNodes (next n : Nat) : St R :=
  ⟨(List.range n).map fun v => (ones [2], [next + v]), (List.range n).map (next + ·), next + n⟩

/-- `sat_tn(clauses)` (sat_tensornetwork.py:46-98) with the edges named from `next` on.  `max` of
an empty set raises `ValueError`. -/
def satTn (next : Nat) (clauses : List Clause) : Py (St R) :=
  if ∃ c ∈ clauses, 0 ∈ lits c then .error .valueError
  else if clauses = [] then .error .valueError
  else .ok (clauses.foldl addClause (varNodes next (numVars clauses)))

/-! ### Specification -/

/-- The literal `x` is true, the variable `k` has the value `w (k - 1)`. -/
def LitTrue (w : List Nat) (x : Int) : Prop :=
  (0 < x ∧ w.getD (x.natAbs - 1) 0 = 1) ∨ (x < 0 ∧ w.getD (x.natAbs - 1) 0 = 0)

instance (w : List Nat) (x : Int) : Decidable (LitTrue w x) := by unfold LitTrue; infer_instance

/-- All clauses are satisfied. -/
def Satisfies (clauses : List Clause) (w : List Nat) : Prop :=
  ∀ c ∈ clauses, ∃ x ∈ lits c, LitTrue w x

instance (clauses : List Clause) (w : List Nat) : Decidable (Satisfies clauses w) := by
  unfold Satisfies; infer_instance

/-! ### Proofs -/

theorem numVars_le {clauses : List Clause} {c : Clause} {x : Int} (hc : c ∈ clauses)
    (hx : x ∈ lits c) : x.natAbs ≤ numVars clauses := by
  have : ∀ (l : List Nat) (a b : Nat), b ∈ l ∨ b ≤ a → b ≤ l.foldl max a := by
    intro l
    induction l with
    | nil => intro a b h; simpa using h
    | cons y l ih =>
      intro a b h
      refine ih _ _ ?_
      rcases h with h | h
      · rw [List.mem_cons] at h
        rcases h with rfl | h
        · exact .inr (le_max_right _ _)
        · exact .inl h
      · exact .inr (h.trans (le_max_left _ _))
  refine this _ _ _ (.inl ?_)
  rw [List.mem_map]
  exact ⟨x, List.mem_flatMap.2 ⟨c, hc, hx⟩, rfl⟩

/-- All open edges are those of the variables and of the clause that is being connected. -/
structure SInv (s : St R) (lo : Nat) (pend : List Nat) (Ψ : List Nat → List Nat → R) : Prop where
  cons : Consistent (fun _ => 2) s.net
  lt : ∀ e ∈ flatL s.net, lo ≤ e ∧ e < s.next
  cnt : ∀ e ∈ flatL s.net, (flatL s.net).count e = if e ∈ s.state ++ pend then 1 else 2
  mem : ∀ e ∈ s.state ++ pend, e ∈ flatL s.net
  nodup : (s.state ++ pend).Nodup
  value : ∀ τ, (∀ e ∈ s.state ++ pend, τ e < 2) →
    netVal s.net τ = Ψ (s.state.map τ) (pend.map τ)

theorem sinv_connect {s : St R} {lo : Nat} {c : Nat} {pend : List Nat} {v : Nat}
    {Ψ : List Nat → List Nat → R} (hv : v < s.state.length) (h : SInv s lo (c :: pend) Ψ) :
    SInv ⟨s.net ++ [(Copy.makeCopyTensor 3 2, [c, s.state.getD v 0, s.next])],
      s.state.set v s.next, s.next + 1⟩ lo pend (fun w p => Ψ w (w.getD v 0 :: p)) := by
  have hg : s.state.getD v 0 = s.state[v] := by simp [hv]
  rw [hg]
  have hin : s.state[v] ∈ s.state := List.getElem_mem hv
  have hnd := h.nodup
  rw [List.nodup_append'] at hnd
  obtain ⟨hn1, hn2, hdis⟩ := hnd
  rw [List.nodup_cons] at hn2
  have hcm := h.mem c (by simp)
  have hvm := h.mem s.state[v] (by simp [hin])
  have hc_lt := h.lt c hcm
  have hv_lt := h.lt _ hvm
  have hcs : c ∉ s.state := fun h' => hdis h' (by simp)
  have hcv : c ≠ s.state[v] := fun h' => hcs (h' ▸ hin)
  have hns : ∀ e, e ∈ s.state → e < s.next := fun e he => (h.lt e (h.mem e (by simp [he]))).2
  have hnp : ∀ e, e ∈ pend → e < s.next := fun e he => (h.lt e (h.mem e (by simp [he]))).2
  have hnx : s.next ∉ s.state := fun h' => absurd (hns _ h') (by omega)
  have hnf : s.next ∉ flatL s.net := fun h' => absurd (h.lt _ h').2 (by omega)
  have hfl : flatL (s.net ++ [(Copy.makeCopyTensor 3 2, [c, s.state[v], s.next])]) =
      flatL s.net ++ [c, s.state[v], s.next] := by rw [flatL_append]; simp [flatL]
  have hmem : ∀ e, e ∈ s.state.set v s.next ↔ e = s.next ∨ (e ∈ s.state ∧ e ≠ s.state[v]) := by
    intro e
    refine ⟨mem_set_nodup hn1 hv, ?_⟩
    rintro (rfl | ⟨h1, h2⟩)
    · exact List.mem_set hv _
    · obtain ⟨k, hk, rfl⟩ := List.getElem_of_mem h1
      have hkv : v ≠ k := fun h' => h2 (by subst h'; rfl)
      rw [List.mem_iff_getElem]
      exact ⟨k, by simpa using hk, by rw [List.getElem_set_ne hkv]⟩
  have hcons : Consistent (fun _ => 2)
      (s.net ++ [((Copy.makeCopyTensor 3 2 : NDArray R), [c, s.state[v], s.next])]) := by
    intro p hp
    rw [List.mem_append, List.mem_singleton] at hp
    rcases hp with hp | rfl
    · exact h.cons p hp
    · rfl
  refine ⟨hcons, ?_, ?_, ?_, ?_, ?_⟩
  · intro e he
    rw [hfl] at he
    simp only [List.mem_append, List.mem_cons, List.not_mem_nil, or_false] at he
    dsimp only
    rcases he with he | he | he | he
    · have := h.lt e he; omega
    · omega
    · omega
    · omega
  · intro e he
    dsimp only at he ⊢
    rw [hfl] at he ⊢
    rw [List.count_append]
    simp only [List.mem_append, List.mem_cons, List.not_mem_nil, or_false, hmem] at he ⊢
    by_cases h1 : e = s.next
    · subst h1
      rw [List.count_eq_zero.2 hnf]
      simp [hc_lt.2.ne, hv_lt.2.ne]
    · have hef : e ∈ flatL s.net := by
        rcases he with he | rfl | rfl | he
        · exact he
        · exact hcm
        · exact hvm
        · exact absurd he h1
      have h2 := h.cnt e hef
      rw [h2]
      simp only [List.mem_append, List.mem_cons]
      by_cases h3 : e = c
      · subst h3
        have : e ∉ pend := hn2.1
        simp [hcs, this, hcv.symm, hc_lt.2.ne, hc_lt.2.ne']
      · by_cases h4 : e = s.state[v]
        · have h5 : e ∉ pend := fun h' => hdis (h4 ▸ hin) (by simp [h'])
          have h6 : [c, s.state[v], s.next].count e = 1 := by
            rw [h4]; simp [hcv, hv_lt.2.ne']
          have h7 : e ∈ s.state := h4 ▸ hin
          rw [h6, if_pos (.inl h7), if_neg]
          rintro ((h8 | h8) | h8)
          · exact h1 h8
          · exact h8.2 h4
          · exact h5 h8
        · have h6 : [c, s.state[v], s.next].count e = 0 := by
            rw [List.count_eq_zero]; simp [h1, h3, h4]
          simp [h6, h1, h3, h4]
  · intro e he
    dsimp only at he ⊢
    rw [hfl]
    simp only [List.mem_append, hmem, List.mem_cons, List.not_mem_nil, or_false] at he ⊢
    rcases he with (h1 | h1) | h1
    · simp [h1]
    · exact .inl (h.mem e (by simp [h1.1]))
    · exact .inl (h.mem e (by simp [h1]))
  · dsimp only
    rw [List.nodup_append']
    refine ⟨nodup_set hn1 hnx, hn2.2, fun e he hp => ?_⟩
    rcases (hmem e).1 he with h1 | h1
    · exact absurd (hnp e hp) (by omega)
    · exact hdis h1.1 (by simp [hp])
  · intro τ hτ
    dsimp only at hτ ⊢
    have hz : τ s.next < 2 := hτ _ (by simp [hmem])
    rw [netVal_snoc (D := [c, s.state[v]]) hcons (by simp [hcv, hc_lt.2.ne, hv_lt.2.ne])
      (by simp [hcv])
      (by
        intro e
        simp only [List.mem_cons, List.not_mem_nil, or_false]
        constructor
        · rintro (rfl | rfl)
          · exact ⟨.inl rfl, by rw [Dangling, h.cnt _ hcm, if_pos (by simp)]⟩
          · exact ⟨.inr (.inl rfl), by rw [Dangling, h.cnt _ hvm, if_pos (by simp)]⟩
        · rintro ⟨h1 | h1 | rfl, h2⟩
          · exact .inl h1
          · exact .inr h1
          · exact absurd h2.mem hnf)
      (by
        intro e he hD
        simp only [List.mem_cons, List.not_mem_nil, or_false] at he hD
        have : e = s.next := by tauto
        rw [this]; exact hnf)]
    simp only [sumOver]
    have hval : ∀ x y, val (Copy.makeCopyTensor 3 2 : NDArray R) [c, s.state[v], s.next]
        (Function.update (Function.update τ c x) s.state[v] y) =
        if y = x ∧ τ s.next = x then 1 else 0 := by
      intro x y
      simp [val, Copy.makeCopyTensor, Function.update_of_ne hcv, Function.update_of_ne hc_lt.2.ne',
        Function.update_of_ne hv_lt.2.ne']
    simp only [hval]
    rw [Finset.sum_eq_single (τ s.next), Finset.sum_eq_single (τ s.next)]
    · rw [if_pos ⟨rfl, rfl⟩, mul_one, h.value]
      · have e1 : s.state.map (Function.update (Function.update τ c (τ s.next)) s.state[v]
            (τ s.next)) = (s.state.set v s.next).map τ := by
          apply List.ext_getElem (by simp)
          intro k hk1 hk2
          rw [List.length_map] at hk1
          simp only [List.getElem_map, List.getElem_set]
          by_cases hkv : v = k
          · subst hkv; simp
          · have h8 : s.state[k] ≠ s.state[v] := fun h' => hkv ((hn1.getElem_inj_iff).1 h').symm
            have h9 : s.state[k] ≠ c := fun h' => hcs (h' ▸ List.getElem_mem hk1)
            rw [Function.update_of_ne h8, Function.update_of_ne h9, if_neg hkv]
        have e2 : pend.map (Function.update (Function.update τ c (τ s.next)) s.state[v]
            (τ s.next)) = pend.map τ := by
          refine List.map_congr_left fun e he => ?_
          have h8 : e ≠ s.state[v] := fun h' => hdis hin (by simp [← h', he])
          have h9 : e ≠ c := fun h' => hn2.1 (h' ▸ he)
          rw [Function.update_of_ne h8, Function.update_of_ne h9]
        rw [List.map_cons, e1, e2, Function.update_of_ne hcv, Function.update_self]
        simp [hv]
      · intro e he
        simp only [List.mem_append, List.mem_cons] at he
        by_cases h8 : e = s.state[v]
        · subst h8; simpa using hz
        · by_cases h9 : e = c
          · subst h9; rw [Function.update_of_ne h8, Function.update_self]; exact hz
          · rw [Function.update_of_ne h8, Function.update_of_ne h9]
            refine hτ e ?_
            rw [List.mem_append, hmem]
            tauto
    · intro y _ hy
      rw [if_neg (fun h => hy h.1), mul_zero]
    · intro h'; exact absurd (Finset.mem_range.2 hz) h'
    · intro x _ hx
      refine Finset.sum_eq_zero fun y _ => ?_
      rw [if_neg (fun h => hx h.2.symm), mul_zero]
    · intro h'; exact absurd (Finset.mem_range.2 hz) h'

theorem sinv_clause {s : St R} {lo : Nat} {Ψ : List Nat → List Nat → R} (c : Clause)
    (h : SInv s lo [] Ψ) (hlo : lo ≤ s.next) :
    SInv ⟨s.net ++ [(clauseTensor c, [s.next, s.next + 1, s.next + 2])], s.state, s.next + 3⟩ lo
      [s.next, s.next + 1, s.next + 2] (fun w p => Ψ w [] * (clauseTensor c).get p) := by
  have hfl : flatL (s.net ++ [((clauseTensor c : NDArray R),
      [s.next, s.next + 1, s.next + 2])]) =
      flatL s.net ++ [s.next, s.next + 1, s.next + 2] := by rw [flatL_append]; simp [flatL]
  have hnf : ∀ e, s.next ≤ e → e ∉ flatL s.net := fun e he h' => absurd (h.lt _ h').2 (by omega)
  have hns : ∀ e, e ∈ s.state → e < s.next := fun e he => (h.lt e (h.mem e (by simp [he]))).2
  have hmem3 : ∀ e, e ∈ [s.next, s.next + 1, s.next + 2] ↔ s.next ≤ e ∧ e < s.next + 3 := by
    intro e
    simp only [List.mem_cons, List.not_mem_nil, or_false]
    omega
  have hnd3 : [s.next, s.next + 1, s.next + 2].Nodup := by simp
  have hcons : Consistent (fun _ => 2)
      (s.net ++ [((clauseTensor c : NDArray R), [s.next, s.next + 1, s.next + 2])]) := by
    intro p hp
    rw [List.mem_append, List.mem_singleton] at hp
    rcases hp with hp | rfl
    · exact h.cons p hp
    · rfl
  refine ⟨hcons, ?_, ?_, ?_, ?_, ?_⟩
  · intro e he
    rw [hfl, List.mem_append, hmem3] at he
    dsimp only
    rcases he with he | he
    · have := h.lt e he; omega
    · omega
  · intro e he
    dsimp only at he ⊢
    rw [hfl, List.mem_append] at he
    rw [hfl, List.count_append]
    rcases he with he | he
    · have h1 := h.lt e he
      have h2 := h.cnt e he
      have h3 : e ∉ [s.next, s.next + 1, s.next + 2] := by rw [hmem3]; omega
      rw [h2, List.count_eq_zero.2 h3]
      simp only [List.mem_append, h3, List.append_nil, or_false, Nat.add_zero]
    · rw [List.count_eq_zero.2 (hnf e ((hmem3 e).1 he).1), List.count_eq_one_of_mem hnd3 he,
        if_pos (List.mem_append.2 (.inr he))]
  · intro e he
    dsimp only at he ⊢
    rw [hfl, List.mem_append]
    rw [List.mem_append] at he
    exact he.imp (fun h' => h.mem e (by simpa using h')) id
  · dsimp only
    rw [List.nodup_append']
    refine ⟨by simpa using h.nodup, hnd3, fun e he hp => ?_⟩
    have := hns e he
    rw [hmem3] at hp
    omega
  · intro τ hτ
    dsimp only at hτ ⊢
    rw [netVal_snoc (D := []) hcons hnd3 (by simp)
      (by
        intro e
        constructor
        · intro h'; simp at h'
        · rintro ⟨h1, h2⟩
          exact absurd h2.mem (hnf e ((hmem3 e).1 h1).1))
      (by intro e he _; exact hnf e ((hmem3 e).1 he).1)]
    simp only [sumOver]
    rw [h.value τ (fun e he => hτ e (by simp at he ⊢; exact .inl he))]
    rfl

theorem connectVars_len (s : St R) (xs : List Int) (p : List Nat) :
    (connectVars s xs p).state.length = s.state.length ∧ s.next ≤ (connectVars s xs p).next := by
  induction xs generalizing s p with
  | nil => cases p <;> simp [connectVars]
  | cons x xs ih =>
    cases p with
    | nil => simp [connectVars]
    | cons c p =>
      have := ih ⟨s.net ++ [(Copy.makeCopyTensor 3 2, [c, s.state.getD (x.natAbs - 1) 0, s.next])],
        s.state.set (x.natAbs - 1) s.next, s.next + 1⟩ p
      simp only [List.length_set] at this
      exact ⟨this.1, by have := this.2; simp only [connectVars]; omega⟩

theorem sinv_addClause {s : St R} {lo : Nat} {Ψ : List Nat → List Nat → R} {c : Clause}
    (hc : ∀ x ∈ lits c, x.natAbs - 1 < s.state.length) (hlo : lo ≤ s.next) (h : SInv s lo [] Ψ) :
    SInv (addClause s c) lo []
      (fun w _ => Ψ w [] * (clauseTensor c).get ((lits c).map fun x => w.getD (x.natAbs - 1) 0)) := by
  have h1 := sinv_clause c h hlo
  have h2 := sinv_connect (v := c.1.natAbs - 1) (by dsimp only; exact hc _ (by simp [lits])) h1
  have h3 := sinv_connect (v := c.2.1.natAbs - 1) (by simpa using hc _ (by simp [lits])) h2
  have h4 := sinv_connect (v := c.2.2.natAbs - 1) (by simpa using hc _ (by simp [lits])) h3
  exact ⟨h4.cons, h4.lt, h4.cnt, h4.mem, h4.nodup, h4.value⟩

theorem clause_get {c : Clause} (hc : 0 ∉ lits c) {w : List Nat}
    (hw : ∀ x ∈ lits c, w.getD (x.natAbs - 1) 0 < 2) :
    (clauseTensor c : NDArray R).get ((lits c).map fun x => w.getD (x.natAbs - 1) 0) =
      if ∃ x ∈ lits c, LitTrue w x then 1 else 0 := by
  have h1 : ∀ x ∈ lits c, (w.getD (x.natAbs - 1) 0 = zeroPos x ↔ ¬ LitTrue w x) := by
    intro x hx
    have h2 := hw x hx
    have h3 : x ≠ 0 := fun h => hc (h ▸ hx)
    rcases lt_or_gt_of_ne h3 with h4 | h4
    · have : zeroPos x = 1 := by simp [zeroPos, Int.sign_eq_neg_one_of_neg h4]
      rw [this, LitTrue]
      omega
    · have : zeroPos x = 0 := by simp [zeroPos, Int.sign_eq_one_of_pos h4]
      rw [this, LitTrue]
      omega
  simp only [clauseTensor]
  by_cases h : ∃ x ∈ lits c, LitTrue w x
  · rw [if_pos h, if_neg]
    intro he
    obtain ⟨x, hx, ht⟩ := h
    exact (h1 x hx).1 (List.map_inj_left.1 he x hx) ht
  · rw [if_neg h, if_pos]
    refine List.map_congr_left fun x hx => (h1 x hx).2 fun ht => h ⟨x, hx, ht⟩

theorem sinv_start (next n : Nat) :
    SInv (varNodes next n : St R) next [] (fun _ _ => 1) := by
  have hfl : flatL (varNodes next n : St R).net = (List.range n).map (next + ·) := by
    simp [varNodes, flatL, List.flatMap_map]
    induction n with
    | zero => rfl
    | succ n ih => simp [List.range_succ, ih]
  have hnd : ((List.range n).map (next + ·)).Nodup :=
    List.nodup_range.map (fun a b h => by simpa using h)
  have hcons : Consistent (fun _ => 2) (varNodes next n : St R).net := by
    intro p hp
    simp only [varNodes, List.mem_map] at hp
    obtain ⟨v, _, rfl⟩ := hp
    rfl
  refine ⟨hcons, ?_, ?_, ?_, by simpa [varNodes] using hnd, ?_⟩
  · intro e he
    rw [hfl, List.mem_map] at he
    obtain ⟨v, hv, rfl⟩ := he
    rw [List.mem_range] at hv
    simp only [varNodes]; omega
  · intro e he
    rw [hfl] at he ⊢
    rw [List.count_eq_one_of_mem hnd he, if_pos (by simpa [varNodes] using he)]
  · intro e he
    rw [hfl]
    simpa [varNodes] using he
  · intro τ _
    have hcl : closedL (varNodes next n : St R).net = [] := by
      rw [List.eq_nil_iff_forall_not_mem]
      intro e he
      rw [mem_closedL, hfl] at he
      have := List.nodup_iff_count_le_one.1 hnd e
      omega
    rw [netVal, hcl]
    simp only [sumOver, prodVal, varNodes, List.map_map]
    rw [List.prod_eq_one]
    intro x hx
    rw [List.mem_map] at hx
    obtain ⟨v, _, rfl⟩ := hx
    rfl

theorem satFold (lo n : Nat) (cs done : List Clause) {s : St R} (hlo : lo ≤ s.next)
    (hlen : s.state.length = n)
    (hcs : ∀ c ∈ cs, 0 ∉ lits c ∧ ∀ x ∈ lits c, x.natAbs - 1 < n)
    (h : SInv s lo [] (fun w _ => if Satisfies done w then 1 else 0)) :
    SInv (cs.foldl addClause s) lo [] (fun w _ => if Satisfies (done ++ cs) w then 1 else 0) ∧
      (cs.foldl addClause s).state.length = n ∧ lo ≤ (cs.foldl addClause s).next := by
  induction cs generalizing s done with
  | nil => exact ⟨by simpa using h, hlen, hlo⟩
  | cons c cs ih =>
    have hl := connectVars_len (R := R)
      ⟨s.net ++ [(clauseTensor c, [s.next, s.next + 1, s.next + 2])], s.state, s.next + 3⟩ (lits c)
      [s.next, s.next + 1, s.next + 2]
    have h1 := sinv_addClause (c := c) (by rw [hlen]; exact (hcs c (by simp)).2) hlo h
    have h2 := ih (done ++ [c]) (s := addClause s c)
      (by have := hl.2; simp only [addClause]; dsimp only at this; omega)
      (by rw [addClause, hl.1]; exact hlen) (fun d hd => hcs d (by simp [hd]))
      ⟨h1.cons, h1.lt, h1.cnt, h1.mem, h1.nodup, fun τ hτ => by
        rw [h1.value τ hτ]
        have hw : ∀ x ∈ lits c, ((addClause s c).state.map τ).getD (x.natAbs - 1) 0 < 2 := by
          intro x hx
          have h3 := (hcs c (by simp)).2 x hx
          have h4 : (addClause s c).state.length = n := by rw [addClause, hl.1]; exact hlen
          simp only [List.getD_eq_getElem?_getD, List.getElem?_map,
            List.getElem?_eq_getElem (h4.symm ▸ h3), Option.map_some, Option.getD_some]
          exact hτ _ (by simp)
        rw [clause_get (hcs c (by simp)).1 hw]
        have happ : ∀ w, Satisfies (done ++ [c]) w ↔
            Satisfies done w ∧ ∃ x ∈ lits c, LitTrue w x := by
          intro w
          simp only [Satisfies, List.forall_mem_append, List.forall_mem_singleton]
        by_cases h5 : ∃ x ∈ lits c, LitTrue ((addClause s c).state.map τ) x
        · rw [if_pos h5, mul_one]
          exact if_congr (by rw [happ]; exact ⟨fun h6 => ⟨h6, h5⟩, fun h6 => h6.1⟩) rfl rfl
        · rw [if_neg h5, mul_zero, if_neg]
          exact fun h6 => h5 ((happ _).1 h6).2⟩
    simpa using h2

theorem satTn_ok {next : Nat} {clauses : List Clause} (hne : clauses ≠ [])
    (h0 : ∀ c ∈ clauses, 0 ∉ lits c) :
    ∃ s : St R, satTn next clauses = .ok s ∧ s.state.length = numVars clauses ∧ next ≤ s.next ∧
      SInv s next [] (fun w _ => if Satisfies clauses w then 1 else 0) := by
  have := satFold (R := R) next (numVars clauses) clauses [] (s := varNodes next (numVars clauses))
    (by simp [varNodes]) (by simp [varNodes])
    (fun c hc => ⟨h0 c hc, fun x hx => by
      have h1 := numVars_le hc hx
      have : x ≠ 0 := fun h => h0 c hc (h ▸ hx)
      omega⟩)
    (by simpa [Satisfies] using sinv_start (R := R) next (numVars clauses))
  refine ⟨_, ?_, this.2.1, this.2.2, by simpa using this.1⟩
  rw [satTn, if_neg (by push Not; exact h0), if_neg hne]

/-- `sat_tn` returns one open edge for each variable up to the largest number, and the tensor of
the network is one at the assignments that satisfy all clauses and zero at all others. -/
theorem C83_sat_tn {next : Nat} {clauses : List Clause} (hne : clauses ≠ [])
    (h0 : ∀ c ∈ clauses, 0 ∉ lits c) :
    ∃ s : St R, satTn next clauses = .ok s ∧ s.state.length = numVars clauses ∧ s.state.Nodup ∧
      (∀ e, Dangling s.net e ↔ e ∈ s.state) ∧ (∀ e ∈ s.state, ldim s.net e = 2) ∧
      ∀ τ, (∀ e ∈ s.state, τ e < 2) →
        netVal s.net τ = if Satisfies clauses (s.state.map τ) then 1 else 0 := by
  obtain ⟨s, h1, h2, _, h3⟩ := satTn_ok (R := R) (next := next) hne h0
  refine ⟨s, h1, h2, by simpa using h3.nodup, fun e => ⟨fun h => ?_, fun h => ?_⟩, ?_, ?_⟩
  · have h4 := h3.cnt e h.mem
    rw [Dangling] at h
    by_contra h5
    rw [if_neg (by simpa using h5)] at h4
    omega
  · have h4 := h3.cnt e (h3.mem e (by simpa using h))
    rw [if_pos (by simpa using h)] at h4
    exact h4
  · intro e he
    exact ldim_eq h3.cons (h3.mem e (by simpa using he))
  · intro τ hτ
    exact h3.value τ (by simpa using hτ)

/-- Clauses with a zero and an empty list of clauses are rejected. -/
theorem C83_sat_rejects {next : Nat} {clauses : List Clause} :
    (satTn next clauses : Py (St R)) = .error .valueError ↔
      clauses = [] ∨ ∃ c ∈ clauses, 0 ∈ lits c := by
  rw [satTn]
  split_ifs with h1 h2 <;> simp_all

end TN.Ex
