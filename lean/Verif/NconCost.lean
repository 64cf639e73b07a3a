import Verif.NconSolver
import Mathlib.Data.List.InsertIdx

/-!
# `ncon_cost_check`

Model of `ncon_cost_check` (contractors/custom_path_solvers/nconinterface.py:124-200).

The two lists `connect_list` and `tensor_dims`, always of the same form, are one list of pairs of a
label and the logarithm of its dimension.  As for the solvers the total cost is a number of
operations, where the code keeps its logarithm: `-inf` at the start is `0`, and
`single_cost + log10(1 + 10**(total_cost - single_cost))` is the sum.  `np.float`, used for the
start value, exists only in NumPy before 1.24.
-/

set_option linter.unusedSectionVars false

namespace TN.Solver

open Finset

variable {K C : Type} [CommRing K] [LinearOrder K] [Inhabited K]

/-- The axes that are not traced (nconinterface.py:160-163). -/
def costOnce (t : List (Int × K)) : List (Int × K) :=
  t.filter (fun y => (t.map Prod.fst).count y.1 == 1)

/-- The binary contractions (nconinterface.py:168-192).  `fuel` is the number of labels: every
step removes the first one. -/
def costLoop [Add C] (ex : K → C) :
    Nat → List Int → List (List (Int × K)) → C → Py (C × List (List (Int × K)))
  | _, [], st, tot => .ok (tot, st)
  | 0, _ :: _, _, _ => .error .runtimeError
  | fuel + 1, x :: con, st, tot =>
    match (List.range st.length).filter (fun i => x ∈ (st.getD i []).map Prod.fst) with
    | i :: j :: _ =>
      let c0 := st.getD i []
      let c1 := st.getD j []
      let common := c0.filter (fun y => y.1 ∈ c1.map Prod.fst)
      let single := (c0.map Prod.snd).sum + (c1.map Prod.snd).sum - (common.map Prod.snd).sum
      let new := c0.filter (fun y => y.1 ∉ c1.map Prod.fst) ++
        c1.filter (fun y => y.1 ∉ c0.map Prod.fst)
      costLoop ex fuel ((x :: con).filter (fun l => l ∉ common.map Prod.fst))
        ((st.eraseIdx j).eraseIdx i ++ [new]) (tot + ex single)
    -- `locs[1]`
    | _ => .error .indexError

/-- The outer products, the smallest tensors first (nconinterface.py:195-202). -/
def costOuter [Add C] (ex : K → C) : Nat → List K → C → C
  | 0, _, tot => tot
  | fuel + 1, sizes, tot =>
    match sizes.insertionSort (· ≤ ·) with
    | a :: b :: rest => costOuter ex fuel ((a + b) :: rest) (tot + ex (a + b))
    | _ => tot

/-- The tensors at the start: labels and logarithms of dimensions.  A mask of another length than
the array raises `IndexError`. -/
def costStart (lg : Nat → K) (shapes : List (List Nat)) (labels : List (List Int)) :
    Py (List (List (Int × K))) :=
  if shapes.map List.length = labels.map List.length then
    .ok (List.zipWith (fun t s => t.zip (s.map lg)) labels shapes)
  else .error .indexError

/-- `ncon_cost_check` (nconinterface.py:124-200) -/
def costCheck [Add C] [Zero C] (ex : K → C) (lg : Nat → K) (shapes : List (List Nat))
    (labels : List (List Int)) (conOrder : Option (List Int)) : Py C :=
  match costStart lg shapes labels with
  | .error e => .error e
  | .ok st =>
    let con := match conOrder with
      | none => (npUnique labels.flatten).filter (0 < ·)
      | some c => c
    let con' := con.filter (fun l => ∀ t ∈ labels, t.count l ≠ 2)
    match costLoop ex con'.length con' (st.map costOnce) 0 with
    | .error e => .error e
    | .ok (tot, st') => .ok (costOuter ex (st'.length - 1)
        (st'.map (fun t => (t.map Prod.snd).sum)) tot)

/-! ## Specification -/

/-- The tensors of each contraction share a label. -/
def Sharing (labels : List (List Int)) : List (Finset Nat) → List (Nat × Nat) → Prop
  | _, [] => True
  | G, p :: ps =>
    (legs labels (G.getD p.1 ∅) ∩ legs labels (G.getD p.2 ∅)).Nonempty ∧
      Sharing labels (mergeG G p) ps

/-! ## Groups and legs -/

theorem countIn_union (labels : List (List Int)) {S T : Finset Nat} (hd : Disjoint S T) (x : Int) :
    countIn labels (S ∪ T) x = countIn labels S x + countIn labels T x := by
  rw [countIn, Finset.sum_union hd]; rfl

theorem countIn_le (labels : List (List Int)) (S : Finset Nat) (x : Int) :
    countIn labels S x ≤ labels.flatten.count x := by
  rw [countIn_eq, ← occ_length, ← List.length_map (f := Prod.fst)]
  exact List.countP_le_length

theorem legs_union {labels : List (List Int)} (hc : ∀ x, labels.flatten.count x ≤ 2)
    {S T : Finset Nat} (hd : Disjoint S T) :
    legs labels (S ∪ T) =
      (legs labels S \ legs labels T) ∪ (legs labels T \ legs labels S) := by
  ext x
  have h1 := countIn_le labels (S ∪ T) x
  have h2 := hc x
  simp only [Finset.mem_union, Finset.mem_sdiff, mem_legs]
  rw [countIn_union _ hd] at h1 ⊢
  omega

/-- A label is a leg of at most two groups. -/
theorem legs_two {labels : List (List Int)} (hc : ∀ x, labels.flatten.count x ≤ 2)
    {S T U : Finset Nat} (h1 : Disjoint S T) (h2 : Disjoint S U) (h3 : Disjoint T U) {x : Int}
    (hS : x ∈ legs labels S) (hT : x ∈ legs labels T) : x ∉ legs labels U := by
  intro hU
  rw [mem_legs] at hS hT hU
  have h4 := countIn_le labels ((S ∪ T) ∪ U) x
  rw [countIn_union _ (Finset.disjoint_union_left.2 ⟨h2, h3⟩), countIn_union _ h1] at h4
  have := hc x
  omega

theorem legs_single {labels : List (List Int)} (i : Nat) :
    legs labels {i} = (onceInds (labels.getD i [])).toFinset := by
  ext x
  rw [mem_legs, countIn, Finset.sum_singleton, List.mem_toFinset, onceInds, List.mem_filter]
  simp only [beq_iff_eq]
  constructor
  · intro h
    exact ⟨List.count_pos_iff.1 (by omega), h⟩
  · exact fun h => h.2

theorem mergeG_perm {G : List (Finset Nat)} {p : Nat × Nat} (h1 : p.1 < p.2)
    (h2 : p.2 < G.length) :
    G.Perm (G.getD p.1 ∅ :: G.getD p.2 ∅ :: (G.eraseIdx p.2).eraseIdx p.1) ∧
    (mergeG G p).Perm ((G.getD p.1 ∅ ∪ G.getD p.2 ∅) :: (G.eraseIdx p.2).eraseIdx p.1) := by
  have e1 : G.getD p.1 ∅ = G[p.1] := List.getD_eq_getElem _ _ (by omega)
  have e2 : G.getD p.2 ∅ = G[p.2] := List.getD_eq_getElem _ _ h2
  have hl : p.1 < (G.eraseIdx p.2).length := by rw [List.length_eraseIdx_of_lt h2]; omega
  constructor
  · have h3 := (List.getElem_cons_eraseIdx_perm h2).symm
    have h4 := (List.getElem_cons_eraseIdx_perm hl).symm
    rw [List.getElem_eraseIdx_of_lt hl h1] at h4
    rw [e1, e2]
    exact (h3.trans (h4.cons _)).trans (List.Perm.swap _ _ _)
  · rw [mergeG, List.eraseIdx_set_gt h1]
    exact List.set_perm_cons_eraseIdx hl _

/-! ## The order -/

/-- The labels of each contraction of a sequence, one after the other. -/
def ConFor (labels : List (List Int)) : List (Finset Nat) → List (Nat × Nat) → List Int → Prop
  | _, [], con => con = []
  | G, p :: ps, con => ∃ c con', con = c ++ con' ∧
      c.toFinset = legs labels (G.getD p.1 ∅) ∩ legs labels (G.getD p.2 ∅) ∧
      ConFor labels (mergeG G p) ps con'

theorem ordLoop_conFor {labels : List (List Int)} (hc : ∀ x, labels.flatten.count x ≤ 2)
    (ps : List (Nat × Nat)) {G : List (Finset Nat)} {n : Nat} (hG : Part n G)
    (hps : Steps G.length ps) {nl : List (List Int)}
    (hnl : nl.map List.toFinset = G.map (legs labels)) (hnd : ∀ t ∈ nl, t.Nodup)
    (acc : List Int) : ∃ rest, ordLoop ps acc nl = .ok (acc ++ rest) ∧
      ConFor labels G ps rest := by
  induction ps generalizing G nl acc with
  | nil => exact ⟨[], by simp [ordLoop], rfl⟩
  | cons p ps ih =>
    obtain ⟨h1, h2, h3⟩ := hps
    have hlen : nl.length = G.length := by simpa using congrArg List.length hnl
    have hget : ∀ a < G.length, ∃ t, nl[a]? = some t ∧ t.toFinset = legs labels (G.getD a ∅) ∧
        t.Nodup := by
      intro a ha
      have ha' : a < nl.length := by omega
      refine ⟨nl[a], List.getElem?_eq_getElem ha', ?_, hnd _ (List.getElem_mem ha')⟩
      have := congrArg (fun l => l[a]?) hnl
      simpa [ha, ha', List.getD_eq_getElem?_getD] using this
    obtain ⟨ta, a1, a2, a3⟩ := hget p.1 (by omega)
    obtain ⟨tb, b1, b2, b3⟩ := hget p.2 h2
    have hd := hG.disj p.1 p.2 (by omega) h2 (by omega)
    obtain ⟨cont, hcont⟩ : ∃ cont, cont = (npUnique ta).filter (· ∈ tb) := ⟨_, rfl⟩
    have hcm : ∀ x, x ∈ cont ↔ x ∈ ta ∧ x ∈ tb := by
      intro x; rw [hcont, List.mem_filter, mem_npUnique]; simp
    have e1 : ordStep nl p =
        .ok (cont, (nl.set p.1 (ta.diff cont ++ tb.diff cont)).eraseIdx p.2) := by
      simp only [ordStep, a1, b1, hcont]
    have hnew : (ta.diff cont ++ tb.diff cont).Nodup := by
      rw [List.nodup_append']
      refine ⟨a3.diff, b3.diff, ?_⟩
      intro x hx hy
      rw [a3.mem_sdiff_iff] at hx
      rw [b3.mem_sdiff_iff] at hy
      exact hx.2 ((hcm x).2 ⟨hx.1, hy.1⟩)
    have hnewS : (ta.diff cont ++ tb.diff cont).toFinset =
        legs labels (G.getD p.1 ∅ ∪ G.getD p.2 ∅) := by
      rw [legs_union hc hd, ← a2, ← b2]
      ext x
      simp only [List.mem_toFinset, List.mem_append, a3.mem_sdiff_iff, b3.mem_sdiff_iff, hcm,
        Finset.mem_union, Finset.mem_sdiff]
      tauto
    obtain ⟨rest, r1, r2⟩ := ih (G := mergeG G p) (hG.merge h1 h2) (by rwa [mergeG_length h2])
      (nl := (nl.set p.1 (ta.diff cont ++ tb.diff cont)).eraseIdx p.2) (by
        rw [mergeG, ← List.eraseIdx_map, ← List.eraseIdx_map, List.map_set, List.map_set,
          hnl, hnewS]) (by
        intro t ht
        rcases List.mem_or_eq_of_mem_set (List.mem_of_mem_eraseIdx ht) with h | h
        · exact hnd t h
        · rw [h]; exact hnew) (acc ++ cont)
    refine ⟨cont ++ rest, ?_, cont, rest, rfl, ?_, r2⟩
    · simp only [ordLoop, e1, r1, List.append_assoc]
    · rw [← a2, ← b2]
      ext x
      simp only [List.mem_toFinset, hcm, Finset.mem_inter]

theorem ordToNcon_conFor {labels : List (List Int)} (hc : ∀ x, labels.flatten.count x ≤ 2)
    {o : List (Nat × Nat)} (ho : Steps labels.length o) {con : List Int}
    (h : ordToNcon labels o = .ok con) :
    ∃ rest, con = labels.flatMap traceInds ++ rest ∧
      ConFor labels (startG labels.length) o rest := by
  have hl : (startG labels.length).length = labels.length := by simp [startG]
  obtain ⟨rest, h1, h2⟩ := ordLoop_conFor hc o (startG_part labels.length) (by rwa [hl])
    (nl := labels.map onceInds) (by
      refine List.ext_getElem (by simp [startG]) (fun i h1 h2 => ?_)
      have hi : i < labels.length := by simpa using h1
      simp [startG, legs_single, hi, List.getD_eq_getElem?_getD]) (by
      intro t ht
      obtain ⟨t', -, rfl⟩ := List.mem_map.1 ht
      rw [List.nodup_iff_count_le_one]
      intro x
      rw [count_onceInds]
      split_ifs <;> omega) (labels.flatMap traceInds)
  refine ⟨rest, ?_, h2⟩
  rw [ordToNcon, if_neg (by rw [not_not]; exact ho.valid.1), h1] at h
  exact (Except.ok.inj h).symm

/-! ## The contractions -/

theorem no_locs {α : Type} (P : α → Bool) (d : α) {l : List α} (h : l.filter P = []) :
    (List.range l.length).filter (fun i => P (l.getD i d)) = [] ∧
      l.filter (fun a => !P a) = l := by
  rw [List.filter_eq_nil_iff] at h
  constructor
  · rw [List.filter_eq_nil_iff]
    intro i hi
    rw [List.getD_eq_getElem _ _ (List.mem_range.1 hi)]
    exact h _ (List.getElem_mem _)
  · rw [List.filter_eq_self]
    intro a ha
    simpa using h a ha

theorem one_loc {α : Type} (P : α → Bool) (d : α) {l : List α} {v : α} (h : l.filter P = [v]) :
    ∃ j, (List.range l.length).filter (fun i => P (l.getD i d)) = [j] ∧ l.getD j d = v ∧
      l.eraseIdx j = l.filter (fun a => !P a) := by
  induction l with
  | nil => simp at h
  | cons a l ih =>
    rw [List.length_cons, List.range_succ_eq_map, List.filter_cons, List.filter_map]
    have e : ((fun i => P ((a :: l).getD i d)) ∘ Nat.succ) = fun i => P (l.getD i d) := by
      funext i; simp
    rw [e]
    by_cases ha : P a = true
    · rw [List.filter_cons_of_pos ha, List.cons.injEq] at h
      obtain ⟨h1, h2⟩ := no_locs P d h.2
      exact ⟨0, by rw [h1]; simp [ha], by simpa using h.1, by simp [ha, h2]⟩
    · rw [List.filter_cons_of_neg ha] at h
      obtain ⟨j, h1, h2, h3⟩ := ih h
      exact ⟨j + 1, by rw [h1]; simp [ha], by simpa using h2, by simp [ha, h3]⟩

theorem two_locs {α : Type} (P : α → Bool) (d : α) {l : List α} {u v : α}
    (h : l.filter P = [u, v]) :
    ∃ i j, (List.range l.length).filter (fun i => P (l.getD i d)) = [i, j] ∧ l.getD i d = u ∧
      l.getD j d = v ∧ (l.eraseIdx j).eraseIdx i = l.filter (fun a => !P a) := by
  induction l with
  | nil => simp at h
  | cons a l ih =>
    rw [List.length_cons, List.range_succ_eq_map, List.filter_cons, List.filter_map]
    have e : ((fun i => P ((a :: l).getD i d)) ∘ Nat.succ) = fun i => P (l.getD i d) := by
      funext i; simp
    rw [e]
    by_cases ha : P a = true
    · rw [List.filter_cons_of_pos ha, List.cons.injEq] at h
      obtain ⟨j, h1, h2, h3⟩ := one_loc P d h.2
      exact ⟨0, j + 1, by rw [h1]; simp [ha], by simpa using h.1, by simpa using h2,
        by simp [ha, h3]⟩
    · rw [List.filter_cons_of_neg ha] at h
      obtain ⟨i, j, h1, h2, h3, h4⟩ := ih h
      exact ⟨i + 1, j + 1, by rw [h1]; simp [ha], by simpa using h2, by simpa using h3,
        by simp [ha, h4]⟩

/-- The labels of a tensor. -/
def lset (t : List (Int × K)) : Finset Int := (t.map Prod.fst).toFinset

/-- The tensors are those of the groups, in some order. -/
structure CostRel (lg : Nat → K) (labels : List (List Int)) (dm : Int → Nat)
    (st : List (List (Int × K))) (G : List (Finset Nat)) : Prop where
  perm : (st.map lset).Perm (G.map (legs labels))
  nodup : ∀ t ∈ st, (t.map Prod.fst).Nodup
  dims : ∀ t ∈ st, ∀ y ∈ t, y.2 = lg (dm y.1)

theorem sum_dims {lg : Nat → K} {dm : Int → Nat} {t : List (Int × K)}
    (hn : (t.map Prod.fst).Nodup) (hd : ∀ y ∈ t, y.2 = lg (dm y.1)) :
    (t.map Prod.snd).sum = ∑ x ∈ lset t, lg (dm x) := by
  rw [lset, List.sum_toFinset _ hn, List.map_map]
  congr 1
  exact List.map_congr_left hd

/-- One contraction: the common labels, the sum of the logarithms and the new tensor. -/
theorem contract_lset {lg : Nat → K} {dm : Int → Nat} {c0 c1 : List (Int × K)}
    (n0 : (c0.map Prod.fst).Nodup) (n1 : (c1.map Prod.fst).Nodup)
    (d0 : ∀ y ∈ c0, y.2 = lg (dm y.1)) (d1 : ∀ y ∈ c1, y.2 = lg (dm y.1)) :
    let common := c0.filter (fun y => y.1 ∈ c1.map Prod.fst)
    let new := c0.filter (fun y => y.1 ∉ c1.map Prod.fst) ++
        c1.filter (fun y => y.1 ∉ c0.map Prod.fst)
    lset common = lset c0 ∩ lset c1 ∧
    (c0.map Prod.snd).sum + (c1.map Prod.snd).sum - (common.map Prod.snd).sum =
      ∑ x ∈ lset c0 ∪ lset c1, lg (dm x) ∧
    lset new = (lset c0 \ lset c1) ∪ (lset c1 \ lset c0) ∧ (new.map Prod.fst).Nodup ∧
    ∀ y ∈ new, y.2 = lg (dm y.1) := by
  intro common new
  have hsub : ∀ (c : List (Int × K)) (q : Int × K → Bool), (c.map Prod.fst).Nodup →
      ((c.filter q).map Prod.fst).Nodup := fun c q h => h.sublist (List.filter_sublist.map _)
  have h1 : lset common = lset c0 ∩ lset c1 := by
    ext x
    simp only [lset, common, List.mem_toFinset, List.mem_map, List.mem_filter, Finset.mem_inter,
      decide_eq_true_eq]
    constructor
    · rintro ⟨y, ⟨h1, h2⟩, rfl⟩
      exact ⟨⟨y, h1, rfl⟩, h2⟩
    · rintro ⟨⟨y, h1, rfl⟩, h2⟩
      exact ⟨y, ⟨h1, h2⟩, rfl⟩
  refine ⟨h1, ?_, ?_, ?_, ?_⟩
  · rw [sum_dims n0 d0, sum_dims n1 d1, sum_dims (hsub _ _ n0)
      (fun y hy => d0 y (List.mem_filter.1 hy).1), h1, ← Finset.sum_union_inter]
    ring
  · ext x
    simp only [lset, new, List.mem_toFinset, List.mem_map, List.mem_append, List.mem_filter,
      Finset.mem_union, Finset.mem_sdiff, decide_eq_true_eq]
    constructor
    · rintro ⟨y, ⟨h1, h2⟩ | ⟨h1, h2⟩, rfl⟩
      · exact Or.inl ⟨⟨y, h1, rfl⟩, h2⟩
      · exact Or.inr ⟨⟨y, h1, rfl⟩, h2⟩
    · rintro (⟨⟨y, h1, rfl⟩, h2⟩ | ⟨⟨y, h1, rfl⟩, h2⟩)
      · exact ⟨y, Or.inl ⟨h1, h2⟩, rfl⟩
      · exact ⟨y, Or.inr ⟨h1, h2⟩, rfl⟩
  · rw [List.map_append, List.nodup_append']
    refine ⟨hsub _ _ n0, hsub _ _ n1, ?_⟩
    intro x hx hy
    simp only [List.mem_map, List.mem_filter, decide_eq_true_eq] at hx hy
    obtain ⟨y, ⟨h2, h3⟩, rfl⟩ := hx
    obtain ⟨z, ⟨h4, -⟩, h5⟩ := hy
    exact h3 ⟨z, h4, h5⟩
  · intro y hy
    rw [List.mem_append, List.mem_filter, List.mem_filter] at hy
    rcases hy with hy | hy
    · exact d0 y hy.1
    · exact d1 y hy.1

/-- The first label of a contraction picks the two tensors. -/
theorem costRel_locs {lg : Nat → K} {labels : List (List Int)} {dm : Int → Nat}
    (hc : ∀ x, labels.flatten.count x ≤ 2) {n : Nat} {st : List (List (Int × K))}
    {G : List (Finset Nat)} (h : CostRel lg labels dm st G) (hG : Part n G) {p : Nat × Nat}
    (h1 : p.1 < p.2) (h2 : p.2 < G.length) {x : Int}
    (hx : x ∈ legs labels (G.getD p.1 ∅) ∩ legs labels (G.getD p.2 ∅)) :
    ∃ i j c0 c1, (List.range st.length).filter (fun i => x ∈ (st.getD i []).map Prod.fst) = [i, j] ∧
      st.getD i [] = c0 ∧ st.getD j [] = c1 ∧ c0 ∈ st ∧ c1 ∈ st ∧
      (lset c0 = legs labels (G.getD p.1 ∅) ∧ lset c1 = legs labels (G.getD p.2 ∅) ∨
        lset c0 = legs labels (G.getD p.2 ∅) ∧ lset c1 = legs labels (G.getD p.1 ∅)) ∧
      (((st.eraseIdx j).eraseIdx i).map lset).Perm
        (((G.eraseIdx p.2).eraseIdx p.1).map (legs labels)) ∧
      ∀ t ∈ (st.eraseIdx j).eraseIdx i, t ∈ st := by
  rw [Finset.mem_inter] at hx
  have hperm := (mergeG_perm h1 h2).1
  obtain ⟨R, hR⟩ : ∃ R, R = (G.eraseIdx p.2).eraseIdx p.1 := ⟨_, rfl⟩
  rw [← hR] at hperm ⊢
  have hpw : G.Pairwise Disjoint := by
    rw [List.pairwise_iff_getElem]
    intro i j hi hj hij
    have := hG.disj i j hi hj (by omega)
    rwa [List.getD_eq_getElem _ _ hi, List.getD_eq_getElem _ _ hj] at this
  have hpw' := (hperm.pairwise_iff (fun {a b} h => h.symm)).1 hpw
  rw [List.pairwise_cons, List.pairwise_cons] at hpw'
  have hno : ∀ U ∈ R, x ∉ legs labels U := fun U hU =>
    legs_two hc (hpw'.1 _ (by simp)) (hpw'.1 U (by simp [hU])) (hpw'.2.1 U hU) hx.1 hx.2
  obtain ⟨P, hP⟩ : ∃ P : List (Int × K) → Bool, P = fun t => decide (x ∈ t.map Prod.fst) :=
    ⟨_, rfl⟩
  have hPl : ∀ t, P t = decide (x ∈ lset t) := by
    intro t; rw [hP]; simp only [lset, List.mem_toFinset]
  have hL := h.perm.trans (hperm.map (legs labels))
  rw [List.map_cons, List.map_cons] at hL
  have hno' : ∀ F ∈ R.map (legs labels), ¬ decide (x ∈ F) = true := by
    intro F hF
    obtain ⟨U, hU, rfl⟩ := List.mem_map.1 hF
    simpa using hno U hU
  have hno'' : ∀ F ∈ R.map (legs labels), (!decide (x ∈ F)) = true := by
    intro F hF
    obtain ⟨U, hU, rfl⟩ := List.mem_map.1 hF
    simpa using hno U hU
  have hin := hL.filter (fun F => decide (x ∈ F))
  have hout := hL.filter (fun F => !decide (x ∈ F))
  rw [List.filter_cons_of_pos (by simpa using hx.1), List.filter_cons_of_pos (by simpa using hx.2),
    List.filter_eq_nil_iff.2 hno', List.filter_map] at hin
  rw [List.filter_cons_of_neg (by simpa using hx.1), List.filter_cons_of_neg (by simpa using hx.2),
    List.filter_eq_self.2 hno'', List.filter_map] at hout
  have e1 : ((fun F => decide (x ∈ F)) ∘ (lset : List (Int × K) → Finset Int)) = P := by
    funext t; rw [hPl]; rfl
  have e2 : ((fun F => !decide (x ∈ F)) ∘ (lset : List (Int × K) → Finset Int)) =
      fun t => !P t := by
    funext t; rw [hPl]; rfl
  rw [e1] at hin
  rw [e2] at hout
  obtain ⟨c0, c1, hf⟩ : ∃ c0 c1, st.filter P = [c0, c1] := by
    have := hin.length_eq
    rw [List.length_map] at this
    exact List.length_eq_two.1 this
  obtain ⟨i, j, k1, k2, k3, k4⟩ := two_locs P [] hf
  have hm : ∀ t ∈ st.filter P, t ∈ st := fun t ht => (List.mem_filter.1 ht).1
  refine ⟨i, j, c0, c1, ?_, k2, k3, hm _ (by simp [hf]), hm _ (by simp [hf]), ?_, ?_, ?_⟩
  · rw [hP] at k1; exact k1
  · rw [hf, List.map_cons, List.map_cons, List.map_nil] at hin
    have h5 := hin.subset (List.mem_cons_self)
    rw [List.mem_cons, List.mem_singleton] at h5
    rcases h5 with h5 | h5
    · rw [h5, List.perm_cons, List.singleton_perm_singleton] at hin
      exact Or.inl ⟨h5, hin⟩
    · have h6 := hin.trans (List.Perm.swap _ _ _)
      rw [h5, List.perm_cons, List.singleton_perm_singleton] at h6
      exact Or.inr ⟨h5, h6⟩
  · rw [k4]; exact hout
  · intro t ht
    rw [k4] at ht
    exact (List.mem_filter.1 ht).1

theorem costLoop_ok [CommSemiring C] [IsStrictOrderedRing K] {ex : K → C} {lg : Nat → K}
    {labels : List (List Int)}
    {dm : Int → Nat} (hlog : LogOK ex lg labels dm) (hc : ∀ x, labels.flatten.count x ≤ 2)
    (ps : List (Nat × Nat)) {n : Nat} {G : List (Finset Nat)} (hG : Part n G)
    (hps : Steps G.length ps) (hsh : Sharing labels G ps) {con : List Int} (hnd : con.Nodup)
    (hcon : ConFor labels G ps con) {st : List (List (Int × K))}
    (hst : CostRel lg labels dm st G) (tot : C) {fuel : Nat} (hf : con.length ≤ fuel) :
    ∃ t, costLoop ex fuel con st tot = .ok (tot + opsOf labels dm G ps, [t]) := by
  induction ps generalizing G con st tot fuel with
  | nil =>
    have h1 : st.length = 1 := by
      have := hst.perm.length_eq
      simp only [List.length_map] at this
      rw [this]; exact hps
    obtain ⟨t, rfl⟩ := List.length_eq_one_iff.1 h1
    rw [ConFor] at hcon
    subst hcon
    exact ⟨t, by simp [costLoop, opsOf]⟩
  | cons p ps ih =>
    obtain ⟨h1, h2, h3⟩ := hps
    obtain ⟨c, con', rfl, hcs, hrest⟩ := hcon
    obtain ⟨hne, hsh'⟩ := hsh
    obtain ⟨x, c', rfl⟩ : ∃ x c', c = x :: c' := by
      rcases c with _ | ⟨x, c'⟩
      · rw [← hcs] at hne; simp at hne
      · exact ⟨x, c', rfl⟩
    have hx : x ∈ legs labels (G.getD p.1 ∅) ∩ legs labels (G.getD p.2 ∅) := by
      rw [← hcs]; simp
    obtain ⟨i, j, c0, c1, k1, k2, k3, k4, k5, k6, k7, k8⟩ := costRel_locs hc hst hG h1 h2 hx
    have hd := hG.disj p.1 p.2 (by omega) h2 (by omega)
    obtain ⟨q1, q2, q3, q4, q5⟩ := contract_lset (hst.nodup c0 k4) (hst.nodup c1 k5)
      (hst.dims c0 k4) (hst.dims c1 k5)
    obtain ⟨fuel, rfl⟩ : ∃ f, fuel = f + 1 := ⟨fuel - 1, by simp at hf; omega⟩
    simp only [List.cons_append, costLoop, k1, k2, k3]
    rw [q2]
    have hint : lset c0 ∩ lset c1 = legs labels (G.getD p.1 ∅) ∩ legs labels (G.getD p.2 ∅) := by
      rcases k6 with ⟨e1, e2⟩ | ⟨e1, e2⟩ <;> rw [e1, e2]
      rw [Finset.inter_comm]
    have huni : lset c0 ∪ lset c1 = legs labels (G.getD p.1 ∅) ∪ legs labels (G.getD p.2 ∅) := by
      rcases k6 with ⟨e1, e2⟩ | ⟨e1, e2⟩ <;> rw [e1, e2]
      rw [Finset.union_comm]
    have hfilt : (x :: (c' ++ con')).filter (fun l => l ∉ (c0.filter
        (fun y => y.1 ∈ c1.map Prod.fst)).map Prod.fst) = con' := by
      have hmem : ∀ l, l ∈ (c0.filter (fun y => y.1 ∈ c1.map Prod.fst)).map Prod.fst ↔
          l ∈ x :: c' := by
        intro l
        have : l ∈ lset (c0.filter (fun y => y.1 ∈ c1.map Prod.fst)) ↔
            l ∈ (x :: c').toFinset := by rw [q1, hint, hcs]
        simpa only [lset, List.mem_toFinset] using this
      simp only [hmem]
      rw [← List.cons_append, List.filter_append, List.filter_eq_nil_iff.2 
        (fun l hl => by simpa using fun h => (List.mem_cons.1 hl).resolve_left h),
        List.nil_append, List.filter_eq_self]
      intro l hl
      rw [List.nodup_append'] at hnd
      simpa using fun h => hnd.2.2 h hl
    rw [hfilt]
    have hrel : CostRel lg labels dm ((st.eraseIdx j).eraseIdx i ++
        [c0.filter (fun y => y.1 ∉ c1.map Prod.fst) ++
          c1.filter (fun y => y.1 ∉ c0.map Prod.fst)]) (mergeG G p) := by
      constructor
      · rw [List.map_append, List.map_cons, List.map_nil]
        refine (List.perm_append_comm.trans ?_).trans ((mergeG_perm h1 h2).2.map _).symm
        rw [List.map_cons, List.singleton_append, q3, legs_union hc hd]
        rcases k6 with ⟨e1, e2⟩ | ⟨e1, e2⟩ <;> rw [e1, e2]
        · exact k7.cons _
        · rw [Finset.union_comm]
          exact k7.cons _
      · intro t ht
        rw [List.mem_append, List.mem_singleton] at ht
        rcases ht with ht | rfl
        · exact hst.nodup t (k8 t ht)
        · exact q4
      · intro t ht
        rw [List.mem_append, List.mem_singleton] at ht
        rcases ht with ht | rfl
        · exact hst.dims t (k8 t ht)
        · exact q5
    obtain ⟨t, ht⟩ := ih (G := mergeG G p) (hG.merge h1 h2) (by rwa [mergeG_length h2]) hsh'
      (List.nodup_append'.1 hnd).2.1 hrest hrel
      (tot + ex (∑ x ∈ lset c0 ∪ lset c1, lg (dm x))) (fuel := fuel)
      (by simp at hf; omega)
    refine ⟨t, ht.trans ?_⟩
    rw [opsOf, huni, hlog.ex_sum (Finset.union_subset (legs_subset _ _) (legs_subset _ _)),
      add_assoc]

/-! ## The start -/

theorem costStart_ok {lg : Nat → K} {labels : List (List Int)} {shapes : List (List Nat)}
    {dm : Int → Nat} (hdim : Dims labels shapes dm)
    (hlen : shapes.map List.length = labels.map List.length) :
    costStart lg shapes labels = .ok (labels.map (fun t => t.map (fun x => (x, lg (dm x))))) := by
  rw [costStart, if_pos hlen]
  congr 1
  have hl : shapes.length = labels.length := by simpa using congrArg List.length hlen
  refine List.ext_getElem (by simp [hl]) (fun i h1 h2 => ?_)
  have hi : i < labels.length := by simpa using h2
  have his : i < shapes.length := by omega
  have hli : shapes[i].length = labels[i].length := by
    have := congrArg (fun l => l[i]?) hlen
    simpa [hi, his] using this
  rw [List.getElem_zipWith, List.getElem_map]
  refine List.ext_getElem (by simp [hli]) (fun j k1 k2 => ?_)
  have hj : j < labels[i].length := by simpa using k2
  obtain ⟨s, s1, s2⟩ := hdim i labels[i] j labels[i][j] (List.getElem?_eq_getElem hi)
    (List.getElem?_eq_getElem hj)
  rw [List.getElem?_eq_getElem his, Option.some.injEq] at s1
  subst s1
  rw [List.getElem?_eq_getElem (by omega), Option.some.injEq] at s2
  simp [s2]

theorem costRel_start {lg : Nat → K} {labels : List (List Int)} {dm : Int → Nat} :
    CostRel lg labels dm ((labels.map (fun t => t.map (fun x => (x, lg (dm x))))).map costOnce)
      (startG labels.length) := by
  have hfst : ∀ t : List Int, (t.map (fun x => (x, lg (dm x)))).map Prod.fst = t := by
    intro t; simp [Function.comp_def]
  have honce : ∀ t : List Int, (costOnce (t.map (fun x => (x, lg (dm x))))).map Prod.fst =
      onceInds t := by
    intro t
    rw [costOnce, hfst, List.filter_map, List.map_map, onceInds]
    simp [Function.comp_def]
  refine ⟨List.Perm.of_eq ?_, ?_, ?_⟩
  · refine List.ext_getElem (by simp [startG]) (fun i h1 h2 => ?_)
    have hi : i < labels.length := by simpa using h1
    simp only [List.getElem_map, lset, honce]
    simp [startG, legs_single, hi]
  · intro t ht
    simp only [List.map_map, List.mem_map] at ht
    obtain ⟨t', -, rfl⟩ := ht
    rw [Function.comp_apply, honce, List.nodup_iff_count_le_one]
    intro x
    rw [count_onceInds]
    split_ifs <;> omega
  · intro t ht y hy
    simp only [List.map_map, List.mem_map] at ht
    obtain ⟨t', -, rfl⟩ := ht
    have h1 := (List.mem_filter.1 hy).1
    obtain ⟨x, -, rfl⟩ := List.mem_map.1 h1
    rfl

/-- For every network in which closed labels occur twice, open labels once and equal labels have
equal dimensions, and for every complete sequence of pairwise contractions of tensors that share a
label: `ncon_cost_check` with the order that `ord_to_ncon` makes of the sequence returns the number
of multiplications of the sequence. -/
theorem C81_ncon_cost_check [CommSemiring C] [IsStrictOrderedRing K] {ex : K → C} {lg : Nat → K}
    {labels : List (List Int)} {shapes : List (List Nat)} {dm : Int → Nat}
    (hlog : LogOK ex lg labels dm) (hdim : Dims labels shapes dm)
    (hlen : shapes.map List.length = labels.map List.length)
    (hcnt : ∀ l ∈ labels.flatten, labels.flatten.count l = if l < 0 then 1 else 2)
    {o : List (Nat × Nat)} (ho : Steps labels.length o)
    (hsh : Sharing labels (startG labels.length) o) :
    ∃ con, ordToNcon labels o = .ok con ∧
      costCheck ex lg shapes labels (some con) =
        .ok (opsOf labels dm (startG labels.length) o) := by
  have hc : ∀ x, labels.flatten.count x ≤ 2 := by
    intro x
    by_cases hx : x ∈ labels.flatten
    · rw [hcnt x hx]; split_ifs <;> omega
    · rw [List.count_eq_zero.2 hx]; omega
  have hl : (startG labels.length).length = labels.length := by simp [startG]
  obtain ⟨con, k1, k2, k3⟩ := C34_ord_to_ncon hcnt ho.valid.1 ho.valid.2
  obtain ⟨rest, rfl, r2⟩ := ordToNcon_conFor hc ho k1
  refine ⟨_, k1, ?_⟩
  have hfilt : (labels.flatMap traceInds ++ rest).filter (fun l => ∀ t ∈ labels, t.count l ≠ 2) =
      rest := by
    rw [List.filter_append, List.filter_eq_nil_iff.2, List.nil_append, List.filter_eq_self]
    · intro l hl
      rw [decide_eq_true_eq]
      intro t ht h2
      rw [List.nodup_append'] at k2
      refine k2.2.2 (List.mem_flatMap.2 ⟨t, ht, ?_⟩) hl
      rw [← List.count_pos_iff, count_traceInds, if_pos h2]
      omega
    · intro l hl
      obtain ⟨t, ht, h2⟩ := List.mem_flatMap.1 hl
      rw [← List.count_pos_iff, count_traceInds] at h2
      simp only [decide_eq_true_eq, not_forall, not_not]
      refine ⟨t, ht, ?_⟩
      by_contra h3
      rw [if_neg h3] at h2
      omega
  obtain ⟨t, ht⟩ := costLoop_ok hlog hc o (startG_part labels.length) (by rwa [hl]) hsh
    (List.nodup_append'.1 k2).2.1 r2 costRel_start 0 le_rfl
  simp only [costCheck, costStart_ok hdim hlen, hfilt, ht, zero_add]
  rfl

example := C81_ncon_cost_check (o := [(1, 2), (0, 1)]) chain_log chain_dims (by decide) (by decide)
  (by simp [Steps, chainLabels]) (by refine ⟨?_, ?_, trivial⟩ <;> decide)

/-- Without the condition that the tensors of each contraction share a label the two costs are
different: the order for `ncon` does not keep the outer product of the two vectors. -/
theorem C81_cost_check_outer_false :
    ∃ o, Steps 3 o ∧ ordToNcon [[1], [2], [1, 2, -1]] o = .ok [1, 2] ∧
      opsOf (C := Nat) [[1], [2], [1, 2, -1]] (fun l => if l < 0 then 4 else 2) (startG 3) o = 20 ∧
      costCheck base2.ex (fun d => (Nat.log2 d : Int)) [[2], [2], [2, 2, 4]]
        [[1], [2], [1, 2, -1]] (some [1, 2]) = .ok 24 :=
  ⟨[(0, 1), (0, 1)], by simp [Steps], by decide, by decide, by decide⟩

/-! ## All orders -/

/-- A label that is a leg of two groups. -/
def shared (labels : List (List Int)) (G : List (Finset Nat)) (l : Int) : Nat :=
  G.countP (fun S => l ∈ legs labels S)

theorem shared_merge {labels : List (List Int)} (hc : ∀ x, labels.flatten.count x ≤ 2) {n : Nat}
    {G : List (Finset Nat)} (hG : Part n G) {p : Nat × Nat} (h1 : p.1 < p.2)
    (h2 : p.2 < G.length) (l : Int) :
    shared labels (mergeG G p) l =
      if l ∈ legs labels (G.getD p.1 ∅) ∩ legs labels (G.getD p.2 ∅) then 0
      else shared labels G l := by
  have hd := hG.disj p.1 p.2 (by omega) h2 (by omega)
  obtain ⟨m1, m2⟩ := mergeG_perm h1 h2
  have e1 : shared labels (mergeG G p) l = _ := m2.countP_eq _
  have e2 : shared labels G l = _ := m1.countP_eq _
  have hpw : G.Pairwise Disjoint := by
    rw [List.pairwise_iff_getElem]
    intro i j hi hj hij
    have := hG.disj i j hi hj (by omega)
    rwa [List.getD_eq_getElem _ _ hi, List.getD_eq_getElem _ _ hj] at this
  have hpw' := (m1.pairwise_iff (fun {a b} h => h.symm)).1 hpw
  rw [List.pairwise_cons, List.pairwise_cons] at hpw'
  have hR : l ∈ legs labels (G.getD p.1 ∅) → l ∈ legs labels (G.getD p.2 ∅) →
      ((G.eraseIdx p.2).eraseIdx p.1).countP (fun S => decide (l ∈ legs labels S)) = 0 := by
    intro k1 k2
    rw [List.countP_eq_zero]
    intro U hU
    simpa using legs_two hc hd (hpw'.1 U (List.mem_cons_of_mem _ hU)) (hpw'.2.1 U hU) k1 k2
  rw [e1, e2, List.countP_cons, List.countP_cons, List.countP_cons, legs_union hc hd]
  by_cases k1 : l ∈ legs labels (G.getD p.1 ∅) <;> by_cases k2 : l ∈ legs labels (G.getD p.2 ∅)
  · simp only [Finset.mem_inter, Finset.mem_union, Finset.mem_sdiff, k1, k2, hR k1 k2]
    simp
  all_goals simp only [Finset.mem_inter, Finset.mem_union, Finset.mem_sdiff, k1, k2]; simp

theorem shared_start (labels : List (List Int)) (l : Int) :
    shared labels (startG labels.length) l = labels.countP (fun t => t.count l = 1) := by
  have h1 : labels = (List.range labels.length).map (fun i => labels.getD i []) := by
    refine List.ext_getElem (by simp) (fun i k1 k2 => ?_)
    simp [k1]
  rw [shared, startG, List.countP_map]
  conv_rhs => rw [h1, List.countP_map]
  refine List.countP_congr (fun i _ => ?_)
  simp only [Function.comp_apply, mem_legs, countIn, Finset.sum_singleton]

theorem countP_one_two (L : List Nat) (h : ∀ a ∈ L, a ≤ 2) :
    L.sum = L.countP (· = 1) + 2 * L.countP (· = 2) := by
  induction L with
  | nil => rfl
  | cons a L ih =>
    have h1 := h a (by simp)
    have h2 := ih (fun b hb => h b (by simp [hb]))
    rw [List.sum_cons, List.countP_cons, List.countP_cons, h2]
    interval_cases a <;> simp <;> omega

theorem shared_start_iff {labels : List (List Int)} {l : Int} (hc : labels.flatten.count l ≤ 2) :
    shared labels (startG labels.length) l = 2 ↔
      labels.flatten.count l = 2 ∧ ∀ t ∈ labels, t.count l ≠ 2 := by
  have h1 : (labels.map (List.count l)).sum = labels.flatten.count l := by
    rw [List.count_flatten]
  have h2 := countP_one_two (labels.map (List.count l)) (by
    intro a ha
    have := List.single_le_sum (l := labels.map (List.count l)) (by simp) a ha
    omega)
  rw [h1, List.countP_map, List.countP_map] at h2
  have h3 : labels.countP ((fun a => decide (a = 2)) ∘ List.count l) = 0 ↔
      ∀ t ∈ labels, t.count l ≠ 2 := by
    rw [List.countP_eq_zero]
    simp
  rw [← h3, shared_start]
  have h4 : labels.countP ((fun a => decide (a = 1)) ∘ List.count l) =
    labels.countP (fun t => t.count l = 1) := rfl
  rw [h4] at h2
  omega

theorem costLoop_any [CommSemiring C] [IsStrictOrderedRing K] {ex : K → C} {lg : Nat → K}
    {labels : List (List Int)} {dm : Int → Nat} (hlog : LogOK ex lg labels dm)
    (hc : ∀ x, labels.flatten.count x ≤ 2) {n : Nat} (fuel : Nat) {G : List (Finset Nat)}
    (hG : Part n G) {con : List Int} (hcon : ∀ l, l ∈ con ↔ shared labels G l = 2)
    {st : List (List (Int × K))} (hst : CostRel lg labels dm st G) (tot : C)
    (hf : con.length ≤ fuel) :
    ∃ tot' st' G', costLoop ex fuel con st tot = .ok (tot', st') ∧ Part n G' ∧
      CostRel lg labels dm st' G' ∧ (∀ l, shared labels G' l ≠ 2) ∧
      ∀ qs, Steps G'.length qs → ∃ ps, Steps G.length ps ∧
        tot + opsOf labels dm G ps = tot' + opsOf labels dm G' qs := by
  induction fuel generalizing G con st tot with
  | zero =>
    obtain rfl : con = [] := List.length_eq_zero_iff.1 (by omega)
    exact ⟨tot, st, G, by simp [costLoop], hG, hst, fun l hl => by simpa using (hcon l).2 hl,
      fun qs hqs => ⟨qs, hqs, rfl⟩⟩
  | succ fuel ih =>
    rcases con with _ | ⟨x, con⟩
    · exact ⟨tot, st, G, by simp [costLoop], hG, hst, fun l hl => by simpa using (hcon l).2 hl,
        fun qs hqs => ⟨qs, hqs, rfl⟩⟩
    · have hx := (hcon x).1 (by simp)
      rw [shared, List.countP_eq_length_filter] at hx
      obtain ⟨u, v, huv⟩ := List.length_eq_two.1 hx
      obtain ⟨a, b, k1, rfl, rfl, -⟩ := two_locs _ ∅ huv
      have hab : a < b := by
        have := List.pairwise_lt_range.filter (l := List.range G.length)
          (fun i => decide (x ∈ legs labels (G.getD i ∅)))
        rw [k1] at this
        simpa using this
      have hmem : ∀ i ∈ [a, b], i < G.length ∧ x ∈ legs labels (G.getD i ∅) := by
        intro i hi
        rw [← k1, List.mem_filter, List.mem_range, decide_eq_true_eq] at hi
        exact hi
      have h2 := (hmem b (by simp)).1
      have hxx : x ∈ legs labels (G.getD (a, b).1 ∅) ∩ legs labels (G.getD (a, b).2 ∅) :=
        Finset.mem_inter.2 ⟨(hmem a (by simp)).2, (hmem b (by simp)).2⟩
      obtain ⟨i, j, c0, c1, k1, k2, k3, k4, k5, k6, k7, k8⟩ :=
        costRel_locs hc hst hG (p := (a, b)) hab h2 hxx
      have hd := hG.disj a b (by omega) h2 (by omega)
      obtain ⟨q1, q2, q3, q4, q5⟩ := contract_lset (hst.nodup c0 k4) (hst.nodup c1 k5)
        (hst.dims c0 k4) (hst.dims c1 k5)
      simp only [costLoop, k1, k2, k3]
      rw [q2]
      have hint : lset c0 ∩ lset c1 = legs labels (G.getD a ∅) ∩ legs labels (G.getD b ∅) := by
        rcases k6 with ⟨e1, e2⟩ | ⟨e1, e2⟩ <;> rw [e1, e2]
        rw [Finset.inter_comm]
      have huni : lset c0 ∪ lset c1 = legs labels (G.getD a ∅) ∪ legs labels (G.getD b ∅) := by
        rcases k6 with ⟨e1, e2⟩ | ⟨e1, e2⟩ <;> rw [e1, e2]
        rw [Finset.union_comm]
      have hmemc : ∀ l, l ∈ (c0.filter (fun y => y.1 ∈ c1.map Prod.fst)).map Prod.fst ↔
          l ∈ legs labels (G.getD a ∅) ∩ legs labels (G.getD b ∅) := by
        intro l
        rw [← hint, ← q1, lset, List.mem_toFinset]
      have hrel : CostRel lg labels dm ((st.eraseIdx j).eraseIdx i ++
          [c0.filter (fun y => y.1 ∉ c1.map Prod.fst) ++
            c1.filter (fun y => y.1 ∉ c0.map Prod.fst)]) (mergeG G (a, b)) := by
        constructor
        · rw [List.map_append, List.map_cons, List.map_nil]
          refine (List.perm_append_comm.trans ?_).trans
            ((mergeG_perm (p := (a, b)) hab h2).2.map _).symm
          rw [List.map_cons, List.singleton_append, q3, legs_union hc hd]
          rcases k6 with ⟨e1, e2⟩ | ⟨e1, e2⟩ <;> rw [e1, e2]
          · exact k7.cons _
          · rw [Finset.union_comm]
            exact k7.cons _
        · intro t ht
          rw [List.mem_append, List.mem_singleton] at ht
          rcases ht with ht | rfl
          · exact hst.nodup t (k8 t ht)
          · exact q4
        · intro t ht
          rw [List.mem_append, List.mem_singleton] at ht
          rcases ht with ht | rfl
          · exact hst.dims t (k8 t ht)
          · exact q5
      obtain ⟨tot', st', G', r1, r2, r3, r4, r5⟩ := ih (G := mergeG G (a, b)) (hG.merge hab h2)
        (con := (x :: con).filter (fun l => l ∉ (c0.filter
          (fun y => y.1 ∈ c1.map Prod.fst)).map Prod.fst)) (by
          intro l
          rw [shared_merge hc hG (p := (a, b)) hab h2, List.mem_filter, decide_eq_true_eq, hmemc,
            hcon]
          split_ifs with hl
          · exact ⟨fun h => absurd hl h.2, fun h => absurd h (by decide)⟩
          · exact ⟨fun h => h.1, fun h => ⟨h, hl⟩⟩) hrel
        (tot + ex (∑ x ∈ lset c0 ∪ lset c1, lg (dm x))) (by
          rw [List.filter_cons_of_neg (by simpa only [decide_eq_true_eq, not_not, hmemc] using hxx)]
          exact (List.length_filter_le _ _).trans (by simpa using hf))
      refine ⟨tot', st', G', r1, r2, r3, r4, fun qs hqs => ?_⟩
      obtain ⟨ps, s1, s2⟩ := r5 qs hqs
      refine ⟨(a, b) :: ps, ⟨hab, h2, by rwa [mergeG_length h2] at s1⟩, ?_⟩
      rw [← s2, opsOf, huni, hlog.ex_sum (Finset.union_subset (legs_subset _ _) (legs_subset _ _)),
        add_assoc]

/-- Two positions with given values. -/
theorem exists_positions {α β : Type} (f : α → β) (d : α) {l : List α} {a b : β} {r : List β}
    (h : (l.map f).Perm (a :: b :: r)) :
    ∃ i j, i < j ∧ j < l.length ∧
      (f (l.getD i d) = a ∧ f (l.getD j d) = b ∨ f (l.getD i d) = b ∧ f (l.getD j d) = a) := by
  obtain ⟨u, hu, rfl⟩ := List.mem_map.1 (h.mem_iff.2 (List.mem_cons_self))
  obtain ⟨i, hi, rfl⟩ := List.getElem_of_mem hu
  have h1 := ((List.getElem_cons_eraseIdx_perm hi).map f).trans h
  rw [List.map_cons, List.perm_cons] at h1
  obtain ⟨v, hv, rfl⟩ := List.mem_map.1 (h1.mem_iff.2 (List.mem_cons_self))
  obtain ⟨j, hj, rfl⟩ := List.getElem_of_mem hv
  have hl := List.length_eraseIdx_of_lt hi
  rw [List.getElem_eraseIdx]
  split_ifs with hji
  · exact ⟨j, i, hji, hi, Or.inr ⟨by rw [List.getD_eq_getElem _ _ (by omega)],
      by rw [List.getD_eq_getElem _ _ hi]⟩⟩
  · exact ⟨i, j + 1, by omega, by omega, Or.inl ⟨by rw [List.getD_eq_getElem _ _ hi],
      by rw [List.getD_eq_getElem _ _ (by omega)]⟩⟩

theorem costOuter_ok [CommSemiring C] [IsStrictOrderedRing K] {ex : K → C} {lg : Nat → K}
    {labels : List (List Int)} {dm : Int → Nat} (hlog : LogOK ex lg labels dm)
    (hc : ∀ x, labels.flatten.count x ≤ 2) {n : Nat} (fuel : Nat) {G : List (Finset Nat)}
    (hG : Part n G) (hlen : G.length = fuel + 1) (hsh : ∀ l, shared labels G l ≠ 2)
    {sizes : List K}
    (hs : sizes.Perm (G.map (fun S => ∑ x ∈ legs labels S, lg (dm x)))) (tot : C) :
    ∃ qs, Steps G.length qs ∧
      costOuter ex fuel sizes tot = tot + opsOf labels dm G qs := by
  induction fuel generalizing G sizes tot with
  | zero => exact ⟨[], hlen, by simp [costOuter, opsOf]⟩
  | succ fuel ih =>
    have hsort := (List.perm_insertionSort (· ≤ ·) sizes).trans hs
    have hl := hsort.length_eq
    rw [List.length_map, hlen] at hl
    rw [costOuter]
    rcases hso : sizes.insertionSort (· ≤ ·) with _ | ⟨a, _ | ⟨b, rest⟩⟩
    · rw [hso] at hl; simp at hl
    · rw [hso] at hl; simp at hl
    · rw [hso] at hsort
      obtain ⟨i, j, hij, hj, hval⟩ := exists_positions _ ∅ hsort.symm
      have hd := hG.disj i j (by omega) hj (by omega)
      have hdl : legs labels (G.getD i ∅) ∩ legs labels (G.getD j ∅) = ∅ := by
        rw [Finset.eq_empty_iff_forall_notMem]
        intro l hl
        have hm := (mergeG_perm (p := (i, j)) hij hj).1
        have e : shared labels G l = _ := hm.countP_eq _
        rw [Finset.mem_inter] at hl
        apply hsh l
        have h5 := shared_merge hc hG (p := (i, j)) hij hj l
        rw [if_pos (Finset.mem_inter.2 hl)] at h5
        have e2 : shared labels (mergeG G (i, j)) l = _ :=
          (mergeG_perm (p := (i, j)) hij hj).2.countP_eq _
        rw [List.countP_cons] at e2
        rw [e, List.countP_cons, List.countP_cons]
        simp only [hl.1, hl.2, decide_true, if_true]
        dsimp only at e2
        omega
      have hab : a + b = ∑ x ∈ legs labels (G.getD i ∅) ∪ legs labels (G.getD j ∅), lg (dm x) := by
        rw [Finset.sum_union (Finset.disjoint_iff_inter_eq_empty.2 hdl)]
        rcases hval with ⟨rfl, rfl⟩ | ⟨rfl, rfl⟩
        · rfl
        · exact add_comm _ _
      have hun : legs labels (G.getD i ∅ ∪ G.getD j ∅) =
          legs labels (G.getD i ∅) ∪ legs labels (G.getD j ∅) := by
        have hd2 := Finset.disjoint_iff_inter_eq_empty.2 hdl
        rw [legs_union hc hd, Finset.sdiff_eq_self_of_disjoint hd2,
          Finset.sdiff_eq_self_of_disjoint hd2.symm]
      have hrest : rest.Perm (((G.eraseIdx j).eraseIdx i).map
          (fun S => ∑ x ∈ legs labels S, lg (dm x))) := by
        have h5 := hsort.trans ((mergeG_perm (p := (i, j)) hij hj).1.map _)
        rw [List.map_cons, List.map_cons] at h5
        rcases hval with ⟨e1, e2⟩ | ⟨e1, e2⟩
        · rw [e1, e2, List.perm_cons, List.perm_cons] at h5
          exact h5
        · rw [e1, e2] at h5
          have h6 := h5.trans (List.Perm.swap _ _ _)
          rw [List.perm_cons, List.perm_cons] at h6
          exact h6
      obtain ⟨qs, q1, q2⟩ := ih (G := mergeG G (i, j)) (hG.merge hij hj)
        (by rw [mergeG_length hj, hlen]; rfl) (by
          intro l
          rw [shared_merge hc hG (p := (i, j)) hij hj]
          split_ifs
          · simp
          · exact hsh l) (sizes := (a + b) :: rest) (by
          refine List.Perm.trans ?_ ((mergeG_perm (p := (i, j)) hij hj).2.map _).symm
          rw [List.map_cons, hun, ← hab]
          exact hrest.cons _) (tot + ex (a + b))
      refine ⟨(i, j) :: qs, ⟨hij, hj, by rwa [mergeG_length hj] at q1⟩, ?_⟩
      simp only
      rw [q2, opsOf, hab, hlog.ex_sum (Finset.union_subset (legs_subset _ _) (legs_subset _ _)),
        add_assoc]

/-- For every network as above and every order that has each closed label exactly once, also the
default order: `ncon_cost_check` returns the number of multiplications of a complete sequence of
pairwise contractions. -/
theorem C81_cost_check_any_order [CommSemiring C] [IsStrictOrderedRing K] {ex : K → C}
    {lg : Nat → K} {labels : List (List Int)} {shapes : List (List Nat)} {dm : Int → Nat}
    (hlog : LogOK ex lg labels dm) (hdim : Dims labels shapes dm)
    (hlen : shapes.map List.length = labels.map List.length) (hne : labels ≠ [])
    (hcnt : ∀ l ∈ labels.flatten, l ≠ 0 ∧ labels.flatten.count l = if l < 0 then 1 else 2)
    {con : Option (List Int)}
    (hcon : ∀ c, con = some c → ∀ l, l ∈ c ↔ l ∈ labels.flatten ∧ 0 < l) :
    ∃ o, Steps labels.length o ∧
      costCheck ex lg shapes labels con = .ok (opsOf labels dm (startG labels.length) o) := by
  have hc : ∀ x, labels.flatten.count x ≤ 2 := by
    intro x
    by_cases hx : x ∈ labels.flatten
    · rw [(hcnt x hx).2]; split_ifs <;> omega
    · rw [List.count_eq_zero.2 hx]; omega
  have hl : (startG labels.length).length = labels.length := by simp [startG]
  obtain ⟨c, hc1⟩ : ∃ c, c = (match con with
      | none => (npUnique labels.flatten).filter (0 < ·)
      | some c => c) := ⟨_, rfl⟩
  have hc2 : ∀ l, l ∈ c ↔ l ∈ labels.flatten ∧ 0 < l := by
    intro l
    rcases con with _ | c'
    · rw [hc1]; simp [mem_npUnique]
    · rw [hc1]; exact hcon c' rfl l
  have hinv : ∀ l, l ∈ c.filter (fun l => ∀ t ∈ labels, t.count l ≠ 2) ↔
      shared labels (startG labels.length) l = 2 := by
    intro l
    rw [shared_start_iff (hc l), List.mem_filter, hc2, decide_eq_true_eq]
    refine and_congr_left' ⟨fun h => ?_, fun h => ?_⟩
    · rw [(hcnt l h.1).2, if_neg (by omega)]
    · have hm : l ∈ labels.flatten := List.count_pos_iff.1 (by omega)
      obtain ⟨k1, k2⟩ := hcnt l hm
      rw [h] at k2
      have h3 : ¬ l < 0 := fun h3 => by rw [if_pos h3] at k2; omega
      exact ⟨hm, by omega⟩
  obtain ⟨tot, st', G', r1, r2, r3, r4, r5⟩ := costLoop_any hlog hc _
    (startG_part labels.length) hinv costRel_start 0 le_rfl
  have hlen' : st'.length = G'.length := by simpa using r3.perm.length_eq
  have hpos : 0 < G'.length := by
    by_contra h0
    have h1 := r2.cover
    rw [Nat.eq_zero_of_not_pos h0, Finset.range_zero, Finset.biUnion_empty] at h1
    exact hne (List.length_eq_zero_iff.1 (Finset.range_eq_empty_iff.1 h1.symm))
  obtain ⟨qs, q1, q2⟩ := costOuter_ok hlog hc (G'.length - 1) r2 (by omega) r4
    (sizes := st'.map (fun t => (t.map Prod.snd).sum)) (by
      have h1 : st'.map (fun t => (t.map Prod.snd).sum) =
          (st'.map lset).map (fun F => ∑ x ∈ F, lg (dm x)) := by
        rw [List.map_map]
        exact List.map_congr_left (fun t ht => sum_dims (r3.nodup t ht) (r3.dims t ht))
      rw [h1]
      have := r3.perm.map (fun F => ∑ x ∈ F, lg (dm x))
      simpa only [List.map_map, Function.comp_def] using this) tot
  obtain ⟨ps, s1, s2⟩ := r5 qs q1
  refine ⟨ps, by rwa [hl] at s1, ?_⟩
  simp only [costCheck, costStart_ok hdim hlen, ← hc1, r1, hlen', q2, ← s2, zero_add]

example := C81_cost_check_any_order (con := none) chain_log chain_dims (by decide)
  (by simp [chainLabels]) (by decide) (by simp)

/-- Two closed components and an open leg: the outer products count. -/
example : costCheck base2.ex (fun d => (Nat.log2 d : Int)) [[2], [2], [4], [4], [8]]
    [[1], [1], [2], [2], [-1]] none = .ok (2 + 4 + 1 + 8) := by decide

end TN.Solver
