import Verif.NconOps

/-!
# The invariant of `_jittable_ncon`
-/

set_option linter.unusedSectionVars false

namespace TN.Ncon

open Finset NDArray

variable {R : Type*} [CommSemiring R] {dim : Int → Nat}

/-- Product of the entries of all tensors of the network under one assignment. -/
def netProd (ts : List (LT R)) (σ : Int → Nat) : R := (ts.map (fun p => val p.1 p.2 σ)).prod

/-- All labels of the network. -/
def flat (ts : List (LT R)) : List Int := ts.flatMap Prod.snd

theorem flat_perm {a b : List (LT R)} (h : a.Perm b) : (flat a).Perm (flat b) :=
  h.flatMap_right _

theorem netProd_perm {a b : List (LT R)} (h : a.Perm b) (σ : Int → Nat) :
    netProd a σ = netProd b σ := (h.map _).prod_eq

theorem netProd_dependsOn (ts : List (LT R)) : DependsOn (netProd ts) (flat ts) := by
  intro σ τ h
  unfold netProd
  congr 1
  refine List.map_congr_left fun p hp => dependsOn_val p.1 p.2 σ τ fun l hl => h l ?_
  exact List.mem_flatMap.2 ⟨p, hp, hl⟩

theorem eraseIdx_perm {α : Type*} {l : List α} {n : Nat} {a : α} (h : l[n]? = some a) :
    l.Perm (a :: l.eraseIdx n) := by
  induction l generalizing n with
  | nil => simp at h
  | cons x l ih =>
    cases n with
    | zero => simp at h; subst h; simp
    | succ n =>
      simp at h
      simp only [List.eraseIdx_cons_succ]
      exact ((ih h).cons x).trans (List.Perm.swap _ _ _)

/-- Popping the later and then the earlier of two positions. -/
theorem erase_two_perm {α : Type*} {l : List α} {n0 n1 : Nat} {a b : α} (hlt : n0 < n1)
    (ha : l[n0]? = some a) (hb : l[n1]? = some b) :
    l.Perm ((l.eraseIdx n1).eraseIdx n0 ++ [a, b]) := by
  have h1 := eraseIdx_perm hb
  have ha' : (l.eraseIdx n1)[n0]? = some a := by
    rw [List.getElem?_eraseIdx_of_lt hlt, ha]
  have h2 := eraseIdx_perm ha'
  refine h1.trans ((h2.cons b).trans ?_)
  refine List.Perm.trans ?_ List.perm_append_comm
  exact List.Perm.swap _ _ _

/-- Invariant of the main loop: the network is well labelled, `con_order` lists the closed
labels still present, the batch list is exact, and summing the product over the remaining
closed labels gives the value `F` of the original network. -/
structure Inv (dim : Int → Nat) (F : (Int → Nat) → R) (out : List Int) (st : State R) : Prop where
  shaped : ∀ p ∈ st.ts, Shaped dim p.1 p.2
  nodup : ∀ p ∈ st.ts, p.2.Nodup
  con_nodup : st.con.Nodup
  con_mem : ∀ l, l ∈ st.con ↔ l ∈ flat st.ts ∧ 0 < l
  out_mem : ∀ l, l ∈ out ↔ l ∈ flat st.ts ∧ l < 0
  nonzero : ∀ l ∈ flat st.ts, l ≠ 0
  two : ∀ l ∈ flat st.ts, 0 < l → 2 ≤ (flat st.ts).count l
  batch_nodup : (st.batch.map Prod.fst).Nodup
  batch_pos : ∀ p ∈ st.batch, p.2 = (flat st.ts).count p.1
  nbatch_pos : ∀ l, l ∉ st.batch.map Prod.fst → 0 < l → (flat st.ts).count l ≤ 2
  nbatch_neg : ∀ l, l ∉ st.batch.map Prod.fst → l < 0 → (flat st.ts).count l ≤ 1
  batch_gt : ∀ p ∈ st.batch, 0 < p.1 → 2 < p.2
  nonempty : st.ts ≠ []
  value : ∀ σ : Int → Nat, (∀ l ∈ out, σ l < dim l) →
    sumOver dim st.con (netProd st.ts) σ = F σ

section merge

/-- Value of the network after replacing two tensors by one. -/
theorem merge_value {others : List (LT R)} {a b r : LT R} {con cc : List Int} {σ : Int → Nat}
    {out : List Int}
    (hccn : cc.Nodup) (hcon : con.Nodup) (hsub : ∀ l ∈ cc, l ∈ con)
    (hoth : ∀ l ∈ flat others, l ∉ cc)
    (hrl : ∀ l ∈ r.2, l ∈ con.filter (fun x => x ∉ cc) ∨ l ∈ out)
    (hoc : ∀ l ∈ out, l ∉ con)
    (hσ : ∀ l ∈ out, σ l < dim l)
    (hval : ∀ τ : Int → Nat, (∀ l ∈ r.2, τ l < dim l) →
      val r.1 r.2 τ = sumOver dim cc (fun τ => val a.1 a.2 τ * val b.1 b.2 τ) τ) :
    sumOver dim (con.filter (fun x => x ∉ cc)) (netProd (others ++ [r])) σ =
      sumOver dim con (netProd (others ++ [a, b])) σ := by
  have hperm : con.Perm (con.filter (fun x => x ∉ cc) ++ cc) := by
    rw [List.perm_ext_iff_of_nodup hcon]
    · intro l
      simp only [List.mem_append, List.mem_filter, decide_eq_true_eq]
      constructor
      · intro h
        by_cases hl : l ∈ cc
        · exact Or.inr hl
        · exact Or.inl ⟨h, hl⟩
      · rintro (h | h)
        · exact h.1
        · exact hsub l h
    · rw [List.nodup_append]
      refine ⟨hcon.filter _, hccn, ?_⟩
      intro x hx y hy hxy
      subst hxy
      simp only [List.mem_filter, decide_eq_true_eq] at hx
      exact hx.2 hy
  rw [sumOver_perm hperm, sumOver_append]
  refine sumOver_congr fun τ h1 h2 => ?_
  have e1 : netProd (others ++ [r]) τ = netProd others τ * val r.1 r.2 τ := by
    simp [netProd]
  have e2 : (netProd (others ++ [a, b])) =
      fun τ => netProd others τ * (val a.1 a.2 τ * val b.1 b.2 τ) := by
    funext τ
    simp [netProd]
  rw [e1, e2, sumOver_mul_left (netProd_dependsOn others) hoth, hval]
  intro l hl
  rcases hrl l hl with h | h
  · exact h2 l h
  · have : l ∉ con.filter (fun x => x ∉ cc) := fun hx => hoc l h (List.mem_filter.1 hx).1
    rw [h1 l this]
    exact hσ l h

/-- Bookkeeping shared by the two kinds of contraction: `K` are the labels kept as batch
labels, `cc` the labels summed. -/
theorem merge_inv {F : (Int → Nat) → R} {out : List Int} {st : State R}
    (hI : Inv dim F out st) {others : List (LT R)} {a b : LT R}
    (hp : st.ts.Perm (others ++ [a, b])) {r : LT R} {cb cc : List Int}
    {batch' : List (Int × Nat)}
    (hcbn : cb.Nodup) (hccn : cc.Nodup)
    (hcb : ∀ l, l ∈ cb ↔ l ∈ a.2 ∧ l ∈ b.2 ∧ l ∈ st.batch.map Prod.fst)
    (hcc : ∀ l, l ∈ cc ↔ l ∈ a.2 ∧ l ∈ b.2 ∧ l ∉ cb)
    (hr2 : r.2.Perm (cb ++ (a.2.filter (fun l => l ∉ cc ∧ l ∉ cb) ++
      b.2.filter (fun l => l ∉ cc ∧ l ∉ cb))))
    (hsh : Shaped dim r.1 r.2)
    (hval : ∀ τ : Int → Nat, (∀ l ∈ r.2, τ l < dim l) →
      val r.1 r.2 τ = sumOver dim cc (fun τ => val a.1 a.2 τ * val b.1 b.2 τ) τ)
    (hbatch : batch' = updateBatch st.batch cb) :
    Inv dim F out { ts := others ++ [r], con := st.con.filter (fun x => x ∉ cc),
                    batch := batch', skip := st.skip } := by
  have hab : a ∈ st.ts ∧ b ∈ st.ts := by
    constructor <;> exact hp.mem_iff.2 (by simp)
  have hna := hI.nodup a hab.1
  have hnb := hI.nodup b hab.2
  have hflat : (flat st.ts).Perm (flat others ++ (a.2 ++ b.2)) := by
    refine (flat_perm hp).trans ?_
    simp [flat]
  have hcount : ∀ l, (flat st.ts).count l =
      (flat others).count l + (a.2.count l + b.2.count l) := by
    intro l
    rw [hflat.count_eq, List.count_append, List.count_append]
  have hflat' : flat (others ++ [r]) = flat others ++ r.2 := by simp [flat]
  have hca : ∀ l, a.2.count l = if l ∈ a.2 then 1 else 0 := by
    intro l
    split
    · exact List.count_eq_one_of_mem hna ‹_›
    · exact List.count_eq_zero.2 ‹_›
  have hcb2 : ∀ l, b.2.count l = if l ∈ b.2 then 1 else 0 := by
    intro l
    split
    · exact List.count_eq_one_of_mem hnb ‹_›
    · exact List.count_eq_zero.2 ‹_›
  have hnr : r.2.Nodup := by
    rw [hr2.nodup_iff, List.nodup_append, List.nodup_append]
    refine ⟨hcbn, ⟨hna.filter _, hnb.filter _, ?_⟩, ?_⟩
    · intro x hx y hy hxy
      subst hxy
      simp only [List.mem_filter, decide_eq_true_eq] at hx hy
      exact hx.2.1 ((hcc x).2 ⟨hx.1, hy.1, hx.2.2⟩)
    · intro x hx y hy hxy
      subst hxy
      simp only [List.mem_append, List.mem_filter, decide_eq_true_eq] at hy
      rcases hy with hy | hy <;> exact hy.2.2 hx
  have hrm : ∀ l, l ∈ r.2 ↔ (l ∈ a.2 ∨ l ∈ b.2) ∧ l ∉ cc := by
    intro l
    rw [hr2.mem_iff]
    simp only [List.mem_append, List.mem_filter, decide_eq_true_eq]
    have h1 := hcb l
    have h2 := hcc l
    tauto
  have hcr : ∀ l, r.2.count l = if (l ∈ a.2 ∨ l ∈ b.2) ∧ l ∉ cc then 1 else 0 := by
    intro l
    split
    · exact List.count_eq_one_of_mem hnr ((hrm l).2 ‹_›)
    · exact List.count_eq_zero.2 (fun h => ‹¬ _› ((hrm l).1 h))
  have hmemf : ∀ l, l ∈ flat st.ts ↔ l ∈ flat others ∨ l ∈ a.2 ∨ l ∈ b.2 := by
    intro l; rw [hflat.mem_iff]; simp
  -- summed labels are closed, live only in `a` and `b`
  have hccpos : ∀ l ∈ cc, 0 < l ∧ l ∉ flat others := by
    intro l hl
    obtain ⟨h1, h2, h3⟩ := (hcc l).1 hl
    have hnb' : l ∉ st.batch.map Prod.fst := fun h => h3 ((hcb l).2 ⟨h1, h2, h⟩)
    have hc := hcount l
    rw [hca, hcb2, if_pos h1, if_pos h2] at hc
    have hin : l ∈ flat st.ts := (hmemf l).2 (Or.inr (Or.inl h1))
    have hne := hI.nonzero l hin
    have hpos : 0 < l := by
      by_contra hneg
      have := hI.nbatch_neg l hnb' (by omega)
      omega
    refine ⟨hpos, List.count_eq_zero.1 ?_⟩
    have := hI.nbatch_pos l hnb' hpos
    omega
  have hmem' : ∀ l, l ∈ flat (others ++ [r]) ↔ l ∈ flat st.ts ∧ l ∉ cc := by
    intro l
    rw [hflat', List.mem_append, hrm, hmemf]
    constructor
    · rintro (h | h)
      · exact ⟨Or.inl h, fun hc => (hccpos l hc).2 h⟩
      · exact ⟨Or.inr h.1, h.2⟩
    · rintro ⟨h | h, hc⟩
      · exact Or.inl h
      · exact Or.inr ⟨h, hc⟩
  -- counts in the new network
  have hcnt : ∀ l, (flat (others ++ [r])).count l =
      if l ∈ cc then 0 else if l ∈ cb then (flat st.ts).count l - 1
      else (flat st.ts).count l := by
    intro l
    rw [hflat', List.count_append, hcr]
    have hc := hcount l
    rw [hca, hcb2] at hc
    have h1 := hcb l
    have h2 := hcc l
    by_cases hlcc : l ∈ cc
    · have h3 : (flat others).count l = 0 := List.count_eq_zero.2 (hccpos l hlcc).2
      simp [hlcc, h3]
    · simp only [hlcc, if_false, not_false_eq_true, and_true]
      by_cases hlcb : l ∈ cb
      · have h3 := h1.1 hlcb
        simp only [h3.1, h3.2.1, if_true, true_or] at hc ⊢
        rw [if_pos hlcb, hc]
        omega
      · rw [if_neg hlcb, hc]
        have h3 : ¬ (l ∈ a.2 ∧ l ∈ b.2) := fun h => hlcc (h2.2 ⟨h.1, h.2, hlcb⟩)
        by_cases ha : l ∈ a.2 <;> by_cases hb : l ∈ b.2 <;> simp_all
  have hcbcc : ∀ l ∈ cb, l ∉ cc := fun l hl h => ((hcc l).1 h).2.2 hl
  have hupd : ∀ p, p ∈ updateBatch st.batch cb ↔
      (p ∈ st.batch ∧ p.1 ∉ cb) ∨
      (∃ n, (p.1, n) ∈ st.batch ∧ p.1 ∈ cb ∧ p.2 = n - 1 ∧
        ¬ ((p.1 > 0 ∧ p.2 ≤ 2) ∨ (p.1 < 0 ∧ p.2 < 2))) := by
    intro p
    simp only [updateBatch, List.mem_filter, List.mem_map, decide_eq_true_eq]
    constructor
    · rintro ⟨⟨q, hq, hqp⟩, h⟩
      by_cases hqc : q.1 ∈ cb
      · rw [if_pos hqc] at hqp
        subst hqp
        simp only at h ⊢
        exact Or.inr ⟨q.2, hq, hqc, rfl, fun hx => h ⟨hqc, hx⟩⟩
      · rw [if_neg hqc] at hqp
        subst hqp
        exact Or.inl ⟨hq, hqc⟩
    · rintro (⟨h1, h2⟩ | ⟨n, h1, h2, h3, h4⟩)
      · exact ⟨⟨p, h1, by rw [if_neg h2]⟩, fun h => h2 h.1⟩
      · refine ⟨⟨(p.1, n), h1, ?_⟩, fun h => h4 h.2⟩
        simp only [if_pos h2, ← h3]
  have hfst : ∀ l, l ∈ (updateBatch st.batch cb).map Prod.fst ↔
      l ∈ st.batch.map Prod.fst ∧ (l ∈ cb → ¬ ((l > 0 ∧ (flat st.ts).count l - 1 ≤ 2) ∨
        (l < 0 ∧ (flat st.ts).count l - 1 < 2))) := by
    intro l
    simp only [List.mem_map]
    constructor
    · rintro ⟨p, hp, rfl⟩
      rcases (hupd p).1 hp with ⟨h1, h2⟩ | ⟨n, h1, h2, h3, h4⟩
      · exact ⟨⟨p, h1, rfl⟩, fun h => absurd h h2⟩
      · refine ⟨⟨_, h1, rfl⟩, fun _ => ?_⟩
        have := hI.batch_pos _ h1
        simp only at this
        rw [← this, ← h3]
        exact h4
    · rintro ⟨⟨p, hp, rfl⟩, h⟩
      by_cases hc : p.1 ∈ cb
      · refine ⟨(p.1, p.2 - 1), (hupd _).2 (Or.inr ⟨p.2, hp, hc, rfl, ?_⟩), rfl⟩
        simp only
        rw [hI.batch_pos p hp]
        exact h hc
      · exact ⟨p, (hupd _).2 (Or.inl ⟨hp, hc⟩), rfl⟩
  have hbcount : ∀ l ∈ st.batch.map Prod.fst, l ∉ cc := by
    intro l hl hlc
    obtain ⟨h1, h2, h3⟩ := (hcc l).1 hlc
    exact h3 ((hcb l).2 ⟨h1, h2, hl⟩)
  subst hbatch
  refine
    { shaped := ?_, nodup := ?_, con_nodup := hI.con_nodup.filter _, con_mem := ?_,
      out_mem := ?_, nonzero := ?_, two := ?_, batch_nodup := ?_, batch_pos := ?_,
      nbatch_pos := ?_, nbatch_neg := ?_, batch_gt := ?_, nonempty := by simp, value := ?_ }
  · intro p hp'
    rcases List.mem_append.1 hp' with h | h
    · exact hI.shaped p (hp.mem_iff.2 (by simp [h]))
    · simp at h; subst h; exact hsh
  · intro p hp'
    rcases List.mem_append.1 hp' with h | h
    · exact hI.nodup p (hp.mem_iff.2 (by simp [h]))
    · simp at h; subst h; exact hnr
  · intro l
    simp only [List.mem_filter, decide_eq_true_eq]
    rw [hmem', hI.con_mem]
    tauto
  · intro l
    simp only
    rw [hmem', hI.out_mem]
    constructor
    · rintro ⟨h1, h2⟩
      exact ⟨⟨h1, fun hc => by have := (hccpos l hc).1; omega⟩, h2⟩
    · rintro ⟨h1, h2⟩
      exact ⟨h1.1, h2⟩
  · intro l hl
    exact hI.nonzero l ((hmem' l).1 hl).1
  · intro l hl hpos
    simp only at hl ⊢
    obtain ⟨h1, h2⟩ := (hmem' l).1 hl
    rw [hcnt, if_neg h2]
    have h3 := hI.two l h1 hpos
    by_cases hlcb : l ∈ cb
    · rw [if_pos hlcb]
      obtain ⟨p, hp1, rfl⟩ := List.mem_map.1 ((hcb l).1 hlcb).2.2
      have h4 := hI.batch_gt p hp1 hpos
      rw [hI.batch_pos p hp1] at h4
      omega
    · rw [if_neg hlcb]; exact h3
  · simp only [updateBatch]
    have : (st.batch.map (fun p => if p.1 ∈ cb then (p.1, p.2 - 1) else p)).map Prod.fst =
        st.batch.map Prod.fst := by
      rw [List.map_map]
      refine List.map_congr_left fun p _ => ?_
      simp only [Function.comp]
      split <;> rfl
    have h2 : ((st.batch.map (fun p => if p.1 ∈ cb then (p.1, p.2 - 1) else p)).map
        Prod.fst).Nodup := by rw [this]; exact hI.batch_nodup
    exact h2.sublist (List.filter_sublist.map _)
  · intro p hp'
    simp only at hp' ⊢
    have hpb : p.1 ∈ st.batch.map Prod.fst :=
      ((hfst p.1).1 (List.mem_map.2 ⟨p, hp', rfl⟩)).1
    rw [hcnt, if_neg (hbcount _ hpb)]
    rcases (hupd p).1 hp' with ⟨h1, h2⟩ | ⟨n, h1, h2, h3, h4⟩
    · rw [if_neg h2]; exact hI.batch_pos p h1
    · rw [if_pos h2, h3, ← hI.batch_pos _ h1]
  · intro l hl hpos
    simp only at hl ⊢
    rw [hcnt]
    split
    · omega
    · split
      · rename_i h1 h2
        have h3 := ((hcb l).1 h2).2.2
        rw [hfst] at hl
        simp only [h3, true_and, h2, true_imp_iff, not_not] at hl
        omega
      · rename_i h1 h2
        apply hI.nbatch_pos l _ hpos
        intro h
        exact hl ((hfst l).2 ⟨h, fun hx => absurd hx h2⟩)
  · intro l hl hneg
    simp only at hl ⊢
    rw [hcnt]
    split
    · omega
    · split
      · rename_i h1 h2
        have h3 := ((hcb l).1 h2).2.2
        rw [hfst] at hl
        simp only [h3, true_and, h2, true_imp_iff, not_not] at hl
        omega
      · rename_i h1 h2
        apply hI.nbatch_neg l _ hneg
        intro h
        exact hl ((hfst l).2 ⟨h, fun hx => absurd hx h2⟩)
  · intro p hp' hpos
    simp only at hp'
    rcases (hupd p).1 hp' with ⟨h1, h2⟩ | ⟨n, h1, h2, h3, h4⟩
    · exact hI.batch_gt p h1 hpos
    · omega
  · intro σ hσ
    simp only
    rw [← hI.value σ hσ]
    have hsum : sumOver dim st.con (netProd st.ts) σ =
        sumOver dim st.con (netProd (others ++ [a, b])) σ := by
      refine sumOver_congr fun τ _ _ => netProd_perm hp τ
    rw [hsum]
    refine merge_value (out := out) hccn hI.con_nodup ?_ ?_ ?_ ?_ hσ hval
    · intro l hl
      rw [hI.con_mem, hmemf]
      exact ⟨Or.inr (Or.inl ((hcc l).1 hl).1), (hccpos l hl).1⟩
    · intro l hl hc
      exact (hccpos l hc).2 hl
    · intro l hl
      have h1 : l ∈ flat (others ++ [r]) := by
        rw [hflat', List.mem_append]; exact Or.inr hl
      obtain ⟨h2, h3⟩ := (hmem' l).1 h1
      have h4 := hI.nonzero l h2
      rcases lt_or_gt_of_ne h4 with h | h
      · right
        rw [hI.out_mem]; exact ⟨h2, h⟩
      · left
        simp only [List.mem_filter, decide_eq_true_eq]
        exact ⟨(hI.con_mem l).2 ⟨h2, h⟩, h3⟩
    · intro l hl hc
      rw [hI.out_mem] at hl
      rw [hI.con_mem] at hc
      omega

end merge

end TN.Ncon
