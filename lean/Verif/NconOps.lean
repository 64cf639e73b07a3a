import Verif.Ncon
import Mathlib.Data.List.Perm.Subperm

/-!
# Meaning of the building blocks of `_jittable_ncon`
-/

set_option linter.unusedSectionVars false

namespace TN

open Finset NDArray

theorem map_getD_range {α : Type*} (l : List α) (d : α) :
    (List.range l.length).map (fun i => l.getD i d) = l := by
  apply List.ext_getElem (by simp)
  intro n h1 h2
  simp only [List.getElem_map, List.getElem_range]
  exact List.getD_eq_getElem _ _ h2

theorem freeAxes_append_perm {n : Nat} {ax : List Nat} (hn : ax.Nodup) (hlt : ∀ p ∈ ax, p < n) :
    (freeAxes n ax ++ ax).Perm (List.range n) := by
  rw [List.perm_ext_iff_of_nodup]
  · intro p
    simp only [freeAxes, List.mem_append, List.mem_filter, List.mem_range, decide_eq_true_eq]
    constructor
    · rintro (h | h)
      · exact h.1
      · exact hlt p h
    · intro h
      by_cases hp : p ∈ ax
      · exact Or.inr hp
      · exact Or.inl ⟨h, hp⟩
  · rw [List.nodup_append]
    refine ⟨List.Nodup.filter _ List.nodup_range, hn, ?_⟩
    intro a ha b hb hab
    subst hab
    simp [freeAxes] at ha
    exact ha.2 hb
  · exact List.nodup_range

namespace Ncon

variable {R : Type*}

theorem sortInt_perm (l : List Int) : (sortInt l).Perm l := List.mergeSort_perm _ _

theorem sortInt_sorted (l : List Int) : (sortInt l).Pairwise (· ≤ ·) := by
  have h := List.pairwise_mergeSort (le := fun a b : Int => decide (a ≤ b))
    (fun a b c hab hbc => by simp only [decide_eq_true_eq] at *; omega)
    (fun a b => by simp only [Bool.or_eq_true, decide_eq_true_eq]; omega) l
  exact h.imp (fun h => by simpa using h)

theorem everyOther_pairs (n : Nat) (s : List Int) (hn : s.length ≤ n)
    (hs : s.Pairwise (· ≤ ·)) (hc : ∀ l ∈ s, s.count l = 2) :
    s = (everyOther s.dropLast).flatMap (fun a => [a, a]) ∧ (everyOther s.dropLast).Nodup := by
  induction n generalizing s with
  | zero =>
    have : s = [] := List.length_eq_zero_iff.1 (by omega)
    subst this
    simp [everyOther]
  | succ n ih =>
    cases s with
    | nil => simp [everyOther]
    | cons a s =>
      have ha := hc a (by simp)
      rw [List.count_cons_self] at ha
      have ha1 : s.count a = 1 := by omega
      cases s with
      | nil => simp at ha1
      | cons b s =>
        have hab : b = a := by
          rw [List.pairwise_cons] at hs
          have h1 := hs.1 b (by simp)
          have hm : a ∈ b :: s := List.count_pos_iff.1 (by omega)
          rcases List.mem_cons.1 hm with h | h
          · exact h.symm
          · have h2 := (List.pairwise_cons.1 hs.2).1 a h
            omega
        subst hab
        rw [List.count_cons_self] at ha1
        have ha0 : b ∉ s := List.count_eq_zero.1 (by omega)
        have hc' : ∀ l ∈ s, s.count l = 2 := by
          intro l hl
          have h := hc l (by simp [hl])
          have hne : b ≠ l := fun h => ha0 (h ▸ hl)
          rwa [List.count_cons_of_ne hne, List.count_cons_of_ne hne] at h
        have hs' : s.Pairwise (· ≤ ·) :=
          (List.pairwise_cons.1 (List.pairwise_cons.1 hs).2).2
        obtain ⟨h1, h2⟩ := ih s (by simp at hn; omega) hs' hc'
        cases s with
        | nil => simp [everyOther]
        | cons c s =>
          have hdl : (b :: b :: c :: s).dropLast = b :: b :: (c :: s).dropLast := by
            simp
          rw [hdl]
          simp only [everyOther, List.flatMap_cons]
          refine ⟨by rw [← h1]; rfl, ?_⟩
          rw [List.nodup_cons]
          refine ⟨fun hm => ha0 ?_, h2⟩
          rw [h1, List.mem_flatMap]
          exact ⟨b, hm, by simp⟩

theorem positions_length (l : List Int) (x : Int) : (positions l x).length = l.count x := by
  have h : (positions l x).map (fun n => l.getD n 0) = l.filter (· == x) := by
    have h1 : l = (List.range l.length).map (fun n => l.getD n 0) := (map_getD_range l 0).symm
    conv_rhs => rw [h1, List.filter_map]
    rfl
  rw [List.count_eq_length_filter, ← h, List.length_map]

theorem mem_positions {l : List Int} {x : Int} {n : Nat} :
    n ∈ positions l x ↔ n < l.length ∧ l.getD n 0 = x := by
  simp [positions]

theorem positions_nodup (l : List Int) (x : Int) : (positions l x).Nodup :=
  List.Nodup.filter _ List.nodup_range

/-- The contracted axes of `_partial_trace`. -/
theorem pairs_perm {α β : Type*} (u : List α) (f g : α → β) :
    (u.map f ++ u.map g).Perm (u.flatMap (fun x => [f x, g x])) := by
  induction u with
  | nil => simp
  | cons a u ih =>
    simp only [List.map_cons, List.cons_append, List.flatMap_cons, List.nil_append]
    refine List.Perm.cons _ ?_
    exact List.perm_middle.trans (ih.cons _)

section ptrace

variable [AddCommMonoid R] {dim : Int → Nat}

theorem partialTrace_ok {t : NDArray R} {labels : List Int} (h : Shaped dim t labels) :
    ∃ r uniq, partialTrace t labels = .ok (r, labels.filter (fun l => l ∉ uniq), uniq) ∧
      uniq.Nodup ∧ (∀ l, l ∈ uniq ↔ labels.count l = 2) ∧
      Shaped dim r (labels.filter (fun l => l ∉ uniq)) ∧
      ∀ σ : Int → Nat, (∀ l ∈ labels.filter (fun l => l ∉ uniq), σ l < dim l) →
        val r (labels.filter (fun l => l ∉ uniq)) σ = sumOver dim uniq (val t labels) σ := by
  by_cases hpos : (labels.filter (fun l => labels.count l == 2)).length > 0
  swap
  · refine ⟨t, [], ?_, List.nodup_nil, ?_, ?_, ?_⟩
    · rw [partialTrace]
      simp only [if_neg hpos]
      simp [pure, Except.pure]
    · intro l
      simp only [List.not_mem_nil, false_iff]
      intro hl
      apply hpos
      refine List.length_pos_iff_exists_mem.2 ⟨l, List.mem_filter.2 ⟨List.count_pos_iff.1 (by omega), by simpa using hl⟩⟩
    · simpa using h
    · intro σ _
      simp [sumOver]
  · set tl := labels.filter (fun l => labels.count l == 2) with htl
    set uniq := everyOther (sortInt tl).dropLast with hu
    have hcount : ∀ l ∈ tl, tl.count l = 2 := by
      intro l hl
      rw [htl, List.mem_filter] at hl
      rw [htl, List.count_filter (p := fun l => labels.count l == 2) hl.2]
      simpa using hl.2
    obtain ⟨hpair, hnd⟩ := everyOther_pairs (sortInt tl).length (sortInt tl) le_rfl
      (sortInt_sorted tl) (by
        intro l hl
        rw [(sortInt_perm tl).count_eq]
        exact hcount l ((sortInt_perm tl).mem_iff.1 hl))
    rw [← hu] at hpair hnd
    have hmem : ∀ l, l ∈ uniq ↔ labels.count l = 2 := by
      intro l
      have h1 : l ∈ uniq ↔ l ∈ sortInt tl := by
        rw [hpair, List.mem_flatMap]
        constructor
        · intro h; exact ⟨l, h, by simp⟩
        · rintro ⟨a, ha, hla⟩
          have : l = a := by simpa using hla
          exact this ▸ ha
      rw [h1, (sortInt_perm tl).mem_iff, htl, List.mem_filter]
      simp only [beq_iff_eq, and_iff_right_iff_imp]
      intro hl
      exact List.count_pos_iff.1 (by omega)
    have hlen : tl.length = 2 * uniq.length := by
      rw [← (sortInt_perm tl).length_eq, hpair]
      simp [List.length_flatMap]
      omega
    -- positions of the traced labels
    have hposn : ∀ l ∈ uniq, positions labels l =
        [(positions labels l).getD 0 0, (positions labels l).getD 1 0] := by
      intro l hl
      have h2 : (positions labels l).length = 2 := by
        rw [positions_length]; exact (hmem l).1 hl
      match hx : positions labels l, h2 with
      | [a, b], _ => simp
    set f0 := fun l => (positions labels l).getD 0 0 with hf0
    set f1 := fun l => (positions labels l).getD 1 0 with hf1
    have hin0 : ∀ l ∈ uniq, f0 l ∈ positions labels l := by
      intro l hl; rw [hposn l hl]; simp [hf0]
    have hin1 : ∀ l ∈ uniq, f1 l ∈ positions labels l := by
      intro l hl; rw [hposn l hl]; simp [hf1]
    set cont := uniq.map f0 ++ uniq.map f1 with hcont
    have hcperm : cont.Perm (uniq.flatMap (fun l => [f0 l, f1 l])) := pairs_perm _ _ _
    have hcmem : ∀ p, p ∈ cont ↔ p < labels.length ∧ labels.getD p 0 ∈ uniq := by
      intro p
      rw [hcperm.mem_iff, List.mem_flatMap]
      constructor
      · rintro ⟨l, hl, hp⟩
        have : p ∈ positions labels l := by rw [hposn l hl]; exact hp
        rw [mem_positions] at this
        exact ⟨this.1, this.2 ▸ hl⟩
      · rintro ⟨hp, hl⟩
        refine ⟨_, hl, ?_⟩
        have : p ∈ positions labels (labels.getD p 0) := mem_positions.2 ⟨hp, rfl⟩
        rw [hposn _ hl] at this
        exact this
    have hcnd : cont.Nodup := by
      rw [hcperm.nodup_iff, List.nodup_flatMap]
      refine ⟨fun l hl => ?_, ?_⟩
      · have := positions_nodup labels l
        rw [hposn l hl] at this
        exact this
      · refine hnd.pairwise_of_forall_ne ?_
        intro a ha b hb hab p hpa hpb
        have h1 : p ∈ positions labels a := by rw [hposn a ha]; exact hpa
        have h2 : p ∈ positions labels b := by rw [hposn b hb]; exact hpb
        rw [mem_positions] at h1 h2
        exact hab (h1.2.symm.trans h2.2)
    have hperm : (freeAxes labels.length cont ++ cont).Perm (List.range labels.length) :=
      freeAxes_append_perm hcnd (fun p hp => ((hcmem p).1 hp).1)
    obtain ⟨t1, e1, e2, e3⟩ := transpose_val h hperm
    have hdef : (default : Int) = 0 := rfl
    have hfree : (freeAxes labels.length cont).map (fun p => labels.getD p default) =
        labels.filter (fun l => l ∉ uniq) := by
      have h1 : labels = (List.range labels.length).map (fun n => labels.getD n 0) :=
        (map_getD_range labels 0).symm
      conv_rhs => rw [h1, List.filter_map]
      rw [hdef]
      congr 1
      unfold freeAxes
      apply List.filter_congr
      intro p hp
      rw [List.mem_range] at hp
      simp [hcmem, hp]
    have hg0 : ∀ l ∈ uniq, labels.getD (f0 l) default = l := fun l hl =>
      (mem_positions.1 (hin0 l hl)).2
    have hg1 : ∀ l ∈ uniq, labels.getD (f1 l) default = l := fun l hl =>
      (mem_positions.1 (hin1 l hl)).2
    have hcl0 : (uniq.map f0).map (fun p => labels.getD p default) = uniq := by
      rw [List.map_map]
      conv_rhs => rw [← List.map_id uniq]
      exact List.map_congr_left hg0
    have hcl1 : (uniq.map f1).map (fun p => labels.getD p default) = uniq := by
      rw [List.map_map]
      conv_rhs => rw [← List.map_id uniq]
      exact List.map_congr_left hg1
    have hall : (freeAxes labels.length cont ++ cont).map (fun p => labels.getD p default) =
        labels.filter (fun l => l ∉ uniq) ++ (uniq ++ uniq) := by
      rw [List.map_append, hfree, hcont, List.map_append, hcl0, hcl1]
    rw [hall] at e2 e3
    obtain ⟨t2, t3, g1, g2, g3, g4⟩ := trace_groups e2 hnd (fun l hl => by
      simp only [List.mem_filter, decide_eq_true_eq] at hl
      exact hl.2)
    have hfs : (freeAxes labels.length cont).map (fun d => t.shape.getD d 0) =
        (labels.filter (fun l => l ∉ uniq)).map dim := by
      rw [shaped_map_getD h, hfree]
      intro p hp
      simp only [freeAxes, List.mem_filter, List.mem_range] at hp
      exact hp.1
    have hnum : tl.length / 2 = (uniq.map f0).length := by
      rw [hlen, List.length_map]; omega
    have hcd : ((cont.take (tl.length / 2)).map (fun d => t.shape.getD d 0)).prod =
        gdim dim uniq := by
      rw [hnum, hcont, List.take_left, shaped_map_getD h, hcl0]
      · rfl
      · intro p hp
        exact ((hcmem p).1 (by rw [hcont, List.mem_append]; exact Or.inl hp)).1
    refine ⟨t3, uniq, ?_, hnd, hmem, g3, ?_⟩
    · rw [partialTrace]
      simp only [← htl, if_pos hpos, ← hu]
      rw [py_bind_ok]
      refine ⟨t1, e1, ?_⟩
      rw [py_bind_ok]
      refine ⟨t2, ?_, ?_⟩
      · change t1.reshape ((freeAxes labels.length cont).map (fun d => t.shape.getD d 0) ++
          [((cont.take (tl.length / 2)).map (fun d => t.shape.getD d 0)).prod,
           ((cont.take (tl.length / 2)).map (fun d => t.shape.getD d 0)).prod]) = _
        rw [hfs, hcd]
        exact g1
      · rw [py_bind_ok]
        exact ⟨t3, g2, by simp⟩
    · intro σ hσ
      rw [g4 σ hσ]
      exact sumOver_congr (fun τ _ _ => e3 τ)

end ptrace

section cont

variable [CommSemiring R] {dim : Int → Nat}

theorem count_one_of_nodup {l : List Int} (h : l.Nodup) {x : Int} (hx : x ∈ l) :
    l.count x = 1 := List.count_eq_one_of_mem h hx

theorem map_getD_filter {l : List Int} (P : Int → Prop) [DecidablePred P] :
    ((List.range l.length).filter (fun n => P (l.getD n 0))).map (fun p => l.getD p 0) =
      l.filter (fun x => P x) := by
  have h1 : l = (List.range l.length).map (fun n => l.getD n 0) := (map_getD_range l 0).symm
  conv_rhs => rw [h1, List.filter_map]
  rfl

theorem groups_perm {l B C : List Int} (hl : l.Nodup) (hB : B.Nodup) (hC : C.Nodup)
    (hBl : ∀ x ∈ B, x ∈ l) (hCl : ∀ x ∈ C, x ∈ l) (hBC : ∀ x ∈ B, x ∉ C) :
    (B.map l.idxOf ++ ((List.range l.length).filter
      (fun n => l.getD n 0 ∉ C ∧ l.getD n 0 ∉ B) ++ C.map l.idxOf)).Perm
      (List.range l.length) := by
  have hBc : ∀ x ∈ B, l.count x = 1 := fun x hx => count_one_of_nodup hl (hBl x hx)
  have hCc : ∀ x ∈ C, l.count x = 1 := fun x hx => count_one_of_nodup hl (hCl x hx)
  have hmB : ∀ p, p ∈ B.map l.idxOf ↔ p < l.length ∧ l.getD p 0 ∈ B := by
    intro p
    constructor
    · intro h
      have hp := map_idxOf_lt hBc p h
      exact ⟨hp, (mem_idxOf_iff hBc hp).1 h⟩
    · rintro ⟨hp, h⟩
      exact (mem_idxOf_iff hBc hp).2 h
  have hmC : ∀ p, p ∈ C.map l.idxOf ↔ p < l.length ∧ l.getD p 0 ∈ C := by
    intro p
    constructor
    · intro h
      have hp := map_idxOf_lt hCc p h
      exact ⟨hp, (mem_idxOf_iff hCc hp).1 h⟩
    · rintro ⟨hp, h⟩
      exact (mem_idxOf_iff hCc hp).2 h
  rw [List.perm_ext_iff_of_nodup]
  · intro p
    simp only [List.mem_append, hmB, hmC, List.mem_filter, List.mem_range, decide_eq_true_eq]
    tauto
  · rw [List.nodup_append, List.nodup_append]
    refine ⟨idxOf_map_nodup hB hBc, ⟨List.Nodup.filter _ List.nodup_range,
      idxOf_map_nodup hC hCc, ?_⟩, ?_⟩
    · intro a ha b hb hab
      subst hab
      rw [hmC] at hb
      simp only [List.mem_filter, decide_eq_true_eq] at ha
      exact ha.2.1 hb.2
    · intro a ha b hb hab
      subst hab
      rw [hmB] at ha
      simp only [List.mem_append, hmC, List.mem_filter, decide_eq_true_eq] at hb
      rcases hb with hb | hb
      · exact hb.2.2 ha.2
      · exact hBC _ ha.2 hb.2
  · exact List.nodup_range

/-- Meaning of `_batch_cont`. -/
theorem batchCont_ok (so : SetOrder) (tag : Nat) {a b : LT R} {cb : List Int}
    (ha : Shaped dim a.1 a.2) (hb : Shaped dim b.1 b.2) (hna : a.2.Nodup) (hnb : b.2.Nodup)
    (hcb : cb.Nodup) (hca : ∀ l ∈ cb, l ∈ a.2) (hcb' : ∀ l ∈ cb, l ∈ b.2) :
    ∃ r cc, batchCont so tag a b cb = .ok ((r, cb ++ (a.2.filter (fun l => l ∉ cc ∧ l ∉ cb) ++
        b.2.filter (fun l => l ∉ cc ∧ l ∉ cb))), cc) ∧ cc.Nodup ∧
      (∀ l, l ∈ cc ↔ l ∈ a.2 ∧ l ∈ b.2 ∧ l ∉ cb) ∧
      Shaped dim r (cb ++ (a.2.filter (fun l => l ∉ cc ∧ l ∉ cb) ++
        b.2.filter (fun l => l ∉ cc ∧ l ∉ cb))) ∧
      ∀ σ : Int → Nat, (∀ l ∈ cb ++ (a.2.filter (fun l => l ∉ cc ∧ l ∉ cb) ++
        b.2.filter (fun l => l ∉ cc ∧ l ∉ cb)), σ l < dim l) →
        val r (cb ++ (a.2.filter (fun l => l ∉ cc ∧ l ∉ cb) ++
        b.2.filter (fun l => l ∉ cc ∧ l ∉ cb))) σ =
          sumOver dim cc (fun τ => val a.1 a.2 τ * val b.1 b.2 τ) σ := by
  obtain ⟨t1, l1⟩ := a
  obtain ⟨t2, l2⟩ := b
  simp only at *
  set cc := so.ord tag (((l1.filter (fun l => l ∉ cb)).dedup).filter
    (fun l => l ∈ l2.filter (fun l => l ∉ cb))) with hcc
  have hccn : cc.Nodup := by
    rw [hcc, (so.perm _ _).nodup_iff]
    exact List.Nodup.filter _ (List.nodup_dedup _)
  have hccm : ∀ l, l ∈ cc ↔ l ∈ l1 ∧ l ∈ l2 ∧ l ∉ cb := by
    intro l
    rw [hcc, (so.perm _ _).mem_iff]
    simp only [List.mem_filter, List.mem_dedup, decide_eq_true_eq]
    tauto
  have hcc1 : ∀ l ∈ cc, l1.count l = 1 := fun l hl => count_one_of_nodup hna ((hccm l).1 hl).1
  have hcc2 : ∀ l ∈ cc, l2.count l = 1 := fun l hl => count_one_of_nodup hnb ((hccm l).1 hl).2.1
  have hcb1 : ∀ l ∈ cb, l1.count l = 1 := fun l hl => count_one_of_nodup hna (hca l hl)
  have hcb2 : ∀ l ∈ cb, l2.count l = 1 := fun l hl => count_one_of_nodup hnb (hcb' l hl)
  have hbc : ∀ l ∈ cb, l ∉ cc := fun l hl h => ((hccm l).1 h).2.2 hl
  set F1 := l1.filter (fun l => l ∉ cc ∧ l ∉ cb) with hF1
  set F2 := l2.filter (fun l => l ∉ cc ∧ l ∉ cb) with hF2
  set f1 := (List.range l1.length).filter (fun n => l1.getD n 0 ∉ cc ∧ l1.getD n 0 ∉ cb) with hf1
  set f2 := (List.range l2.length).filter (fun n => l2.getD n 0 ∉ cc ∧ l2.getD n 0 ∉ cb) with hf2
  have hdef : (default : Int) = 0 := rfl
  have hf1m : f1.map (fun p => l1.getD p 0) = F1 := map_getD_filter (fun x => x ∉ cc ∧ x ∉ cb)
  have hf2m : f2.map (fun p => l2.getD p 0) = F2 := map_getD_filter (fun x => x ∉ cc ∧ x ∉ cb)
  have hb1m : (cb.map l1.idxOf).map (fun p => l1.getD p 0) = cb := map_idxOf_getD hcb1
  have hb2m : (cb.map l2.idxOf).map (fun p => l2.getD p 0) = cb := map_idxOf_getD hcb2
  have hc1m : (cc.map l1.idxOf).map (fun p => l1.getD p 0) = cc := map_idxOf_getD hcc1
  have hc2m : (cc.map l2.idxOf).map (fun p => l2.getD p 0) = cc := map_idxOf_getD hcc2
  have hp1 : (cb.map l1.idxOf ++ (f1 ++ cc.map l1.idxOf)).Perm (List.range l1.length) :=
    groups_perm hna hcb hccn hca (fun l hl => ((hccm l).1 hl).1) hbc
  have hp2 : (cb.map l2.idxOf ++ (cc.map l2.idxOf ++ f2)).Perm (List.range l2.length) :=
    (List.Perm.append_left _ List.perm_append_comm).trans
      (groups_perm hnb hcb hccn hcb' (fun l hl => ((hccm l).1 hl).2.1) hbc)
  obtain ⟨x1, e1, e2, e3⟩ := transpose_val ha hp1
  obtain ⟨x2, d1, d2, d3⟩ := transpose_val hb hp2
  have hm1 : (cb.map l1.idxOf ++ (f1 ++ cc.map l1.idxOf)).map (fun p => l1.getD p default) =
      cb ++ (F1 ++ cc) := by
    rw [List.map_append, List.map_append, hdef, hb1m, hf1m, hc1m]
  have hm2 : (cb.map l2.idxOf ++ (cc.map l2.idxOf ++ f2)).map (fun p => l2.getD p default) =
      cb ++ (cc ++ F2) := by
    rw [List.map_append, List.map_append, hdef, hb2m, hf2m, hc2m]
  rw [hm1] at e2 e3
  rw [hm2] at d2 d3
  obtain ⟨m1, m2, m, r, g1, g2, g3, g4, g5, g6⟩ := batch_groups e2 d2 hccn hbc
    (fun l hl => by
      simp only [hF1, List.mem_filter, decide_eq_true_eq] at hl; exact hl.2.1)
    (fun l hl => by
      simp only [hF2, List.mem_filter, decide_eq_true_eq] at hl; exact hl.2.1)
  have hlt1 : ∀ p ∈ f1, p < l1.length := fun p hp => by
    simp only [hf1, List.mem_filter, List.mem_range] at hp; exact hp.1
  have hlt2 : ∀ p ∈ f2, p < l2.length := fun p hp => by
    simp only [hf2, List.mem_filter, List.mem_range] at hp; exact hp.1
  have s1 : (cb.map l1.idxOf).map (fun p => t1.shape.getD p 0) = cb.map dim := by
    rw [shaped_map_getD ha (map_idxOf_lt hcb1), hdef, hb1m]
  have s2 : f1.map (fun p => t1.shape.getD p 0) = F1.map dim := by
    rw [shaped_map_getD ha hlt1, hdef, hf1m]
  have s3 : (cc.map l1.idxOf).map (fun p => t1.shape.getD p 0) = cc.map dim := by
    rw [shaped_map_getD ha (map_idxOf_lt hcc1), hdef, hc1m]
  have s4 : (cb.map l2.idxOf).map (fun p => t2.shape.getD p 0) = cb.map dim := by
    rw [shaped_map_getD hb (map_idxOf_lt hcb2), hdef, hb2m]
  have s5 : f2.map (fun p => t2.shape.getD p 0) = F2.map dim := by
    rw [shaped_map_getD hb hlt2, hdef, hf2m]
  have s6 : (cc.map l2.idxOf).map (fun p => t2.shape.getD p 0) = cc.map dim := by
    rw [shaped_map_getD hb (map_idxOf_lt hcc2), hdef, hc2m]
  refine ⟨r, cc, ?_, hccn, hccm, g5, ?_⟩
  · rw [batchCont]
    simp only [← hcc, ← hf1, ← hf2, s1, s2, s3, s4, s5, s6]
    rw [py_bind_ok]
    refine ⟨x1, e1, ?_⟩
    rw [py_bind_ok]
    refine ⟨m1, g1, ?_⟩
    rw [py_bind_ok]
    refine ⟨x2, d1, ?_⟩
    rw [py_bind_ok]
    refine ⟨m2, g2, ?_⟩
    rw [py_bind_ok]
    refine ⟨m, g3, ?_⟩
    rw [py_bind_ok]
    refine ⟨r, g4, ?_⟩
    simp only [hb1m, hf1m, hf2m, py_pure_ok]
    rfl
  · intro σ hσ
    rw [g6 σ hσ]
    exact sumOver_congr (fun τ _ _ => by rw [e3, d3])

theorem map_getD_range_perm {α : Type*} {ind : List Nat} {l : List α} {d : α}
    (h : ind.Perm (List.range l.length)) : (ind.map (fun i => l.getD i d)).Perm l := by
  refine (h.map _).trans ?_
  rw [map_getD_range]

theorem nat_map_getD_idxOf {c1 s : List Nat} (hn : c1.Nodup) (hs : s.Perm c1) :
    (s.map c1.idxOf).Perm (List.range c1.length) := by
  refine (hs.map _).trans ?_
  have : c1.map c1.idxOf = List.range c1.length := by
    apply List.ext_getElem (by simp)
    intro n h1 h2
    simp only [List.getElem_map, List.getElem_range]
    exact hn.idxOf_getElem n (by simpa using h1)
  rw [this]

/-- Meaning of the `tensordot` branch. -/
theorem dotCont_ok {a b : LT R} {common : List Int}
    (ha : Shaped dim a.1 a.2) (hb : Shaped dim b.1 b.2) (hna : a.2.Nodup) (hnb : b.2.Nodup)
    (hcn : common.Nodup) (hca : ∀ l ∈ common, l ∈ a.2) (hcb : ∀ l ∈ common, l ∈ b.2) :
    ∃ r, dotCont a b common = .ok (r, a.2.filter (fun l => l ∉ common) ++
        b.2.filter (fun l => l ∉ common)) ∧
      Shaped dim r (a.2.filter (fun l => l ∉ common) ++ b.2.filter (fun l => l ∉ common)) ∧
      ∀ σ, val r (a.2.filter (fun l => l ∉ common) ++ b.2.filter (fun l => l ∉ common)) σ =
        sumOver dim common (fun τ => val a.1 a.2 τ * val b.1 b.2 τ) σ := by
  obtain ⟨t1, l1⟩ := a
  obtain ⟨t2, l2⟩ := b
  simp only at *
  have hc1 : ∀ l ∈ common, l1.count l = 1 := fun l hl => count_one_of_nodup hna (hca l hl)
  have hc2 : ∀ l ∈ common, l2.count l = 1 := fun l hl => count_one_of_nodup hnb (hcb l hl)
  set c1 := common.map l1.idxOf with hc1d
  set c2 := common.map l2.idxOf with hc2d
  set ind := (c1.mergeSort (fun x y => decide (x ≤ y))).map c1.idxOf with hind
  have hpi : ind.Perm (List.range common.length) := by
    have := nat_map_getD_idxOf (idxOf_map_nodup hcn hc1) (List.mergeSort_perm c1
      (fun x y => decide (x ≤ y)))
    rw [← hc1d, ← hind] at this
    simpa [hc1d] using this
  set C := ind.map (fun i => common.getD i 0) with hC
  have hCp : C.Perm common := map_getD_range_perm hpi
  have hi1 : ind.map (fun i => c1.getD i 0) = C.map l1.idxOf := by
    have e : C.map l1.idxOf = ind.map (fun i => l1.idxOf (common.getD i 0)) := by
      rw [hC]; exact List.map_map ..
    rw [e]
    refine List.map_congr_left fun i hi => ?_
    have hi' : i < common.length := by simpa using hpi.mem_iff.1 hi
    rw [List.getD_eq_getElem _ _ hi', List.getD_eq_getElem _ _ (by simpa [hc1d] using hi')]
    simp [hc1d]
  have hi2 : ind.map (fun i => c2.getD i 0) = C.map l2.idxOf := by
    have e : C.map l2.idxOf = ind.map (fun i => l2.idxOf (common.getD i 0)) := by
      rw [hC]; exact List.map_map ..
    rw [e]
    refine List.map_congr_left fun i hi => ?_
    have hi' : i < common.length := by simpa using hpi.mem_iff.1 hi
    rw [List.getD_eq_getElem _ _ hi', List.getD_eq_getElem _ _ (by simpa [hc2d] using hi')]
    simp [hc2d]
  obtain ⟨r, e1, e2, e3⟩ := tensordot_val ha hb (hCp.nodup_iff.2 hcn)
    (fun l hl => hc1 l (hCp.mem_iff.1 hl)) (fun l hl => hc2 l (hCp.mem_iff.1 hl))
  have hf : ∀ l : List Int, l.filter (fun x => x ∉ C) = l.filter (fun x => x ∉ common) := by
    intro l
    apply List.filter_congr
    intro x _
    simp [hCp.mem_iff]
  simp only [hf] at e2 e3
  refine ⟨r, ?_, e2, ?_⟩
  · rw [dotCont]
    simp only [← hc1d, ← hc2d, ← hind, hi1, hi2]
    rw [py_bind_ok]
    exact ⟨r, e1, by simp⟩
  · intro σ
    rw [e3, sumOver_perm hCp]

end cont

end Ncon

end TN
