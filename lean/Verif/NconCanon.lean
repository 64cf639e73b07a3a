import Verif.NconApi
import Verif.NconMain
import Verif.Einsum

/-!
# Label checks and canonical labels
-/

set_option linter.unusedSectionVars false

namespace TN.Ncon

open NDArray

theorem sortStr_perm (l : List String) : (sortStr l).Perm l := List.mergeSort_perm _ _

theorem sortStr_sorted (l : List String) : (sortStr l).Pairwise (· ≤ ·) := by
  have h := List.pairwise_mergeSort (le := fun a b : String => decide (a ≤ b))
    (fun a b c hab hbc => by
      simp only [decide_eq_true_eq] at *
      exact le_trans hab hbc)
    (fun a b => by
      simp only [Bool.or_eq_true, decide_eq_true_eq]
      exact le_total a b) l
  exact h.imp (fun h => by simpa using h)

theorem mem_intLabels {fl : List Lab} {i : Int} : i ∈ intLabels fl ↔ Lab.num i ∈ fl := by
  simp only [intLabels, List.mem_dedup, List.mem_filterMap]
  constructor
  · rintro ⟨l, hl, h⟩
    cases l with
    | num j => simp only [Lab.int?, Option.some.injEq] at h; exact h ▸ hl
    | str s => simp [Lab.int?] at h
  · intro h
    exact ⟨_, h, rfl⟩

theorem mem_strLabels {fl : List Lab} {s : String} : s ∈ strLabels fl ↔ Lab.str s ∈ fl := by
  simp only [strLabels, List.mem_dedup, List.mem_filterMap]
  constructor
  · rintro ⟨l, hl, h⟩
    cases l with
    | num j => simp [Lab.str?] at h
    | str s => simp only [Lab.str?, Option.some.injEq] at h; exact h ▸ hl
  · intro h
    exact ⟨_, h, rfl⟩

theorem num_injective : Function.Injective Lab.num := fun _ _ h => by injection h
theorem str_injective : Function.Injective Lab.str := fun _ _ h => by injection h

theorem mem_negKeys {fl : List Lab} {l : Lab} :
    l ∈ negKeys fl ↔ l ∈ fl ∧ l.isOpen = true := by
  unfold negKeys
  cases l with
  | num i =>
    simp only [List.mem_append, List.mem_map, reduceCtorEq, and_false, exists_false, false_or,
      Lab.num.injEq, exists_eq_right, (sortInt_perm _).mem_iff, List.mem_filter,
      mem_intLabels, Lab.isOpen]
  | str s =>
    simp only [List.mem_append, List.mem_map, reduceCtorEq, and_false, exists_false, or_false,
      Lab.str.injEq, exists_eq_right, List.mem_reverse, (sortStr_perm _).mem_iff,
      List.mem_filter, mem_strLabels]

theorem mem_posKeys {fl : List Lab} {l : Lab} :
    l ∈ posKeys fl ↔ l ∈ fl ∧ l.isOpen = false ∧ l ≠ .num 0 := by
  unfold posKeys
  cases l with
  | num i =>
    simp only [List.mem_append, List.mem_map, reduceCtorEq, and_false, exists_false, or_false,
      Lab.num.injEq, exists_eq_right, (sortInt_perm _).mem_iff, List.mem_filter,
      mem_intLabels, Lab.isOpen, decide_eq_true_eq, decide_eq_false_iff_not, ne_eq]
    refine and_congr_right fun _ => ?_
    omega
  | str s =>
    simp only [List.mem_append, List.mem_map, reduceCtorEq, and_false, exists_false, false_or,
      Lab.str.injEq, exists_eq_right, (sortStr_perm _).mem_iff,
      List.mem_filter, mem_strLabels, Bool.not_eq_eq_eq_not, Bool.not_true, ne_eq, not_false_eq_true,
      and_true]

theorem negKeys_nodup (fl : List Lab) : (negKeys fl).Nodup := by
  unfold negKeys
  rw [List.nodup_append]
  refine ⟨List.Nodup.map str_injective ?_, List.Nodup.map num_injective ?_, ?_⟩
  · rw [List.nodup_reverse, (sortStr_perm _).nodup_iff]
    exact (List.nodup_dedup _).filter _
  · rw [(sortInt_perm _).nodup_iff]
    exact (List.nodup_dedup _).filter _
  · intro a ha b hb hab
    obtain ⟨s, _, rfl⟩ := List.mem_map.1 ha
    obtain ⟨i, _, rfl⟩ := List.mem_map.1 hb
    cases hab

theorem posKeys_nodup (fl : List Lab) : (posKeys fl).Nodup := by
  unfold posKeys
  rw [List.nodup_append]
  refine ⟨List.Nodup.map num_injective ?_, List.Nodup.map str_injective ?_, ?_⟩
  · rw [(sortInt_perm _).nodup_iff]
    exact (List.nodup_dedup _).filter _
  · rw [(sortStr_perm _).nodup_iff]
    exact (List.nodup_dedup _).filter _
  · intro a ha b hb hab
    obtain ⟨i, _, rfl⟩ := List.mem_map.1 ha
    obtain ⟨s, _, rfl⟩ := List.mem_map.1 hb
    cases hab

/-- The canonical label as a total function. -/
def canon (fl : List Lab) (l : Lab) : Int := (canonLabel fl l).getD 0

section canon

variable {fl : List Lab}

theorem canonLabel_eq {l : Lab} (hl : l ∈ fl) (h0 : l ≠ .num 0) :
    canonLabel fl l = some (canon fl l) := by
  unfold canon canonLabel
  split
  · rfl
  · rename_i hn
    rw [if_pos]
    · rfl
    · rw [mem_posKeys]
      rw [mem_negKeys] at hn
      refine ⟨hl, ?_, h0⟩
      simpa [hl] using hn

theorem canon_neg {l : Lab} (hl : l ∈ negKeys fl) :
    canon fl l = ((negKeys fl).idxOf l : Int) - (negKeys fl).length := by
  simp [canon, canonLabel, hl]

theorem canon_pos {l : Lab} (hl : l ∈ posKeys fl) :
    canon fl l = ((posKeys fl).idxOf l : Int) + 1 := by
  have : l ∉ negKeys fl := by
    rw [mem_posKeys] at hl
    rw [mem_negKeys]
    simp [hl.2.1]
  simp [canon, canonLabel, hl, this]

theorem canon_lt {l : Lab} (hl : l ∈ fl) (h : l.isOpen = true) : canon fl l < 0 := by
  have hm : l ∈ negKeys fl := mem_negKeys.2 ⟨hl, h⟩
  rw [canon_neg hm]
  have := List.idxOf_lt_length_of_mem hm
  omega

theorem canon_gt {l : Lab} (hl : l ∈ fl) (h : l.isOpen = false) (h0 : l ≠ .num 0) :
    0 < canon fl l := by
  have hm : l ∈ posKeys fl := mem_posKeys.2 ⟨hl, h, h0⟩
  rw [canon_pos hm]
  omega

theorem canon_inj (h0 : Lab.num 0 ∉ fl) {a b : Lab} (ha : a ∈ fl) (hb : b ∈ fl)
    (h : canon fl a = canon fl b) : a = b := by
  have ha0 : a ≠ .num 0 := fun h => h0 (h ▸ ha)
  have hb0 : b ≠ .num 0 := fun h => h0 (h ▸ hb)
  by_cases hao : a.isOpen = true <;> by_cases hbo : b.isOpen = true
  · have h1 : a ∈ negKeys fl := mem_negKeys.2 ⟨ha, hao⟩
    have h2 : b ∈ negKeys fl := mem_negKeys.2 ⟨hb, hbo⟩
    rw [canon_neg h1, canon_neg h2] at h
    exact (List.idxOf_inj h1).1 (by omega)
  · have h1 := canon_lt ha hao
    have h2 := canon_gt hb (by simpa using hbo) hb0
    omega
  · have h1 := canon_lt hb hbo
    have h2 := canon_gt ha (by simpa using hao) ha0
    omega
  · have h1 : a ∈ posKeys fl := mem_posKeys.2 ⟨ha, by simpa using hao, ha0⟩
    have h2 : b ∈ posKeys fl := mem_posKeys.2 ⟨hb, by simpa using hbo, hb0⟩
    rw [canon_pos h1, canon_pos h2] at h
    exact (List.idxOf_inj h1).1 (by omega)

theorem lookupAll_ok (h0 : Lab.num 0 ∉ fl) {l : List Lab} (hl : ∀ x ∈ l, x ∈ fl) :
    lookupAll fl l = .ok (l.map (canon fl)) := by
  induction l with
  | nil => rfl
  | cons a l ih =>
    have h1 := canonLabel_eq (hl a (by simp)) (fun h => h0 (h ▸ hl a (by simp)))
    have h2 := ih (fun x hx => hl x (by simp [hx]))
    simp only [lookupAll] at h2 ⊢
    simp [pyMap, h1, h2]

theorem canon_negKeys : (negKeys fl).map (canon fl) =
    (List.range (negKeys fl).length).map (fun k : Nat => (k : Int) - (negKeys fl).length) := by
  apply List.ext_getElem (by simp)
  intro n h1 h2
  have hn : n < (negKeys fl).length := by simpa using h1
  simp only [List.getElem_map, List.getElem_range]
  rw [canon_neg (List.getElem_mem hn), (negKeys_nodup fl).idxOf_getElem]

theorem canon_posKeys : (posKeys fl).map (canon fl) =
    (List.range (posKeys fl).length).map (fun k : Nat => (k : Int) + 1) := by
  apply List.ext_getElem (by simp)
  intro n h1 h2
  have hn : n < (posKeys fl).length := by simpa using h1
  simp only [List.getElem_map, List.getElem_range]
  rw [canon_pos (List.getElem_mem hn), (posKeys_nodup fl).idxOf_getElem]

theorem sorted_range_map (n : Nat) (c : Int) :
    ((List.range n).map (fun k : Nat => (k : Int) + c)).Pairwise (· < ·) := by
  rw [List.pairwise_map]
  refine List.pairwise_lt_range.imp ?_
  intro a b h
  omega

theorem sortInt_eq {l s : List Int} (hp : s.Perm l) (hs : s.Pairwise (· < ·)) :
    sortInt l = s := by
  refine List.Perm.eq_of_pairwise (le := (· ≤ ·)) ?_ (sortInt_sorted l)
    (hs.imp (fun h => le_of_lt h)) ((sortInt_perm l).trans hp.symm)
  intro a b _ _ h1 h2
  omega

/-- Default output order. -/
theorem default_out (h0 : Lab.num 0 ∉ fl) :
    (sortInt ((fl.map (canon fl)).dedup.filter (fun l => l < 0))).reverse =
      (negKeys fl).reverse.map (canon fl) := by
  rw [List.map_reverse]
  congr 1
  apply sortInt_eq
  · rw [List.perm_ext_iff_of_nodup]
    · intro x
      simp only [List.mem_map, List.mem_filter, List.mem_dedup, decide_eq_true_eq, mem_negKeys]
      constructor
      · rintro ⟨l, ⟨h1, h2⟩, rfl⟩
        exact ⟨⟨l, h1, rfl⟩, canon_lt h1 h2⟩
      · rintro ⟨⟨l, h1, rfl⟩, h2⟩
        refine ⟨l, ⟨h1, ?_⟩, rfl⟩
        by_contra h
        have := canon_gt h1 (by simpa using h) (fun h => h0 (h ▸ h1))
        omega
    · rw [canon_negKeys]
      have := sorted_range_map (negKeys fl).length (-((negKeys fl).length : Int))
      exact this.imp (fun h => ne_of_lt h)
    · exact (List.nodup_dedup _).filter _
  · rw [canon_negKeys]
    exact sorted_range_map (negKeys fl).length (-((negKeys fl).length : Int))

/-- Default contraction order. -/
theorem default_con (h0 : Lab.num 0 ∉ fl) :
    sortInt ((fl.map (canon fl)).dedup.filter (fun l => l > 0)) =
      (posKeys fl).map (canon fl) := by
  apply sortInt_eq
  · rw [List.perm_ext_iff_of_nodup]
    · intro x
      simp only [List.mem_map, List.mem_filter, List.mem_dedup, decide_eq_true_eq, mem_posKeys]
      constructor
      · rintro ⟨l, ⟨h1, h2, h3⟩, rfl⟩
        exact ⟨⟨l, h1, rfl⟩, canon_gt h1 h2 h3⟩
      · rintro ⟨⟨l, h1, rfl⟩, h2⟩
        refine ⟨l, ⟨h1, ?_, fun h => h0 (h ▸ h1)⟩, rfl⟩
        by_contra h
        have := canon_lt h1 (by simpa using h)
        omega
    · rw [canon_posKeys]
      exact (sorted_range_map _ _).imp (fun h => ne_of_lt h)
    · exact (List.nodup_dedup _).filter _
  · rw [canon_posKeys]
    exact sorted_range_map _ _

end canon

section injOn

variable {α β : Type*} [DecidableEq α] [DecidableEq β] {m : α → β} {S : List α}

theorem count_map_injOn (hinj : ∀ a ∈ S, ∀ b ∈ S, m a = m b → a = b) {l : List α}
    (hl : ∀ x ∈ l, x ∈ S) {a : α} (ha : a ∈ S) : (l.map m).count (m a) = l.count a := by
  induction l with
  | nil => rfl
  | cons b l ih =>
    have ih' := ih (fun x hx => hl x (by simp [hx]))
    rw [List.map_cons, List.count_cons, List.count_cons, ih']
    congr 1
    have hb := hl b (by simp)
    by_cases h : b = a
    · subst h; simp
    · have : m b ≠ m a := fun hm => h (hinj b hb a ha hm)
      simp [h, this]

theorem idxOf_map_injOn (hinj : ∀ a ∈ S, ∀ b ∈ S, m a = m b → a = b) {l : List α}
    (hl : ∀ x ∈ l, x ∈ S) {a : α} (ha : a ∈ S) : (l.map m).idxOf (m a) = l.idxOf a := by
  induction l with
  | nil => rfl
  | cons b l ih =>
    have ih' := ih (fun x hx => hl x (by simp [hx]))
    have hb := hl b (by simp)
    by_cases h : b = a
    · subst h; simp
    · have : m b ≠ m a := fun hm => h (hinj b hb a ha hm)
      rw [List.map_cons, List.idxOf_cons_ne _ this, List.idxOf_cons_ne _ h, ih']

end injOn

end TN.Ncon
