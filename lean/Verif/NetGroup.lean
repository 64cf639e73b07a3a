import Verif.Net

/-!
# Grouping labels in a network

A label `c` of a coarse network stands for the list of labels `E` of a fine network: the
position of `c` is the row-major position of `E`.  Flattening edges goes from fine to coarse,
splitting an edge from coarse to fine.
-/

namespace TN

open Finset NDArray

set_option linter.unusedSectionVars false

variable {R : Type*} {L : Type*} [DecidableEq L]

/-- Replace the label `c` by the labels `E`. -/
def expand (c : L) (E : List L) (ls : List L) : List L :=
  ls.flatMap fun l => if l = c then E else [l]

variable {dim dim' : L → Nat} {c : L} {E : List L}

@[simp] theorem expand_nil : expand c E [] = [] := rfl

@[simp] theorem expand_append (a b : List L) :
    expand c E (a ++ b) = expand c E a ++ expand c E b := by simp [expand]

@[simp] theorem expand_single : expand c E [c] = E := by simp [expand]

theorem expand_of_not_mem {ls : List L} (h : c ∉ ls) : expand c E ls = ls := by
  induction ls with
  | nil => rfl
  | cons a ls ih =>
    simp only [List.mem_cons, not_or] at h
    have : a ≠ c := fun h1 => h.1 h1.symm
    rw [expand, List.flatMap_cons, if_neg this]
    exact congrArg (a :: ·) (ih h.2)

theorem mem_expand {ls : List L} {l : L} :
    l ∈ expand c E ls ↔ (l ∈ ls ∧ l ≠ c) ∨ (c ∈ ls ∧ l ∈ E) := by
  simp only [expand, List.mem_flatMap]
  constructor
  · rintro ⟨x, hx, hl⟩
    by_cases h : x = c
    · rw [if_pos h] at hl; exact .inr ⟨h ▸ hx, hl⟩
    · rw [if_neg h] at hl
      simp only [List.mem_singleton] at hl
      subst hl
      exact .inl ⟨hx, h⟩
  · rintro (⟨h1, h2⟩ | ⟨h1, h2⟩)
    · exact ⟨l, h1, by simp [h2]⟩
    · exact ⟨c, h1, by simpa using h2⟩

theorem count_expand (hE : E.Nodup) {ls : List L} (hd : ∀ l ∈ E, l ∉ ls) (l : L) :
    (expand c E ls).count l =
      if l ∈ E then ls.count c else if l = c then 0 else ls.count l := by
  induction ls with
  | nil => simp
  | cons a ls ih =>
    have ih := ih fun l hl h => hd l hl (by simp [h])
    rw [expand, List.flatMap_cons, List.count_append]
    change _ + (expand c E ls).count l = _
    rw [ih]
    by_cases hl : l ∈ E
    · simp only [hl, if_true]
      have hla : l ≠ a := fun h => hd l hl (by simp [h])
      by_cases hac : a = c
      · subst hac
        rw [if_pos rfl, List.count_cons_self, List.count_eq_one_of_mem hE hl]; omega
      · rw [if_neg hac, List.count_cons_of_ne hac]
        simp [Ne.symm hla]
    · simp only [hl, if_false]
      by_cases hlc : l = c
      · subst hlc
        simp only [if_true]
        by_cases hac : a = l
        · rw [if_pos hac, List.count_eq_zero.2 hl]
        · rw [if_neg hac]; simp [hac]
      · simp only [hlc, if_false]
        by_cases hac : a = c
        · have : a ≠ l := by rw [hac]; exact Ne.symm hlc
          rw [if_pos hac, List.count_eq_zero.2 hl, List.count_cons_of_ne this]; omega
        · rw [if_neg hac, List.count_cons, List.count_cons, List.count_nil]; omega

theorem expand_groups (ls : List L) :
    (ls.map fun l => if l = c then E else [l]).flatten = expand c E ls := by
  simp [expand, List.flatMap_def]

theorem expand_gdim (hc : dim' c = gdim dim E) {ls : List L}
    (hd : ∀ l ∈ ls, l ≠ c → dim' l = dim l) :
    (ls.map fun l => if l = c then E else [l]).map (gdim dim) = ls.map dim' := by
  rw [List.map_map]
  refine List.map_congr_left fun l hl => ?_
  by_cases h : l = c
  · subst h; simp [hc]
  · simp [h, hd l hl h]

theorem expand_gpos {ls : List L} (τ : L → Nat) :
    (ls.map fun l => if l = c then E else [l]).map (fun g => gpos dim g τ) =
      ls.map (Function.update τ c (gpos dim E τ)) := by
  rw [List.map_map]
  refine List.map_congr_left fun l _ => ?_
  by_cases h : l = c
  · subst h; simp
  · simp [h]

/-- Merging axes with a reshape. -/
theorem reshape_coarse {t : NDArray R} {ls : List L} (h : Shaped dim t (expand c E ls))
    (hc : dim' c = gdim dim E) (hd : ∀ l ∈ ls, l ≠ c → dim' l = dim l) :
    ∃ t', t.reshape (ls.map dim') = .ok t' ∧ Shaped dim' t' ls ∧
      ∀ τ : L → Nat, (∀ l ∈ expand c E ls, τ l < dim l) →
        val t' ls (Function.update τ c (gpos dim E τ)) = val t (expand c E ls) τ := by
  obtain ⟨t', h1, h2, h3⟩ := reshape_merge (t := t)
    (gs := ls.map fun l => if l = c then E else [l]) (dim := dim) (by rw [expand_groups]; exact h)
  rw [expand_gdim hc hd] at h1 h2
  refine ⟨t', h1, h2, fun τ hτ => ?_⟩
  have h4 := h3 τ (by rw [expand_groups]; exact hτ)
  rw [expand_gpos, expand_groups] at h4
  exact h4

/-- Splitting axes with a reshape. -/
theorem reshape_fine {t : NDArray R} {ls : List L} (h : Shaped dim' t ls)
    (hc : dim' c = gdim dim E) (hd : ∀ l ∈ ls, l ≠ c → dim' l = dim l) :
    ∃ t', t.reshape ((expand c E ls).map dim) = .ok t' ∧ Shaped dim t' (expand c E ls) ∧
      ∀ τ : L → Nat, (∀ l ∈ expand c E ls, τ l < dim l) →
        val t ls (Function.update τ c (gpos dim E τ)) = val t' (expand c E ls) τ := by
  obtain ⟨t', h1, h2, h3⟩ := reshape_split (t := t)
    (gs := ls.map fun l => if l = c then E else [l]) (dim := dim)
    (by rw [expand_gdim hc hd]; exact h)
  rw [expand_groups] at h1 h2
  refine ⟨t', h1, h2, fun τ hτ => ?_⟩
  have h4 := h3 τ (by rw [expand_groups]; exact hτ)
  rw [expand_gpos, expand_groups] at h4
  exact h4.symm

variable [CommSemiring R]

/-- The fine node `p` and the coarse node `q` have the same entries. -/
def Regroup (dim : L → Nat) (c : L) (E : List L) (p q : NDArray R × List L) : Prop :=
  p.2 = expand c E q.2 ∧ ∀ τ : L → Nat, (∀ l ∈ p.2, τ l < dim l) →
    val q.1 q.2 (Function.update τ c (gpos dim E τ)) = val p.1 p.2 τ

theorem Regroup.refl {p : NDArray R × List L} (h : c ∉ p.2) : Regroup dim c E p p := by
  refine ⟨(expand_of_not_mem h).symm, fun τ _ => ?_⟩
  refine dependsOn_val _ _ _ _ fun l hl => ?_
  rw [Function.update_of_ne]
  rintro rfl; exact h hl

theorem regroup_flat {a b : List (NDArray R × List L)} (h : List.Forall₂ (Regroup dim c E) a b) :
    flatL a = expand c E (flatL b) := by
  induction h with
  | nil => rfl
  | cons h1 _ ih => rw [flatL_cons, flatL_cons, expand_append, ih, h1.1]

theorem regroup_prod {a b : List (NDArray R × List L)} (h : List.Forall₂ (Regroup dim c E) a b)
    {τ : L → Nat} (hτ : ∀ l ∈ flatL a, τ l < dim l) :
    prodVal b (Function.update τ c (gpos dim E τ)) = prodVal a τ := by
  induction h with
  | nil => rfl
  | cons h1 _ ih =>
    rw [flatL_cons] at hτ
    rw [prodVal_cons, prodVal_cons, ih (fun l hl => hτ l (by simp [hl])),
      h1.2 τ (fun l hl => hτ l (by simp [hl]))]

/-- A summed label may be replaced by a list of summed labels. -/
theorem netVal_regroup {a b : List (NDArray R × List L)}
    (h : List.Forall₂ (Regroup dim c E) a b) (ha : Consistent dim a) (hb : Consistent dim' b)
    (hc : dim' c = gdim dim E) (hd : ∀ l ∈ flatL b, l ≠ c → dim' l = dim l)
    (hE : E.Nodup) (hcE : c ∉ E) (hdis : ∀ l ∈ E, l ∉ flatL b) (h2 : (flatL b).count c = 2)
    (σ : L → Nat) (hσ : ∀ l ∈ flatL a, (flatL a).count l ≠ 2 → σ l < dim l) :
    netVal b σ = netVal a σ := by
  have hfl := regroup_flat h
  have hcnt : ∀ l, (flatL a).count l = if l ∈ E then 2 else if l = c then 0
      else (flatL b).count l := by
    intro l; rw [hfl, count_expand hE hdis, h2]
  have hcm : c ∈ closedL b := mem_closedL.2 h2
  obtain ⟨D, hD⟩ : ∃ D, D = (closedL b).erase c := ⟨_, rfl⟩
  have hDn : D.Nodup := by rw [hD]; exact (closedL_nodup b).erase c
  have hDm : ∀ l, l ∈ D ↔ l ≠ c ∧ (flatL b).count l = 2 := by
    intro l; rw [hD, (closedL_nodup b).mem_erase_iff, mem_closedL]
  have hDE : ∀ l ∈ D, l ∉ E := by
    intro l hl hlE
    have := ((hDm l).1 hl).2
    rw [List.count_eq_zero.2 (hdis l hlE)] at this
    omega
  have hpb : (closedL b).Perm (D ++ [c]) := by
    rw [hD]
    exact (List.perm_cons_erase hcm).trans (List.perm_append_singleton _ _).symm
  have hpa : (closedL a).Perm (D ++ E) := by
    rw [List.perm_ext_iff_of_nodup (closedL_nodup _)]
    · intro l
      rw [mem_closedL, hcnt, List.mem_append, hDm]
      by_cases hlE : l ∈ E
      · simp [hlE]
      · by_cases hlc : l = c
        · simp [hlc, hcE]
        · simp [hlE, hlc]
    · exact List.nodup_append.2 ⟨hDn, hE, fun x hx y hy hxy => hDE x hx (hxy ▸ hy)⟩
  rw [netVal_eq ha, netVal_eq hb, sumOver_perm hpa, sumOver_perm hpb, sumOver_append,
    sumOver_append]
  rw [sumOver_dim_congr (dim' := dim) (fun l hl => hd l
    (List.count_pos_iff.1 (by rw [((hDm l).1 hl).2]; omega)) ((hDm l).1 hl).1)]
  refine sumOver_congr fun τ hτ1 hτ2 => ?_
  simp only [sumOver]
  rw [hc, sumOver_eq_sumIdx, ← sum_range_unravel]
  refine Finset.sum_congr rfl fun k hk => ?_
  have hk' : k < (E.map dim).prod := Finset.mem_range.1 hk
  have hin := unravel_inB hk'
  have hb : ∀ l ∈ flatL a, assign τ E (unravel (E.map dim) k) l < dim l := by
    intro l hl
    by_cases hlE : l ∈ E
    · exact assign_lt hE hin hlE
    · rw [assign_not_mem hlE]
      by_cases hlD : l ∈ D
      · exact hτ2 l hlD
      · rw [hτ1 l hlD]
        refine hσ l hl ?_
        intro h4
        rw [hcnt, if_neg hlE] at h4
        by_cases hlc : l = c
        · rw [if_pos hlc] at h4; omega
        · rw [if_neg hlc] at h4
          exact hlD ((hDm l).2 ⟨hlc, h4⟩)
  rw [← regroup_prod h hb, gpos_assign hE hin, ravel_unravel hk']
  refine prodVal_dependsOn _ _ _ fun l hl => ?_
  by_cases hlc : l = c
  · subst hlc; simp
  · rw [Function.update_of_ne hlc, Function.update_of_ne hlc, assign_not_mem]
    intro h5; exact hdis l h5 hl

theorem sumOver_update {C : List L} {g : (L → Nat) → R} (hc : c ∉ C) (v : Nat) (σ : L → Nat) :
    sumOver dim C (fun τ => g (Function.update τ c v)) σ =
      sumOver dim C g (Function.update σ c v) := by
  induction C generalizing σ with
  | nil => rfl
  | cons a C ih =>
    simp only [List.mem_cons, not_or] at hc
    simp only [sumOver]
    refine Finset.sum_congr rfl fun i _ => ?_
    rw [ih hc.2, Function.update_comm hc.1]

/-- An open label may be replaced by a list of open labels. -/
theorem netVal_regroup_open {a b : List (NDArray R × List L)}
    (h : List.Forall₂ (Regroup dim c E) a b) (ha : Consistent dim a) (hb : Consistent dim' b)
    (hd : ∀ l ∈ flatL b, l ≠ c → dim' l = dim l)
    (hE : E.Nodup) (hcE : c ∉ E) (hdis : ∀ l ∈ E, l ∉ flatL b) (h1 : (flatL b).count c = 1)
    (σ : L → Nat) (hσ : ∀ l ∈ flatL a, (flatL a).count l ≠ 2 → σ l < dim l) :
    netVal b (Function.update σ c (gpos dim E σ)) = netVal a σ := by
  have hfl := regroup_flat h
  have hcnt : ∀ l, (flatL a).count l = if l ∈ E then 1 else if l = c then 0
      else (flatL b).count l := by
    intro l; rw [hfl, count_expand hE hdis, h1]
  have hp : (closedL b).Perm (closedL a) := by
    rw [List.perm_ext_iff_of_nodup (closedL_nodup _) (closedL_nodup _)]
    intro l
    rw [mem_closedL, mem_closedL, hcnt]
    by_cases hlE : l ∈ E
    · simp [hlE, List.count_eq_zero.2 (hdis l hlE)]
    · by_cases hlc : l = c
      · subst hlc; simp [hlE, h1]
      · simp [hlE, hlc]
  have hm : ∀ l ∈ closedL a, l ≠ c ∧ l ∉ E ∧ l ∈ flatL b := by
    intro l hl
    rw [mem_closedL, hcnt] at hl
    by_cases hlE : l ∈ E
    · simp [hlE] at hl
    · by_cases hlc : l = c
      · subst hlc; simp [hlE] at hl
      · simp only [hlE, hlc, if_false] at hl
        exact ⟨hlc, hlE, List.count_pos_iff.1 (by omega)⟩
  rw [netVal_eq ha, netVal_eq hb, sumOver_perm hp,
    sumOver_dim_congr (dim' := dim) (fun l hl => hd l (hm l hl).2.2 (hm l hl).1),
    ← sumOver_update (fun hcc => (hm c hcc).1 rfl)]
  refine sumOver_congr fun τ hτ1 hτ2 => ?_
  have hg : gpos dim E σ = gpos dim E τ :=
    gpos_congr fun l hl => (hτ1 l (fun hcl => (hm l hcl).2.1 hl)).symm
  rw [hg]
  refine regroup_prod h fun l hl => ?_
  by_cases hcl : l ∈ closedL a
  · exact hτ2 l hcl
  · rw [hτ1 l hcl]
    exact hσ l hl fun h4 => hcl (mem_closedL.2 h4)

end TN
