import Verif.Group

/-!
# Labelled networks and their value

A network is a list of arrays with a label for each axis.  Its value is the sum, over all
positions of the labels that occur exactly twice, of the product of the entries; it is a
function of the positions of the other labels.  This is the specification used for all
graph operations: labels are edges.
-/

namespace TN

open Finset NDArray

set_option linter.unusedSectionVars false

variable {R : Type*} {L : Type*} [DecidableEq L]

/-- All labels with repetitions. -/
def flatL (net : List (NDArray R × List L)) : List L := net.flatMap Prod.snd

/-- The labels that occur twice. -/
def closedL (net : List (NDArray R × List L)) : List L :=
  (flatL net).dedup.filter (fun l => (flatL net).count l = 2)

/-- The dimension of a label. -/
def ldim (net : List (NDArray R × List L)) (l : L) : Nat :=
  ((net.flatMap fun p => p.2.zip p.1.shape).lookup l).getD 0

/-- The product of the entries at the positions `τ`. -/
def prodVal [CommSemiring R] (net : List (NDArray R × List L)) (τ : L → Nat) : R :=
  (net.map (fun p => val p.1 p.2 τ)).prod

/-- The value of a network at the positions `σ` of the open labels. -/
def netVal [CommSemiring R] (net : List (NDArray R × List L)) (σ : L → Nat) : R :=
  sumOver (ldim net) (closedL net) (prodVal net) σ

/-- Every label has one dimension. -/
def Consistent (dim : L → Nat) (net : List (NDArray R × List L)) : Prop :=
  ∀ p ∈ net, Shaped dim p.1 p.2

variable {dim : L → Nat}

theorem flatL_append (a b : List (NDArray R × List L)) : flatL (a ++ b) = flatL a ++ flatL b := by
  simp [flatL]

theorem flatL_cons (a : NDArray R × List L) (b : List (NDArray R × List L)) :
    flatL (a :: b) = a.2 ++ flatL b := by
  simp [flatL]

theorem mem_flatL {net : List (NDArray R × List L)} {l : L} :
    l ∈ flatL net ↔ ∃ p ∈ net, l ∈ p.2 := by simp [flatL]

theorem mem_closedL {net : List (NDArray R × List L)} {l : L} :
    l ∈ closedL net ↔ (flatL net).count l = 2 := by
  simp only [closedL, List.mem_filter, List.mem_dedup, decide_eq_true_eq, and_iff_right_iff_imp]
  intro h
  exact List.count_pos_iff.1 (by omega)

theorem closedL_nodup (net : List (NDArray R × List L)) : (closedL net).Nodup :=
  (List.nodup_dedup _).filter _

theorem lookup_zip {ls : List L} {rest : List (L × Nat)} {l : L} :
    ((ls.zip (ls.map dim) ++ rest).lookup l) =
      if l ∈ ls then some (dim l) else rest.lookup l := by
  induction ls with
  | nil => simp
  | cons a ls ih =>
    simp only [List.map_cons, List.zip_cons_cons, List.cons_append, List.lookup_cons, ih,
      List.mem_cons]
    by_cases h : l = a
    · subst h; simp
    · have : (l == a) = false := by simpa using h
      simp [this, h]

theorem ldim_eq {net : List (NDArray R × List L)} (h : Consistent dim net) {l : L}
    (hl : l ∈ flatL net) : ldim net l = dim l := by
  unfold ldim
  induction net with
  | nil => simp [flatL] at hl
  | cons p net ih =>
    have hp : p.1.shape = p.2.map dim := h p (by simp)
    rw [List.flatMap_cons, hp, lookup_zip]
    by_cases hm : l ∈ p.2
    · simp [hm]
    · rw [if_neg hm]
      refine ih (fun q hq => h q (by simp [hq])) ?_
      rw [flatL_cons, List.mem_append] at hl
      exact hl.resolve_left hm

theorem sumOver_dim_congr [AddCommMonoid R] {dim' : L → Nat} {C : List L}
    (h : ∀ l ∈ C, dim l = dim' l) (f : (L → Nat) → R) (σ : L → Nat) :
    sumOver dim C f σ = sumOver dim' C f σ := by
  induction C generalizing σ with
  | nil => rfl
  | cons a C ih =>
    simp only [sumOver]
    rw [h a (by simp)]
    exact Finset.sum_congr rfl fun i _ => ih (fun l hl => h l (by simp [hl])) _

variable [CommSemiring R]

theorem netVal_eq {net : List (NDArray R × List L)} (h : Consistent dim net) (σ : L → Nat) :
    netVal net σ = sumOver dim (closedL net) (prodVal net) σ := by
  refine sumOver_dim_congr (fun l hl => ldim_eq h ?_) _ _
  rw [mem_closedL] at hl
  exact List.count_pos_iff.1 (by omega)

theorem prodVal_append (a b : List (NDArray R × List L)) (τ : L → Nat) :
    prodVal (a ++ b) τ = prodVal a τ * prodVal b τ := by
  simp [prodVal]

theorem prodVal_cons (a : NDArray R × List L) (b : List (NDArray R × List L)) (τ : L → Nat) :
    prodVal (a :: b) τ = val a.1 a.2 τ * prodVal b τ := by
  simp [prodVal]

theorem prodVal_perm {a b : List (NDArray R × List L)} (h : a.Perm b) (τ : L → Nat) :
    prodVal a τ = prodVal b τ := (h.map _).prod_eq

theorem flatL_perm {a b : List (NDArray R × List L)} (h : a.Perm b) :
    (flatL a).Perm (flatL b) := List.Perm.flatMap_right _ h

theorem closedL_perm {a b : List (NDArray R × List L)} (h : ∀ l, (flatL a).count l = (flatL b).count l) :
    (closedL a).Perm (closedL b) := by
  rw [List.perm_ext_iff_of_nodup (closedL_nodup _) (closedL_nodup _)]
  intro l
  rw [mem_closedL, mem_closedL, h]

theorem prodVal_dependsOn (net : List (NDArray R × List L)) :
    DependsOn (prodVal net) (flatL net) := by
  induction net with
  | nil => intro σ τ _; rfl
  | cons p net ih =>
    intro σ τ h
    rw [flatL_cons] at h
    rw [prodVal_cons, prodVal_cons, ih σ τ (fun l hl => h l (by simp [hl])),
      dependsOn_val p.1 p.2 σ τ (fun l hl => h l (by simp [hl]))]

theorem Consistent.perm {a b : List (NDArray R × List L)} (h : a.Perm b) (hc : Consistent dim a) :
    Consistent dim b := fun p hp => hc p (h.mem_iff.2 hp)

theorem Consistent.append_left {a b : List (NDArray R × List L)} (h : Consistent dim (a ++ b)) :
    Consistent dim a := fun p hp => h p (by simp [hp])

theorem Consistent.append_right {a b : List (NDArray R × List L)} (h : Consistent dim (a ++ b)) :
    Consistent dim b := fun p hp => h p (by simp [hp])

/-- The order of the nodes does not matter. -/
theorem netVal_perm {a b : List (NDArray R × List L)} (h : a.Perm b) (hc : Consistent dim a)
    (σ : L → Nat) : netVal a σ = netVal b σ := by
  rw [netVal_eq hc, netVal_eq (hc.perm h),
    sumOver_perm (closedL_perm (fun l => (flatL_perm h).count_eq l))]
  refine sumOver_congr fun τ _ _ => prodVal_perm h τ

/-- Replacing a part `A` of a network by `A'`, where the labels `C` are summed inside `A`. -/
theorem netVal_collapse {A A' rest : List (NDArray R × List L)} {C : List L}
    (hc : Consistent dim (A ++ rest)) (hc' : Consistent dim (A' ++ rest)) (hCn : C.Nodup)
    (hC : ∀ l ∈ C, (flatL A).count l = 2 ∧ l ∉ flatL rest)
    (hcount : ∀ l, (flatL A').count l = if l ∈ C then 0 else (flatL A).count l)
    (hval : ∀ τ : L → Nat, (∀ l ∈ flatL A', τ l < dim l) →
      prodVal A' τ = sumOver dim C (prodVal A) τ)
    (σ : L → Nat)
    (hσ : ∀ l ∈ flatL (A ++ rest), (flatL (A ++ rest)).count l ≠ 2 → σ l < dim l) :
    netVal (A' ++ rest) σ = netVal (A ++ rest) σ := by
  rw [netVal_eq hc, netVal_eq hc']
  have hperm : (closedL (A ++ rest)).Perm (closedL (A' ++ rest) ++ C) := by
    rw [List.perm_ext_iff_of_nodup (closedL_nodup _)]
    · intro l
      rw [List.mem_append, mem_closedL, mem_closedL, flatL_append, flatL_append,
        List.count_append, List.count_append, hcount]
      by_cases hl : l ∈ C
      · have h0 : (flatL rest).count l = 0 := List.count_eq_zero.2 (hC l hl).2
        simp [hl, h0, (hC l hl).1]
      · simp [hl]
    · rw [List.nodup_append]
      refine ⟨closedL_nodup _, hCn, ?_⟩
      intro a ha b hb hab
      subst hab
      rw [mem_closedL, flatL_append, List.count_append, hcount, if_pos hb,
        List.count_eq_zero.2 (hC a hb).2] at ha
      simp at ha
  rw [sumOver_perm hperm, sumOver_append]
  refine sumOver_congr fun τ hτ2 hτ1 => ?_
  rw [prodVal_append]
  have hrest : sumOver dim C (prodVal (A ++ rest)) τ =
      sumOver dim C (fun τ => prodVal A τ * prodVal rest τ) τ :=
    sumOver_congr fun τ _ _ => prodVal_append _ _ _
  rw [hrest, sumOver_mul_right (prodVal_dependsOn rest)
    (fun l hl hlC => (hC l hlC).2 hl), hval τ]
  intro l hl
  by_cases hcl : l ∈ closedL (A' ++ rest)
  · exact hτ1 l hcl
  · rw [hτ2 l hcl]
    have hlC : l ∉ C := by
      intro h
      have := hcount l
      rw [if_pos h] at this
      exact absurd (List.count_pos_iff.2 hl) (by omega)
    have hA : l ∈ flatL A := by
      have := hcount l
      rw [if_neg hlC] at this
      exact List.count_pos_iff.1 (by rw [← this]; exact List.count_pos_iff.2 hl)
    refine hσ l (by rw [flatL_append]; simp [hA]) ?_
    intro h2
    apply hcl
    rw [mem_closedL, flatL_append, List.count_append, hcount, if_neg hlC]
    rwa [flatL_append, List.count_append] at h2

/-- Reordering the axes of the nodes does not matter. -/
theorem netVal_forall₂ {a b : List (NDArray R × List L)}
    (h : List.Forall₂ (fun p q => p.2.Perm q.2 ∧ ∀ σ, val p.1 p.2 σ = val q.1 q.2 σ) a b)
    (hca : Consistent dim a) (hcb : Consistent dim b) (σ : L → Nat) :
    netVal a σ = netVal b σ := by
  rw [netVal_eq hca, netVal_eq hcb]
  have hf : (flatL a).Perm (flatL b) := by
    clear hca hcb
    induction h with
    | nil => exact List.Perm.refl _
    | cons h1 _ ih =>
      rw [flatL_cons, flatL_cons]
      exact h1.1.append ih
  have hp : ∀ τ, prodVal a τ = prodVal b τ := by
    clear hca hcb hf
    intro τ
    induction h with
    | nil => rfl
    | cons h1 _ ih =>
      rw [prodVal_cons, prodVal_cons, ih, h1.2]
  rw [sumOver_perm (closedL_perm fun l => hf.count_eq l)]
  exact sumOver_congr fun τ _ _ => hp τ

end TN
