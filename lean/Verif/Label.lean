import Verif.Nd

/-!
# Labelled arrays: meaning of the numpy operations in terms of labels

`val t ls σ` is the entry of `t` selected when every axis label `l` takes position
`σ l`.  `sumOver dim C f` sums `f` over all positions of the labels `C`.
-/

namespace TN

open Finset NDArray

set_option linter.unusedSectionVars false

variable {R : Type*} {L : Type*} [DecidableEq L]

/-- Entry of a labelled array under an assignment of positions to labels. -/
def val (t : NDArray R) (ls : List L) (σ : L → Nat) : R := t.get (ls.map σ)

/-- The array's dimensions are the dimensions of its labels. -/
def Shaped (dim : L → Nat) (t : NDArray R) (ls : List L) : Prop := t.shape = ls.map dim

/-- Sum of `f` over all assignments of positions to the labels `C`. -/
def sumOver [AddCommMonoid R] (dim : L → Nat) :
    List L → ((L → Nat) → R) → (L → Nat) → R
  | [], f, σ => f σ
  | l :: ls, f, σ => ∑ i ∈ range (dim l), sumOver dim ls f (Function.update σ l i)

section
variable [AddCommMonoid R] {dim : L → Nat}

theorem sumOver_eq_sumIdx (C : List L) (f : (L → Nat) → R) (σ : L → Nat) :
    sumOver dim C f σ = sumIdx (C.map dim) (fun c => f (assign σ C c)) := by
  induction C generalizing σ with
  | nil => simp [sumOver, sumIdx, assign]
  | cons a C ih => simp [sumOver, sumIdx, assign, ih]

theorem sumOver_congr {C : List L} {f g : (L → Nat) → R} {σ : L → Nat}
    (h : ∀ τ : L → Nat, (∀ l, l ∉ C → τ l = σ l) → (∀ l ∈ C, τ l < dim l) → f τ = g τ) :
    sumOver dim C f σ = sumOver dim C g σ := by
  induction C generalizing σ with
  | nil => exact h σ (fun _ _ => rfl) (by simp)
  | cons a C ih =>
    simp only [sumOver]
    refine Finset.sum_congr rfl fun i hi => ih fun τ h1 h2 => h τ ?_ ?_
    · intro l hl
      simp only [List.mem_cons, not_or] at hl
      rw [h1 l hl.2, Function.update_of_ne hl.1]
    · intro l hl
      by_cases hC : l ∈ C
      · exact h2 l hC
      · have : l = a := by simpa [hC] using hl
        subst this
        rw [h1 _ hC]; simpa using hi

theorem sumOver_append (C D : List L) (f : (L → Nat) → R) (σ : L → Nat) :
    sumOver dim (C ++ D) f σ = sumOver dim C (sumOver dim D f) σ := by
  induction C generalizing σ with
  | nil => simp [sumOver]
  | cons a C ih => simp [sumOver, ih]

theorem sumOver_perm {C D : List L} (h : C.Perm D) (f : (L → Nat) → R) (σ : L → Nat) :
    sumOver dim C f σ = sumOver dim D f σ := by
  induction h generalizing σ with
  | nil => rfl
  | cons a _ ih => simp [sumOver, ih]
  | swap a b C =>
    simp only [sumOver]
    by_cases hab : a = b
    · subst hab; rfl
    · rw [Finset.sum_comm]
      refine Finset.sum_congr rfl fun i _ => Finset.sum_congr rfl fun j _ => ?_
      rw [Function.update_comm (Ne.symm hab)]
  | trans _ _ ih1 ih2 => rw [ih1, ih2]

/-- `f` only looks at the positions of the labels `ls`. -/
def DependsOn (f : (L → Nat) → R) (ls : List L) : Prop :=
  ∀ σ τ : L → Nat, (∀ l ∈ ls, σ l = τ l) → f σ = f τ

theorem dependsOn_val (t : NDArray R) (ls : List L) : DependsOn (val t ls) ls := by
  intro σ τ h
  simp only [val]
  congr 1
  exact List.map_congr_left h

theorem sumOver_dependsOn {C : List L} {f : (L → Nat) → R} {ls : List L}
    (h : DependsOn f ls) : DependsOn (sumOver dim C f) (ls.filter (· ∉ C)) := by
  intro σ τ hst
  induction C generalizing σ τ with
  | nil => exact h σ τ (by simpa using hst)
  | cons a C ih =>
    simp only [sumOver]
    refine Finset.sum_congr rfl fun i _ => ih _ _ fun l hl => ?_
    by_cases hla : l = a
    · subst hla; simp
    · rw [Function.update_of_ne hla, Function.update_of_ne hla]
      apply hst
      simp only [List.mem_filter, decide_eq_true_eq] at hl ⊢
      simp [hl, hla]

end

section
variable [CommSemiring R] {dim : L → Nat}

theorem sumOver_mul_left {C : List L} {f g : (L → Nat) → R} {σ : L → Nat}
    {ls : List L} (hf : DependsOn f ls) (hd : ∀ l ∈ ls, l ∉ C) :
    sumOver dim C (fun τ => f τ * g τ) σ = f σ * sumOver dim C g σ := by
  induction C generalizing σ with
  | nil => simp [sumOver]
  | cons a C ih =>
    simp only [sumOver, Finset.mul_sum]
    refine Finset.sum_congr rfl fun i _ => ?_
    rw [ih (fun l hl h => hd l hl (List.mem_cons_of_mem _ h))]
    congr 1
    refine hf _ _ fun l hl => ?_
    rw [Function.update_of_ne]
    rintro rfl
    exact hd _ hl List.mem_cons_self

theorem sumOver_mul_right {C : List L} {f g : (L → Nat) → R} {σ : L → Nat}
    {ls : List L} (hf : DependsOn f ls) (hd : ∀ l ∈ ls, l ∉ C) :
    sumOver dim C (fun τ => g τ * f τ) σ = sumOver dim C g σ * f σ := by
  simp only [mul_comm _ (f _)]
  exact sumOver_mul_left hf hd

end

/-! ### Positions of labels -/

theorem idxOf_eq_of_count_one {ls : List L} {l : L} (h : ls.count l = 1) {p : Nat}
    (hp : p < ls.length) (hpl : ls[p] = l) : ls.idxOf l = p := by
  induction ls generalizing p with
  | nil => simp at hp
  | cons a ls ih =>
    by_cases hal : a = l
    · subst hal
      have h0 : ls.count a = 0 := by simpa using h
      cases p with
      | zero => simp
      | succ p =>
        simp only [List.getElem_cons_succ] at hpl
        exact absurd (hpl ▸ List.getElem_mem _ : a ∈ ls) (List.count_eq_zero.1 h0)
    · cases p with
      | zero => exact absurd hpl hal
      | succ p =>
        rw [List.idxOf_cons_ne _ hal]
        have := ih (p := p) (by simpa [List.count_cons, hal] using h) (by simpa using hp)
          (by simpa using hpl)
        omega

theorem getD_idxOf [Inhabited L] {ls : List L} {l : L} (h : l ∈ ls) :
    ls.getD (ls.idxOf l) default = l := by
  rw [List.getD_eq_getElem _ _ (List.idxOf_lt_length_of_mem h)]
  exact List.getElem_idxOf _

theorem mem_idxOf_iff [Inhabited L] {ls C : List L} (hC : ∀ l ∈ C, ls.count l = 1) {p : Nat}
    (hp : p < ls.length) : p ∈ C.map ls.idxOf ↔ ls.getD p default ∈ C := by
  rw [List.getD_eq_getElem _ _ hp]
  constructor
  · rintro h
    obtain ⟨l, hl, hlp⟩ := List.mem_map.1 h
    have hm : l ∈ ls := List.count_pos_iff.1 (by rw [hC l hl]; exact Nat.one_pos)
    have : ls[p] = l := by
      subst hlp
      exact List.getElem_idxOf _
    rwa [this]
  · intro h
    exact List.mem_map.2 ⟨_, h, idxOf_eq_of_count_one (hC _ h) hp rfl⟩

/-- The labels of the free axes are the labels which are not contracted. -/
theorem freeAxes_map [Inhabited L] {ls C : List L} (hC : ∀ l ∈ C, ls.count l = 1)
    {n : Nat} (hn : ls.length = n) :
    (freeAxes n (C.map ls.idxOf)).map (fun p => ls.getD p default) =
      ls.filter (· ∉ C) := by
  subst hn
  have h1 : freeAxes ls.length (C.map ls.idxOf) =
      (List.range ls.length).filter (fun p => decide (ls.getD p default ∉ C)) := by
    unfold freeAxes
    apply List.filter_congr
    intro p hp
    simp only [mem_idxOf_iff hC (List.mem_range.1 hp)]
  have h2 : (List.range ls.length).map (fun p => ls.getD p default) = ls := by
    apply List.ext_getElem (by simp)
    intro k h1 h2
    simp only [List.getElem_map, List.getElem_range]
    exact List.getD_eq_getElem _ _ h2
  rw [h1]
  conv_rhs => rw [← h2, List.filter_map]
  rfl

theorem freeAxes_perm {n : Nat} {ax ax' : List Nat} (h : ax.Perm ax') :
    freeAxes n ax = freeAxes n ax' := by
  unfold freeAxes
  apply List.filter_congr
  intro p _
  simp [h.mem_iff]

theorem idxOf_map_nodup {ls C : List L} (hCn : C.Nodup) (hC : ∀ l ∈ C, ls.count l = 1) :
    (C.map ls.idxOf).Nodup := by
  refine List.Nodup.map_on ?_ hCn
  intro x hx y hy hxy
  have hx' : x ∈ ls := List.count_pos_iff.1 (by rw [hC x hx]; exact Nat.one_pos)
  have hy' : y ∈ ls := List.count_pos_iff.1 (by rw [hC y hy]; exact Nat.one_pos)
  exact (List.idxOf_inj hx').1 hxy

theorem map_idxOf_getD [Inhabited L] {ls C : List L} (hC : ∀ l ∈ C, ls.count l = 1) :
    (C.map ls.idxOf).map (fun p => ls.getD p default) = C := by
  rw [List.map_map]
  conv_rhs => rw [← List.map_id C]
  refine List.map_congr_left fun l hl => ?_
  have hm : l ∈ ls := List.count_pos_iff.1 (by rw [hC l hl]; exact Nat.one_pos)
  simpa using getD_idxOf hm

theorem map_idxOf_lt {ls C : List L} (hC : ∀ l ∈ C, ls.count l = 1) :
    ∀ p ∈ C.map ls.idxOf, p < ls.length := by
  intro p hp
  obtain ⟨l, hl, rfl⟩ := List.mem_map.1 hp
  exact List.idxOf_lt_length_of_mem
    (List.count_pos_iff.1 (by rw [hC l hl]; exact Nat.one_pos))

theorem shaped_getD [Inhabited L] {dim : L → Nat} {t : NDArray R} {ls : List L}
    (h : Shaped dim t ls) {p : Nat} (hp : p < ls.length) :
    t.shape.getD p 0 = dim (ls.getD p default) := by
  rw [h, List.getD_eq_getElem _ _ (by simpa using hp), List.getD_eq_getElem _ _ hp]
  simp

theorem Shaped.ndim {dim : L → Nat} {t : NDArray R} {ls : List L} (h : Shaped dim t ls) :
    t.ndim = ls.length := by
  rw [NDArray.ndim, h]; simp

theorem shaped_map_getD [Inhabited L] {dim : L → Nat} {t : NDArray R} {ls : List L}
    (h : Shaped dim t ls) {ax : List Nat} (hax : ∀ p ∈ ax, p < ls.length) :
    ax.map (fun p => t.shape.getD p 0) = (ax.map (fun p => ls.getD p default)).map dim := by
  rw [List.map_map]
  exact List.map_congr_left fun p hp => shaped_getD h (hax p hp)

/-! ### Meaning of the operations -/

/-- `transpose` only permutes the labels. -/
theorem transpose_val [Inhabited L] {dim : L → Nat} {t : NDArray R} {ls : List L}
    (h : Shaped dim t ls) {perm : List Nat} (hp : perm.Perm (List.range ls.length)) :
    ∃ t', t.transpose perm = .ok t' ∧
      Shaped dim t' (perm.map fun p => ls.getD p default) ∧
      ∀ σ, val t' (perm.map fun p => ls.getD p default) σ = val t ls σ := by
  have hnd := h.ndim
  have hlt : ∀ p ∈ perm, p < ls.length := fun p h => by simpa using (hp.mem_iff.1 h)
  refine ⟨_, by rw [transpose, if_pos (by rwa [hnd])], ?_, ?_⟩
  · exact shaped_map_getD h hlt
  · intro σ
    simp only [val]
    congr 1
    apply List.ext_getElem (by simp [hnd])
    intro a h1 h2
    have ha : a < ls.length := by simpa using h2
    have hm : a ∈ perm := hp.mem_iff.2 (by simpa using ha)
    have hi := List.idxOf_lt_length_of_mem hm
    simp only [List.getElem_map, List.getElem_range]
    rw [List.getD_eq_getElem _ _ (by simpa using hi)]
    simp only [List.getElem_map, List.getElem_idxOf]
    rw [List.getD_eq_getElem _ _ ha]

/-- `tensordot` over axes carrying the labels `C` sums over these labels. -/
theorem tensordot_val [Inhabited L] [CommSemiring R] {dim : L → Nat} {t1 t2 : NDArray R}
    {l1 l2 C : List L} (h1 : Shaped dim t1 l1) (h2 : Shaped dim t2 l2) (hCn : C.Nodup)
    (hC1 : ∀ l ∈ C, l1.count l = 1) (hC2 : ∀ l ∈ C, l2.count l = 1) :
    ∃ t', t1.tensordot t2 (C.map l1.idxOf) (C.map l2.idxOf) = .ok t' ∧
      Shaped dim t' (l1.filter (· ∉ C) ++ l2.filter (· ∉ C)) ∧
      ∀ σ, val t' (l1.filter (· ∉ C) ++ l2.filter (· ∉ C)) σ =
        sumOver dim C (fun τ => val t1 l1 τ * val t2 l2 τ) σ := by
  have n1 := h1.ndim
  have n2 := h2.ndim
  have a1 : (C.map l1.idxOf).map (fun p => t1.shape.getD p 0) = C.map dim := by
    rw [shaped_map_getD h1 (map_idxOf_lt hC1), map_idxOf_getD hC1]
  have a2 : (C.map l2.idxOf).map (fun p => t2.shape.getD p 0) = C.map dim := by
    rw [shaped_map_getD h2 (map_idxOf_lt hC2), map_idxOf_getD hC2]
  have f1 := freeAxes_map hC1 (n := t1.ndim) n1.symm
  have f2 := freeAxes_map hC2 (n := t2.ndim) n2.symm
  refine ⟨_, by
    rw [tensordot, if_pos ⟨by simp, idxOf_map_nodup hCn hC1, idxOf_map_nodup hCn hC2,
      by rw [n1]; exact map_idxOf_lt hC1, by rw [n2]; exact map_idxOf_lt hC2, by rw [a1, a2]⟩],
    ?_, ?_⟩
  · simp only [Shaped, List.map_append]
    rw [← f1, ← f2]
    congr 1
    · exact shaped_map_getD h1 (fun p hp => by
        simp only [freeAxes, List.mem_filter, List.mem_range] at hp; omega)
    · exact shaped_map_getD h2 (fun p hp => by
        simp only [freeAxes, List.mem_filter, List.mem_range] at hp; omega)
  · intro σ
    rw [sumOver_eq_sumIdx]
    simp only [val, a1]
    refine sumIdx_congr fun c hc => ?_
    have hcl : c.length = C.length := by simpa using hc.length
    have e1 : (freeAxes t1.ndim (C.map l1.idxOf)).length =
        ((l1.filter (· ∉ C)).map σ).length := by
      rw [← f1]; simp
    rw [List.map_append, e1, List.take_left', List.drop_left', ← f1, ← f2]
    · congr 2
      · exact mergeIdx_map n1.symm (map_idxOf_getD hC1) hCn
          (fun p hp hm => (mem_idxOf_iff hC1 (by omega)).2 hm) (by simpa using hcl)
      · exact mergeIdx_map n2.symm (map_idxOf_getD hC2) hCn
          (fun p hp hm => (mem_idxOf_iff hC2 (by omega)).2 hm) (by simpa using hcl)
    all_goals rfl

/-- `outer_product` multiplies the entries. -/
theorem outerProduct_val [CommSemiring R] {dim : L → Nat} {t1 t2 : NDArray R} {l1 l2 : List L}
    (h1 : Shaped dim t1 l1) (h2 : Shaped dim t2 l2) :
    Shaped dim (t1.outerProduct t2) (l1 ++ l2) ∧
      ∀ σ, val (t1.outerProduct t2) (l1 ++ l2) σ = val t1 l1 σ * val t2 l2 σ := by
  refine ⟨by rw [Shaped, outerProduct, h1, h2, List.map_append], fun σ => ?_⟩
  simp only [val, outerProduct, h1.ndim, List.map_append]
  rw [List.take_left' (by simp), List.drop_left' (by simp)]

/-- `sum` over the axes of the labels `C` sums over these labels. -/
theorem sum_val [Inhabited L] [AddCommMonoid R] {dim : L → Nat} {t : NDArray R} {ls C : List L}
    (h : Shaped dim t ls) (hCn : C.Nodup) (hC : ∀ l ∈ C, ls.count l = 1) :
    ∃ t', t.sum (C.map ls.idxOf) = .ok t' ∧ Shaped dim t' (ls.filter (· ∉ C)) ∧
      ∀ σ, val t' (ls.filter (· ∉ C)) σ = sumOver dim C (val t ls) σ := by
  have n1 := h.ndim
  have a1 : (C.map ls.idxOf).map (fun p => t.shape.getD p 0) = C.map dim := by
    rw [shaped_map_getD h (map_idxOf_lt hC), map_idxOf_getD hC]
  have f1 := freeAxes_map hC (n := t.ndim) n1.symm
  refine ⟨_, by
    rw [NDArray.sum, if_pos ⟨idxOf_map_nodup hCn hC, by rw [n1]; exact map_idxOf_lt hC⟩],
    ?_, ?_⟩
  · rw [← f1]
    exact shaped_map_getD h (fun p hp => by
        simp only [freeAxes, List.mem_filter, List.mem_range] at hp; omega)
  · intro σ
    rw [sumOver_eq_sumIdx]
    simp only [val, a1]
    refine sumIdx_congr fun c hc => ?_
    have hcl : c.length = C.length := by simpa using hc.length
    rw [← f1]
    congr 1
    exact mergeIdx_map n1.symm (map_idxOf_getD hC) hCn
          (fun p hp hm => (mem_idxOf_iff hC (by omega)).2 hm) (by simpa using hcl)

end TN
