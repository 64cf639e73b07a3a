import Verif.Label

/-!
# Grouping labels by reshaping

`np.reshape` merges neighbouring axes into one (or splits one into several).  In terms of
labels: the position along the merged axis is the row-major position of the merged labels.
-/

namespace TN

open Finset NDArray

set_option linter.unusedSectionVars false

variable {R : Type*} {L : Type*} [DecidableEq L]

/-- Dimension of a group of labels merged into one axis. -/
def gdim (dim : L → Nat) (g : List L) : Nat := (g.map dim).prod

/-- Position along a merged axis. -/
def gpos (dim : L → Nat) (g : List L) (σ : L → Nat) : Nat := ravel (g.map dim) (g.map σ)

variable {dim : L → Nat}

theorem gpos_lt {g : List L} {σ : L → Nat} (h : ∀ l ∈ g, σ l < dim l) :
    gpos dim g σ < gdim dim g := ravel_lt ((inB_map _ _ _).2 h)

theorem gdim_append (g h : List L) : gdim dim (g ++ h) = gdim dim g * gdim dim h := by
  simp [gdim]

@[simp] theorem gdim_singleton (l : L) : gdim dim [l] = dim l := by simp [gdim]

@[simp] theorem gpos_singleton (l : L) (σ : L → Nat) : gpos dim [l] σ = σ l := by
  simp [gpos, ravel]

theorem gdim_prod (gs : List (List L)) :
    (gs.map (gdim dim)).prod = (gs.flatten.map dim).prod := by
  induction gs with
  | nil => simp
  | cons g gs ih => simp [ih, gdim]

theorem ravel_groups (gs : List (List L)) (σ : L → Nat) :
    ravel (gs.map (gdim dim)) (gs.map (fun g => gpos dim g σ)) =
      ravel (gs.flatten.map dim) (gs.flatten.map σ) := by
  induction gs with
  | nil => simp
  | cons g gs ih =>
    simp only [List.map_cons, List.flatten_cons, List.map_append, ravel, ih]
    rw [ravel_append (by simp), gdim_prod, gpos]

theorem inB_groups {gs : List (List L)} {σ : L → Nat}
    (h : ∀ l ∈ gs.flatten, σ l < dim l) :
    InB (gs.map (gdim dim)) (gs.map (fun g => gpos dim g σ)) := by
  rw [inB_map]
  intro g hg
  exact gpos_lt fun l hl => h l (List.mem_flatten.2 ⟨g, hg, hl⟩)

/-- Merging axes. -/
theorem reshape_merge {t : NDArray R} {gs : List (List L)} (h : Shaped dim t gs.flatten) :
    ∃ t', t.reshape (gs.map (gdim dim)) = .ok t' ∧ t'.shape = gs.map (gdim dim) ∧
      ∀ σ : L → Nat, (∀ l ∈ gs.flatten, σ l < dim l) →
        t'.get (gs.map (fun g => gpos dim g σ)) = val t gs.flatten σ := by
  refine ⟨_, by rw [reshape, if_pos (by rw [gdim_prod, h])], rfl, fun σ hσ => ?_⟩
  simp only [val, ravel_groups]
  rw [h, unravel_ravel ((inB_map _ _ _).2 hσ)]

/-- Splitting axes. -/
theorem reshape_split {t : NDArray R} {gs : List (List L)} (h : t.shape = gs.map (gdim dim)) :
    ∃ t', t.reshape (gs.flatten.map dim) = .ok t' ∧ Shaped dim t' gs.flatten ∧
      ∀ σ : L → Nat, (∀ l ∈ gs.flatten, σ l < dim l) →
        val t' gs.flatten σ = t.get (gs.map (fun g => gpos dim g σ)) := by
  refine ⟨_, by rw [reshape, if_pos (by rw [h, gdim_prod])], by rfl, fun σ hσ => ?_⟩
  simp only [val]
  rw [← ravel_groups, h, unravel_ravel (inB_groups hσ)]

theorem gpos_assign {C : List L} (hC : C.Nodup) {σ : L → Nat} {c : List Nat}
    (hc : InB (C.map dim) c) : gpos dim C (assign σ C c) = ravel (C.map dim) c := by
  rw [gpos, assign_map_self hC (by simpa using hc.length)]

theorem gpos_congr {g : List L} {σ τ : L → Nat} (h : ∀ l ∈ g, σ l = τ l) :
    gpos dim g σ = gpos dim g τ := by
  rw [gpos, gpos, List.map_congr_left h]

theorem assign_lt {C : List L} {σ : L → Nat} {c : List Nat} (hC : C.Nodup)
    (hc : InB (C.map dim) c) {l : L} (hl : l ∈ C) : assign σ C c l < dim l := by
  have h1 := assign_map_self (σ := σ) hC (c := c) (by simpa using hc.length)
  have h2 : InB (C.map dim) (C.map (assign σ C c)) := by rw [h1]; exact hc
  exact (inB_map _ _ _).1 h2 l hl

theorem flatten_singles (F : List L) : (F.map (fun l => [l])).flatten = F := by
  induction F with
  | nil => rfl
  | cons a F ih => simp [ih]

/-- The partial trace: transposing to `F ++ C ++ C`, merging and taking the trace sums over
the labels `C`. -/
theorem trace_groups [AddCommMonoid R] {t : NDArray R} {F C : List L}
    (h : Shaped dim t (F ++ (C ++ C))) (hC : C.Nodup) (hFC : ∀ l ∈ F, l ∉ C) :
    ∃ t' t'', t.reshape (F.map dim ++ [gdim dim C, gdim dim C]) = .ok t' ∧
      t'.trace = .ok t'' ∧ Shaped dim t'' F ∧
      ∀ σ : L → Nat, (∀ l ∈ F, σ l < dim l) →
        val t'' F σ = sumOver dim C (val t (F ++ (C ++ C))) σ := by
  have hfl : (F.map (fun l => [l]) ++ [C, C]).flatten = F ++ (C ++ C) := by
    simp [flatten_singles]
  have hsh : (F.map (fun l => [l]) ++ [C, C]).map (gdim dim) =
      F.map dim ++ [gdim dim C, gdim dim C] := by
    simp [Function.comp_def]
  obtain ⟨t', h1, h2, h3⟩ := reshape_merge (gs := F.map (fun l => [l]) ++ [C, C])
    (t := t) (dim := dim) (by rw [hfl]; exact h)
  rw [hsh] at h1 h2
  have hnd : t'.ndim = F.length + 2 := by simp [NDArray.ndim, h2]
  have hd1 : t'.shape.getD (t'.ndim - 2) 0 = gdim dim C := by
    rw [h2, hnd, List.getD_append_right _ _ _ _ (by simp)]; simp
  have hd2 : t'.shape.getD (t'.ndim - 1) 0 = gdim dim C := by
    rw [h2, hnd, List.getD_append_right _ _ _ _ (by simp)]
    simp
  refine ⟨t', _, h1, by rw [NDArray.trace, if_pos (by omega)], ?_, fun σ hσ => ?_⟩
  · simp only [Shaped, h2, hnd]
    rw [show F.length + 2 - 2 = (F.map dim).length by simp, List.take_left]
  · rw [sumOver_eq_sumIdx, ← sum_range_unravel]
    simp only [val, hd1, hd2, Nat.min_self]
    refine Finset.sum_congr rfl fun k hk => ?_
    have hk' : k < (C.map dim).prod := Finset.mem_range.1 hk
    have hin := unravel_inB hk'
    have h4 := h3 (assign σ C (unravel (C.map dim) k)) (by
      rw [hfl]
      intro l hl
      by_cases hlC : l ∈ C
      · exact assign_lt hC hin hlC
      · rw [assign_not_mem hlC]
        apply hσ
        simpa [hlC] using hl)
    rw [hfl] at h4
    rw [val] at h4
    rw [← h4]
    congr 1
    simp only [List.map_append, List.map_map, Function.comp_def, gpos_singleton, List.map_cons,
      List.map_nil, gpos_assign hC hin, ravel_unravel hk']
    congr 1
    exact List.map_congr_left fun l hl => (assign_not_mem (hFC l hl)).symm

/-- Batched matrix product after merging: sums over the labels `C`, keeps `B`. -/
theorem batch_groups [CommSemiring R] {t1 t2 : NDArray R} {B F1 F2 C : List L}
    (h1 : Shaped dim t1 (B ++ (F1 ++ C))) (h2 : Shaped dim t2 (B ++ (C ++ F2)))
    (hC : C.Nodup) (hBC : ∀ l ∈ B, l ∉ C) (hF1 : ∀ l ∈ F1, l ∉ C) (hF2 : ∀ l ∈ F2, l ∉ C) :
    ∃ m1 m2 m r, t1.reshape [gdim dim B, gdim dim F1, gdim dim C] = .ok m1 ∧
      t2.reshape [gdim dim B, gdim dim C, gdim dim F2] = .ok m2 ∧
      m1.matmul3 m2 = .ok m ∧
      m.reshape (B.map dim ++ F1.map dim ++ F2.map dim) = .ok r ∧
      Shaped dim r (B ++ (F1 ++ F2)) ∧
      ∀ σ : L → Nat, (∀ l ∈ B ++ (F1 ++ F2), σ l < dim l) →
        val r (B ++ (F1 ++ F2)) σ = sumOver dim C
          (fun τ => val t1 (B ++ (F1 ++ C)) τ * val t2 (B ++ (C ++ F2)) τ) σ := by
  obtain ⟨m1, a1, a2, a3⟩ := reshape_merge (gs := [B, F1, C]) (t := t1) (dim := dim)
    (by simpa using h1)
  obtain ⟨m2, b1, b2, b3⟩ := reshape_merge (gs := [B, C, F2]) (t := t2) (dim := dim)
    (by simpa using h2)
  have hm : ∃ m, m1.matmul3 m2 = .ok m ∧ m.shape = [B, F1, F2].map (gdim dim) ∧
      ∀ b i j, b < gdim dim B → m.get [b, i, j] = ∑ k ∈ range (gdim dim C),
        m1.get [b, i, k] * m2.get [b, k, j] := by
    refine ⟨_, by
      simp only [matmul3, a2, b2, List.map_cons, List.map_nil]
      rw [if_pos ⟨trivial, Or.inl trivial⟩], by simp, ?_⟩
    intro b i j hb
    dsimp only
    refine Finset.sum_congr rfl fun k _ => ?_
    by_cases h1 : gdim dim B = 1
    · have : b = 0 := by omega
      simp [this]
    · simp [h1]
  obtain ⟨m, c1, c2, c3⟩ := hm
  obtain ⟨r, d1, d2, d3⟩ := reshape_split (gs := [B, F1, F2]) (t := m) (dim := dim) c2
  refine ⟨m1, m2, m, r, by simpa using a1, by simpa using b1, c1,
    by simpa using d1, by simpa using d2, fun σ hσ => ?_⟩
  have d4 := d3 σ (by simpa using hσ)
  simp only [List.flatten_cons, List.flatten_nil, List.append_nil, List.map_cons,
    List.map_nil] at d4
  have hB : ∀ l ∈ B, σ l < dim l := fun l hl => hσ l (by simp [hl])
  rw [d4, c3 _ _ _ (gpos_lt hB), sumOver_eq_sumIdx, ← sum_range_unravel]
  refine Finset.sum_congr rfl fun k hk => ?_
  have hk' : k < (C.map dim).prod := Finset.mem_range.1 hk
  have hin := unravel_inB hk'
  have hb : ∀ l ∈ B ++ (F1 ++ (F2 ++ C)), assign σ C (unravel (C.map dim) k) l < dim l := by
    intro l hl
    by_cases hlC : l ∈ C
    · exact assign_lt hC hin hlC
    · rw [assign_not_mem hlC]
      apply hσ
      simp only [List.mem_append] at hl ⊢
      tauto
  have a4 := a3 _ (fun l hl => hb l (by
    simp only [List.flatten_cons, List.flatten_nil, List.mem_append] at hl ⊢
    simp at hl; tauto))
  have b4 := b3 _ (fun l hl => hb l (by
    simp only [List.flatten_cons, List.flatten_nil, List.mem_append] at hl ⊢
    simp at hl; tauto))
  simp only [List.flatten_cons, List.flatten_nil, List.append_nil, List.map_cons,
    List.map_nil, gpos_assign hC hin, ravel_unravel hk'] at a4 b4
  rw [← a4, ← b4]
  have e : ∀ g : List L, (∀ l ∈ g, l ∉ C) →
      gpos dim g (assign σ C (unravel (C.map dim) k)) = gpos dim g σ := fun g hg =>
    gpos_congr fun l hl => assign_not_mem (hg l hl)
  rw [e B hBC, e F1 hF1, e F2 hF2]

end TN
