import Verif.NconLoop

/-!
# `_jittable_ncon` computes the Einstein sum
-/

set_option linter.unusedSectionVars false

namespace TN.Ncon

open Finset NDArray

variable {R : Type*} [CommSemiring R] {dim : Int → Nat}

theorem pyMap_ok {α β : Type*} {f : α → Py β} {P : α → β → Prop} {l : List α}
    (h : ∀ a ∈ l, ∃ b, f a = .ok b ∧ P a b) :
    ∃ w : List (α × β), w.map Prod.fst = l ∧ pyMap f l = .ok (w.map Prod.snd) ∧
      ∀ x ∈ w, P x.1 x.2 := by
  induction l with
  | nil => exact ⟨[], rfl, rfl, by simp⟩
  | cons a l ih =>
    obtain ⟨b, h1, h2⟩ := h a (by simp)
    obtain ⟨w, e1, e2, e3⟩ := ih (fun x hx => h x (by simp [hx]))
    refine ⟨(a, b) :: w, by simp [e1], ?_, ?_⟩
    · simp [pyMap, h1, e2]
    · intro x hx
      rcases List.mem_cons.1 hx with rfl | hx
      · exact h2
      · exact e3 x hx

theorem pyMap_inv {α β : Type*} {f : α → Py β} {l : List α} {bs : List β}
    (h : pyMap f l = .ok bs) :
    ∃ w : List (α × β), w.map Prod.fst = l ∧ w.map Prod.snd = bs ∧ ∀ x ∈ w, f x.1 = .ok x.2 := by
  induction l generalizing bs with
  | nil =>
    simp only [pyMap, Except.ok.injEq] at h
    subst h
    exact ⟨[], rfl, rfl, by simp⟩
  | cons a l ih =>
    simp only [pyMap] at h
    split at h
    · simp at h
    · rename_i b hb
      split at h
      · simp at h
      · rename_i bs' hbs
        simp only [Except.ok.injEq] at h
        subst h
        obtain ⟨w, e1, e2, e3⟩ := ih hbs
        refine ⟨(a, b) :: w, by simp [e1], by simp [e2], ?_⟩
        intro x hx
        rcases List.mem_cons.1 hx with rfl | hx
        · exact hb
        · exact e3 x hx

theorem pyMap_error {α β : Type*} {f : α → Py β} {l : List α} {e : PyErr}
    (h : pyMap f l = .error e) : ∃ a ∈ l, f a = .error e := by
  induction l with
  | nil => simp [pyMap] at h
  | cons a l ih =>
    simp only [pyMap] at h
    split at h
    · rename_i e' he
      simp only [Except.error.injEq] at h
      exact ⟨a, by simp, by rw [he, h]⟩
    · split at h
      · rename_i e' he
        simp only [Except.error.injEq] at h
        subst h
        obtain ⟨x, hx, hx'⟩ := ih he
        exact ⟨x, by simp [hx], hx'⟩
      · simp at h

/-- Summing labels which live in one tensor only, tensor by tensor. -/
theorem replace_value (w : List (LT R × List Int × LT R)) (τ : Int → Nat)
    (h1 : ∀ x ∈ w, (∀ l ∈ x.2.2.2, τ l < dim l) →
      val x.2.2.1 x.2.2.2 τ = sumOver dim x.2.1 (val x.1.1 x.1.2) τ)
    (h2 : w.Pairwise (fun x y => (∀ l ∈ x.2.1, l ∉ y.1.2) ∧ (∀ l ∈ y.2.1, l ∉ x.1.2)))
    (hτ : ∀ l ∈ flat (w.map (fun x => x.2.2)), τ l < dim l) :
    netProd (w.map (fun x => x.2.2)) τ =
      sumOver dim (w.flatMap (fun x => x.2.1)) (netProd (w.map (fun x => x.1))) τ := by
  induction w with
  | nil => simp [netProd, sumOver]
  | cons x w ih =>
    rw [List.pairwise_cons] at h2
    have ih' := ih (fun y hy => h1 y (by simp [hy])) h2.2 (fun l hl => hτ l (by
      simp only [flat, List.map_cons, List.flatMap_cons, List.mem_append] at hl ⊢
      exact Or.inr hl))
    have e1 : netProd ((x :: w).map (fun x => x.2.2)) τ =
        val x.2.2.1 x.2.2.2 τ * netProd (w.map (fun x => x.2.2)) τ := by simp [netProd]
    have e2 : netProd ((x :: w).map (fun x => x.1)) =
        fun τ => val x.1.1 x.1.2 τ * netProd (w.map (fun x => x.1)) τ := by
      funext τ; simp [netProd]
    rw [e1, e2, List.flatMap_cons, sumOver_append]
    have e3 : (sumOver dim (w.flatMap (fun x => x.2.1))
        fun τ => val x.1.1 x.1.2 τ * netProd (w.map (fun x => x.1)) τ) =
        fun τ => val x.1.1 x.1.2 τ * sumOver dim (w.flatMap (fun x => x.2.1))
          (netProd (w.map (fun x => x.1))) τ := by
      funext τ
      refine sumOver_mul_left (dependsOn_val _ _) ?_
      intro l hl hl'
      obtain ⟨y, hy, hly⟩ := List.mem_flatMap.1 hl'
      exact (h2.1 y hy).2 l hly hl
    rw [e3, sumOver_mul_right (sumOver_dependsOn (netProd_dependsOn _)), ← ih', ← h1 x (by simp)]
    · intro l hl
      apply hτ
      simp [flat, hl]
    · intro l hl hlx
      simp only [List.mem_filter] at hl
      obtain ⟨q, hq, hlq⟩ := List.mem_flatMap.1 hl.1
      obtain ⟨y, hy, rfl⟩ := List.mem_map.1 hq
      exact (h2.1 y hy).1 l hlx hlq

theorem unflatten_flat (ls : List (List Int)) :
    unflatten (ls.flatMap id) (ls.map List.length) = ls := by
  induction ls with
  | nil => rfl
  | cons l ls ih =>
    simp only [List.flatMap_cons, List.map_cons, unflatten, id]
    rw [List.take_left' rfl, List.drop_left' rfl]
    rw [ih]

/-- Well-formedness of a labelled network at the level of canonical labels. -/
structure WellLabelled (dim : Int → Nat) (net : List (LT R)) (con out : List Int) : Prop where
  shaped : ∀ p ∈ net, Shaped dim p.1 p.2
  mult : ∀ p ∈ net, ∀ l ∈ p.2, p.2.count l = 1 ∨
    (0 < l ∧ p.2.count l = 2 ∧ (flat net).count l = 2)
  nonzero : ∀ l ∈ flat net, l ≠ 0
  con_nodup : con.Nodup
  con_mem : ∀ l, l ∈ con ↔ l ∈ flat net ∧ 0 < l
  out_nodup : out.Nodup
  out_mem : ∀ l, l ∈ out ↔ l ∈ flat net ∧ l < 0
  nonempty : net ≠ []

theorem count_flat_le {ts : List (LT R)} {p : LT R} (hp : p ∈ ts) (l : Int) :
    p.2.count l ≤ (flat ts).count l := by
  induction ts with
  | nil => simp at hp
  | cons q ts ih =>
    have : (flat (q :: ts)).count l = q.2.count l + (flat ts).count l := by simp [flat]
    rw [this]
    rcases List.mem_cons.1 hp with rfl | h
    · omega
    · have := ih h; omega

/-- Two different places of the list. -/
theorem pairwise_of_count {α : Type*} (w : List α) (g : α → List Int) (U : α → List Int)
    (h : ∀ x ∈ w, ∀ l ∈ U x, (g x).count l = (w.flatMap g).count l) :
    w.Pairwise (fun x y => (∀ l ∈ U x, l ∉ g y) ∧ (∀ l ∈ U y, l ∉ g x)) := by
  induction w with
  | nil => simp
  | cons x w ih =>
    have hc : ∀ l, ((x :: w).flatMap g).count l = (g x).count l + (w.flatMap g).count l := by
      intro l; simp
    have hle : ∀ y ∈ w, ∀ l, (g y).count l ≤ (w.flatMap g).count l := by
      intro y hy l
      exact List.Sublist.count_le l (by
        obtain ⟨s, t, rfl⟩ := List.append_of_mem hy
        simp only [List.flatMap_append, List.flatMap_cons]
        exact (List.sublist_append_left _ _).trans (List.sublist_append_right _ _))
    rw [List.pairwise_cons]
    refine ⟨fun y hy => ⟨fun l hl hly => ?_, fun l hl hlx => ?_⟩, ih fun y hy l hl => ?_⟩
    · have h1 := h x (by simp) l hl
      rw [hc] at h1
      have h2 := hle y hy l
      have h3 : 0 < (g y).count l := List.count_pos_iff.2 hly
      omega
    · have h1 := h y (by simp [hy]) l hl
      rw [hc] at h1
      have h2 := hle y hy l
      have h3 : 0 < (g x).count l := List.count_pos_iff.2 hlx
      omega
    · have h1 := h y (by simp [hy]) l hl
      rw [hc] at h1
      have h2 := hle y hy l
      omega

theorem flatMap_filter {α : Type*} (w : List α) (g : α → List Int) (P : Int → Bool) :
    (w.flatMap g).filter P = w.flatMap (fun x => (g x).filter P) := by
  induction w with
  | nil => rfl
  | cons x w ih => simp [ih]

/-- State after the partial traces. -/
theorem trace_phase {net : List (LT R)} {con out : List Int}
    (h : WellLabelled dim net con out) :
    ∃ (traced : List (NDArray R × List Int × List Int)) (U : List Int),
      pyMap (fun p : NDArray R × List Int => partialTrace p.1 p.2) net = .ok traced ∧
      (∀ c, (∀ p ∈ traced, c ∉ p.2.2) ↔ c ∉ U) ∧
      (∀ l, l ∈ U → 0 < l ∧ l ∈ flat net) ∧
      flat (traced.map (fun p => ((p.1, p.2.1) : LT R))) = (flat net).filter (fun l => l ∉ U) ∧
      (∀ p ∈ traced.map (fun p => ((p.1, p.2.1) : LT R)), Shaped dim p.1 p.2 ∧ p.2.Nodup) ∧
      traced.length = net.length ∧
      (∀ σ : Int → Nat, (∀ l ∈ out, σ l < dim l) →
        sumOver dim (con.filter (fun c => c ∉ U))
          (netProd (traced.map (fun p => ((p.1, p.2.1) : LT R)))) σ =
        sumOver dim con (netProd net) σ) ∧
      ∀ p ∈ traced.map (fun p => ((p.1, p.2.1) : LT R)), ∃ q ∈ net,
        p.2 = q.2.filter (fun l => l ∉ U) := by
  obtain ⟨w, e1, e2, e3⟩ := pyMap_ok (f := fun p : LT R => partialTrace p.1 p.2) (l := net)
    (P := fun p b => b.2.1 = p.2.filter (fun l => l ∉ b.2.2) ∧ b.2.2.Nodup ∧
      (∀ l, l ∈ b.2.2 ↔ p.2.count l = 2) ∧ Shaped dim b.1 b.2.1 ∧
      ∀ σ : Int → Nat, (∀ l ∈ b.2.1, σ l < dim l) →
        val b.1 b.2.1 σ = sumOver dim b.2.2 (val p.1 p.2) σ)
    (by
      intro p hp
      obtain ⟨r, uniq, h1, h2, h3, h4, h5⟩ := partialTrace_ok (h.shaped p hp)
      exact ⟨_, h1, rfl, h2, h3, h4, h5⟩)
  have hmem : ∀ x ∈ w, x.1 ∈ net := fun x hx => by
    rw [← e1]; exact List.mem_map.2 ⟨x, hx, rfl⟩
  set U := w.flatMap (fun x => x.2.2.2) with hU
  have hflat : flat net = w.flatMap (fun x => x.1.2) := by
    rw [← e1]; simp [flat, List.flatMap_map]
  -- traced labels of a tensor occur nowhere else
  have hone : ∀ x ∈ w, ∀ l ∈ x.2.2.2, 0 < l ∧ x.1.2.count l = 2 ∧ (flat net).count l = 2 := by
    intro x hx l hl
    obtain ⟨h1, h2, h3, h4, h5⟩ := e3 x hx
    have hc := (h3 l).1 hl
    have hl' : l ∈ x.1.2 := List.count_pos_iff.1 (by omega)
    rcases h.mult x.1 (hmem x hx) l hl' with h6 | h6
    · omega
    · exact h6
  have hpw : w.Pairwise (fun x y => (∀ l ∈ x.2.2.2, l ∉ y.1.2) ∧ (∀ l ∈ y.2.2.2, l ∉ x.1.2)) := by
    apply pairwise_of_count w (fun x => x.1.2) (fun x => x.2.2.2)
    intro x hx l hl
    rw [← hflat]
    have := hone x hx l hl
    omega
  have hmU : ∀ x ∈ w, ∀ l ∈ x.1.2, l ∈ U ↔ l ∈ x.2.2.2 := by
    intro x hx l hl
    constructor
    · intro hlU
      obtain ⟨y, hy, hly⟩ := List.mem_flatMap.1 hlU
      obtain ⟨h1, h2, h3⟩ := hone y hy l hly
      -- both tensors contain `l`, so they sit at the same place
      by_contra hne
      have hx1 : x.1.2.count l = 1 := by
        rcases h.mult x.1 (hmem x hx) l hl with h6 | h6
        · exact h6
        · exact absurd (((e3 x hx).2.2.1 l).2 h6.2.1) hne
      have key : ∀ (w' : List (LT R × NDArray R × List Int × List Int)), x ∈ w' → y ∈ w' →
          x.1.2.count l + y.1.2.count l ≤ (w'.flatMap (fun x => x.1.2)).count l ∨ x = y := by
        intro w' hx' hy'
        induction w' with
        | nil => simp at hx'
        | cons z w' ih =>
          have hle : ∀ v ∈ w', v.1.2.count l ≤ (w'.flatMap (fun x => x.1.2)).count l := by
            intro v hv
            exact List.Sublist.count_le l (by
              obtain ⟨s, t, rfl⟩ := List.append_of_mem hv
              simp only [List.flatMap_append, List.flatMap_cons]
              exact (List.sublist_append_left _ _).trans (List.sublist_append_right _ _))
          have hc : ((z :: w').flatMap (fun x => x.1.2)).count l =
              z.1.2.count l + (w'.flatMap (fun x => x.1.2)).count l := by simp
          rw [hc]
          rcases List.mem_cons.1 hx' with hxz | hxw <;> rcases List.mem_cons.1 hy' with hyz | hyw
          · exact Or.inr (hxz.trans hyz.symm)
          · subst hxz; left; have := hle y hyw; omega
          · subst hyz; left; have := hle x hxw; omega
          · rcases ih hxw hyw with h | h
            · left; omega
            · exact Or.inr h
      rcases key w hx hy with h7 | h7
      · rw [← hflat] at h7; omega
      · subst h7; omega
    · intro hlx
      exact List.mem_flatMap.2 ⟨x, hx, hlx⟩
  have hnew : ∀ x ∈ w, x.2.2.1 = x.1.2.filter (fun l => l ∉ U) := by
    intro x hx
    rw [(e3 x hx).1]
    apply List.filter_congr
    intro l hl
    simp only [hmU x hx l hl]
  have hts : (w.map Prod.snd).map (fun p => ((p.1, p.2.1) : LT R)) =
      w.map (fun x => (x.2.1, x.2.2.1)) := by simp [List.map_map, Function.comp_def]
  have hUn : U.Nodup := by
    rw [hU, List.nodup_flatMap]
    refine ⟨fun x hx => (e3 x hx).2.1, hpw.imp_of_mem ?_⟩
    intro x y hx hy hxy l hlx hly
    have h1 := hone y hy l hly
    exact hxy.1 l hlx (List.count_pos_iff.1 (by omega))
  refine ⟨w.map Prod.snd, U, e2, ?_, ?_, ?_, ?_, ?_, ?_, ?_⟩
  · intro c
    rw [hU]
    simp only [List.mem_map, List.mem_flatMap, not_exists, not_and]
    constructor
    · intro h x hx; exact h x.2 ⟨x, hx, rfl⟩
    · rintro h p ⟨x, hx, rfl⟩; exact h x hx
  · intro l hl
    obtain ⟨x, hx, hlx⟩ := List.mem_flatMap.1 hl
    have := hone x hx l hlx
    exact ⟨this.1, List.count_pos_iff.1 (by omega)⟩
  · rw [hts, hflat, flatMap_filter]
    simp only [flat, List.flatMap_map]
    exact List.flatMap_congr fun x hx => hnew x hx
  · rw [hts]
    intro p hp
    obtain ⟨x, hx, rfl⟩ := List.mem_map.1 hp
    obtain ⟨h1, h2, h3, h4, h5⟩ := e3 x hx
    refine ⟨h4, ?_⟩
    simp only
    rw [h1, List.nodup_iff_count_le_one]
    intro l
    by_cases hl : l ∈ x.1.2.filter (fun l => l ∉ x.2.2.2)
    · have hl2 := hl
      simp only [List.mem_filter, decide_eq_true_eq] at hl
      rw [List.count_filter (by simpa using hl.2)]
      rcases h.mult x.1 (hmem x hx) l hl.1 with h6 | h6
      · omega
      · exact absurd ((h3 l).2 h6.2.1) hl.2
    · rw [List.count_eq_zero.2 hl]; omega
  · rw [← e1]; simp
  · intro σ hσ
    have hperm : con.Perm (con.filter (fun c => c ∉ U) ++ U) := by
      rw [List.perm_ext_iff_of_nodup h.con_nodup]
      · intro l
        simp only [List.mem_append, List.mem_filter, decide_eq_true_eq]
        constructor
        · intro hl
          by_cases hlU : l ∈ U
          · exact Or.inr hlU
          · exact Or.inl ⟨hl, hlU⟩
        · rintro (hl | hl)
          · exact hl.1
          · obtain ⟨x, hx, hlx⟩ := List.mem_flatMap.1 hl
            have := hone x hx l hlx
            exact (h.con_mem l).2 ⟨List.count_pos_iff.1 (by omega), this.1⟩
      · rw [List.nodup_append]
        refine ⟨h.con_nodup.filter _, hUn, ?_⟩
        intro a ha b hb hab
        subst hab
        simp only [List.mem_filter, decide_eq_true_eq] at ha
        exact ha.2 hb
    rw [sumOver_perm hperm, sumOver_append, hts]
    refine sumOver_congr fun τ h1 h2 => ?_
    have hrep := replace_value (dim := dim)
      (w.map (fun x => ((x.1, x.2.2.2, (x.2.1, x.2.2.1)) : LT R × List Int × LT R))) τ ?_ ?_ ?_
    · simp only [List.map_map, List.flatMap_map, Function.comp_def] at hrep
      rw [hrep, ← e1]
    · intro y hy
      obtain ⟨x, hx, rfl⟩ := List.mem_map.1 hy
      exact (e3 x hx).2.2.2.2 τ
    · rw [List.pairwise_map]
      exact hpw
    · intro l hl
      simp only [List.map_map, Function.comp_def, flat, List.flatMap_map] at hl
      obtain ⟨x, hx, hlx⟩ := List.mem_flatMap.1 hl
      rw [hnew x hx] at hlx
      simp only [List.mem_filter, decide_eq_true_eq] at hlx
      have hlf : l ∈ flat net := by
        rw [hflat]; exact List.mem_flatMap.2 ⟨x, hx, hlx.1⟩
      rcases lt_or_gt_of_ne (h.nonzero l hlf) with hneg | hpos
      · have hlo : l ∈ out := (h.out_mem l).2 ⟨hlf, hneg⟩
        rw [h1 l]
        · exact hσ l hlo
        · intro hc
          have := (h.con_mem l).1 (List.mem_filter.1 hc).1
          omega
      · apply h2
        simp only [List.mem_filter, decide_eq_true_eq]
        exact ⟨(h.con_mem l).2 ⟨hlf, hpos⟩, hlx.2⟩
  · rw [hts]
    intro p hp
    obtain ⟨x, hx, rfl⟩ := List.mem_map.1 hp
    exact ⟨x.1, hmem x hx, hnew x hx⟩

/-- Hypotheses of the summation phase. -/
theorem sum_phase {ts : List (LT R)} {con out : List Int}
    (hsh : ∀ p ∈ ts, Shaped dim p.1 p.2 ∧ p.2.Nodup)
    (hnz : ∀ l ∈ flat ts, l ≠ 0) (hcn : con.Nodup)
    (hcm : ∀ l, l ∈ con ↔ l ∈ flat ts ∧ 0 < l)
    (hom : ∀ l, l ∈ out ↔ l ∈ flat ts ∧ l < 0)
    {S : List Int} (hS : S = (flat ts).filter (fun l => (flat ts).count l = 1 ∧ l > 0))
    {ts2 : List (LT R)} (hok : pyMap (sumSingles S) ts = .ok ts2) :
      flat ts2 = (flat ts).filter (fun l => l ∉ S) ∧
      (∀ p ∈ ts2, Shaped dim p.1 p.2 ∧ p.2.Nodup) ∧ ts2.length = ts.length ∧
      ∀ σ : Int → Nat, (∀ l ∈ out, σ l < dim l) →
        sumOver dim (con.filter (fun c => c ∉ S)) (netProd ts2) σ =
        sumOver dim con (netProd ts) σ := by
  have hSm : ∀ l, l ∈ S ↔ (flat ts).count l = 1 ∧ 0 < l := by
    intro l
    rw [hS]
    simp only [List.mem_filter, decide_eq_true_eq, gt_iff_lt, and_iff_right_iff_imp]
    intro h
    exact List.count_pos_iff.1 (by omega)
  have hSn : S.Nodup := by
    rw [List.nodup_iff_count_le_one]
    intro l
    by_cases hl : l ∈ S
    · have h1 : (flat ts).count l = 1 ∧ l > 0 := (hSm l).1 hl
      rw [hS, List.count_filter (p := fun l => decide ((flat ts).count l = 1 ∧ l > 0))
        (by simpa using h1), h1.1]
    · rw [List.count_eq_zero.2 hl]; omega
  obtain ⟨w, e1, e2, e3⟩ := pyMap_inv hok
  have hmem : ∀ x ∈ w, x.1 ∈ ts := fun x hx => by
    rw [← e1]; exact List.mem_map.2 ⟨x, hx, rfl⟩
  have hflat : flat ts = w.flatMap (fun x => x.1.2) := by
    rw [← e1]; simp [flat, List.flatMap_map]
  -- labels summed in each tensor
  set V : LT R × LT R → List Int := fun x => if ∃ l ∈ S, l ∈ x.1.2 then S else [] with hV
  have hVx : ∀ x ∈ w, (∀ l ∈ V x, l ∈ S ∧ l ∈ x.1.2) ∧
      x.2.2 = x.1.2.filter (fun l => l ∉ S) ∧ Shaped dim x.2.1 x.2.2 ∧
      ∀ σ, val x.2.1 x.2.2 σ = sumOver dim (V x) (val x.1.1 x.1.2) σ := by
    intro x hx
    have hs := e3 x hx
    have hsd := hsh x.1 (hmem x hx)
    unfold sumSingles at hs
    split at hs
    · rename_i hpos
      have hex : ∃ l ∈ S, l ∈ x.1.2 := by
        obtain ⟨l, hl⟩ := List.length_pos_iff_exists_mem.1 hpos
        simp only [List.mem_filter, decide_eq_true_eq] at hl
        exact ⟨l, hl.2, hl.1⟩
      have hVS : V x = S := by simp only [hV, if_pos hex]
      split at hs
      · rename_i hall
        obtain ⟨r, g1, g2, g3⟩ := sum_val hsd.1 hSn
          (fun l hl => List.count_eq_one_of_mem hsd.2 (hall l hl))
        rw [g1] at hs
        simp only [bind, Except.bind, pure, Except.pure, Except.ok.injEq] at hs
        rw [hVS, ← hs]
        exact ⟨fun l hl => ⟨hl, hall l hl⟩, rfl, g2, g3⟩
      · simp at hs
    · rename_i hpos
      have hno : ¬ ∃ l ∈ S, l ∈ x.1.2 := by
        rintro ⟨l, hl, hlx⟩
        exact hpos (List.length_pos_iff_exists_mem.2
          ⟨l, List.mem_filter.2 ⟨hlx, by simpa using hl⟩⟩)
      simp only [pure, Except.pure, Except.ok.injEq] at hs
      have hVS : V x = [] := by simp only [hV, if_neg hno]
      rw [hVS, ← hs]
      refine ⟨by simp, ?_, hsd.1, fun σ => rfl⟩
      symm
      rw [List.filter_eq_self]
      intro l hl
      simp only [decide_eq_true_eq]
      exact fun hlS => hno ⟨l, hlS, hl⟩
  have hcV : ∀ x ∈ w, ∀ l ∈ V x, x.1.2.count l = 1 ∧ (flat ts).count l = 1 := by
    intro x hx l hl
    obtain ⟨h1, h2⟩ := (hVx x hx).1 l hl
    exact ⟨List.count_eq_one_of_mem (hsh x.1 (hmem x hx)).2 h2, ((hSm l).1 h1).1⟩
  have hpw : w.Pairwise (fun x y => (∀ l ∈ V x, l ∉ y.1.2) ∧ (∀ l ∈ V y, l ∉ x.1.2)) := by
    apply pairwise_of_count w (fun x => x.1.2) V
    intro x hx l hl
    rw [← hflat]
    have := hcV x hx l hl
    omega
  have hVS : (w.flatMap V).Perm S := by
    rw [List.perm_ext_iff_of_nodup _ hSn]
    · intro l
      rw [List.mem_flatMap]
      constructor
      · rintro ⟨x, hx, hl⟩
        exact ((hVx x hx).1 l hl).1
      · intro hl
        have hlf : l ∈ flat ts := List.count_pos_iff.1 (by have := (hSm l).1 hl; omega)
        rw [hflat, List.mem_flatMap] at hlf
        obtain ⟨x, hx, hlx⟩ := hlf
        refine ⟨x, hx, ?_⟩
        have hex : ∃ l ∈ S, l ∈ x.1.2 := ⟨l, hl, hlx⟩
        simp only [hV, if_pos hex]
        exact hl
    · rw [List.nodup_flatMap]
      constructor
      · intro x hx
        simp only [hV]
        split
        · exact hSn
        · exact List.nodup_nil
      · refine hpw.imp_of_mem ?_
        intro x y hx hy hxy l hlx hly
        exact hxy.1 l hlx ((hVx y hy).1 l hly).2
  refine ⟨?_, ?_, by rw [← e2, ← e1]; simp, ?_⟩
  · rw [hflat, flatMap_filter, ← e2]
    simp only [flat, List.flatMap_map]
    exact List.flatMap_congr fun x hx => (hVx x hx).2.1
  · rw [← e2]
    intro p hp
    obtain ⟨x, hx, rfl⟩ := List.mem_map.1 hp
    refine ⟨(hVx x hx).2.2.1, ?_⟩
    rw [(hVx x hx).2.1]
    exact (hsh x.1 (hmem x hx)).2.filter _
  · intro σ hσ
    have hperm : con.Perm (con.filter (fun c => c ∉ S) ++ w.flatMap V) := by
      refine List.Perm.trans ?_ (List.Perm.append_left _ hVS.symm)
      rw [List.perm_ext_iff_of_nodup hcn]
      · intro l
        simp only [List.mem_append, List.mem_filter, decide_eq_true_eq]
        constructor
        · intro hl
          by_cases hlU : l ∈ S
          · exact Or.inr hlU
          · exact Or.inl ⟨hl, hlU⟩
        · rintro (hl | hl)
          · exact hl.1
          · have := (hSm l).1 hl
            exact (hcm l).2 ⟨List.count_pos_iff.1 (by omega), this.2⟩
      · rw [List.nodup_append]
        refine ⟨hcn.filter _, hSn, ?_⟩
        intro a ha b hb hab
        subst hab
        simp only [List.mem_filter, decide_eq_true_eq] at ha
        exact ha.2 hb
    rw [sumOver_perm hperm, sumOver_append]
    refine sumOver_congr fun τ h1 h2 => ?_
    have hrep := replace_value (dim := dim)
      (w.map (fun x => ((x.1, V x, x.2) : LT R × List Int × LT R))) τ ?_ ?_ ?_
    · simp only [List.map_map, List.flatMap_map, Function.comp_def] at hrep
      rw [← e1, ← e2]
      exact hrep
    · intro y hy
      obtain ⟨x, hx, rfl⟩ := List.mem_map.1 hy
      intro _
      exact (hVx x hx).2.2.2 τ
    · rw [List.pairwise_map]
      exact hpw
    · intro l hl
      simp only [List.map_map, Function.comp_def, flat, List.flatMap_map] at hl
      obtain ⟨x, hx, hlx⟩ := List.mem_flatMap.1 hl
      rw [(hVx x hx).2.1] at hlx
      simp only [List.mem_filter, decide_eq_true_eq] at hlx
      have hlf : l ∈ flat ts := by
        rw [hflat]; exact List.mem_flatMap.2 ⟨x, hx, hlx.1⟩
      rcases lt_or_gt_of_ne (hnz l hlf) with hneg | hpos
      · have hlo : l ∈ out := (hom l).2 ⟨hlf, hneg⟩
        rw [h1 l]
        · exact hσ l hlo
        · intro hc
          have := (hcm l).1 (List.mem_filter.1 hc).1
          omega
      · apply h2
        simp only [List.mem_filter, decide_eq_true_eq]
        exact ⟨(hcm l).2 ⟨hlf, hpos⟩, hlx.2⟩

/-- The state with which the main loop starts satisfies the invariant. -/
theorem init_inv (so : SetOrder) {ts : List (LT R)} {con out : List Int} {F : (Int → Nat) → R}
    (hsh : ∀ p ∈ ts, Shaped dim p.1 p.2 ∧ p.2.Nodup)
    (hnz : ∀ l ∈ flat ts, l ≠ 0) (hcn : con.Nodup)
    (hcm : ∀ l, l ∈ con ↔ l ∈ flat ts ∧ 0 < l)
    (hom : ∀ l, l ∈ out ↔ l ∈ flat ts ∧ l < 0) (hne : ts ≠ [])
    (hF : ∀ σ : Int → Nat, (∀ l ∈ out, σ l < dim l) → sumOver dim con (netProd ts) σ = F σ)
    {S : List Int} (hS : S = (flat ts).filter (fun l => (flat ts).count l = 1 ∧ l > 0))
    {ts2 : List (LT R)} (hok : pyMap (sumSingles S) ts = .ok ts2) :
    Inv dim F out { ts := ts2, con := con.filter (fun c => c ∉ S),
                    batch := batchInit so (flat ts), skip := 0 } := by
  obtain ⟨h1, h2, h3, h4⟩ := sum_phase hsh hnz hcn hcm hom hS hok
  have hSm : ∀ l, l ∈ S ↔ (flat ts).count l = 1 ∧ 0 < l := by
    intro l
    rw [hS]
    simp only [List.mem_filter, decide_eq_true_eq, gt_iff_lt, and_iff_right_iff_imp]
    intro h
    exact List.count_pos_iff.1 (by omega)
  have hmem : ∀ l, l ∈ flat ts2 ↔ l ∈ flat ts ∧ l ∉ S := by
    intro l; rw [h1]; simp
  have hcnt : ∀ l, l ∉ S → (flat ts2).count l = (flat ts).count l := by
    intro l hl
    rw [h1, List.count_filter (by simpa using hl)]
  have hcnt0 : ∀ l, l ∈ S → (flat ts2).count l = 0 := by
    intro l hl
    rw [List.count_eq_zero, hmem]
    exact fun h => h.2 hl
  have hfst : (batchInit so (flat ts)).map Prod.fst = (so.ord 0 (flat ts).dedup).filter
      (fun l => (flat ts).count l > 2 ∨ ((flat ts).count l = 2 ∧ l < 0)) := by
    simp [batchInit, List.map_map, Function.comp_def]
  have hfm : ∀ l, l ∈ (batchInit so (flat ts)).map Prod.fst ↔
      (flat ts).count l > 2 ∨ ((flat ts).count l = 2 ∧ l < 0) := by
    intro l
    rw [hfst]
    simp only [List.mem_filter, decide_eq_true_eq, (so.perm _ _).mem_iff, List.mem_dedup,
      and_iff_right_iff_imp]
    intro h
    exact List.count_pos_iff.1 (by omega)
  have hbp : ∀ p ∈ batchInit so (flat ts), p.2 = (flat ts).count p.1 ∧
      (p.2 > 2 ∨ (p.2 = 2 ∧ p.1 < 0)) := by
    intro p hp
    simp only [batchInit, List.mem_map, List.mem_filter, decide_eq_true_eq] at hp
    obtain ⟨l, hl, rfl⟩ := hp
    exact ⟨rfl, hl.2⟩
  refine
    { shaped := fun p hp => (h2 p hp).1, nodup := fun p hp => (h2 p hp).2
      con_nodup := hcn.filter _, con_mem := ?_, out_mem := ?_, nonzero := ?_, two := ?_
      batch_nodup := ?_, batch_pos := ?_, nbatch_pos := ?_, nbatch_neg := ?_, batch_gt := ?_
      nonempty := ?_, value := ?_ }
  · intro l
    simp only [List.mem_filter, decide_eq_true_eq]
    rw [hmem, hcm]
    tauto
  · intro l
    simp only
    rw [hmem, hom, hSm]
    constructor
    · rintro ⟨a, b⟩; exact ⟨⟨a, fun h => by omega⟩, b⟩
    · rintro ⟨a, b⟩; exact ⟨a.1, b⟩
  · intro l hl
    exact hnz l ((hmem l).1 hl).1
  · intro l hl hpos
    simp only at hl ⊢
    obtain ⟨a, b⟩ := (hmem l).1 hl
    rw [hcnt l b]
    have hc : 0 < (flat ts).count l := List.count_pos_iff.2 a
    have : (flat ts).count l ≠ 1 := fun h => b ((hSm l).2 ⟨h, hpos⟩)
    omega
  · simp only
    rw [hfst]
    exact List.Nodup.filter _ ((so.perm _ _).nodup_iff.2 (List.nodup_dedup _))
  · intro p hp
    simp only at hp ⊢
    obtain ⟨a, b⟩ := hbp p hp
    rw [hcnt, a]
    intro hl
    have := (hSm p.1).1 hl
    omega
  · intro l hl hpos
    simp only at hl ⊢
    rw [hfm] at hl
    by_cases hlS : l ∈ S
    · rw [hcnt0 l hlS]; omega
    · rw [hcnt l hlS]; omega
  · intro l hl hneg
    simp only at hl ⊢
    rw [hfm] at hl
    by_cases hlS : l ∈ S
    · rw [hcnt0 l hlS]; omega
    · rw [hcnt l hlS]; omega
  · intro p hp hpos
    obtain ⟨a, b⟩ := hbp p hp
    omega
  · intro h
    simp only at h
    rw [h] at h3
    exact hne (List.length_eq_zero_iff.1 h3.symm)
  · intro σ hσ
    simp only
    rw [h4 σ hσ, hF σ hσ]

/-- Everything `_jittable_ncon` does before the main loop, on a well labelled network. -/
theorem jittable_eq (so : SetOrder) {net : List (LT R)} {con out : List Int}
    (h : WellLabelled dim net con out) :
    ∃ (ts : List (LT R)) (con1 : List Int),
      jittableNcon so (net.map Prod.fst) (flat net) (net.map (fun p => p.2.length)) con out =
        (do
          let ts2 ← pyMap (sumSingles
            ((flat ts).filter (fun l => (flat ts).count l = 1 ∧ l > 0))) ts
          let st ← loop so { ts := ts2, con := con1.filter (fun o => o ∉
            (flat ts).filter (fun l => (flat ts).count l = 1 ∧ l > 0)),
                             batch := batchInit so (flat ts), skip := 0 }
          let a ← finish so (st.batch.map Prod.fst) st.ts.reverse
          finalPerm a out) ∧
      (∀ p ∈ ts, Shaped dim p.1 p.2 ∧ p.2.Nodup) ∧ (∀ l ∈ flat ts, l ≠ 0) ∧ con1.Nodup ∧
      (∀ l, l ∈ con1 ↔ l ∈ flat ts ∧ 0 < l) ∧ (∀ l, l ∈ out ↔ l ∈ flat ts ∧ l < 0) ∧ ts ≠ [] ∧
      (∀ σ : Int → Nat, (∀ l ∈ out, σ l < dim l) →
        sumOver dim con1 (netProd ts) σ = sumOver dim con (netProd net) σ) ∧
      (∃ U : List Int, (∀ l ∈ U, 0 < l) ∧ (∀ l ∈ U, l ∈ flat net) ∧
        flat ts = (flat net).filter (fun l => l ∉ U) ∧
        ∀ p ∈ ts, ∃ q ∈ net, p.2 = q.2.filter (fun l => l ∉ U)) := by
  obtain ⟨traced, U, e1, e2, e3, e4, e5, e6, e7, e8⟩ := trace_phase h
  refine ⟨traced.map (fun p => ((p.1, p.2.1) : LT R)), con.filter (fun c => c ∉ U), ?_, e5, ?_,
    h.con_nodup.filter _, ?_, ?_, ?_, e7, U, fun l hl => (e3 l hl).1, fun l hl => (e3 l hl).2, e4, e8⟩
  · have hu : unflatten (flat net) (net.map (fun p => p.2.length)) = net.map Prod.snd := by
      have := unflatten_flat (net.map Prod.snd)
      rw [List.map_map] at this
      simpa [flat, List.flatMap_map, Function.comp_def] using this
    have hz : (net.map Prod.fst).zip (net.map Prod.snd) = net := by
      rw [List.zip_map']; simp
    have hf : con.filter (fun c => decide (∀ p ∈ traced, c ∉ p.2.2)) =
        con.filter (fun c => c ∉ U) := by
      apply List.filter_congr
      intro c _
      simp only [e2]
    simp only [jittableNcon, hu, hz]
    erw [e1]
    simp only [bind, Except.bind, hf]
    rfl
  · intro l hl
    rw [e4] at hl
    exact h.nonzero l (List.mem_filter.1 hl).1
  · intro l
    rw [e4]
    simp only [List.mem_filter, decide_eq_true_eq]
    rw [h.con_mem]
    tauto
  · intro l
    rw [e4]
    simp only [List.mem_filter, decide_eq_true_eq]
    rw [h.out_mem]
    constructor
    · rintro ⟨a, b⟩
      exact ⟨⟨a, fun hU => by have := (e3 l hU).1; omega⟩, b⟩
    · rintro ⟨a, b⟩
      exact ⟨a.1, b⟩
  · intro h0
    have : traced.length = 0 := by simpa using congrArg List.length h0
    rw [e6] at this
    exact h.nonempty (List.length_eq_zero_iff.1 this)

theorem jittable_ok_or_value (so : SetOrder) {net : List (LT R)} {con out : List Int}
    (h : WellLabelled dim net con out) :
    (∃ r, jittableNcon so (net.map Prod.fst) (flat net) (net.map (fun p => p.2.length)) con out
        = .ok r ∧ Shaped dim r out ∧
      ∀ σ : Int → Nat, (∀ l ∈ out, σ l < dim l) →
        val r out σ = sumOver dim con (netProd net) σ) ∨
    jittableNcon so (net.map Prod.fst) (flat net) (net.map (fun p => p.2.length)) con out
        = .error .valueError := by
  obtain ⟨ts, con1, h0, h1, h2, h3, h4, h5, h6, h7, _⟩ := jittable_eq so h
  rw [h0]
  match hp : pyMap (sumSingles ((flat ts).filter (fun l => (flat ts).count l = 1 ∧ l > 0))) ts with
  | .error e =>
    right
    simp only [bind, Except.bind]
    obtain ⟨a, ha, he⟩ := pyMap_error hp
    have hsd := h1 a ha
    unfold sumSingles at he
    split at he
    · split at he
      · rename_i hall
        exfalso
        have hSn : ((flat ts).filter (fun l => (flat ts).count l = 1 ∧ l > 0)).Nodup := by
          rw [List.nodup_iff_count_le_one]
          intro l
          by_cases hl : (flat ts).count l = 1 ∧ l > 0
          · rw [List.count_filter (p := fun l => decide ((flat ts).count l = 1 ∧ l > 0))
              (by simpa using hl), hl.1]
          · rw [List.count_eq_zero.2]
            · omega
            · intro hm
              simp only [List.mem_filter, decide_eq_true_eq] at hm
              exact hl hm.2
        obtain ⟨r, g1, g2, g3⟩ := sum_val hsd.1 hSn
          (fun l hl => List.count_eq_one_of_mem hsd.2 (hall l hl))
        rw [g1] at he
        simp [bind, Except.bind, pure, Except.pure] at he
      · simp only [Except.error.injEq] at he
        rw [he]
    · simp [pure, Except.pure] at he
  | .ok ts2 =>
    simp only [bind, Except.bind]
    have hI := init_inv so h1 h2 h3 h4 h5 h6 h7 rfl hp
    rcases loop_inv (so := so) _ hI with ⟨st', g1, g2, g3⟩ | g
    · left
      rw [g1]
      simp only
      obtain ⟨a, f1, f2⟩ := finish_ok so st'.ts.reverse.length _ le_rfl
        (by simpa using g2.nonempty) (inv_fin g2 g3)
      rw [f1]
      exact finalPerm_ok f2 h.out_nodup
    · right
      rw [g]

/-- Networks whose closed labels occur at most twice, those occurring once all on one
tensor, always succeed. -/
theorem jittable_ok (so : SetOrder) {net : List (LT R)} {con out : List Int}
    (h : WellLabelled dim net con out)
    (hpos : ∀ l ∈ flat net, 0 < l → (flat net).count l ≤ 2)
    (hone : ∀ p ∈ net, ∀ l ∈ p.2, 0 < l → (flat net).count l = 1 →
      ∀ l', 0 < l' → (flat net).count l' = 1 → l' ∈ p.2) :
    ∃ r, jittableNcon so (net.map Prod.fst) (flat net) (net.map (fun p => p.2.length)) con out
        = .ok r := by
  obtain ⟨ts, con1, h0, h1, h2, h3, h4, h5, h6, h7, U, hU, hUc, hf, hlab⟩ := jittable_eq so h
  rw [h0]
  have hcnt : ∀ l ∈ flat ts, (flat ts).count l = (flat net).count l := by
    intro l hl
    rw [hf] at hl ⊢
    rw [List.count_filter (p := fun l => decide (l ∉ U)) (List.mem_filter.1 hl).2]
  have hfm : ∀ l ∈ flat ts, l ∈ flat net := by
    intro l hl
    rw [hf] at hl
    exact (List.mem_filter.1 hl).1
  have hsub : ∀ l, (flat ts).count l ≤ (flat net).count l := by
    intro l
    rw [hf]
    exact List.Sublist.count_le l List.filter_sublist
  set S := (flat ts).filter (fun l => (flat ts).count l = 1 ∧ l > 0) with hSd
  have hSm : ∀ l ∈ S, 0 < l ∧ (flat net).count l = 1 ∧ (flat ts).count l = 1 ∧ l ∉ U := by
    intro l hl
    simp only [hSd, List.mem_filter, decide_eq_true_eq] at hl
    refine ⟨hl.2.2, by rw [← hcnt l hl.1, hl.2.1], hl.2.1, ?_⟩
    have := hl.1
    rw [hf] at this
    simpa using (List.mem_filter.1 this).2
  have hSn : S.Nodup := by
    rw [List.nodup_iff_count_le_one]
    intro l
    by_cases hl : (flat ts).count l = 1 ∧ l > 0
    · rw [hSd, List.count_filter (p := fun l => decide ((flat ts).count l = 1 ∧ l > 0))
        (by simpa using hl), hl.1]
    · rw [List.count_eq_zero.2]
      · omega
      · intro hm
        simp only [hSd, List.mem_filter, decide_eq_true_eq] at hm
        exact hl hm.2
  have hok : ∃ ts2, pyMap (sumSingles S) ts = .ok ts2 := by
    obtain ⟨w, _, e2, _⟩ := pyMap_ok (f := sumSingles S) (l := ts) (P := fun _ _ => True) (by
      intro p hp
      have hsd := h1 p hp
      unfold sumSingles
      split
      · rename_i hlen
        obtain ⟨l, hl⟩ := List.length_pos_iff_exists_mem.1 hlen
        simp only [List.mem_filter, decide_eq_true_eq] at hl
        obtain ⟨q, hq, hqp⟩ := hlab p hp
        have hall : ∀ l' ∈ S, l' ∈ p.2 := by
          intro l' hl'
          have a1 := hSm l hl.2
          have a2 := hSm l' hl'
          rw [hqp] at hl ⊢
          have := hone q hq l (List.mem_filter.1 hl.1).1 a1.1 a1.2.1 l' a2.1 a2.2.1
          exact List.mem_filter.2 ⟨this, by simpa using a2.2.2.2⟩
        rw [if_pos hall]
        obtain ⟨r, g1, g2, g3⟩ := sum_val hsd.1 hSn
          (fun l hl => List.count_eq_one_of_mem hsd.2 (hall l hl))
        rw [g1]
        exact ⟨_, rfl, trivial⟩
      · exact ⟨_, rfl, trivial⟩)
    exact ⟨_, e2⟩
  obtain ⟨ts2, hok⟩ := hok
  have hI := init_inv so h1 h2 h3 h4 h5 h6 h7 hSd hok
  rw [hok]
  simp only [bind, Except.bind]
  obtain ⟨st', g1, g2, g3⟩ := loop_ok (so := so) _ hI (by
    intro l hl
    simp only [batchInit, List.mem_map, List.mem_filter, decide_eq_true_eq] at hl
    obtain ⟨p, ⟨l', hl', rfl⟩, rfl⟩ := hl
    simp only
    have hl2 : l' ∈ flat ts := by
      have := (so.perm _ _).mem_iff.1 hl'.1
      simpa using this
    by_contra hneg
    have hne := h2 l' hl2
    have := hpos l' (hfm l' hl2) (by omega)
    have := hsub l'
    omega)
  rw [g1]
  simp only
  obtain ⟨a, f1, f2⟩ := finish_ok so st'.ts.reverse.length _ le_rfl
    (by simpa using g2.nonempty) (inv_fin g2 g3)
  rw [f1]
  obtain ⟨r, hr, _⟩ := finalPerm_ok f2 h.out_nodup
  exact ⟨r, hr⟩

end TN.Ncon
