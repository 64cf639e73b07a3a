import Verif.NconProof

/-!
# The main loop, the outer-product phase and the whole of `_jittable_ncon`
-/

set_option linter.unusedSectionVars false

namespace TN.Ncon

open Finset NDArray

variable {R : Type*} [CommSemiring R] {dim : Int → Nat}

/-- `con_order.append(con_order.pop(0))` keeps the invariant. -/
theorem rotate_inv {F : (Int → Nat) → R} {out : List Int} {st : State R}
    (hI : Inv dim F out st) {c : Int} {rest : List Int} (hc : st.con = c :: rest) (k : Nat) :
    Inv dim F out { st with con := rest ++ [c], skip := k } := by
  have hp : (rest ++ [c]).Perm st.con := by
    rw [hc]; exact List.perm_append_comm
  exact
    { shaped := hI.shaped, nodup := hI.nodup, con_nodup := hp.nodup_iff.2 hI.con_nodup
      con_mem := fun l => by rw [hp.mem_iff]; exact hI.con_mem l
      out_mem := hI.out_mem, nonzero := hI.nonzero, two := hI.two
      batch_nodup := hI.batch_nodup, batch_pos := hI.batch_pos
      nbatch_pos := hI.nbatch_pos, nbatch_neg := hI.nbatch_neg, batch_gt := hI.batch_gt
      nonempty := hI.nonempty
      value := fun σ hσ => by rw [sumOver_perm hp]; exact hI.value σ hσ }

theorem updateBatch_nil (batch : List (Int × Nat)) : updateBatch batch [] = batch := by
  simp [updateBatch]

/-- One round of the main loop keeps the invariant. -/
theorem step_inv {so : SetOrder} {F : (Int → Nat) → R} {out : List Int} {st st' : State R}
    (hI : Inv dim F out st) (h : step so st = .ok (some st')) : Inv dim F out st' := by
  rcases step_some h with ⟨c, rest, hc, _, hs, rfl⟩ |
      ⟨c, rest, n0, n1, a, b, hc, hb, hlt, ha, hb', hca, hcb, h | h⟩
  · exact rotate_inv hI hc _
  · obtain ⟨cb, cc, r, h1, h2, h3, rfl⟩ := h
    have hp := erase_two_perm hlt ha hb'
    have hma : a ∈ st.ts := List.mem_of_getElem? ha
    have hmb : b ∈ st.ts := List.mem_of_getElem? hb'
    have hcbm : ∀ l, l ∈ cb ↔ l ∈ a.2 ∧ l ∈ b.2 ∧ l ∈ st.batch.map Prod.fst := by
      intro l
      rw [h1.mem_iff]
      simp only [List.mem_filter, List.mem_dedup, decide_eq_true_eq, mem_commonLabels]
      tauto
    have hcbn : cb.Nodup := by
      rw [h1.nodup_iff]; exact List.Nodup.filter _ (List.nodup_dedup _)
    obtain ⟨r', cc', e1, e2, e3, e4, e5⟩ := batchCont_ok so (3 * st.ts.length + 2)
      (hI.shaped a hma) (hI.shaped b hmb) (hI.nodup a hma) (hI.nodup b hmb) hcbn
      (fun l hl => ((hcbm l).1 hl).1) (fun l hl => ((hcbm l).1 hl).2.1)
    rw [e1] at h3
    simp only [Except.ok.injEq, Prod.mk.injEq] at h3
    obtain ⟨rfl, rfl⟩ := h3
    exact merge_inv hI hp hcbn e2 hcbm e3 (List.Perm.refl _) e4 e5 rfl
  · obtain ⟨r, h1, h2, rfl⟩ := h
    have hp := erase_two_perm hlt ha hb'
    have hma : a ∈ st.ts := List.mem_of_getElem? ha
    have hmb : b ∈ st.ts := List.mem_of_getElem? hb'
    set common := commonLabels so (3 * st.ts.length) a.2 b.2 with hcommon
    have hcm : ∀ l, l ∈ common ↔ l ∈ a.2 ∧ l ∈ b.2 := fun l => mem_commonLabels
    have hcn : common.Nodup := by
      rw [hcommon, commonLabels, (so.perm _ _).nodup_iff]
      exact List.Nodup.filter _ (List.nodup_dedup _)
    obtain ⟨r', e1, e2, e3⟩ := dotCont_ok (hI.shaped a hma) (hI.shaped b hmb) (hI.nodup a hma)
      (hI.nodup b hmb) hcn (fun l hl => ((hcm l).1 hl).1) (fun l hl => ((hcm l).1 hl).2)
    rw [e1] at h2
    simp only [Except.ok.injEq] at h2
    subst h2
    refine merge_inv (cb := []) hI hp List.nodup_nil hcn ?_ ?_ ?_ e2 (fun τ _ => e3 τ)
      (updateBatch_nil _).symm
    · intro l
      simp only [List.not_mem_nil, false_iff]
      rintro ⟨h3, h4, h5⟩
      exact h1 l h5 ((hcm l).2 ⟨h3, h4⟩)
    · intro l
      rw [hcm]; simp
    · simp

/-- A round for a label which is not (any more) a batch label always succeeds. -/
theorem step_ok {so : SetOrder} {F : (Int → Nat) → R} {out : List Int} {st : State R}
    (hI : Inv dim F out st) {c : Int} {rest : List Int} (hc : st.con = c :: rest)
    (hb : c ∉ st.batch.map Prod.fst) : ∃ st', step so st = .ok (some st') := by
  have hcon := (hI.con_mem c).1 (by rw [hc]; simp)
  have htwo := hI.two c hcon.1 hcon.2
  set locs := (List.range st.ts.length).filter (fun n => c ∈ ((st.ts.map Prod.snd).getD n []))
    with hlocs
  have hlen : locs.length = (flat st.ts).count c := by
    have h1 : locs.map (fun n => (st.ts.map Prod.snd).getD n []) =
        (st.ts.map Prod.snd).filter (fun l => c ∈ l) := by
      have hr : (st.ts.map Prod.snd) = (List.range st.ts.length).map
          (fun n => (st.ts.map Prod.snd).getD n []) := by
        have := map_getD_range (st.ts.map Prod.snd) []
        rw [List.length_map] at this
        exact this.symm
      conv_rhs => rw [hr, List.filter_map]
      rfl
    have h2 : ∀ ts : List (LT R), (∀ p ∈ ts, p.2.Nodup) →
        ((ts.map Prod.snd).filter (fun l => c ∈ l)).length = (flat ts).count c := by
      intro ts hts
      induction ts with
      | nil => rfl
      | cons p ts ih =>
        have ih' := ih (fun q hq => hts q (by simp [hq]))
        have hfl : flat (p :: ts) = p.2 ++ flat ts := by simp [flat]
        rw [hfl, List.count_append, ← ih', List.map_cons, List.filter_cons]
        by_cases hcp : c ∈ p.2
        · simp only [hcp, decide_true, if_true, List.length_cons]
          rw [List.count_eq_one_of_mem (hts p (by simp)) hcp]
          omega
        · simp only [hcp, decide_false, Bool.false_eq_true, if_false]
          rw [List.count_eq_zero.2 hcp]
          omega
    rw [← h2 st.ts hI.nodup, ← h1, List.length_map]
  have hlt : ∀ n ∈ locs, n < st.ts.length := by
    intro n hn
    simp only [hlocs, List.mem_filter, List.mem_range] at hn
    exact hn.1
  match hm : locs, hlen, hlt with
  | [], hlen, _ => simp at hlen; omega
  | [_], hlen, _ => simp at hlen; omega
  | n0 :: n1 :: tl, _, hlt =>
    have l0 := hlt n0 (by simp)
    have l1 := hlt n1 (by simp)
    have ha : st.ts[n0]? = some (st.ts[n0]) := List.getElem?_eq_getElem l0
    have hb' : st.ts[n1]? = some (st.ts[n1]) := List.getElem?_eq_getElem l1
    set a := st.ts[n0] with had
    set b := st.ts[n1] with hbd
    have hma : a ∈ st.ts := List.getElem_mem l0
    have hmb : b ∈ st.ts := List.getElem_mem l1
    have hlocs' : (List.range st.ts.length).filter
        (fun n => c ∈ ((st.ts.map Prod.snd).getD n [])) = n0 :: n1 :: tl := hlocs.symm
    unfold step
    rw [hc]
    simp only [if_neg hb, hlocs', ha, hb']
    split
    · set cb := so.ord (3 * st.ts.length + 1) ((st.batch.map Prod.fst).dedup.filter
        (fun l => l ∈ commonLabels so (3 * st.ts.length) a.2 b.2)) with hcbd
      have hcbm : ∀ l, l ∈ cb ↔ l ∈ a.2 ∧ l ∈ b.2 ∧ l ∈ st.batch.map Prod.fst := by
        intro l
        rw [hcbd, (so.perm _ _).mem_iff]
        simp only [List.mem_filter, List.mem_dedup, decide_eq_true_eq, mem_commonLabels]
        tauto
      have hcbn : cb.Nodup := by
        rw [hcbd, (so.perm _ _).nodup_iff]; exact List.Nodup.filter _ (List.nodup_dedup _)
      obtain ⟨r', cc', e1, e2, e3, e4, e5⟩ := batchCont_ok so (3 * st.ts.length + 2)
        (hI.shaped a hma) (hI.shaped b hmb) (hI.nodup a hma) (hI.nodup b hmb) hcbn
        (fun l hl => ((hcbm l).1 hl).1) (fun l hl => ((hcbm l).1 hl).2.1)
      rw [e1]
      exact ⟨_, rfl⟩
    · set common := commonLabels so (3 * st.ts.length) a.2 b.2 with hcommon
      have hcm : ∀ l, l ∈ common ↔ l ∈ a.2 ∧ l ∈ b.2 := fun l => mem_commonLabels
      have hcn : common.Nodup := by
        rw [hcommon, commonLabels, (so.perm _ _).nodup_iff]
        exact List.Nodup.filter _ (List.nodup_dedup _)
      obtain ⟨r', e1, e2, e3⟩ := dotCont_ok (hI.shaped a hma) (hI.shaped b hmb) (hI.nodup a hma)
        (hI.nodup b hmb) hcn (fun l hl => ((hcm l).1 hl).1) (fun l hl => ((hcm l).1 hl).2)
      rw [e1]
      exact ⟨_, rfl⟩

theorem loop_eq (so : SetOrder) (st : State R) :
    loop so st = match step so st with
      | .error e => .error e
      | .ok none => .ok st
      | .ok (some st') => loop so st' := by
  rw [loop]
  split <;> simp_all

theorem step_none {so : SetOrder} {st : State R} (h : step so st = .ok none) : st.con = [] := by
  unfold step at h
  split at h
  · assumption
  · exfalso
    split at h
    · split at h <;> simp at h
    · simp only at h
      split at h
      · split at h
        · split at h
          · rw [py_bind_ok] at h
            obtain ⟨_, _, h⟩ := h
            simp at h
          · rw [py_bind_ok] at h
            obtain ⟨_, _, h⟩ := h
            simp at h
        · simp at h
      · simp at h

/-- Induction over the rounds of the main loop. -/
theorem loop_induct {P : State R → Prop} (so : SetOrder)
    (h : ∀ st, (∀ st', step so st = .ok (some st') → P st') → P st) : ∀ st, P st := by
  intro st
  have wf : WellFounded (fun a b : State R => Prod.Lex (· < ·) (· < ·) (measure a) (measure b)) :=
    InvImage.wf measure (WellFounded.prod_lex Nat.lt_wfRel.wf Nat.lt_wfRel.wf)
  induction st using wf.induction with
  | _ st ih => exact h st (fun st' hs => ih st' (step_decreases hs))

/-- The main loop ends with no closed label left, or raises `ValueError`. -/
theorem loop_inv {so : SetOrder} {F : (Int → Nat) → R} {out : List Int} (st : State R)
    (hI : Inv dim F out st) :
    (∃ st', loop so st = .ok st' ∧ Inv dim F out st' ∧ st'.con = []) ∨
      loop so st = .error .valueError := by
  revert hI
  refine loop_induct so (P := fun st => Inv dim F out st →
    (∃ st', loop so st = .ok st' ∧ Inv dim F out st' ∧ st'.con = []) ∨
      loop so st = .error .valueError) ?_ st
  intro st ih hI
  rw [loop_eq]
  match hs : step so st with
  | .ok none => exact Or.inl ⟨st, rfl, hI, step_none hs⟩
  | .ok (some st') => exact ih st' hs (step_inv hI hs)
  | .error e =>
    right
    simp only
    match hc : st.con with
    | [] =>
      unfold step at hs
      rw [hc] at hs
      simp at hs
    | c :: rest =>
      by_cases hb : c ∈ st.batch.map Prod.fst
      · unfold step at hs
        rw [hc] at hs
        simp only [if_pos hb] at hs
        split at hs <;> simp at hs
        rw [hs]
      · obtain ⟨st', h⟩ := step_ok (so := so) hI hc hb
        rw [h] at hs
        simp at hs

/-- Without closed batch labels the main loop always succeeds. -/
theorem loop_ok {so : SetOrder} {F : (Int → Nat) → R} {out : List Int} (st : State R)
    (hI : Inv dim F out st) (hb : ∀ l ∈ st.batch.map Prod.fst, l < 0) :
    ∃ st', loop so st = .ok st' ∧ Inv dim F out st' ∧ st'.con = [] := by
  revert hI hb
  refine loop_induct so (P := fun st => Inv dim F out st → (∀ l ∈ st.batch.map Prod.fst, l < 0) →
    ∃ st', loop so st = .ok st' ∧ Inv dim F out st' ∧ st'.con = []) ?_ st
  intro st ih hI hb
  rw [loop_eq]
  match hc : st.con with
  | [] =>
    have hs : step so st = .ok none := by unfold step; rw [hc]
    rw [hs]
    exact ⟨st, rfl, hI, hc⟩
  | c :: rest =>
    have hcpos : 0 < c := ((hI.con_mem c).1 (by rw [hc]; simp)).2
    obtain ⟨st', h⟩ := step_ok (so := so) hI hc (fun h => by have := hb c h; omega)
    rw [h]
    refine ih st' h (step_inv hI h) ?_
    rcases step_some h with ⟨c', rest', hc', hcb, hs, rfl⟩ |
      ⟨c', rest', n0, n1, a, b, hc', _, hlt, ha, hb', hca, hcb, h | h⟩
    · exact hb
    · obtain ⟨cb, cc, r, h1, h2, h3, rfl⟩ := h
      intro l hl
      simp only [updateBatch, List.mem_map, List.mem_filter] at hl
      obtain ⟨p, ⟨⟨q, hq, rfl⟩, _⟩, rfl⟩ := hl
      have := hb q.1 (List.mem_map.2 ⟨q, hq, rfl⟩)
      split <;> exact this
    · obtain ⟨r, h1, h2, rfl⟩ := h
      exact hb

/-! ### Outer products and remaining batch contractions -/

/-- Labels of a network left after the main loop: all open, labels shared by two tensors
are batch labels. -/
structure FinInv (dim : Int → Nat) (F : (Int → Nat) → R) (out batch : List Int)
    (ts : List (LT R)) : Prop where
  shaped : ∀ p ∈ ts, Shaped dim p.1 p.2
  nodup : ∀ p ∈ ts, p.2.Nodup
  out_mem : ∀ l, l ∈ out ↔ l ∈ flat ts
  shared : ts.Pairwise (fun p q => ∀ l, l ∈ p.2 → l ∈ q.2 → l ∈ batch)
  value : ∀ σ : Int → Nat, (∀ l ∈ out, σ l < dim l) → netProd ts σ = F σ

theorem finish_ok (so : SetOrder) {F : (Int → Nat) → R} {out batch : List Int} (n : Nat)
    (ts : List (LT R)) (hn : ts.length ≤ n) (hne : ts ≠ []) (hI : FinInv dim F out batch ts) :
    ∃ a, finish so batch ts = .ok a ∧ FinInv dim F out batch [a] := by
  induction n generalizing ts with
  | zero => exact absurd (List.length_eq_zero_iff.1 (by omega)) hne
  | succ n ih =>
    match ts, hn, hne, hI with
    | [a], _, _, hI => exact ⟨a, by rw [finish], hI⟩
    | b :: a :: rest, hn, _, hI =>
      have hsh := hI.shared
      rw [List.pairwise_cons, List.pairwise_cons] at hsh
      have ha := hI.shaped a (by simp)
      have hb := hI.shaped b (by simp)
      have hna := hI.nodup a (by simp)
      have hnb := hI.nodup b (by simp)
      rw [finish]
      simp only
      set common := commonLabels so (3 * (rest.length + 2)) a.2 b.2
      have hcm : ∀ l, l ∈ common ↔ l ∈ a.2 ∧ l ∈ b.2 := fun l => mem_commonLabels
      set cb := so.ord (3 * (rest.length + 2) + 1) (batch.dedup.filter (fun l => l ∈ common))
        with hcbd
      have hcbm : ∀ l, l ∈ cb ↔ l ∈ a.2 ∧ l ∈ b.2 := by
        intro l
        rw [hcbd, (so.perm _ _).mem_iff]
        simp only [List.mem_filter, List.mem_dedup, decide_eq_true_eq, hcm]
        refine ⟨fun h => h.2, fun h => ⟨hsh.1 a (by simp) l h.2 h.1, h⟩⟩
      have hcbn : cb.Nodup := by
        rw [hcbd, (so.perm _ _).nodup_iff]; exact List.Nodup.filter _ (List.nodup_dedup _)
      -- both branches produce a tensor with these properties
      have key : ∀ r : LT R, Shaped dim r.1 r.2 → r.2.Nodup →
          (∀ l, l ∈ r.2 ↔ l ∈ a.2 ∨ l ∈ b.2) →
          (∀ τ : Int → Nat, (∀ l ∈ r.2, τ l < dim l) →
            val r.1 r.2 τ = val a.1 a.2 τ * val b.1 b.2 τ) →
          FinInv dim F out batch (r :: rest) := by
        intro r h1 h2 h3 h4
        have hout : ∀ l, l ∈ out ↔ l ∈ flat (r :: rest) := by
          intro l
          rw [hI.out_mem]
          simp only [flat, List.flatMap_cons, List.mem_append, h3]
          tauto
        refine ⟨?_, ?_, hout, ?_, ?_⟩
        · intro p hp
          rcases List.mem_cons.1 hp with rfl | h
          · exact h1
          · exact hI.shaped p (by simp [h])
        · intro p hp
          rcases List.mem_cons.1 hp with rfl | h
          · exact h2
          · exact hI.nodup p (by simp [h])
        · rw [List.pairwise_cons]
          refine ⟨fun q hq l hl hlq => ?_, hsh.2.2⟩
          rcases (h3 l).1 hl with h | h
          · exact hsh.2.1 q hq l h hlq
          · exact hsh.1 q (by simp [hq]) l h hlq
        · intro σ hσ
          rw [← hI.value σ hσ]
          simp only [netProd, List.map_cons, List.prod_cons]
          rw [h4 σ ?_]
          · ring
          · intro l hl
            apply hσ
            rw [hout]
            simp [flat, hl]
      split
      · obtain ⟨r, cc, e1, e2, e3, e4, e5⟩ := batchCont_ok so (3 * (rest.length + 2) + 2) ha hb
          hna hnb hcbn (fun l hl => ((hcbm l).1 hl).1) (fun l hl => ((hcbm l).1 hl).2)
        have hcc : cc = [] := by
          rw [List.eq_nil_iff_forall_not_mem]
          intro l hl
          obtain ⟨h1, h2, h3⟩ := (e3 l).1 hl
          exact h3 ((hcbm l).2 ⟨h1, h2⟩)
        subst hcc
        rw [e1]
        simp only [bind, Except.bind]
        apply ih
        · simp at hn ⊢; omega
        · simp
        · apply key _ e4
          · simp only
            rw [List.nodup_append, List.nodup_append]
            refine ⟨hcbn, ⟨hna.filter _, hnb.filter _, ?_⟩, ?_⟩
            · intro x hx y hy hxy
              subst hxy
              simp only [List.mem_filter, decide_eq_true_eq] at hx hy
              exact hx.2.2 ((hcbm x).2 ⟨hx.1, hy.1⟩)
            · intro x hx y hy hxy
              subst hxy
              simp only [List.mem_append, List.mem_filter, decide_eq_true_eq] at hy
              rcases hy with hy | hy <;> exact hy.2.2 hx
          · intro l
            simp only [List.mem_append, List.mem_filter, decide_eq_true_eq,
              List.not_mem_nil, not_false_eq_true, true_and]
            have := hcbm l
            tauto
          · intro τ hτ
            rw [e5 τ hτ]
            simp [sumOver]
      · rename_i hcb0
        have hcb0' : cb = [] := List.length_eq_zero_iff.1 (by omega)
        obtain ⟨e1, e2⟩ := outerProduct_val ha hb
        apply ih
        · simp at hn ⊢; omega
        · simp
        · apply key _ e1
          · simp only
            rw [List.nodup_append]
            refine ⟨hna, hnb, ?_⟩
            intro x hx y hy hxy
            subst hxy
            have := (hcbm x).2 ⟨hx, hy⟩
            rw [hcb0'] at this
            simp at this
          · intro l; simp
          · intro τ _
            exact e2 τ

/-- From the main loop to the second phase. -/
theorem inv_fin {F : (Int → Nat) → R} {out : List Int} {st : State R}
    (hI : Inv dim F out st) (hc : st.con = []) :
    FinInv dim F out (st.batch.map Prod.fst) st.ts.reverse := by
  have hneg : ∀ l ∈ flat st.ts, l < 0 := by
    intro l hl
    have h1 := hI.nonzero l hl
    by_contra h
    have : l ∈ st.con := (hI.con_mem l).2 ⟨hl, by omega⟩
    rw [hc] at this
    simp at this
  have hfl : ∀ l, l ∈ flat st.ts.reverse ↔ l ∈ flat st.ts := fun l =>
    (flat_perm (List.reverse_perm _)).mem_iff
  refine ⟨fun p hp => hI.shaped p (by simpa using hp), fun p hp => hI.nodup p (by simpa using hp),
    ?_, ?_, ?_⟩
  · intro l
    rw [hfl, hI.out_mem]
    exact ⟨fun h => h.1, fun h => ⟨h, hneg l h⟩⟩
  · rw [List.pairwise_reverse]
    have h2 : ∀ l, l ∉ st.batch.map Prod.fst → (flat st.ts).count l ≤ 1 := by
      intro l hl
      by_cases h : l ∈ flat st.ts
      · exact hI.nbatch_neg l hl (hneg l h)
      · rw [List.count_eq_zero.2 h]; omega
    revert h2
    generalize st.batch.map Prod.fst = B
    generalize st.ts = ts
    intro h2
    induction ts with
    | nil => simp
    | cons p ts ih =>
      have hfc : ∀ l, (flat (p :: ts)).count l = p.2.count l + (flat ts).count l := by
        intro l; simp [flat]
      rw [List.pairwise_cons]
      constructor
      · intro q hq l hlq hlp
        by_contra hl
        have := h2 l hl
        rw [hfc] at this
        have h3 : 0 < p.2.count l := List.count_pos_iff.2 hlp
        have h4 : 0 < (flat ts).count l :=
          List.count_pos_iff.2 (List.mem_flatMap.2 ⟨q, hq, hlq⟩)
        omega
      · apply ih
        intro l hl
        have := h2 l hl
        rw [hfc] at this
        omega
  · intro σ hσ
    rw [netProd_perm (List.reverse_perm _)]
    have := hI.value σ hσ
    rw [hc] at this
    simpa [sumOver] using this

/-- The final transposition. -/
theorem finalPerm_ok {F : (Int → Nat) → R} {out batch : List Int} {a : LT R}
    (hI : FinInv dim F out batch [a]) (hout : out.Nodup) :
    ∃ r, finalPerm a out = .ok r ∧ Shaped dim r out ∧
      ∀ σ : Int → Nat, (∀ l ∈ out, σ l < dim l) → val r out σ = F σ := by
  have hsh := hI.shaped a (by simp)
  have hnd := hI.nodup a (by simp)
  have hm : ∀ l, l ∈ out ↔ l ∈ a.2 := by
    intro l; rw [hI.out_mem]; simp [flat]
  have hp : out.Perm a.2 := (List.perm_ext_iff_of_nodup hout hnd).2 hm
  have hv : ∀ σ : Int → Nat, (∀ l ∈ out, σ l < dim l) → val a.1 a.2 σ = F σ := by
    intro σ hσ
    rw [← hI.value σ hσ]
    simp [netProd]
  unfold finalPerm
  split
  · rw [if_pos (fun l hl => (hm l).1 hl)]
    have hc : ∀ l ∈ out, a.2.count l = 1 := fun l hl =>
      List.count_eq_one_of_mem hnd ((hm l).1 hl)
    have hperm : (out.map a.2.idxOf).Perm (List.range a.2.length) := by
      refine (hp.map _).trans ?_
      have : a.2.map a.2.idxOf = List.range a.2.length := by
        apply List.ext_getElem (by simp)
        intro n h1 h2
        simp only [List.getElem_map, List.getElem_range]
        exact hnd.idxOf_getElem n (by simpa using h1)
      rw [this]
    obtain ⟨r, e1, e2, e3⟩ := transpose_val hsh hperm
    rw [map_idxOf_getD hc] at e2 e3
    exact ⟨r, e1, e2, fun σ hσ => by rw [e3, hv σ hσ]⟩
  · rename_i hlen
    have : out = a.2 := by
      match h1 : a.2, hlen with
      | [], _ => rw [h1] at hp; exact hp.eq_nil
      | [x], _ => rw [h1] at hp; exact hp.eq_singleton
      | _ :: _ :: _, h => simp at h
    rw [this]
    rw [this] at hv
    exact ⟨a.1, rfl, hsh, hv⟩

end TN.Ncon
