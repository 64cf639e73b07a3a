import Verif.BsCount

/-!
# `reduce_charges` (block_sparse/blocksparse_utils.py)
-/

set_option linter.unusedSectionVars false

namespace TN.Bs

section
variable {Q : Type} [AddCommGroup Q] [LinearOrder Q]

/-- `reduce_charges` (blocksparse_utils.py:215-327), with the locations that are returned for
`return_locations=True`; `strides = none` is the default. -/
def reduceCharges (legs : List (Leg Q)) (target : List Q) (strides : Option (List Nat)) :
    Py (Charge Q × List Nat) :=
  match legs with
  | [l] => (l.1.dual l.2).reduce target ((strides.getD [1]).getD 0 0)
  | legs => do
    let ds := legs.map (fun l => l.1.dim)
    let p ← bestPartition ds
    let left ← fuseCharges (legs.take p)
    let right ← fuseCharges (legs.drop p)
    let comb := outerRavel (· + ·) left.uniq right.uniq
    if comb.length = 0 ∨ left.labels.length = 0 ∨ right.labels.length = 0 then
      pure (.lab [] [], [])
    else do
      let u := npUnique comb
      let combLabels := uniqueInverse comb
      let i := intersect u target
      let mp := scatter u.length i.2.1
      let newLabels := combLabels.map (fun l => mp.getD l 0)
      let temp := fun n => right.labels.map (fun m => newLabels.getD (n * right.uniq.length + m) 0)
      let rows := fun n => ((temp n).filter (fun l => 0 ≤ l)).map Int.toNat
      let keep := fun n => (List.range (temp n).length).filter (fun k => 0 ≤ (temp n).getD k 0)
      let obj := Charge.lab i.1 (left.labels.flatMap rows)
      match strides with
      | none =>
        pure (obj, (List.range left.dim).flatMap (fun n =>
          (keep (left.labels.getD n 0)).map (fun k => n * right.dim + k)))
      | some ss => do
        let rowPos ← fuseStrides (ds.take p) (ss.take p)
        let colPos ← fuseStrides (ds.drop p) (ss.drop p)
        pure (obj, (List.range left.dim).flatMap (fun n =>
          (keep (left.labels.getD n 0)).map (fun k => rowPos.getD n 0 + colPos.getD k 0)))

theorem rowMajor_length (ds : List Nat) : (rowMajor ds).length = ds.length := by
  induction ds with
  | nil => rfl
  | cons d ds ih => simp [rowMajor, ih]

theorem dot_append {a b i j : List Nat} (h : a.length = i.length) :
    dot (a ++ b) (i ++ j) = dot a i + dot b j := by
  induction a generalizing i with
  | nil =>
    have : i = [] := List.length_eq_zero_iff.1 h.symm
    subst this; simp [dot]
  | cons x a ih =>
    cases i with
    | nil => simp at h
    | cons y i => simp [dot, ih (by simpa using h), Nat.add_assoc]

theorem npUnique_uniq {a : Charge Q} (h : a.WF) : npUnique a.uniq = npUnique a.charges :=
  npUnique_eq (npUnique_lt _) (fun x => by rw [mem_npUnique, Charge.mem_uniq h])

theorem posOf_map (p : Q → Bool) {α : Type} (f : α → Q) (l : List α) :
    Charge.posOf p (l.map f) = ((l.zipIdx).filter (fun q => p (f q.1))).map Prod.snd := by
  have h : ∀ (k : Nat) (l : List α), ((List.range l.length).filter (fun j => p ((l.map f).getD j 0))).map
      (· + k) = ((l.zipIdx k).filter (fun q => p (f q.1))).map Prod.snd := by
    intro k l
    induction l generalizing k with
    | nil => rfl
    | cons x l ih =>
      rw [List.zipIdx_cons, List.length_cons, List.range_succ_eq_map, List.filter_cons,
        List.filter_cons, List.filter_map]
      simp only [List.map_cons, List.getD_cons_zero]
      have h2 : ((List.range l.length).filter
          ((fun j => p ((f x :: l.map f).getD j 0)) ∘ Nat.succ)) =
          (List.range l.length).filter (fun j => p ((l.map f).getD j 0)) := by
        apply List.filter_congr; intro j _; simp
      have h3 := ih (k + 1)
      rw [h2]
      have h4 : ((List.map Nat.succ ((List.range l.length).filter
          (fun j => p ((l.map f).getD j 0)))).map (· + k)) =
          ((l.zipIdx (k + 1)).filter (fun q => p (f q.1))).map Prod.snd := by
        rw [← h3, List.map_map]
        apply List.map_congr_left; intro j _; simp; omega
      split_ifs with hx
      · rw [List.map_cons, h4]; simp
      · exact h4
  have := h 0 l
  simpa [Charge.posOf] using this

/-- Positions in a grid that satisfy a condition on the charge. -/
theorem posOf_grid (L : List (List Q)) (p : Q → Bool) :
    Charge.posOf p (fuseL L) = ((grid (dims L)).filter (fun i => p (total L i))).map
      (ravel (dims L)) := by
  rw [Charge.posOf, fuseL_length, grid_eq, List.filter_map, List.map_map]
  have h1 : ((List.range (dims L).prod).filter ((fun i => p (total L i)) ∘ unravel (dims L))) =
      (List.range (dims L).prod).filter (fun k => p ((fuseL L).getD k 0)) := by
    apply List.filter_congr
    intro k hk
    have hk' : k < (dims L).prod := by simpa using hk
    have := fuseL_getD (unravel_inB hk')
    rw [ravel_unravel hk'] at this
    rw [this]; rfl
  rw [h1]
  conv_lhs => rw [← List.map_id ((List.range (dims L).prod).filter (fun k => p ((fuseL L).getD k 0)))]
  apply List.map_congr_left
  intro k hk
  have hk' : k < (dims L).prod := by simpa using (List.mem_filter.1 hk).1
  simp [ravel_unravel hk']

/-- `reduce_charges` keeps exactly the charges in `target`, in row-major order of the legs; the
locations are the scalar products of the positions with the strides, by default the row-major
positions. -/
theorem reduceCharges_spec {legs : List (Leg Q)} (h : LegsWF legs) (hne : legs ≠ [])
    (target : List Q) (strides : Option (List Nat))
    (hs : ∀ ss, strides = some ss → ss.length = legs.length) :
    ∃ b, reduceCharges legs target strides = .ok (b,
        ((grid (dims (eff legs))).filter (fun i => total (eff legs) i ∈ target)).map
          (dot (strides.getD (rowMajor (dims (eff legs)))))) ∧
      b.WF ∧ b.charges = (fuseL (eff legs)).filter (· ∈ target) ∧
      b.uniq = (npUnique (fuseL (eff legs))).filter (· ∈ target) := by
  have hgen : 2 ≤ legs.length → ∃ b, (do
    let ds := legs.map (fun l => l.1.dim)
    let p ← bestPartition ds
    let left ← fuseCharges (legs.take p)
    let right ← fuseCharges (legs.drop p)
    let comb := outerRavel (· + ·) left.uniq right.uniq
    if comb.length = 0 ∨ left.labels.length = 0 ∨ right.labels.length = 0 then
      pure (.lab [] [], [])
    else do
      let u := npUnique comb
      let combLabels := uniqueInverse comb
      let i := intersect u target
      let mp := scatter u.length i.2.1
      let newLabels := combLabels.map (fun l => mp.getD l 0)
      let temp := fun n => right.labels.map (fun m => newLabels.getD (n * right.uniq.length + m) 0)
      let rows := fun n => ((temp n).filter (fun l => 0 ≤ l)).map Int.toNat
      let keep := fun n => (List.range (temp n).length).filter (fun k => 0 ≤ (temp n).getD k 0)
      let obj := Charge.lab i.1 (left.labels.flatMap rows)
      match strides with
      | none =>
        pure (obj, (List.range left.dim).flatMap (fun n =>
          (keep (left.labels.getD n 0)).map (fun k => n * right.dim + k)))
      | some ss => do
        let rowPos ← fuseStrides (ds.take p) (ss.take p)
        let colPos ← fuseStrides (ds.drop p) (ss.drop p)
        pure (obj, (List.range left.dim).flatMap (fun n =>
          (keep (left.labels.getD n 0)).map (fun k => rowPos.getD n 0 + colPos.getD k 0))) :
            Py (Charge Q × List Nat)) =
        .ok (b, ((grid (dims (eff legs))).filter (fun i => total (eff legs) i ∈ target)).map
          (dot (strides.getD (rowMajor (dims (eff legs)))))) ∧
      b.WF ∧ b.charges = (fuseL (eff legs)).filter (· ∈ target) ∧
      b.uniq = (npUnique (fuseL (eff legs))).filter (· ∈ target) := by
    intro hl
    obtain ⟨p, h1, h2, h3, _⟩ := bestPartition_spec (ds := legs.map (fun l => l.1.dim))
      (by simpa using hl)
    rw [List.length_map] at h3
    obtain ⟨left, l1, l2, l3⟩ := fuseCharges_spec (legs := legs.take p)
      (fun l hl => h l (List.mem_of_mem_take hl)) (by
        intro h0; have := congrArg List.length h0
        rw [List.length_take] at this; simp only [List.length_nil] at this; omega)
    obtain ⟨right, r1, r2, r3⟩ := fuseCharges_spec (legs := legs.drop p)
      (fun l hl => h l (List.mem_of_mem_drop hl)) (by
        intro h0; have := congrArg List.length h0; simp at this; omega)
    have hsplit : fuseL (eff legs) = outerRavel (· + ·) left.charges right.charges := by
      rw [l3, r3, ← fuseL_append, ← eff_append, List.take_append_drop]
    obtain ⟨A, hA⟩ : ∃ A, A = eff (legs.take p) := ⟨_, rfl⟩
    obtain ⟨B, hB⟩ : ∃ B, B = eff (legs.drop p) := ⟨_, rfl⟩
    have hAB : eff legs = A ++ B := by rw [hA, hB, ← eff_append, List.take_append_drop]
    rw [← hA] at l3
    rw [← hB] at r3
    have hdA : dims A = (legs.map (fun l => l.1.dim)).take p := by
      rw [hA, dims_eff, List.map_take]
    have hdB : dims B = (legs.map (fun l => l.1.dim)).drop p := by
      rw [hB, dims_eff, List.map_drop]
    simp only [h1, l1, r1, bind, Except.bind, pure, Except.pure]
    have hul : ∀ x, x ∈ left.uniq ↔ x ∈ left.charges := fun x => Charge.mem_uniq l2
    have hur : ∀ x, x ∈ right.uniq ↔ x ∈ right.charges := fun x => Charge.mem_uniq r2
    obtain ⟨comb, hcomb⟩ : ∃ c, c = outerRavel (fun a b : Q => a + b) left.uniq right.uniq := ⟨_, rfl⟩
    have hmc : ∀ x, x ∈ comb ↔ x ∈ fuseL (eff legs) := by
      intro x
      rw [hcomb, hsplit]
      simp only [outerRavel, List.mem_flatMap, List.mem_map, hul, hur]
    rw [← hcomb]
    split_ifs with h0
    · have hemp : fuseL (eff legs) = [] := by
        rcases h0 with h0 | h0 | h0
        · have := List.length_eq_zero_iff.1 h0
          rw [List.eq_nil_iff_forall_not_mem]
          intro x hx
          have := (hmc x).2 hx
          simp_all
        · rw [Charge.labels_eq l2, List.length_map, List.length_eq_zero_iff] at h0
          rw [hsplit, h0]; rfl
        · rw [Charge.labels_eq r2, List.length_map, List.length_eq_zero_iff] at h0
          rw [hsplit, h0]; simp [outerRavel]
      have hg : grid (dims (eff legs)) = [] := by
        have := congrArg List.length hemp
        rw [fuseL_length] at this
        rw [← List.length_eq_zero_iff, grid_length, this]; rfl
      refine ⟨Charge.lab [] [], by rw [hg]; rfl, (show (Charge.lab ([] : List Q) []).WF from ⟨by simp, by simp⟩), by rw [hemp]; rfl, by rw [hemp]; rfl⟩
    · push Not at h0
      obtain ⟨C, hCd⟩ : ∃ C, C = (intersect (npUnique comb) target).1 := ⟨_, rfl⟩
      have hloc : (intersect (npUnique comb) target).2.1 =
          C.map (fun x => (npUnique comb).idxOf x) := by rw [hCd]; rfl
      have hCn : C.Nodup := hCd ▸ intersect_nodup _ _
      have hCm : ∀ x, x ∈ C ↔ x ∈ fuseL (eff legs) ∧ x ∈ target := by
        intro x; rw [hCd, intersect_mem, mem_npUnique, hmc]
      have hCe : C = (npUnique (fuseL (eff legs))).filter (· ∈ target) := by
        have e1 : npUnique (npUnique comb) = npUnique (fuseL (eff legs)) :=
          npUnique_eq (npUnique_lt _) (fun x => by rw [mem_npUnique, mem_npUnique, hmc])
        rw [hCd, intersect, e1]
      have hlab : ∀ a ∈ left.charges,
          right.labels.map (fun m => ((uniqueInverse comb).map (fun l =>
            (scatter (npUnique comb).length (intersect (npUnique comb) target).2.1).getD l 0)).getD
              (left.uniq.idxOf a * right.uniq.length + m) 0) =
          (right.charges.map (a + ·)).map
            (fun x => if x ∈ C then ((C.idxOf x : Nat) : Int) else -1) := by
        intro a ha
        rw [Charge.labels_eq r2, List.map_map, List.map_map]
        apply List.map_congr_left
        intro b hb
        have ia := List.idxOf_lt_length_iff.2 ((hul a).2 ha)
        have ib := List.idxOf_lt_length_iff.2 ((hur b).2 hb)
        have hge : comb[left.uniq.idxOf a * right.uniq.length + right.uniq.idxOf b]? = some (a + b) := by
          rw [hcomb, outerRavel_getElem? _ _ _ ib, List.getElem?_eq_getElem ia, List.getElem?_eq_getElem ib,
            List.getElem_idxOf, List.getElem_idxOf]
          rfl
        simp only [Function.comp_apply, List.getD_eq_getElem?_getD, List.getElem?_map,
          uniqueInverse, hge, Option.map_some, Option.getD_some]
        rw [← List.getD_eq_getElem?_getD, hloc]
        refine Charge.scatter_labels hCn (fun x hx => ?_) (le_refl _) ?_
        · rw [mem_npUnique, hmc]; exact ((hCm x).1 hx).1
        · rw [mem_npUnique, hmc, hsplit]
          simp only [outerRavel, List.mem_flatMap, List.mem_map]
          exact ⟨a, ha, b, hb, rfl⟩
      have hlabels : left.labels.flatMap (fun n => ((right.labels.map (fun m =>
          ((uniqueInverse comb).map (fun l =>
            (scatter (npUnique comb).length (intersect (npUnique comb) target).2.1).getD l 0)).getD
              (n * right.uniq.length + m) 0)).filter (fun l => 0 ≤ l)).map Int.toNat) =
          ((fuseL (eff legs)).filter (· ∈ C)).map (fun x => C.idxOf x) := by
        rw [Charge.labels_eq l2, List.flatMap_map, hsplit]
        simp only [outerRavel]
        rw [List.filter_flatMap, List.map_flatMap]
        apply List.flatMap_congr
        intro a ha
        rw [hlab a ha, Charge.filter_labels]
      have hspec := Charge.lab_spec (l := fuseL (eff legs)) hCn (fun x hx => ((hCm x).1 hx).1)
      have hfc : ∀ x ∈ fuseL (eff legs), (decide (x ∈ C)) = (decide (x ∈ target)) := by
        intro x hx; simp [hCm, hx]
      -- the locations
      have hkeep : ∀ n, n < left.charges.length → ((List.range (right.labels.map (fun m =>
          ((uniqueInverse comb).map (fun l =>
            (scatter (npUnique comb).length (intersect (npUnique comb) target).2.1).getD l 0)).getD
              (left.labels.getD n 0 * right.uniq.length + m) 0)).length).filter (fun k => 0 ≤
          (right.labels.map (fun m =>
          ((uniqueInverse comb).map (fun l =>
            (scatter (npUnique comb).length (intersect (npUnique comb) target).2.1).getD l 0)).getD
              (left.labels.getD n 0 * right.uniq.length + m) 0)).getD k 0)) =
          Charge.posOf (· ∈ C) (right.charges.map (left.charges.getD n 0 + ·)) := by
        intro n hn
        have e1 : left.labels.getD n 0 = left.uniq.idxOf (left.charges.getD n 0) := by
          rw [Charge.labels_eq l2]; simp [hn]
        have e2 : left.charges.getD n 0 ∈ left.charges := by simp [hn]
        rw [e1, hlab _ e2, List.length_map, Charge.posOf_labels]
      have hlocs : ∀ (f g : List Nat → Nat) (F G : Nat → Nat),
          (∀ i, InB (dims A) i → F (ravel (dims A) i) = f i) →
          (∀ j, InB (dims B) j → G (ravel (dims B) j) = g j) →
          (List.range left.dim).flatMap (fun n =>
            (Charge.posOf (· ∈ C) (right.charges.map (left.charges.getD n 0 + ·))).map
              (fun k => F n + G k)) =
          ((grid (dims A)).flatMap (fun i => ((grid (dims B)).filter
            (fun j => total A i + total B j ∈ target)).map (fun j => f i + g j))) := by
        intro f g F G hF hG
        rw [Charge.dim_eq, l3, fuseL_length, grid_eq (dims A), List.flatMap_map]
        apply List.flatMap_congr
        intro n hn
        have hn' : n < (dims A).prod := by simpa using hn
        have hi := unravel_inB hn'
        have e1 : (fuseL A).getD n 0 = total A (unravel (dims A) n) := by
          have := fuseL_getD hi
          rwa [ravel_unravel hn'] at this
        have e2 : Charge.posOf (· ∈ C) (right.charges.map ((fuseL A).getD n 0 + ·)) =
            Charge.posOf (fun b => decide ((fuseL A).getD n 0 + b ∈ C)) (fuseL B) := by
          rw [Charge.posOf, Charge.posOf, List.length_map, r3]
          apply List.filter_congr
          intro k hk
          have hk' : k < (fuseL B).length := by simpa using hk
          simp [hk']
        rw [e2, posOf_grid, List.map_map, e1]
        have e3 : (grid (dims B)).filter (fun i => decide (total A (unravel (dims A) n) + total B i ∈ C)) =
            (grid (dims B)).filter
              (fun i => decide (total A (unravel (dims A) n) + total B i ∈ target)) := by
          apply List.filter_congr
          intro j hj
          apply hfc
          rw [hsplit, l3, r3]
          simp only [outerRavel, List.mem_flatMap, List.mem_map, fuseL]
          exact ⟨_, ⟨_, mem_grid.2 hi, rfl⟩, _, ⟨_, hj, rfl⟩, rfl⟩
        rw [e3]
        apply List.map_congr_left
        intro j hj
        have hj' := mem_grid.1 (List.mem_filter.1 hj).1
        simp only [Function.comp_apply]
        rw [hG j hj', ← hF _ hi, ravel_unravel hn']
      have hgrid : ∀ ss : List Nat, ss.length = legs.length →
          ((grid (dims (eff legs))).filter (fun i => total (eff legs) i ∈ target)).map (dot ss) =
          ((grid (dims A)).flatMap (fun i => ((grid (dims B)).filter
            (fun j => total A i + total B j ∈ target)).map
              (fun j => dot (ss.take p) i + dot (ss.drop p) j))) := by
        intro ss hss
        have hAl : A.length = p := by rw [hA]; simp [eff]; omega
        rw [hAB, show dims (A ++ B) = dims A ++ dims B by simp [dims], grid_append,
          List.filter_flatMap, List.map_flatMap]
        apply List.flatMap_congr
        intro i hi
        have hil : i.length = A.length := by
          have := (mem_grid.1 hi).length; simpa using this
        rw [List.filter_map, List.map_map]
        have : ((fun k => decide (total (A ++ B) k ∈ target)) ∘ fun j => i ++ j) =
            fun j => decide (total A i + total B j ∈ target) := by
          funext j; simp [total_append hil]
        rw [this]
        apply List.map_congr_left
        intro j _
        simp only [Function.comp_apply]
        conv_lhs => rw [← List.take_append_drop p ss]
        rw [dot_append]
        rw [List.length_take]; omega
      refine ⟨Charge.lab C (((fuseL (eff legs)).filter (· ∈ C)).map (fun x => C.idxOf x)), ?_,
        hspec.1, ?_, hCe⟩
      · cases strides with
        | none =>
          simp only [hlabels, ← hCd, Option.getD_none]
          congr 2
          have hrl : (rowMajor (dims (eff legs))).length = legs.length := by
            rw [rowMajor_length]; simp [eff]
          rw [← (show ((grid (dims (eff legs))).filter
            (fun i => total (eff legs) i ∈ target)).map (dot (rowMajor (dims (eff legs)))) = _
            from rfl), hgrid _ hrl]
          have hrA : (rowMajor (dims (eff legs))).take p = (rowMajor (dims A)).map (· * (dims B).prod) ∧
              (rowMajor (dims (eff legs))).drop p = rowMajor (dims B) := by
            have hAl : (dims A).length = p := by rw [hdA]; simp; omega
            have key : ∀ (x y : List Nat), rowMajor (x ++ y) =
                (rowMajor x).map (· * y.prod) ++ rowMajor y := by
              intro x y
              induction x with
              | nil => rfl
              | cons d x ih => simp [rowMajor, ih]
            rw [hAB, show dims (A ++ B) = dims A ++ dims B by simp [dims], key]
            have : ((rowMajor (dims A)).map (· * (dims B).prod)).length = p := by
              rw [List.length_map, rowMajor_length, hAl]
            exact ⟨List.take_left' this, List.drop_left' this⟩
          rw [hrA.1, hrA.2]
          have hdotm : ∀ (s i : List Nat) (c : Nat), dot (s.map (· * c)) i = dot s i * c := by
            intro s
            induction s with
            | nil => intro i c; simp [dot]
            | cons a s ih =>
              intro i c
              cases i with
              | nil => simp [dot]
              | cons b i => simp [dot, ih, Nat.add_mul]; ring
          rw [← hlocs (fun i => dot ((rowMajor (dims A)).map (· * (dims B).prod)) i)
            (fun j => dot (rowMajor (dims B)) j) (fun n => n * right.dim) (fun k => k)
            (fun i hi => by
              simp only [hdotm, dot_rowMajor]
              rw [Charge.dim_eq, r3, fuseL_length])
            (fun j hj => by simp only [dot_rowMajor])]
          apply List.flatMap_congr
          intro n hn
          rw [hkeep n (by rw [← Charge.dim_eq]; simpa using hn)]
        | some ss =>
          have hss := hs ss rfl
          have f1 : fuseStrides ((legs.map (fun l => l.1.dim)).take p) (ss.take p) =
              .ok ((grid (dims A)).map (dot (ss.take p))) := by
            rw [← hdA]
            refine fuseStrides_spec ?_ ?_
            · rw [hdA]; simp; omega
            · intro h0; have := congrArg List.length h0
              rw [hdA, List.length_take, List.length_map, List.length_nil] at this; omega
          have f2 : fuseStrides ((legs.map (fun l => l.1.dim)).drop p) (ss.drop p) =
              .ok ((grid (dims B)).map (dot (ss.drop p))) := by
            rw [← hdB]
            refine fuseStrides_spec ?_ ?_
            · rw [hdB]; simp; omega
            · intro h0; have := congrArg List.length h0
              rw [hdB] at this; simp at this; omega
          simp only [hlabels, ← hCd, f1, f2, Option.getD_some]
          congr 2
          rw [hgrid _ hss]
          have hget : ∀ (d : List Nat) (s i : List Nat), InB d i →
              ((grid d).map (dot s)).getD (ravel d i) 0 = dot s i := by
            intro d s i hi
            have := ravel_lt hi
            rw [List.getD_eq_getElem?_getD, List.getElem?_map,
              List.getElem?_eq_getElem (by rw [grid_length]; exact this), grid_getElem,
              unravel_ravel hi]
            rfl
          rw [← hlocs (dot (ss.take p)) (dot (ss.drop p))
            (fun n => ((grid (dims A)).map (dot (ss.take p))).getD n 0)
            (fun k => ((grid (dims B)).map (dot (ss.drop p))).getD k 0)
            (fun i hi => hget _ _ _ hi) (fun j hj => hget _ _ _ hj)]
          apply List.flatMap_congr
          intro n hn
          rw [hkeep n (by rw [← Charge.dim_eq]; simpa using hn)]
      · rw [hspec.2]
        exact List.filter_congr hfc
  match legs, hgen with
  | [], _ => exact absurd rfl hne
  | [l], _ =>
    have hlw : (l.1.dual l.2).WF := Charge.dual_wf (h l (by simp)) l.2
    obtain ⟨b, h1, h2, h3, h4⟩ := Charge.reduce_spec hlw target ((strides.getD [1]).getD 0 0)
    have he : fuseL (eff [l]) = (l.1.dual l.2).charges := by simp [eff, fuseL_single]
    refine ⟨b, ?_, h2, by rw [he, h3], ?_⟩
    · rw [reduceCharges, h1, ← he, posOf_grid, List.map_map]
      congr 2
      apply List.map_congr_left
      intro i hi
      have hi' := mem_grid.1 (List.mem_filter.1 hi).1
      have hlen : i.length = 1 := by have := hi'.length; simpa [eff] using this
      obtain ⟨x, rfl⟩ := List.length_eq_one_iff.1 hlen
      cases strides with
      | none => simp [eff, ravel, rowMajor, dot]
      | some ss =>
        have := hs ss rfl
        obtain ⟨s, rfl⟩ := List.length_eq_one_iff.1 this
        simp [eff, ravel, dot]
    · rw [h4, he, intersect, npUnique_uniq hlw]
  | a :: b :: l, hgen => exact hgen (by simp)

end
end TN.Bs
