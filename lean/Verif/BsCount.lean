import Verif.BsPart
import Mathlib.Algebra.BigOperators.Group.Finset.Basic
import Mathlib.Algebra.BigOperators.Group.List.Basic
import Mathlib.Tactic.Abel

/-!
# Counting charge conserving positions (block_sparse/blocksparse_utils.py)
-/

set_option linter.unusedSectionVars false

namespace TN.Bs

/-! ## Sums over runs of equal labels -/

/-- `np.cumsum`, started with `a` -/
def cumsum : Nat → List Nat → List Nat
  | _, [] => []
  | a, x :: l => (a + x) :: cumsum (a + x) l

/-- `np.flatnonzero(np.diff(s))` -/
def changes (s : List Nat) : List Nat :=
  (List.range (s.length - 1)).filter (fun k => s.getD (k + 1) 0 ≠ s.getD k 0)

/-- The end of `compute_fused_charge_degeneracies` (blocksparse_utils.py:154-158): `s` are the
sorted labels, `d` the degeneracies in the same order. -/
def runSums (s d : List Nat) : List Nat :=
  let all := cumsum 0 d
  let cum := (changes s).map (fun k => all.getD k 0)
  List.zipWith (· - ·) (cum ++ [all.getLastD 0]) (0 :: cum)

/-- The partial sums at the ends of the runs, by recursion. -/
def segC : Nat → List Nat → List Nat → List Nat
  | acc, [_], [x] => [acc + x]
  | acc, a :: b :: s, x :: d => (if b ≠ a then [acc + x] else []) ++ segC (acc + x) (b :: s) d
  | _, _, _ => []

theorem segC_eq (s d : List Nat) (acc : Nat) (h : s.length = d.length) (hne : s ≠ []) :
    (changes s).map (fun k => (cumsum acc d).getD k 0) ++ [(cumsum acc d).getLastD 0] =
      segC acc s d := by
  induction s generalizing d acc with
  | nil => exact absurd rfl hne
  | cons a s ih =>
    cases d with
    | nil => simp at h
    | cons x d =>
      cases s with
      | nil =>
        cases d with
        | nil => simp [changes, cumsum, segC]
        | cons => simp at h
      | cons b s =>
        cases d with
        | nil => simp at h
        | cons y d =>
          have h1 := ih (y :: d) (acc + x) (by simpa using h) (by simp)
          have hch : changes (a :: b :: s) =
              (if b ≠ a then [0] else []) ++ (changes (b :: s)).map (· + 1) := by
            simp only [changes, List.length_cons, Nat.add_sub_cancel, List.range_succ_eq_map,
              List.filter_cons, List.filter_map]
            by_cases hab : b = a <;> simp [hab, Function.comp_def]
          rw [segC, ← h1, hch, cumsum, List.map_append, List.map_map, List.append_assoc]
          congr 1
          · by_cases hab : b = a <;> simp [hab]

/-- The sum of the degeneracies with a label that satisfies `p`. -/
def sumWhere (p : Nat → Bool) (l : List (Nat × Nat)) : Nat :=
  ((l.filter (fun q => p q.1)).map Prod.snd).sum

theorem sumWhere_cons (p : Nat → Bool) (q : Nat × Nat) (l : List (Nat × Nat)) :
    sumWhere p (q :: l) = (if p q.1 then q.2 else 0) + sumWhere p l := by
  by_cases h : p q.1 <;> simp [sumWhere, h]

theorem sumWhere_perm {p : Nat → Bool} {l m : List (Nat × Nat)} (h : l.Perm m) :
    sumWhere p l = sumWhere p m := ((h.filter _).map _).sum_eq

theorem sumWhere_false {p : Nat → Bool} {l : List (Nat × Nat)} (h : ∀ q ∈ l, p q.1 = false) :
    sumWhere p l = 0 := by
  have : l.filter (fun q => p q.1) = [] := by
    rw [List.filter_eq_nil_iff]; intro q hq; simp [h q hq]
  simp [sumWhere, this]

theorem segC_spec (s d : List Nat) (acc m a : Nat) (h : (a :: s).length = d.length)
    (hs : (a :: s).Pairwise (· ≤ ·)) (hm : ∀ x ∈ a :: s, x < m)
    (hc : ∀ i, a ≤ i → i < m → i ∈ a :: s) :
    segC acc (a :: s) d = (List.range' a (m - a)).map
      (fun i => acc + sumWhere (fun l => l ≤ i) ((a :: s).zip d)) := by
  induction s generalizing d acc a with
  | nil =>
    match d, h with
    | [x], _ =>
      have ham : a < m := hm a (by simp)
      have : m = a + 1 := by
        by_contra hne
        have := hc (a + 1) (by omega) (by omega)
        simp at this
      subst this
      simp [segC, sumWhere]
  | cons b s ih =>
    match d, h with
    | x :: d, h =>
      have ham : a < m := hm a (by simp)
      have hab : a ≤ b := (List.pairwise_cons.1 hs).1 b (by simp)
      have hbm : b < m := hm b (by simp)
      have hsb := (List.pairwise_cons.1 hs).2
      rw [segC]
      by_cases hba : b = a
      · subst hba
        rw [if_neg (by simp), List.nil_append, ih d (acc + x) b (by simpa using h) hsb
          (fun y hy => hm y (by simp at hy ⊢; tauto)) (fun i h1 h2 => by
            have := hc i h1 h2; simp at this ⊢; tauto)]
        apply List.map_congr_left
        intro i hi
        have hib : b ≤ i := by simp at hi; omega
        rw [List.zip_cons_cons (a := b) (as := b :: s), sumWhere_cons]
        simp [hib, Nat.add_assoc]
      · have hb1 : b = a + 1 := by
          have h1 := hc (a + 1) (by omega) (by omega)
          rcases List.mem_cons.1 h1 with h1 | h1
          · omega
          · rcases List.mem_cons.1 h1 with h1 | h1
            · exact h1.symm
            · have := (List.pairwise_cons.1 hsb).1 _ h1
              omega
        subst hb1
        rw [if_pos (by simp), ih d (acc + x) (a + 1) (by simpa using h) hsb
          (fun y hy => hm y (by simp at hy ⊢; tauto)) (fun i h1 h2 => by
            have := hc i (by omega) h2
            rcases List.mem_cons.1 this with rfl | this
            · omega
            · exact this)]
        rw [show m - a = (m - (a + 1)) + 1 by omega, List.range'_succ, List.map_cons,
          List.singleton_append]
        congr 1
        · rw [List.zip_cons_cons (a := a) (as := (a + 1) :: s), sumWhere_cons, sumWhere_false]
          · simp
          · intro q hq
            have hq1 := List.of_mem_zip hq
            have : a + 1 ≤ q.1 := by
              rcases List.mem_cons.1 hq1.1 with h | h
              · omega
              · exact (List.pairwise_cons.1 hsb).1 _ h
            simp; omega
        · apply List.map_congr_left
          intro i hi
          have hib : a ≤ i := by simp at hi; omega
          rw [List.zip_cons_cons (a := a) (as := (a + 1) :: s), sumWhere_cons]
          simp [hib, Nat.add_assoc]

theorem sumWhere_split (l : List (Nat × Nat)) (i : Nat) :
    sumWhere (fun x => x ≤ i + 1) l = sumWhere (fun x => x ≤ i) l + sumWhere (fun x => x = i + 1) l := by
  induction l with
  | nil => rfl
  | cons q l ih =>
    rw [sumWhere_cons, sumWhere_cons, sumWhere_cons, ih]
    by_cases h1 : q.1 ≤ i
    · have h2 : ¬ q.1 = i + 1 := by omega
      have h3 : q.1 ≤ i + 1 := by omega
      simp [h1, h2, h3]; omega
    · by_cases h2 : q.1 = i + 1
      · have h3 : q.1 ≤ i + 1 := by omega
        simp [h2]; omega
      · have h3 : ¬ q.1 ≤ i + 1 := by omega
        simp [h1, h2, h3]

/-- The sums over the runs, for sorted labels that are exactly the numbers below `m`. -/
theorem runSums_spec {s d : List Nat} {m : Nat} (h : s.length = d.length) (hne : s ≠ [])
    (hs : s.Pairwise (· ≤ ·)) (hm : ∀ i, i ∈ s ↔ i < m) :
    runSums s d = (List.range m).map (fun i => sumWhere (fun l => l = i) (s.zip d)) := by
  have hC := segC_eq s d 0 h hne
  obtain ⟨cum, hcum⟩ : ∃ c, c = (changes s).map (fun k => (cumsum 0 d).getD k 0) := ⟨_, rfl⟩
  obtain ⟨lst, hlst⟩ : ∃ c, c = (cumsum 0 d).getLastD 0 := ⟨_, rfl⟩
  rw [← hcum, ← hlst] at hC
  have hR : runSums s d = List.zipWith (· - ·) (cum ++ [lst]) (0 :: cum) := by
    rw [hcum, hlst]; rfl
  rw [hR]
  have h0 : ∃ s', s = 0 :: s' := by
    cases s with
    | nil => exact absurd rfl hne
    | cons a s' =>
      have ha : a < m := (hm a).1 (by simp)
      have : 0 ∈ a :: s' := (hm 0).2 (by omega)
      rcases List.mem_cons.1 this with h | h
      · exact ⟨s', by rw [← h]⟩
      · have := (List.pairwise_cons.1 hs).1 0 h
        exact ⟨s', by rw [show a = 0 by omega]⟩
  obtain ⟨s', rfl⟩ := h0
  rw [segC_spec s' d 0 m 0 h hs (fun x hx => (hm x).1 hx) (fun i _ hi => (hm i).2 hi)] at hC
  simp only [Nat.zero_add, Nat.sub_zero, ← List.range_eq_range'] at hC
  have hlen : cum.length + 1 = m := by
    have := congrArg List.length hC; simpa using this
  apply List.ext_getElem
  · simp; omega
  · intro i h1 h2
    have him : i < m := by simpa using h2
    have hci : ∀ j (hj : j < m), (cum ++ [lst])[j]'(by simp; omega) =
        sumWhere (fun l => l ≤ j) ((0 :: s').zip d) := by
      intro j hj
      simp [hC]
    rw [List.getElem_zipWith, hci i him, List.getElem_map, List.getElem_range]
    cases i with
    | zero => simp
    | succ i =>
      have h3 : cum[i]'(by omega) = sumWhere (fun l => l ≤ i) ((0 :: s').zip d) := by
        rw [← hci i (by omega), List.getElem_append_left]
      rw [List.getElem_cons_succ, h3, sumWhere_split]
      omega

/-! ## Degeneracies -/

section
variable {Q : Type} [AddCommGroup Q] [LinearOrder Q]

/-- `fuse_degeneracies` (utils.py:111-128) -/
def fuseDegens (a b : List Nat) : List Nat := outerRavel (· * ·) a b

/-- `np.argsort`: some order of the positions that sorts the list.  The default algorithm of numpy
is not stable, so nothing else is assumed. -/
def ArgsortOK (argsort : List Nat → List Nat) : Prop :=
  ∀ l, (argsort l).Perm (List.range l.length) ∧
    ((argsort l).map (fun i => l.getD i 0)).Pairwise (· ≤ ·)

/-- The combination of two parts (blocksparse_utils.py:147-159). -/
def combineDegens (argsort : List Nat → List Nat) (left right : Charge Q × List Nat) :
    Charge Q × List Nat :=
  let fused := (left.1.add right.1).uniqueI
  let degens := fuseDegens left.2 right.2
  let ord := argsort fused.2
  (fused.1, runSums (ord.map (fun i => fused.2.getD i 0)) (ord.map (fun i => degens.getD i 0)))

/-- `compute_fused_charge_degeneracies` (blocksparse_utils.py:121-158) -/
def fusedDegens (argsort : List Nat → List Nat) (legs : List (Leg Q)) :
    Py (Charge Q × List Nat) :=
  match legs with
  | [l] => .ok (l.1.dual l.2).uniqueC
  | legs =>
    if (legs.map (fun l => l.1.dim)).prod < 20000 then do
      let c ← fuseCharges legs
      pure c.uniqueC
    else do
      let p ← bestPartition (legs.map (fun l => l.1.dim))
      let left ← fuseCharges (legs.take p)
      let right ← fuseCharges (legs.drop p)
      pure (combineDegens argsort left.uniqueC right.uniqueC)

/-- `compute_num_nonzero` (blocksparse_utils.py:188-212) -/
def numNonzero (argsort : List Nat → List Nat) (legs : List (Leg Q)) : Py Nat :=
  if legs.any (fun l => l.1.dim = 0) then .ok 0
  else do
    let r ← fusedDegens argsort legs
    let nz := (List.range r.1.dim).filter (fun k => r.1.charges.getD k 0 = 0)
    pure (if 0 < nz.length then r.2.getD (nz.getD 0 0) 0 else 0)

/-- The result of counting: a consistent list of different charges, with the number of times
that each occurs in `l`; every charge of `l` is listed. -/
structure Degens (l : List Q) (r : Charge Q × List Nat) : Prop where
  wf : r.1.WF
  charges : r.1.charges = r.1.uniq
  mem : ∀ x, x ∈ r.1.uniq ↔ x ∈ l
  counts : r.2 = r.1.uniq.map (fun x => l.count x)

theorem uniqueC_degens {a : Charge Q} (h : a.WF) : Degens a.charges a.uniqueC := by
  obtain ⟨h1, h2, h3, h4⟩ := Charge.uniqueC_spec h
  exact ⟨h1, by rw [h3, h2], fun x => by rw [h2, Charge.mem_uniq h], by rw [h4, h2]⟩

theorem sum_map_count {A u : List Q} (hu : u.Nodup) (hm : ∀ x, x ∈ u ↔ x ∈ A) (f : Q → Nat) :
    (A.map f).sum = (u.map (fun a => A.count a * f a)).sum := by
  rw [Finset.sum_list_map_count, ← List.sum_toFinset _ hu]
  apply Finset.sum_congr
  · ext x; simp [hm]
  · intro x _; simp

theorem count_outer (A B : List Q) (q : Q) :
    (outerRavel (· + ·) A B).count q = (A.map (fun a => B.count (q - a))).sum := by
  induction A with
  | nil => simp [outerRavel]
  | cons a A ih =>
    have : outerRavel (· + ·) (a :: A) B = B.map (a + ·) ++ outerRavel (· + ·) A B := by
      simp [outerRavel]
    rw [this, List.count_append, ih, List.map_cons, List.sum_cons]
    congr 1
    simp only [List.count, List.countP_map]
    apply List.countP_congr
    intro b _
    simp only [Function.comp_apply, beq_iff_eq]
    constructor
    · rintro rfl; abel
    · rintro rfl; abel

theorem sum_ite_count {B u : List Q} (hu : u.Nodup) (hm : ∀ x, x ∈ u ↔ x ∈ B) (a q : Q) (c : Nat) :
    (u.map (fun b => if a + b = q then c * B.count b else 0)).sum = c * B.count (q - a) := by
  have h : ∀ b, (a + b = q) = (b = q - a) := fun b => by
    apply propext; constructor
    · rintro rfl; abel
    · rintro rfl; abel
  simp only [h]
  rw [← List.sum_toFinset _ hu, Finset.sum_ite_eq' (s := u.toFinset) (a := q - a)
    (b := fun b => c * B.count b)]
  split_ifs with h1
  · rfl
  · have : q - a ∉ B := fun hc => h1 (by simpa [hm] using hc)
    rw [List.count_eq_zero_of_not_mem this, Nat.mul_zero]

theorem zip_outer {α β γ δ : Type} (f : α → α → γ) (g : β → β → δ) (x : List α) (y : List α)
    (F : α → β) (G : α → β) :
    (outerRavel f x y).zip (x.flatMap (fun a => y.map (fun b => g (F a) (G b)))) =
      x.flatMap (fun a => y.map (fun b => (f a b, g (F a) (G b)))) := by
  induction x with
  | nil => rfl
  | cons a x ih =>
    rw [outerRavel, List.flatMap_cons, List.flatMap_cons, List.flatMap_cons, List.zip_append (by simp),
      ← outerRavel, ih]
    congr 1
    induction y with
    | nil => rfl
    | cons b y ihy =>
      simp only [List.map_cons, List.zip_cons_cons]
      congr 1
      clear ih ihy
      induction y with
      | nil => rfl
      | cons c y ih => simp [ih]

theorem combine_degens {argsort : List Nat → List Nat} (ha : ArgsortOK argsort) {A B : List Q}
    {left right : Charge Q × List Nat} (hl : Degens A left) (hr : Degens B right)
    (hA : A ≠ []) (hB : B ≠ []) :
    Degens (outerRavel (· + ·) A B) (combineDegens argsort left right) := by
  obtain ⟨fused, hf⟩ : ∃ f, f = left.1.add right.1 := ⟨_, rfl⟩
  have hfw : fused.WF := by rw [hf]; exact Charge.add_wf _ _
  have hfc : fused.charges = outerRavel (· + ·) left.1.uniq right.1.uniq := by
    rw [hf, Charge.add_charges, hl.charges, hr.charges]
  obtain ⟨u1, u2, u3, u4⟩ := Charge.uniqueI_spec hfw
  have hlu := Charge.uniq_nodup hl.wf
  have hru := Charge.uniq_nodup hr.wf
  have hfu := Charge.uniq_nodup hfw
  have hmem : ∀ x, x ∈ fused.uniq ↔ x ∈ outerRavel (· + ·) A B := by
    intro x
    rw [Charge.mem_uniq hfw, hfc]
    simp only [outerRavel, List.mem_flatMap, List.mem_map, hl.mem, hr.mem]
  have hres : (combineDegens argsort left right).1 = fused.uniqueI.1 := by rw [hf]; rfl
  refine ⟨by rw [hres]; exact u1, by rw [hres, u3, u2], fun x => by rw [hres, u2, hmem], ?_⟩
  rw [hres, u2]
  obtain ⟨labels, hlab⟩ : ∃ l, l = fused.uniqueI.2 := ⟨_, rfl⟩
  have hlab2 : labels = fused.charges.map (fun x => fused.uniq.idxOf x) := by
    rw [hlab, u4, Charge.labels_eq hfw]
  obtain ⟨degens, hdeg⟩ : ∃ d, d = fuseDegens left.2 right.2 := ⟨_, rfl⟩
  have hdeg2 : degens = left.1.uniq.flatMap
      (fun a => right.1.uniq.map (fun b => A.count a * B.count b)) := by
    rw [hdeg, hl.counts, hr.counts]
    simp [fuseDegens, outerRavel, List.flatMap_map, List.map_map, Function.comp_def]
  have hlen : labels.length = degens.length := by
    rw [hlab2, hdeg, List.length_map, hfc, outerRavel_length, fuseDegens, outerRavel_length,
      hl.counts, hr.counts]
    simp
  obtain ⟨ord, hord⟩ : ∃ o, o = argsort labels := ⟨_, rfl⟩
  obtain ⟨hperm, hsort⟩ := ha labels
  rw [← hord] at hperm hsort
  have hsec : (combineDegens argsort left right).2 =
      runSums (ord.map (fun i => labels.getD i 0)) (ord.map (fun i => degens.getD i 0)) := by
    rw [hord, hlab, hdeg, hf]; rfl
  have hmapl : (ord.map (fun i => labels.getD i 0)).Perm labels := by
    refine (hperm.map _).trans (List.Perm.of_eq ?_)
    apply List.ext_getElem
    · simp
    · intro k h1 h2; simp [h2]
  have hzip : ((ord.map (fun i => labels.getD i 0)).zip (ord.map (fun i => degens.getD i 0))).Perm
      (labels.zip degens) := by
    rw [List.zip_map']
    refine (hperm.map _).trans (List.Perm.of_eq ?_)
    apply List.ext_getElem
    · simp [hlen]
    · intro k h1 h2
      simp only [List.length_zip] at h2
      have k1 : k < labels.length := by omega
      have k2 : k < degens.length := by omega
      simp [k1, k2]
  have hne : outerRavel (· + ·) A B ≠ [] := by
    intro h0
    have := congrArg List.length h0
    rw [outerRavel_length] at this
    have h1 := List.length_pos_iff.2 hA
    have h2 := List.length_pos_iff.2 hB
    have h3 := Nat.mul_pos h1 h2
    simp only [List.length_nil] at this
    omega
  have hml : ∀ i, i ∈ labels ↔ i < fused.uniq.length := by
    intro i
    rw [hlab2, List.mem_map]
    constructor
    · rintro ⟨x, hx, rfl⟩
      exact List.idxOf_lt_length_iff.2 ((Charge.mem_uniq hfw).2 hx)
    · intro hi
      exact ⟨fused.uniq[i], (Charge.mem_uniq hfw).1 (List.getElem_mem hi),
        Charge.idxOf_getElem_nodup hfu hi⟩
  have hlne : labels ≠ [] := by
    intro h0
    obtain ⟨x, hx⟩ := List.exists_mem_of_ne_nil _ hne
    have := (hml _).2 (List.idxOf_lt_length_iff.2 ((hmem x).2 hx))
    rw [h0] at this; simp at this
  rw [hsec, runSums_spec (m := fused.uniq.length) (by simp)
    (fun h0 => hlne (by rw [h0] at hmapl; exact hmapl.symm.eq_nil)) hsort
    (fun i => (hmapl.mem_iff).trans (hml i))]
  apply List.ext_getElem
  · simp
  · intro i h1 h2
    have hi : i < fused.uniq.length := by simpa using h1
    simp only [List.getElem_map, List.getElem_range]
    rw [sumWhere_perm hzip, hlab2, hdeg2, hfc]
    have hz : ((outerRavel (· + ·) left.1.uniq right.1.uniq).map (fun x => fused.uniq.idxOf x)) =
        outerRavel (fun a b => fused.uniq.idxOf (a + b)) left.1.uniq right.1.uniq := by
      simp [outerRavel, List.map_flatMap, List.map_map, Function.comp_def]
    rw [hz, zip_outer (fun a b => fused.uniq.idxOf (a + b)) (fun m n : Nat => m * n)]
    rw [count_outer, sum_map_count hlu hl.mem]
    obtain ⟨q, hq⟩ : ∃ q, q = fused.uniq[i] := ⟨_, rfl⟩
    rw [← hq]
    simp only [sumWhere]
    have hgen : ∀ (X : List Q), (∀ a ∈ X, a ∈ left.1.uniq) →
        (((X.flatMap fun a => right.1.uniq.map fun b =>
          (fused.uniq.idxOf (a + b), A.count a * B.count b)).filter
            (fun q => decide (q.1 = i))).map Prod.snd).sum =
        (X.map (fun a => A.count a * B.count (q - a))).sum := by
      intro X hX
      induction X with
      | nil => rfl
      | cons a X ih =>
        rw [List.flatMap_cons, List.filter_append, List.map_append, List.sum_append,
          ih (fun b hb => hX b (by simp [hb])), List.map_cons, List.sum_cons]
        congr 1
        rw [← sum_ite_count hru hr.mem a q (A.count a)]
        have hY : ∀ (Y : List Q), (∀ b ∈ Y, b ∈ right.1.uniq) →
            (((Y.map fun b => (fused.uniq.idxOf (a + b), A.count a * B.count b)).filter
              (fun q => decide (q.1 = i))).map Prod.snd).sum =
            (Y.map (fun b => if a + b = q then A.count a * B.count b else 0)).sum := by
          intro Y hY
          induction Y with
          | nil => rfl
          | cons b Y ihy =>
            have hab : a + b ∈ fused.uniq := by
              rw [Charge.mem_uniq hfw, hfc]
              simp only [outerRavel, List.mem_flatMap, List.mem_map]
              exact ⟨a, hX a (by simp), b, hY b (by simp), rfl⟩
            have hiff : (fused.uniq.idxOf (a + b) = i) ↔ a + b = q := by
              rw [hq]
              constructor
              · intro h
                subst h
                exact (List.getElem_idxOf _).symm
              · intro h
                rw [h]; exact Charge.idxOf_getElem_nodup hfu hi
            rw [List.map_cons, List.map_cons, List.sum_cons,
              ← ihy (fun c hc => hY c (by simp [hc])), List.filter_cons]
            by_cases hc : a + b = q
            · have := hiff.2 hc
              rw [if_pos (by simpa using this), if_pos hc, List.map_cons, List.sum_cons]
            · have : ¬ fused.uniq.idxOf (a + b) = i := fun h => hc (hiff.1 h)
              rw [if_neg (by simpa using this), if_neg hc, Nat.zero_add]
        exact hY _ (fun b hb => hb)
    exact hgen _ (fun a ha => ha)

/-- `compute_fused_charge_degeneracies`: the different charges of all positions with their
multiplicities.  In the large case all legs must have at least one charge. -/
theorem fusedDegens_spec {argsort : List Nat → List Nat} (ha : ArgsortOK argsort)
    {legs : List (Leg Q)} (h : LegsWF legs) (hne : legs ≠ []) :
    ∃ r, fusedDegens argsort legs = .ok r ∧ Degens (fuseL (eff legs)) r := by
  have hgen : 2 ≤ legs.length → ∃ r, (if (legs.map (fun l => l.1.dim)).prod < 20000 then do
      let c ← fuseCharges legs
      pure c.uniqueC
    else do
      let p ← bestPartition (legs.map (fun l => l.1.dim))
      let left ← fuseCharges (legs.take p)
      let right ← fuseCharges (legs.drop p)
      pure (combineDegens argsort left.uniqueC right.uniqueC)) = .ok r ∧
      Degens (fuseL (eff legs)) r := by
    intro hl
    split_ifs with hp
    · obtain ⟨c, h1, h2, h3⟩ := fuseCharges_spec h hne
      rw [h1]
      exact ⟨_, rfl, h3 ▸ uniqueC_degens h2⟩
    · obtain ⟨p, h1, h2, h3, _⟩ := bestPartition_spec (ds := legs.map (fun l => l.1.dim))
        (by simpa using hl)
      rw [List.length_map] at h3
      obtain ⟨cl, l1, l2, l3⟩ := fuseCharges_spec (legs := legs.take p)
        (fun l hl => h l (List.mem_of_mem_take hl)) (by
          intro h0; have := congrArg List.length h0; rw [List.length_take] at this; simp only [List.length_nil] at this; omega)
      obtain ⟨cr, r1, r2, r3⟩ := fuseCharges_spec (legs := legs.drop p)
        (fun l hl => h l (List.mem_of_mem_drop hl)) (by
          intro h0; have := congrArg List.length h0; simp at this; omega)
      rw [h1]
      simp only [bind, Except.bind, l1, r1]
      refine ⟨_, rfl, ?_⟩
      have hsplit : fuseL (eff legs) = outerRavel (· + ·) cl.charges cr.charges := by
        rw [l3, r3, ← fuseL_append, ← eff_append, List.take_append_drop]
      have hprod : cl.charges.length * cr.charges.length ≠ 0 := by
        rw [← outerRavel_length (fun a b : Q => a + b), ← hsplit, fuseL_length, dims_eff]
        omega
      rw [hsplit]
      refine combine_degens ha (uniqueC_degens l2) (uniqueC_degens r2) ?_ ?_
      · intro h0; rw [h0] at hprod; simp at hprod
      · intro h0; rw [h0] at hprod; simp at hprod
  match legs, hgen with
  | [], _ => exact absurd rfl hne
  | [l], _ =>
    refine ⟨_, rfl, ?_⟩
    have := uniqueC_degens (Charge.dual_wf (h l (by simp)) l.2)
    rwa [show fuseL (eff [l]) = (l.1.dual l.2).charges by simp [eff, fuseL_single]]
  | a :: b :: l, hgen => exact hgen (by simp)

/-- `compute_unique_fused_charges` (blocksparse_utils.py:161-185) -/
def uniqueFused (legs : List (Leg Q)) : Py (Charge Q) :=
  match legs with
  | [] => .error .indexError
  | l :: legs => .ok (legs.foldl (fun acc m => (acc.add (m.1.uniqueC.1.dual m.2)).uniqueC.1)
      (l.1.dual l.2).uniqueC.1)

theorem uniqueFused_fold (legs : List (Leg Q)) (h : LegsWF legs) (A : List Q) (acc : Charge Q)
    (hw : acc.WF) (hc : acc.charges = acc.uniq) (hm : ∀ x, x ∈ acc.uniq ↔ x ∈ A) :
    ∃ r : Charge Q, r = legs.foldl (fun acc m => (acc.add (m.1.uniqueC.1.dual m.2)).uniqueC.1) acc ∧
      r.WF ∧ r.charges = r.uniq ∧
      ∀ x, x ∈ r.uniq ↔ x ∈ outerRavel (· + ·) A (fuseL (eff legs)) := by
  induction legs generalizing A acc with
  | nil =>
    refine ⟨_, rfl, hw, hc, fun x => ?_⟩
    rw [List.foldl_nil, hm]
    simp [outerRavel, eff, fuseL, grid, dims, total]
  | cons m legs ih =>
    have hmw : m.1.WF := h m (by simp)
    obtain ⟨u1, u2, u3, _⟩ := Charge.uniqueC_spec hmw
    have haw : (acc.add (m.1.uniqueC.1.dual m.2)).WF := Charge.add_wf _ _
    have hd := uniqueC_degens haw
    obtain ⟨r, h1, h2, h3, h4⟩ := ih (fun l hl => h l (by simp [hl]))
      (outerRavel (· + ·) A (fuseL (eff [m]))) _ hd.wf hd.charges (fun x => by
        rw [hd.mem, Charge.add_charges, Charge.dual_charges u1, u3]
        have he : fuseL (eff [m]) = (m.1.dual m.2).charges := by simp [eff, fuseL_single]
        rw [he, Charge.dual_charges hmw, hc]
        have hu : ∀ y, y ∈ m.1.uniq ↔ y ∈ m.1.charges := fun y => Charge.mem_uniq hmw
        simp only [outerRavel, List.mem_flatMap, List.mem_map, hm]
        cases m.2 <;> simp [hu])
    refine ⟨r, h1, h2, h3, fun x => ?_⟩
    rw [h4]
    have hsp : eff (m :: legs) = eff [m] ++ eff legs := by rw [← eff_append]; rfl
    rw [hsp, fuseL_append]
    simp only [outerRavel, List.mem_flatMap, List.mem_map]
    constructor
    · rintro ⟨y, ⟨a, ha, b, hb, rfl⟩, c, hc, rfl⟩
      exact ⟨a, ha, b + c, ⟨b, hb, c, hc, rfl⟩, by abel⟩
    · rintro ⟨a, ha, y, ⟨b, hb, c, hc, rfl⟩, rfl⟩
      exact ⟨a + b, ⟨a, ha, b, hb, rfl⟩, c, hc, by abel⟩

/-- The charges listed by `compute_unique_fused_charges` are those of the dense positions, each
once. -/
theorem uniqueFused_spec {legs : List (Leg Q)} (h : LegsWF legs) (hne : legs ≠ []) :
    ∃ r, uniqueFused legs = .ok r ∧ r.WF ∧ r.charges = r.uniq ∧
      ∀ x, x ∈ r.uniq ↔ x ∈ fuseL (eff legs) := by
  cases legs with
  | nil => exact absurd rfl hne
  | cons l legs =>
    have hlw : (l.1.dual l.2).WF := Charge.dual_wf (h l (by simp)) _
    have hd := uniqueC_degens hlw
    obtain ⟨r, h1, h2, h3, h4⟩ := uniqueFused_fold legs (fun l hl => h l (by simp [hl]))
      _ _ hd.wf hd.charges hd.mem
    refine ⟨r, by rw [h1]; rfl, h2, h3, fun x => ?_⟩
    rw [h4]
    have hsp : eff (l :: legs) = eff [l] ++ eff legs := by rw [← eff_append]; rfl
    rw [hsp, fuseL_append, show fuseL (eff [l]) = (l.1.dual l.2).charges by simp [eff, fuseL_single]]

/-- C22.  `compute_num_nonzero` is the number of dense positions at which the charges of the legs,
dualised for outflowing legs, add up to the identity charge, for all numbers of legs, all charges
and flows. -/
theorem C22_num_nonzero {argsort : List Nat → List Nat} (ha : ArgsortOK argsort)
    {legs : List (Leg Q)} (h : LegsWF legs) (hne : legs ≠ []) :
    numNonzero argsort legs =
      .ok ((grid (legs.map (fun l => l.1.dim))).countP (fun i => total (eff legs) i = 0)) := by
  have hcnt : (grid (legs.map (fun l => l.1.dim))).countP (fun i => total (eff legs) i = 0) =
      (fuseL (eff legs)).count 0 := by
    rw [fuseL, List.count, List.countP_map, ← dims_eff]
    apply List.countP_congr
    intro i _
    simp
  rw [hcnt, numNonzero]
  split_ifs with h0
  · have : fuseL (eff legs) = [] := by
      rw [← List.length_eq_zero_iff, fuseL_length, dims_eff, List.prod_eq_zero_iff, List.mem_map]
      simpa using h0
    simp [this]
  · obtain ⟨r, h1, hd⟩ := fusedDegens_spec ha h hne
    rw [h1]
    simp only [bind, Except.bind, pure, Except.pure]
    congr 1
    rw [Charge.dim_eq, hd.charges]
    obtain ⟨u, hu⟩ : ∃ u, u = r.1.uniq := ⟨_, rfl⟩
    rw [← hu]
    have hnd : u.Nodup := hu ▸ Charge.uniq_nodup hd.wf
    have hc := hd.counts
    rw [← hu] at hc
    by_cases hz : (0 : Q) ∈ u
    · have hlt := List.idxOf_lt_length_iff.2 hz
      have hflt : (List.range u.length).filter (fun k => decide (u.getD k 0 = 0)) =
          [u.idxOf 0] := by
        have hnd2 : ((List.range u.length).filter (fun k => decide (u.getD k 0 = 0))).Nodup :=
          List.nodup_range.filter _
        have hp : ((List.range u.length).filter (fun k => decide (u.getD k 0 = 0))).Perm
            [u.idxOf 0] := by
          rw [List.perm_ext_iff_of_nodup hnd2 (by simp)]
          intro k
          simp only [List.mem_filter, List.mem_range, decide_eq_true_eq, List.mem_singleton]
          constructor
          · rintro ⟨hk, h2⟩
            have h3 : u[k] = 0 := by simpa [hk] using h2
            rw [← h3]; exact (Charge.idxOf_getElem_nodup hnd hk).symm
          · rintro rfl
            refine ⟨hlt, ?_⟩
            rw [List.getD_eq_getElem?_getD, List.getElem?_eq_getElem hlt, Option.getD_some]
            exact List.getElem_idxOf hlt
        exact List.perm_singleton.1 hp
      rw [hflt]
      simp only [List.length_singleton, Nat.zero_lt_one, if_true, List.getD_cons_zero]
      rw [hc, List.getD_eq_getElem?_getD, List.getElem?_map, List.getElem?_eq_getElem hlt,
        List.getElem_idxOf]
      rfl
    · have hflt : (List.range u.length).filter (fun k => decide (u.getD k 0 = 0)) = [] := by
        rw [List.filter_eq_nil_iff]
        intro k hk hc
        rw [List.mem_range] at hk
        have h3 : u[k] = 0 := by simpa [hk] using hc
        exact hz (h3 ▸ List.getElem_mem hk)
      rw [hflt]
      have : (0 : Q) ∉ fuseL (eff legs) := fun hc => hz (by rw [hu]; exact (hd.mem 0).2 hc)
      simp [List.count_eq_zero_of_not_mem this]

end

/-! ## Concrete cases -/

/-- An `argsort` that satisfies the assumption (by insertion). -/
def argsortI (l : List Nat) : List Nat :=
  (List.range l.length).insertionSort (fun i j => l.getD i 0 ≤ l.getD j 0)

theorem argsortI_ok : ArgsortOK argsortI := by
  intro l
  refine ⟨List.perm_insertionSort _ _, ?_⟩
  rw [List.pairwise_map]
  have : Std.Total (fun i j => l.getD i 0 ≤ l.getD j 0) := ⟨fun a b => Nat.le_total _ _⟩
  have : IsTrans Nat (fun i j => l.getD i 0 ≤ l.getD j 0) := ⟨fun a b c => Nat.le_trans⟩
  exact List.pairwise_insertionSort _ _

/-- Three legs with integer charges, one of them outflowing, one given by labels. -/
def legsEx : List (Leg Int) :=
  [(.raw [0, 1, 1], false), (.lab [-1, 0, 1] [2, 1, 0, 2], false), (.raw [0, 2], true)]

theorem legsEx_wf : LegsWF legsEx := by
  intro l hl
  simp only [legsEx, List.mem_cons, List.not_mem_nil, or_false] at hl
  rcases hl with rfl | rfl | rfl
  · trivial
  · refine ⟨by decide, fun i => ?_⟩
    simp only [List.mem_cons, List.not_mem_nil, or_false, List.length_cons, List.length_nil]
    omega
  · trivial

/-- C22 in a concrete case: 7 of the 24 positions conserve charge. -/
example : numNonzero argsortI legsEx = .ok 7 := by
  rw [C22_num_nonzero argsortI_ok legsEx_wf (by decide)]
  decide

/-- The combination of two parts, on the same legs. -/
example : (combineDegens argsortI (Charge.raw [(0 : Int), 1, 1]).uniqueC
    (Charge.raw [(1 : Int), 0, -1, 1]).uniqueC).1.charges = [-1, 0, 1, 2] ∧
    (combineDegens argsortI (Charge.raw [(0 : Int), 1, 1]).uniqueC
      (Charge.raw [(1 : Int), 0, -1, 1]).uniqueC).2 = [1, 3, 4, 4] := by
  decide +kernel

end TN.Bs
