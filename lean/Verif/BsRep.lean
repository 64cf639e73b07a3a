import Verif.BsCharge
import Verif.Nd
import Mathlib.Data.List.Sort
import Mathlib.Data.List.Dedup
import Mathlib.Data.List.Count

/-!
# Unique charges and the two representations of a charge list (block_sparse/utils.py, charge.py)

From here on the charges are the elements of any abelian group `Q` with a linear order; the order
is the one in which `np.unique` lists them.
-/

set_option linter.unusedSectionVars false

namespace TN.Bs

section Unique
variable {Q : Type} [LinearOrder Q]

/-- `np.unique` (numpy documentation): the sorted distinct elements. -/
def npUnique (l : List Q) : List Q := l.dedup.insertionSort (· ≤ ·)

/-- `return_index=True`: the first positions. -/
def uniqueIndex (l : List Q) : List Nat := (npUnique l).map (fun x => l.idxOf x)

/-- `return_inverse=True`: the labels. -/
def uniqueInverse (l : List Q) : List Nat := l.map (fun x => (npUnique l).idxOf x)

/-- `return_counts=True` -/
def uniqueCounts (l : List Q) : List Nat := (npUnique l).map (fun x => l.count x)

/-- `np.intersect1d(..., return_indices=True)` (numpy documentation): the sorted common elements
and their first positions in both arguments. -/
def intersect (A B : List Q) : List Q × List Nat × List Nat :=
  let c := (npUnique A).filter (· ∈ B)
  (c, c.map (fun x => A.idxOf x), c.map (fun x => B.idxOf x))

@[simp] theorem mem_npUnique {l : List Q} {x : Q} : x ∈ npUnique l ↔ x ∈ l := by
  rw [npUnique, List.mem_insertionSort, List.mem_dedup]

theorem npUnique_nodup (l : List Q) : (npUnique l).Nodup :=
  (List.perm_insertionSort _ _).nodup_iff.2 (List.nodup_dedup l)

theorem npUnique_sorted (l : List Q) : (npUnique l).Pairwise (· ≤ ·) :=
  List.pairwise_insertionSort (· ≤ ·) _

theorem npUnique_lt (l : List Q) : (npUnique l).Pairwise (· < ·) :=
  ((npUnique_sorted l).and (npUnique_nodup l)).imp (fun h => lt_of_le_of_ne h.1 h.2)

theorem intersect_mem {A B : List Q} {x : Q} : x ∈ (intersect A B).1 ↔ x ∈ A ∧ x ∈ B := by
  simp [intersect]

theorem intersect_nodup (A B : List Q) : (intersect A B).1.Nodup :=
  (npUnique_nodup A).filter _

/-- A strictly sorted list with the same elements is the same list. -/
theorem npUnique_eq {l m : List Q} (hm : m.Pairwise (· < ·)) (h : ∀ x, x ∈ m ↔ x ∈ l) :
    npUnique l = m := by
  have hn : m.Nodup := hm.imp (fun h => ne_of_lt h)
  have hp : (npUnique l).Perm m :=
    (List.perm_ext_iff_of_nodup (npUnique_nodup l) hn).2 (fun x => by simp [h])
  exact hp.eq_of_pairwise (le := (· ≤ ·)) (fun a b _ _ h1 h2 => le_antisymm h1 h2)
    (npUnique_sorted l) (hm.imp le_of_lt)

end Unique

/-! ## Filling a table -/

/-- `map = np.full(n, -1); map[locs] = np.arange(len(locs))` (charge.py:437-439,
blocksparse_utils.py:283-284, 519-522) -/
def scatter (n : Nat) (locs : List Nat) : List Int :=
  locs.zipIdx.foldl (fun a p => a.set p.1 (p.2 : Int)) (List.replicate n (-1))

theorem scatter_aux (locs : List Nat) (k : Nat) (a : List Int) (i : Nat) (hi : i < a.length)
    (hn : locs.Nodup) :
    ((locs.zipIdx k).foldl (fun a p => a.set p.1 (p.2 : Int)) a).getD i 0 =
      if i ∈ locs then ((k + locs.idxOf i : Nat) : Int) else a.getD i 0 := by
  induction locs generalizing k a with
  | nil => simp
  | cons x l ih =>
    rw [List.zipIdx_cons, List.foldl_cons, ih (k + 1) _ (by simpa using hi) hn.of_cons]
    by_cases hx : i = x
    · subst hx
      have : i ∉ l := (List.nodup_cons.1 hn).1
      simp [this, hi, List.getD_eq_getElem?_getD]
    · have hx' : x ≠ i := fun h => hx h.symm
      simp only [List.mem_cons, hx, false_or, List.idxOf_cons_ne _ hx',
        List.getD_eq_getElem?_getD, List.getElem?_set_ne hx']
      split_ifs
      · congr 1; omega
      · rfl

theorem scatter_getD {n : Nat} {locs : List Nat} {i : Nat} (hi : i < n) (hn : locs.Nodup) :
    (scatter n locs).getD i 0 = if i ∈ locs then ((locs.idxOf i : Nat) : Int) else -1 := by
  rw [scatter, scatter_aux _ _ _ _ (by simpa using hi) hn]
  simp [hi, List.getD_eq_getElem?_getD]

/-! ## The two representations -/

/-- `BaseCharge` (charge.py:21-98): either the charges themselves (`_charges`), or the unique
charges with labels (`_unique_charges`, `_charge_labels`).  The labels are natural numbers here;
the code stores them as `np.int16`, see `C28_labels_false`. -/
inductive Charge (Q : Type)
  | raw (cs : List Q)
  | lab (u : List Q) (ls : List Nat)

namespace Charge
variable {Q : Type} [AddCommGroup Q] [LinearOrder Q]

/-- `BaseCharge.charges` (charge.py:98-102) -/
def charges : Charge Q → List Q
  | raw cs => cs
  | lab u ls => ls.map (fun l => u.getD l 0)

/-- `BaseCharge.unique_charges` (charge.py:82-88).  The property also changes the representation
from `raw` to `lab`; it has no other effect. -/
def uniq : Charge Q → List Q
  | raw cs => npUnique cs
  | lab u _ => u

/-- `BaseCharge.charge_labels` (charge.py:90-96) -/
def labels : Charge Q → List Nat
  | raw cs => uniqueInverse cs
  | lab _ ls => ls

/-- `BaseCharge.dim` and `len` (charge.py:122-126, 172-175) -/
def dim : Charge Q → Nat
  | raw cs => cs.length
  | lab _ ls => ls.length

/-- The representation is consistent: the unique charges are different, and exactly the positions
in the list of unique charges are used as labels. -/
def WF : Charge Q → Prop
  | raw _ => True
  | lab u ls => u.Nodup ∧ ∀ i, i ∈ ls ↔ i < u.length

/-- `BaseCharge.__add__` (charge.py:211-226) -/
def add (a b : Charge Q) : Charge Q := raw (outerRavel (· + ·) a.charges b.charges)

/-- `BaseCharge.dual` and `__mul__` (charge.py:228-262, 275-279) -/
def dual (a : Charge Q) (take : Bool) : Charge Q :=
  if take then
    match a with
    | raw cs => raw (cs.map (fun q => -q))
    | lab u ls => lab (u.map (fun q => -q)) ls
  else a

/-- `BaseCharge.identity_charges` (charge.py:195-209) -/
def identity (_ : Charge Q) (dim : Nat) : Charge Q := raw (List.replicate dim 0)

/-- `BaseCharge.unique(return_counts=True)` (charge.py:321-409): the unique charges and the
counts. -/
def uniqueC : Charge Q → Charge Q × List Nat
  | raw cs => (lab (npUnique cs) (List.range (npUnique cs).length), uniqueCounts cs)
  | lab u ls => (lab u (List.range u.length), uniqueCounts ls)

/-- `BaseCharge.unique(return_inverse=True)`: the unique charges and the labels. -/
def uniqueI : Charge Q → Charge Q × List Nat
  | raw cs => (lab (npUnique cs) (List.range (npUnique cs).length), uniqueInverse cs)
  | lab u ls => (lab u (List.range u.length), ls)

/-- `BaseCharge.__getitem__` (charge.py:455-480) for positions that are not negative. -/
def getItem (a : Charge Q) (ns : List Nat) : Py (Charge Q) :=
  if ∀ n ∈ ns, n < a.dim then
    match a with
    | raw cs => .ok (raw (ns.map (fun n => cs.getD n 0)))
    | lab u ls =>
      let ls' := ns.map (fun n => ls.getD n 0)
      .ok (lab ((npUnique ls').map (fun l => u.getD l 0)) (uniqueInverse ls'))
  else .error .indexError

/-- `BaseCharge.reduce` (charge.py:411-453): the reduced charge and the locations.  Stores into
`map_to_reduced` outside of its length raise `IndexError`. -/
def reduce (a : Charge Q) (target : List Q) (stride : Nat) : Py (Charge Q × List Nat) :=
  let i := intersect a.uniq target
  if ∀ l ∈ i.2.1, l < a.dim then
    let mp := scatter a.dim i.2.1
    let red := a.labels.map (fun l => mp.getD l 0)
    .ok (lab i.1 ((red.filter (fun l => 0 ≤ l)).map Int.toNat),
      ((List.range red.length).filter (fun k => 0 ≤ red.getD k 0)).map (fun k => stride * k))
  else .error .indexError

/-! ### The two representations agree -/

theorem idxOf_getElem_nodup {α : Type} [BEq α] [LawfulBEq α] {l : List α} (h : l.Nodup) {i : Nat}
    (hi : i < l.length) : l.idxOf l[i] = i := List.Nodup.idxOf_getElem h i hi

theorem uniq_nodup {a : Charge Q} (h : a.WF) : a.uniq.Nodup := by
  cases a with
  | raw cs => exact npUnique_nodup cs
  | lab u ls => exact h.1

theorem mem_uniq {a : Charge Q} (h : a.WF) {x : Q} : x ∈ a.uniq ↔ x ∈ a.charges := by
  cases a with
  | raw cs => simp [uniq, charges]
  | lab u ls =>
    simp only [uniq, charges, List.mem_map]
    constructor
    · intro hx
      obtain ⟨i, hi, rfl⟩ := List.getElem_of_mem hx
      exact ⟨i, (h.2 i).2 hi, by simp [hi]⟩
    · rintro ⟨l, hl, rfl⟩
      have := (h.2 l).1 hl
      simp [this]

theorem labels_eq {a : Charge Q} (h : a.WF) :
    a.labels = a.charges.map (fun x => a.uniq.idxOf x) := by
  cases a with
  | raw cs => rfl
  | lab u ls =>
    simp only [labels, charges, uniq, List.map_map]
    conv_lhs => rw [← List.map_id ls]
    apply List.map_congr_left
    intro l hl
    have := (h.2 l).1 hl
    simp only [id, Function.comp_apply, List.getD_eq_getElem?_getD, List.getElem?_eq_getElem this,
      Option.getD_some]
    exact (idxOf_getElem_nodup h.1 this).symm

theorem dim_eq (a : Charge Q) : a.dim = a.charges.length := by
  cases a <;> simp [dim, charges]

theorem charges_eq {a : Charge Q} (h : a.WF) :
    a.charges = a.labels.map (fun l => a.uniq.getD l 0) := by
  cases a with
  | raw cs =>
    simp only [charges, labels, uniq, uniqueInverse, List.map_map]
    conv_lhs => rw [← List.map_id cs]
    apply List.map_congr_left
    intro x hx
    have : (npUnique cs).idxOf x < (npUnique cs).length := List.idxOf_lt_length_iff.2 (by simpa)
    simp [this]
  | lab u ls => rfl

@[simp] theorem add_charges (a b : Charge Q) :
    (a.add b).charges = outerRavel (· + ·) a.charges b.charges := rfl

theorem add_wf (a b : Charge Q) : (a.add b).WF := trivial

theorem dual_charges {a : Charge Q} (h : a.WF) (f : Bool) :
    (a.dual f).charges = if f then a.charges.map (fun q => -q) else a.charges := by
  cases f with
  | false => simp [dual]
  | true =>
    cases a with
    | raw cs => simp [dual, charges]
    | lab u ls =>
      simp only [dual, charges, if_true, List.map_map]
      apply List.map_congr_left
      intro l hl
      have := (h.2 l).1 hl
      simp [this]

theorem dual_wf {a : Charge Q} (h : a.WF) (f : Bool) : (a.dual f).WF := by
  cases f with
  | false => simpa [dual] using h
  | true =>
    cases a with
    | raw cs => trivial
    | lab u ls =>
      refine ⟨h.1.map neg_injective, fun i => ?_⟩
      simpa using h.2 i

theorem dual_dim (a : Charge Q) (f : Bool) : (a.dual f).dim = a.dim := by
  cases f <;> cases a <;> simp [dual, dim]

theorem npUnique_labels {u : List Q} {ls : List Nat} (h : (lab u ls).WF) :
    npUnique ls = List.range u.length :=
  npUnique_eq List.pairwise_lt_range (fun i => by simpa using (h.2 i).symm)

theorem count_charges {u : List Q} {ls : List Nat} (h : (lab u ls).WF) {i : Nat}
    (hi : i < u.length) : (lab u ls).charges.count u[i] = ls.count i := by
  simp only [charges, List.count, List.countP_map]
  apply List.countP_congr
  intro l hl
  have hl' := (h.2 l).1 hl
  simp [hl', h.1.getElem_inj_iff]

theorem uniqueC_spec {a : Charge Q} (h : a.WF) :
    a.uniqueC.1.WF ∧ a.uniqueC.1.uniq = a.uniq ∧ a.uniqueC.1.charges = a.uniq ∧
      a.uniqueC.2 = a.uniq.map (fun x => a.charges.count x) := by
  have key : ∀ u : List Q, (lab u (List.range u.length)).charges = u := by
    intro u
    apply List.ext_getElem
    · simp [charges]
    · intro i h1 h2; simp [charges, h2]
  cases a with
  | raw cs =>
    exact ⟨⟨npUnique_nodup cs, by simp⟩, rfl, key _, rfl⟩
  | lab u ls =>
    refine ⟨⟨h.1, by simp⟩, rfl, key _, ?_⟩
    simp only [uniqueC, uniqueCounts, npUnique_labels h, uniq]
    apply List.ext_getElem
    · simp
    · intro i h1 h2
      have hi : i < u.length := by simpa using h1
      simp only [List.getElem_map, List.getElem_range]
      rw [← count_charges h hi]

theorem uniqueI_spec {a : Charge Q} (h : a.WF) :
    a.uniqueI.1.WF ∧ a.uniqueI.1.uniq = a.uniq ∧ a.uniqueI.1.charges = a.uniq ∧
      a.uniqueI.2 = a.labels := by
  have h1 := uniqueC_spec h
  cases a <;> exact ⟨h1.1, h1.2.1, h1.2.2.1, rfl⟩

theorem getItem_spec {a : Charge Q} (h : a.WF) {ns : List Nat} (hn : ∀ n ∈ ns, n < a.dim) :
    ∃ b, a.getItem ns = .ok b ∧ b.WF ∧ b.charges = ns.map (fun n => a.charges.getD n 0) := by
  cases a with
  | raw cs => exact ⟨raw _, by rw [getItem, if_pos hn]; rfl, (trivial : (raw _ : Charge Q).WF), rfl⟩
  | lab u ls =>
    refine ⟨_, by rw [getItem, if_pos hn], ?_, ?_⟩
    · refine ⟨?_, fun i => ?_⟩
      · refine (List.nodup_map_iff_inj_on (npUnique_nodup _)).2 ?_
        intro x hx y hy hxy
        simp only [mem_npUnique, List.mem_map] at hx hy
        obtain ⟨n, hn1, rfl⟩ := hx
        obtain ⟨m, hm1, rfl⟩ := hy
        have hn2 := hn n hn1
        have hm2 := hn m hm1
        simp only [dim] at hn2 hm2
        simp only [List.getD_eq_getElem?_getD, List.getElem?_eq_getElem hn2,
          List.getElem?_eq_getElem hm2, Option.getD_some] at hxy ⊢
        have k1 := (h.2 _).1 (List.getElem_mem hn2)
        have k2 := (h.2 _).1 (List.getElem_mem hm2)
        rw [List.getElem?_eq_getElem k1, List.getElem?_eq_getElem k2] at hxy
        exact (h.1.getElem_inj_iff).1 (by simpa using hxy)
      · simp only [uniqueInverse, List.mem_map, List.length_map]
        constructor
        · rintro ⟨x, hx, rfl⟩
          exact List.idxOf_lt_length_iff.2 (by simpa using hx)
        · intro hi
          refine ⟨(npUnique (ns.map (fun n => ls.getD n 0)))[i], ?_, ?_⟩
          · have := List.getElem_mem hi
            rw [mem_npUnique] at this
            simpa using this
          · exact idxOf_getElem_nodup (npUnique_nodup _) hi
    · simp only [charges, uniqueInverse, List.map_map]
      apply List.map_congr_left
      intro n hn1
      have hn2 := hn n hn1
      simp only [dim] at hn2
      have hmem : ls.getD n 0 ∈ npUnique (ns.map (fun n => ls.getD n 0)) := by
        rw [mem_npUnique]; exact List.mem_map_of_mem hn1
      have hlt := List.idxOf_lt_length_iff.2 hmem
      simp only [Function.comp_apply]
      rw [List.getD_eq_getElem?_getD, List.getElem?_map, List.getElem?_eq_getElem hlt,
        List.getElem_idxOf]
      simp [hn2]

theorem idxOf_map_inj {α β : Type} [BEq α] [LawfulBEq α] [BEq β] [LawfulBEq β] {f : α → β} {l : List α} {x : α}
    (h : ∀ y ∈ l, f y = f x → y = x) : (l.map f).idxOf (f x) = l.idxOf x := by
  induction l with
  | nil => rfl
  | cons y l ih =>
    rw [List.map_cons]
    by_cases hy : y = x
    · subst hy; simp
    · rw [List.idxOf_cons_ne _ hy,
        List.idxOf_cons_ne _ (fun hc => hy (h y (by simp) hc)),
        ih (fun z hz => h z (by simp [hz]))]

/-- The table of `reduce` and of `reduce_charges`: the new label of each charge, or `-1`. -/
theorem scatter_labels {u C : List Q} {n : Nat} (hC : C.Nodup) (hs : ∀ x ∈ C, x ∈ u)
    (hn : u.length ≤ n) {x : Q} (hx : x ∈ u) :
    (scatter n (C.map (fun x => u.idxOf x))).getD (u.idxOf x) 0 =
      if x ∈ C then ((C.idxOf x : Nat) : Int) else -1 := by
  have hinj : ∀ y ∈ u, u.idxOf y = u.idxOf x → y = x := by
    intro y hy hxy
    exact (List.idxOf_inj hy).1 hxy
  have hlt : u.idxOf x < n := lt_of_lt_of_le (List.idxOf_lt_length_iff.2 hx) hn
  have hnd : (C.map (fun x => u.idxOf x)).Nodup := by
    refine (List.nodup_map_iff_inj_on hC).2 ?_
    intro y hy z hz hyz
    exact (List.idxOf_inj (hs y hy)).1 hyz
  rw [scatter_getD hlt hnd]
  have hm : u.idxOf x ∈ C.map (fun x => u.idxOf x) ↔ x ∈ C := by
    rw [List.mem_map]
    constructor
    · rintro ⟨y, hy, hxy⟩
      exact hinj y (hs y hy) hxy ▸ hy
    · exact fun h => ⟨x, h, rfl⟩
  simp only [hm]
  split_ifs with h
  · rw [idxOf_map_inj (f := fun x => u.idxOf x) (fun y hy hxy => hinj y (hs y hy) hxy)]
  · rfl

/-- The positions at which the predicate holds. -/
def posOf (p : Q → Bool) (l : List Q) : List Nat :=
  (List.range l.length).filter (fun k => p (l.getD k 0))

theorem filter_labels {C l : List Q} :
    ((l.map (fun x => if x ∈ C then ((C.idxOf x : Nat) : Int) else -1)).filter
      (fun k => 0 ≤ k)).map Int.toNat = (l.filter (· ∈ C)).map (fun x => C.idxOf x) := by
  induction l with
  | nil => rfl
  | cons x l ih =>
    by_cases hx : x ∈ C
    · simp [hx, ih]
    · simp [hx, ih]

theorem posOf_labels {C l : List Q} :
    (List.range l.length).filter (fun k => 0 ≤
      ((l.map (fun x => if x ∈ C then ((C.idxOf x : Nat) : Int) else -1)).getD k 0)) =
    posOf (· ∈ C) l := by
  apply List.filter_congr
  intro k hk
  have hk' : k < l.length := by simpa using hk
  simp only [List.getD_eq_getElem?_getD, List.getElem?_map, List.getElem?_eq_getElem hk',
    Option.map_some, Option.getD_some]
  by_cases h : l[k] ∈ C <;> simp [h]

theorem uniq_length_le {a : Charge Q} (h : a.WF) : a.uniq.length ≤ a.dim := by
  rw [dim_eq]
  exact ((uniq_nodup h).subperm (fun x hx => (mem_uniq h).1 hx)).length_le

theorem lab_spec {C l : List Q} (hC : C.Nodup) (hs : ∀ x ∈ C, x ∈ l) :
    (lab C ((l.filter (· ∈ C)).map (fun x => C.idxOf x))).WF ∧
    (lab C ((l.filter (· ∈ C)).map (fun x => C.idxOf x))).charges = l.filter (· ∈ C) := by
  constructor
  · refine ⟨hC, fun i => ?_⟩
    simp only [List.mem_map, List.mem_filter, decide_eq_true_eq]
    constructor
    · rintro ⟨x, ⟨_, hx⟩, rfl⟩; exact List.idxOf_lt_length_iff.2 hx
    · intro hi
      exact ⟨C[i], ⟨hs _ (List.getElem_mem hi), List.getElem_mem hi⟩, idxOf_getElem_nodup hC hi⟩
  · simp only [charges, List.map_map]
    conv_rhs => rw [← List.map_id (l.filter (· ∈ C))]
    apply List.map_congr_left
    intro x hx
    have hx' : x ∈ C := by simpa using (List.mem_filter.1 hx).2
    have := List.idxOf_lt_length_iff.2 hx'
    simp [this]

/-- `reduce` keeps exactly the charges in `target`, in their order, and gives their positions. -/
theorem reduce_spec {a : Charge Q} (h : a.WF) (target : List Q) (stride : Nat) :
    ∃ b, a.reduce target stride =
        .ok (b, (posOf (· ∈ target) a.charges).map (fun k => stride * k)) ∧
      b.WF ∧ b.charges = a.charges.filter (· ∈ target) ∧
      b.uniq = (intersect a.uniq target).1 := by
  have hC := intersect_nodup a.uniq target
  have hmem : ∀ x, x ∈ (intersect a.uniq target).1 ↔ x ∈ a.charges ∧ x ∈ target := fun x => by
    rw [intersect_mem, mem_uniq h]
  obtain ⟨C, hCd⟩ : ∃ C, C = (intersect a.uniq target).1 := ⟨_, rfl⟩
  have hloc : (intersect a.uniq target).2.1 = C.map (fun x => a.uniq.idxOf x) := by
    rw [hCd]; rfl
  rw [← hCd] at hC hmem
  have hsub : ∀ x ∈ C, x ∈ a.uniq := fun x hx => (mem_uniq h).2 ((hmem x).1 hx).1
  have hred : a.labels.map (fun l => (scatter a.dim (intersect a.uniq target).2.1).getD l 0) =
      a.charges.map (fun x => if x ∈ C then ((C.idxOf x : Nat) : Int) else -1) := by
    rw [labels_eq h, List.map_map]
    apply List.map_congr_left
    intro x hx
    rw [hloc]
    exact scatter_labels hC hsub (uniq_length_le h) ((mem_uniq h).2 hx)
  have hbd : ∀ l ∈ (intersect a.uniq target).2.1, l < a.dim := by
    rw [hloc]
    intro l hl
    obtain ⟨x, hx, rfl⟩ := List.mem_map.1 hl
    exact lt_of_lt_of_le (List.idxOf_lt_length_iff.2 (hsub x hx)) (uniq_length_le h)
  have hfc : ∀ x ∈ a.charges, (decide (x ∈ C)) = (decide (x ∈ target)) := by
    intro x hx; simp [hmem, hx]
  have hs := lab_spec (l := a.charges) hC (fun x hx => ((hmem x).1 hx).1)
  refine ⟨lab C ((a.charges.filter (· ∈ C)).map (fun x => C.idxOf x)), ?_, hs.1, ?_, hCd⟩
  · rw [reduce]
    simp only [hred]
    rw [if_pos hbd, filter_labels]
    simp only [List.length_map, ← hCd]
    have h1 := posOf_labels (C := C) (l := a.charges)
    rw [h1]
    have h2 : posOf (· ∈ C) a.charges = posOf (· ∈ target) a.charges := by
      apply List.filter_congr
      intro k hk
      have hk' : k < a.charges.length := by simpa using hk
      simp only [List.getD_eq_getElem?_getD, List.getElem?_eq_getElem hk', Option.getD_some]
      exact hfc _ (List.getElem_mem _)
    rw [h2]
  · rw [hs.2]
    exact List.filter_congr hfc

end Charge
end TN.Bs
