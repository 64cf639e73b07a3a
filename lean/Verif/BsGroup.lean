import Verif.BsUnique
import Verif.BsCache

/-!
# Fusion of charges is an abelian group law; unique charges of `BaseCharge`

The arrays of charges of `fuse_ndarray_charges`, `dual_charges`, `identity_charges` and
`BaseCharge.__matmul__`, and the objects of class `BaseCharge` in both representations.
-/

set_option linter.unusedSectionVars false

namespace TN.Bs

/-! ## One symmetry -/

/-- The group that a charge type stands for: integers modulo `2 ^ 16` (`np.int16`), modulo `2` and
modulo `n`, each with its own representatives. -/
def CType.group : CType → Int → Int
  | .u1, x => x.bmod 65536
  | .z2, x => x % 2
  | .zn n, x => x % n

/-- **C21** (values).  Fusion is addition and the dual is negation of integers, up to the modulus
of the symmetry; in particular the `np.int16` arithmetic of `ZNCharge(n)` does not overflow for
`n ≤ 16384`. -/
theorem C21_values {t : CType} (ht : t.OK) {a b : Int} (ha : t.Valid a) (hb : t.Valid b) :
    t.fuse a b = t.group (a + b) ∧ t.dual a = t.group (-a) ∧ t.one = t.group 0 := by
  cases t with
  | u1 =>
    refine ⟨rfl, ?_, by decide⟩
    have h : wrap (-1) = -1 := by decide
    simp only [CType.dual, h, CType.group]
    unfold wrap
    congr 1; ring
  | z2 =>
    rcases ha with rfl | rfl <;> rcases hb with rfl | rfl <;>
      simp [CType.fuse, CType.group, CType.dual, CType.one]
  | zn n =>
    obtain ⟨h1, h2⟩ := ht
    obtain ⟨a1, a2⟩ := ha
    obtain ⟨b1, b2⟩ := hb
    refine ⟨?_, ?_, by simp [CType.one, CType.group]⟩
    · simp only [CType.fuse, CType.group]
      rw [wrap_of_range (by omega) (by omega)]
    · simp only [CType.dual, CType.group]
      rw [wrap_of_range (by omega) (by omega)]
      rw [show (n : Int) - a = -a + n * 1 by ring, Int.add_mul_emod_self_left]

example : CType.fuse (.zn 16384) 16383 16383 = 16382 := by
  rw [(C21_values (t := .zn 16384) ⟨by norm_num, by norm_num⟩ (a := 16383) (b := 16383)
    ⟨by norm_num, by norm_num⟩ ⟨by norm_num, by norm_num⟩).1]
  rfl

/-- **The claim is false for large `n`**: `ZNCharge(20000)` is accepted, its charges `19999` and
`1` are accepted, but fusion is not associative, because the sums overflow `np.int16`. -/
theorem C21_overflow_false :
    ∃ a b c : Int, (CType.zn 20000).Valid a ∧ (CType.zn 20000).Valid b ∧ (CType.zn 20000).Valid c ∧
      (CType.zn 20000).fuse ((CType.zn 20000).fuse a b) c ≠
        (CType.zn 20000).fuse a ((CType.zn 20000).fuse b c) :=
  ⟨19999, 19999, 1, ⟨by norm_num, by norm_num⟩, ⟨by norm_num, by norm_num⟩,
    ⟨by norm_num, by norm_num⟩, by decide +kernel⟩

/-! ## Arrays -/

/-- All rows of an array are valid charges. -/
def ValidArr (ts : List CType) (A : List (List Int)) : Prop := ∀ r ∈ A, Valid ts r

/-- `np.stack([charge_types[n].dual_charges(charges[:, n])], axis=1)` (charge.py:240-244): column
by column. -/
def dualNd (ts : List CType) (A : List (List Int)) : List (List Int) :=
  let comb := ts.zipIdx.map (fun p => (col A p.2).map p.1.dual)
  (List.range A.length).map (fun i => comb.map (fun c => c.getD i 0))

/-- `identity_charges(dim)` (charge.py:191-209) -/
def identityNd (ts : List CType) (dim : Nat) : List (List Int) :=
  List.replicate dim (ts.map CType.one)

/-- `np.concatenate([self.charges, other.charges], axis=1)` of `__matmul__`
(charge.py:264-273). -/
def matmulNd (A B : List (List Int)) : Py (List (List Int)) :=
  if A.length ≠ B.length then .error .valueError else .ok (List.zipWith (· ++ ·) A B)

theorem Valid.length {ts : List CType} {r : List Int} (h : Valid ts r) : r.length = ts.length :=
  (List.Forall₂.length_eq h).symm

theorem dualRow_getD {ts : List CType} {a : List Int} (ha : a.length = ts.length) :
    dualRow ts a = ts.zipIdx.map (fun p => p.1.dual (a.getD p.2 0)) := by
  induction ts generalizing a with
  | nil => cases a <;> rfl
  | cons t ts ih =>
    cases a with
    | nil => simp at ha
    | cons x a =>
      simp only [dualRow, ih (by simpa using ha), List.zipIdx_cons, List.map_cons, Nat.zero_add]
      congr 1
      rw [List.zipIdx_succ, List.map_map]
      simp [Function.comp_def]

theorem dualNd_eq {ts : List CType} {A : List (List Int)} (hA : ∀ r ∈ A, r.length = ts.length) :
    dualNd ts A = A.map (dualRow ts) := by
  apply List.ext_getElem
  · simp [dualNd]
  · intro i h1 h2
    have hi : i < A.length := by simpa [dualNd] using h1
    simp only [dualNd, List.getElem_map, List.getElem_range, List.map_map]
    rw [dualRow_getD (hA _ (List.getElem_mem _))]
    apply List.map_congr_left
    intro p _
    simp [col, hi]

theorem fuseNd_valid {ts : List CType} (ht : TypesOK ts) {A B : List (List Int)}
    (hA : ValidArr ts A) (hB : ValidArr ts B) : ValidArr ts (fuseNd ts A B) := by
  rw [fuseNd_eq (fun r hr => (hA r hr).length) (fun r hr => (hB r hr).length)]
  intro r hr
  obtain ⟨a, ha, hr⟩ := List.mem_flatMap.1 hr
  obtain ⟨b, hb, rfl⟩ := List.mem_map.1 hr
  exact fuseRow_valid ht (hA a ha) (hB b hb)

/-- **C21** (row-major order).  The fused charge of the positions `i` and `j` stands at position
`i * len(B) + j`; its component for the symmetry `n` is the fusion of the components. -/
theorem C21_row_major {ts : List CType} {A B : List (List Int)} (hA : ValidArr ts A)
    (hB : ValidArr ts B) {i j : Nat} (hi : i < A.length) (hj : j < B.length) :
    (fuseNd ts A B).length = A.length * B.length ∧
    ∃ r, (fuseNd ts A B)[i * B.length + j]? = some r ∧ r.length = ts.length ∧
      ∀ (n : Nat) (hn : n < ts.length),
        r[n]? = some (ts[n].fuse ((A[i]).getD n 0) ((B[j]).getD n 0)) := by
  rw [fuseNd_eq (fun r hr => (hA r hr).length) (fun r hr => (hB r hr).length)]
  refine ⟨outerRavel_length _ _ _, fuseRow ts A[i] B[j], ?_, ?_, ?_⟩
  · rw [outerRavel_getElem? _ _ _ hj, List.getElem?_eq_getElem hi, List.getElem?_eq_getElem hj]
    rfl
  · rw [fuseRow_getD (hA _ (List.getElem_mem _)).length (hB _ (List.getElem_mem _)).length]
    simp
  · intro n hn
    rw [fuseRow_getD (hA _ (List.getElem_mem _)).length (hB _ (List.getElem_mem _)).length]
    simp [hn]

theorem outerRavel_assoc {α : Type} {f : α → α → α} {A B C : List α}
    (h : ∀ a ∈ A, ∀ b ∈ B, ∀ c ∈ C, f (f a b) c = f a (f b c)) :
    outerRavel f (outerRavel f A B) C = outerRavel f A (outerRavel f B C) := by
  simp only [outerRavel, List.flatMap_assoc, List.flatMap_map, List.map_flatMap, List.map_map]
  apply List.flatMap_congr
  intro a ha
  apply List.flatMap_congr
  intro b hb
  apply List.map_congr_left
  intro c hc
  exact h a ha b hb c hc

/-- **C21** (group law).  Fusion of arrays of charges is associative, the order of the arguments
only permutes the positions, the identity charge is neutral, and the dual is the inverse. -/
theorem C21_group {ts : List CType} (ht : TypesOK ts) {A B C : List (List Int)}
    (hA : ValidArr ts A) (hB : ValidArr ts B) (hC : ValidArr ts C) :
    fuseNd ts (fuseNd ts A B) C = fuseNd ts A (fuseNd ts B C) ∧
    (∀ i < A.length, ∀ j < B.length,
      (fuseNd ts A B)[i * B.length + j]? = (fuseNd ts B A)[j * A.length + i]?) ∧
    fuseNd ts (identityNd ts 1) A = A ∧ fuseNd ts A (identityNd ts 1) = A ∧
    dualNd ts (dualNd ts A) = A ∧
    dualNd ts (fuseNd ts A B) = fuseNd ts (dualNd ts A) (dualNd ts B) ∧
    ∀ i < A.length,
      (fuseNd ts (dualNd ts A) A)[i * A.length + i]? = some (ts.map CType.one) := by
  have lA := fun r hr => (hA r hr).length
  have lB := fun r hr => (hB r hr).length
  have lC := fun r hr => (hC r hr).length
  have lI : ∀ r ∈ identityNd ts 1, r.length = ts.length := by simp [identityNd]
  have vD : ∀ {A : List (List Int)}, ValidArr ts A → ValidArr ts (dualNd ts A) := by
    intro A hA
    rw [dualNd_eq (fun r hr => (hA r hr).length)]
    intro r hr
    obtain ⟨a, ha, rfl⟩ := List.mem_map.1 hr
    exact dualRow_valid ht (hA a ha)
  have lD := fun r hr => (vD hA r hr).length
  have lDB := fun r hr => (vD hB r hr).length
  have lAB := fun r hr => (fuseNd_valid ht hA hB r hr).length
  have lBC := fun r hr => (fuseNd_valid ht hB hC r hr).length
  let _ := rowGroup ts ht
  have dd : ∀ r, Valid ts r → dualRow ts (dualRow ts r) = r := by
    intro r hr
    exact congrArg Row.vals (neg_neg (G := Row ts) ⟨r, hr⟩)
  have df : ∀ r s, Valid ts r → Valid ts s →
      dualRow ts (fuseRow ts r s) = fuseRow ts (dualRow ts r) (dualRow ts s) := by
    intro r s hr hs
    exact congrArg Row.vals (neg_add (α := Row ts) ⟨r, hr⟩ ⟨s, hs⟩)
  refine ⟨?_, ?_, ?_, ?_, ?_, ?_, ?_⟩
  · rw [fuseNd_eq lAB lC, fuseNd_eq lA lB, fuseNd_eq lA lBC, fuseNd_eq lB lC]
    exact outerRavel_assoc (fun a ha b hb c hc => fuseRow_assoc ht (hA a ha) (hB b hb) (hC c hc))
  · intro i hi j hj
    rw [fuseNd_eq lA lB, fuseNd_eq lB lA, outerRavel_getElem? _ _ _ hj,
      outerRavel_getElem? _ _ _ hi, List.getElem?_eq_getElem hi, List.getElem?_eq_getElem hj]
    simp [fuseRow_comm]
  · rw [fuseNd_eq lI lA]
    simp only [outerRavel, identityNd, List.replicate_one, List.flatMap_cons, List.flatMap_nil,
      List.append_nil]
    conv_rhs => rw [← List.map_id A]
    exact List.map_congr_left (fun a ha => oneRow_fuse ht (hA a ha))
  · rw [fuseNd_eq lA lI]
    simp only [outerRavel, identityNd, List.replicate_one, List.map_cons, List.map_nil]
    rw [← List.map_eq_flatMap]
    conv_rhs => rw [← List.map_id A]
    exact List.map_congr_left (fun a ha => (fuseRow_comm ts _ _).trans (oneRow_fuse ht (hA a ha)))
  · rw [dualNd_eq lD, dualNd_eq lA, List.map_map]
    conv_rhs => rw [← List.map_id A]
    exact List.map_congr_left (fun a ha => dd a (hA a ha))
  · rw [dualNd_eq lAB, fuseNd_eq lA lB, fuseNd_eq lD lDB, dualNd_eq lA, dualNd_eq lB]
    simp only [outerRavel, List.map_flatMap, List.flatMap_map, List.map_map]
    apply List.flatMap_congr
    intro a ha
    apply List.map_congr_left
    intro b hb
    exact df a b (hA a ha) (hB b hb)
  · intro i hi
    rw [fuseNd_eq lD lA, outerRavel_getElem? _ _ _ hi, dualNd_eq lA]
    simp only [List.getElem?_map, List.getElem?_eq_getElem hi, Option.map_some, Option.bind_some]
    rw [dualRow_fuse ht (hA _ (List.getElem_mem hi))]
    rfl

/-- Types and charges for the examples: three symmetries of different kinds. -/
def typesEx : List CType := [.u1, .z2, .zn 5]

theorem typesEx_ok : TypesOK typesEx := by
  intro t ht
  simp only [typesEx, List.mem_cons, List.not_mem_nil, or_false] at ht
  rcases ht with rfl | rfl | rfl
  · trivial
  · trivial
  · exact ⟨by norm_num, by norm_num⟩

def chargesEx : List (List Int) := [[-3, 1, 4], [32767, 0, 2]]

theorem chargesEx_valid : ValidArr typesEx chargesEx := by
  intro r hr
  simp only [chargesEx, List.mem_cons, List.not_mem_nil, or_false] at hr
  rcases hr with rfl | rfl
  · exact .cons ⟨by norm_num, by norm_num⟩ (.cons (Or.inr rfl) (.cons ⟨by norm_num, by norm_num⟩
      .nil))
  · exact .cons ⟨by norm_num, by norm_num⟩ (.cons (Or.inl rfl) (.cons ⟨by norm_num, by norm_num⟩
      .nil))

example := C21_group typesEx_ok chargesEx_valid chargesEx_valid chargesEx_valid

example : fuseNd typesEx chargesEx chargesEx =
    [[-6, 0, 3], [32764, 1, 1], [32764, 1, 1], [-2, 0, 4]] := by decide +kernel

example := C21_row_major chargesEx_valid chargesEx_valid (i := 1) (j := 0) (by decide) (by decide)

/-- **C21** (products of symmetries).  Fusing the product of charges (`__matmul__`) is the product
of the fused charges. -/
theorem C21_product {ts ss : List CType} {A A' B B' : List (List Int)} (hA : ValidArr ts A)
    (hA' : ValidArr ss A') (hB : ValidArr ts B) (hB' : ValidArr ss B')
    (h : A.length = A'.length) (h' : B.length = B'.length) :
    ∃ AA BB, matmulNd A A' = .ok AA ∧ matmulNd B B' = .ok BB ∧
      matmulNd (fuseNd ts A B) (fuseNd ss A' B') = .ok (fuseNd (ts ++ ss) AA BB) := by
  have hrow : ∀ {ts : List CType} {a b : List Int} {c d : List Int}, a.length = ts.length →
      b.length = ts.length →
      fuseRow (ts ++ ss) (a ++ c) (b ++ d) = fuseRow ts a b ++ fuseRow ss c d := by
    intro ts
    induction ts with
    | nil =>
      intro a b c d ha hb
      rw [List.length_eq_zero_iff.1 ha, List.length_eq_zero_iff.1 hb]
      rfl
    | cons t ts ih =>
      intro a b c d ha hb
      cases a with
      | nil => simp at ha
      | cons x a =>
        cases b with
        | nil => simp at hb
        | cons y b =>
          simp only [List.cons_append, fuseRow]
          rw [ih (by simpa using ha) (by simpa using hb)]
  have hz : ∀ {A A' : List (List Int)}, ValidArr ts A → ValidArr ss A' →
      ∀ r ∈ List.zipWith (· ++ ·) A A', r.length = (ts ++ ss).length := by
    intro A A' hA hA' r hr
    obtain ⟨n, hn, rfl⟩ := List.mem_iff_getElem.1 hr
    simp only [List.length_zipWith, Nat.lt_min] at hn
    rw [List.getElem_zipWith, List.length_append, List.length_append,
      (hA _ (List.getElem_mem _)).length, (hA' _ (List.getElem_mem _)).length]
  have lA := fun r hr => (hA r hr).length
  have lB := fun r hr => (hB r hr).length
  have lA' := fun r hr => (hA' r hr).length
  have lB' := fun r hr => (hB' r hr).length
  refine ⟨_, _, by rw [matmulNd, if_neg (by simpa using h)],
    by rw [matmulNd, if_neg (by simpa using h')], ?_⟩
  rw [fuseNd_eq lA lB, fuseNd_eq lA' lB', fuseNd_eq (hz hA hA') (hz hB hB'), matmulNd,
    if_neg (by simp [outerRavel_length, h, h'])]
  congr 1
  apply List.ext_getElem?
  intro k
  by_cases hk : k < A.length * B.length
  · have hB0 : 0 < B.length := by
      rcases Nat.eq_zero_or_pos B.length with h | h
      · simp [h] at hk
      · exact h
    obtain ⟨i, j, hj, rfl⟩ : ∃ i j, j < B.length ∧ k = i * B.length + j :=
      ⟨k / B.length, k % B.length, Nat.mod_lt _ hB0, (Nat.div_add_mod' k _).symm⟩
    have hi : i < A.length := by
      by_contra h
      have := Nat.mul_le_mul_right B.length (Nat.le_of_not_lt h)
      omega
    have e1 := outerRavel_getElem? (fuseRow ts) A B (i := i) hj
    have e2 := outerRavel_getElem? (fuseRow ss) A' B' (i := i) (j := j) (by omega)
    have e3 := outerRavel_getElem? (fuseRow (ts ++ ss)) (List.zipWith (· ++ ·) A A')
      (List.zipWith (· ++ ·) B B') (i := i) (j := j) (by simp; omega)
    have e4 : (List.zipWith (fun x1 x2 : List Int => x1 ++ x2) B B').length = B.length := by
      simp [h']
    rw [← h'] at e2
    rw [e4] at e3
    rw [List.getElem?_zipWith, e1, e2, e3]
    have hi' : i < A'.length := by omega
    have hj' : j < B'.length := by omega
    simp only [List.getElem?_zipWith, List.getElem?_eq_getElem hi, List.getElem?_eq_getElem hj,
      List.getElem?_eq_getElem hi', List.getElem?_eq_getElem hj', Option.bind_some,
      Option.map_some]
    rw [hrow (lA _ (List.getElem_mem _)) (lB _ (List.getElem_mem _))]
  · rw [List.getElem?_eq_none (by simp [outerRavel_length, ← h, ← h']; omega),
      List.getElem?_eq_none (by rw [outerRavel_length]; simp [← h, ← h']; omega)]

example := C21_product (ts := [.u1]) (ss := [.z2]) (A := [[1], [2]]) (A' := [[0], [1]])
  (B := [[5], [-1]]) (B' := [[1], [1]])
  (by intro r hr; simp at hr; rcases hr with rfl | rfl <;>
    exact .cons ⟨by norm_num, by norm_num⟩ .nil)
  (by intro r hr; simp at hr; rcases hr with rfl | rfl <;>
    first | exact .cons (Or.inl rfl) .nil | exact .cons (Or.inr rfl) .nil)
  (by intro r hr; simp at hr; rcases hr with rfl | rfl <;>
    exact .cons ⟨by norm_num, by norm_num⟩ .nil)
  (by intro r hr; simp at hr; rcases hr with rfl | rfl <;> exact .cons (Or.inr rfl) .nil)
  rfl rfl

/-! ## Objects -/

section
variable {Q : Type} [AddCommGroup Q] [LinearOrder Q]

/-- The charge of a position: for every leg the charge at the position on that leg, or its dual
if the flow of the leg is `True`, all added up. -/
def chargeAt (legs : List (Leg Q)) (i : List Nat) : Q :=
  ((legs.zip i).map (fun p =>
    if p.1.2 then -(p.1.1.charges.getD p.2 0) else p.1.1.charges.getD p.2 0)).sum

theorem chargeAt_eq {legs : List (Leg Q)} (h : LegsWF legs) {i : List Nat}
    (hi : InB (dims (eff legs)) i) : total (eff legs) i = chargeAt legs i := by
  induction legs generalizing i with
  | nil => cases i <;> simp [eff, total, chargeAt]
  | cons l legs ih =>
    rw [eff, List.map_cons] at hi ⊢
    rw [dims, List.map_cons] at hi
    obtain ⟨a, is, rfl, ha, his⟩ := inB_cons_iff.1 hi
    simp only [total, chargeAt, List.zip_cons_cons, List.map_cons, List.sum_cons]
    congr 1
    · rw [Charge.dual_charges (h l (by simp))] at ha ⊢
      cases hf : l.2 with
      | false => simp
      | true =>
        rw [hf, if_pos rfl, List.length_map] at ha
        rw [if_pos rfl]
        rw [List.getD_eq_getElem _ _ (by simpa using ha), List.getElem_map,
          List.getD_eq_getElem _ _ ha, if_pos rfl]
    · exact ih (fun m hm => h m (by simp [hm])) his

/-- **C21** (`fuse_charges`).  For any number of legs with any flows, in either representation,
the charge of every position is listed in row-major order. -/
theorem C21_fuse_charges {legs : List (Leg Q)} (h : LegsWF legs) (hne : legs ≠ []) :
    ∃ c, fuseCharges legs = .ok c ∧ c.WF ∧
      c.charges.length = (legs.map (fun l => l.1.charges.length)).prod ∧
      ∀ i, InB (legs.map (fun l => l.1.charges.length)) i →
        c.charges[ravel (legs.map (fun l => l.1.charges.length)) i]? = some (chargeAt legs i) := by
  obtain ⟨c, h1, h2, h3⟩ := fuseCharges_spec h hne
  have hd : legs.map (fun l => l.1.charges.length) = dims (eff legs) := by
    rw [dims_eff]
    exact List.map_congr_left (fun l _ => (Charge.dim_eq l.1).symm)
  refine ⟨c, h1, h2, ?_, ?_⟩
  · rw [h3, hd, fuseL_length]
  · intro i hi
    rw [hd] at hi ⊢
    rw [h3]
    have hlt : ravel (dims (eff legs)) i < (fuseL (eff legs)).length := by
      rw [fuseL_length]; exact ravel_lt hi
    rw [← chargeAt_eq h hi, ← fuseL_getD hi, List.getD_eq_getElem _ _ hlt,
      List.getElem?_eq_getElem hlt]

example := C21_fuse_charges legsEx_wf (by decide)

/-- **C21** (representation).  The charges after fusion do not depend on the representation of
the legs. -/
theorem C21_representation {legs legs' : List (Leg Q)} (h : LegsWF legs) (h' : LegsWF legs')
    (hne : legs ≠ []) (hc : legs.map (fun l => (l.1.charges, l.2)) =
      legs'.map (fun l => (l.1.charges, l.2))) :
    ∃ c c', fuseCharges legs = .ok c ∧ fuseCharges legs' = .ok c' ∧ c.charges = c'.charges := by
  have hne' : legs' ≠ [] := by
    rintro rfl
    exact hne (List.map_eq_nil_iff.1 hc)
  obtain ⟨c, h1, _, h3⟩ := fuseCharges_spec h hne
  obtain ⟨c', h1', _, h3'⟩ := fuseCharges_spec h' hne'
  refine ⟨c, c', h1, h1', ?_⟩
  have key : ∀ {legs : List (Leg Q)}, LegsWF legs → eff legs =
      (legs.map (fun l => (l.1.charges, l.2))).map
        (fun p => if p.2 then p.1.map (fun q => -q) else p.1) := by
    intro legs h
    rw [eff, List.map_map]
    apply List.map_congr_left
    intro l hl
    rw [Charge.dual_charges (h l hl)]
    rfl
  rw [h3, h3', key h, key h', hc]

example := C21_representation (Q := Int)
  (legs := [(.raw [1, 0, 1], true), (.lab [2, -1] [1, 0], false)])
  (legs' := [(.lab [1, 0] [0, 1, 0], true), (.raw [-1, 2], false)])
  (by intro l hl; simp at hl; rcases hl with rfl | rfl
      · trivial
      · refine ⟨by decide, ?_⟩; intro i; simp; omega)
  (by intro l hl; simp at hl; rcases hl with rfl | rfl
      · refine ⟨by decide, ?_⟩; intro i; simp; omega
      · trivial)
  (by simp) (by rfl)

/-! ## `BaseCharge.unique` -/

/-- `BaseCharge.unique(return_index=True)` (charge.py:357-409). -/
def Charge.uniqueX : Charge Q → Charge Q × List Nat
  | .raw cs => (.lab (npUnique cs) (List.range (npUnique cs).length), uniqueIndex cs)
  | .lab u ls =>
    let v := (npUnique ls).map (fun l => u.getD l 0)
    (.lab v (List.range v.length), uniqueIndex ls)

/-- **C28** (`BaseCharge.unique`).  In both representations: every charge is listed once, with
its first position, its count, and labels that reconstruct the charges.  The order of the list is
increasing for charges that are not labelled; see `C28_sorted_false`. -/
theorem C28_charge_unique {a : Charge Q} (h : a.WF) :
    a.uniqueC.1.charges.Nodup ∧ (∀ x, x ∈ a.uniqueC.1.charges ↔ x ∈ a.charges) ∧
    a.uniqueC.2 = a.uniqueC.1.charges.map (fun x => a.charges.count x) ∧
    a.uniqueI.1.charges = a.uniqueC.1.charges ∧
    a.uniqueI.2.map (fun l => a.uniqueI.1.charges.getD l 0) = a.charges ∧
    a.uniqueX.1.charges = a.uniqueC.1.charges ∧
    a.uniqueX.2 = a.uniqueC.1.charges.map (fun x => a.charges.idxOf x) := by
  obtain ⟨_, _, c1, c2⟩ := Charge.uniqueC_spec h
  obtain ⟨_, _, i1, i2⟩ := Charge.uniqueI_spec h
  have hx : a.uniqueX.1.charges = a.uniq ∧
      a.uniqueX.2 = a.uniq.map (fun x => a.charges.idxOf x) := by
    have key : ∀ u : List Q, (Charge.lab u (List.range u.length)).charges = u := by
      intro u
      apply List.ext_getElem
      · simp [Charge.charges]
      · intro i h1 h2; simp [Charge.charges, h2]
    cases a with
    | raw cs => exact ⟨key _, rfl⟩
    | lab u ls =>
      have hu : (npUnique ls).map (fun l => u.getD l 0) = u := by
        rw [Charge.npUnique_labels h]
        exact key u
      refine ⟨?_, ?_⟩
      · simp only [Charge.uniqueX, hu]; exact key u
      · simp only [Charge.uniqueX, uniqueIndex, Charge.npUnique_labels h, Charge.uniq]
        apply List.ext_getElem
        · simp
        · intro i h1 h2
          have hi : i < u.length := by simpa using h1
          simp only [List.getElem_map, List.getElem_range, Charge.charges]
          have : u[i] = u.getD i 0 := (List.getD_eq_getElem _ _ hi).symm
          rw [this]
          refine (Charge.idxOf_map_inj (f := fun l => u.getD l 0) ?_ ).symm
          intro l hl hll
          have hl' := (h.2 l).1 hl
          rw [List.getD_eq_getElem _ _ hl', List.getD_eq_getElem _ _ hi] at hll
          exact (h.1.getElem_inj_iff).1 hll
  rw [c1, c2, i1, i2, hx.1, hx.2]
  exact ⟨Charge.uniq_nodup h, fun x => Charge.mem_uniq h, rfl, rfl, (Charge.charges_eq h).symm,
    rfl, rfl⟩

/-- `BaseCharge.unique` documents "the sorted unique values": for a charge with labels the order
is the one of the stored list.  The dual of `[0, 1]` gives `[0, -1]`. -/
theorem C28_sorted_false : ∃ a : Charge Int, a.WF ∧
    ¬ ((Charge.dual a true).uniqueC.1.charges).Pairwise (· < ·) :=
  ⟨.lab [0, 1] [0, 1], ⟨by decide, by intro i; simp; omega⟩, by decide +kernel⟩

example := C28_charge_unique (a := (.lab [2, -1, 0] [1, 1, 0, 2] : Charge Int))
  ⟨by decide, by intro i; simp; omega⟩

end

/-! ## The generic model is about these arrays -/

/-- The order in which `unique` lists the charges with the types `ts`. -/
def rowKey (ts : List CType) (r : Row ts) : List Int :=
  if 2 * ts.length > 8 then r.vals else [collapseRow 2 ts.length r.vals]

theorem Row.rowOK {ts : List CType} (ht : TypesOK ts) {r : List Int} (h : Valid ts r) :
    RowOK 2 ts.length r := by
  refine ⟨h.length, ?_⟩
  induction ts generalizing r with
  | nil => cases h; simp
  | cons t ts ih =>
    cases h with | cons h1 h =>
    intro x hx
    rcases List.mem_cons.1 hx with rfl | hx
    · have := ht.cons.1
      cases t with
      | u1 => obtain ⟨a, b⟩ := h1; norm_num; omega
      | z2 => rcases h1 with rfl | rfl <;> norm_num
      | zn n => obtain ⟨a, b⟩ := h1; obtain ⟨c, d⟩ := this; norm_num; omega
    · exact ih ht.cons.2 h x hx

theorem rowKey_injective {ts : List CType} (ht : TypesOK ts) (hne : ts ≠ []) :
    Function.Injective (rowKey ts) := by
  intro r s h
  apply Subtype.ext
  unfold rowKey at h
  by_cases hw : 2 * ts.length > 8
  · rw [if_pos hw, if_pos hw] at h; exact h
  · rw [if_neg hw, if_neg hw] at h
    have h := List.head_eq_of_cons_eq h
    have hp : 0 < ts.length := List.length_pos_iff.2 hne
    have h1 := expand_collapse (k := 2) (by decide) hp (by omega) (Row.rowOK ht r.2)
    have h2 := expand_collapse (k := 2) (by decide) hp (by omega) (Row.rowOK ht s.2)
    rw [← h1, ← h2]
    exact congrArg _ h

/-- The order of `Row ts` for which the generic model is instantiated. -/
@[reducible] noncomputable def rowOrder (ts : List CType) (ht : TypesOK ts) (hne : ts ≠ []) :
    LinearOrder (Row ts) :=
  LinearOrder.lift' (rowKey ts) (rowKey_injective ht hne)

/-- With the fusion rules `rowGroup` and the order `rowOrder`, the generic operations of the model
are those of the arrays: the sum of two charges is `fuse_ndarray_charges`, the dual is
`dual_charges`, and the list of unique charges is the output of `unique`. -/
theorem C28_model {ts : List CType} (ht : TypesOK ts) (hne : ts ≠ []) (a b : Charge (Row ts)) :
    letI := rowGroup ts ht
    letI := rowOrder ts ht hne
    (a.add b).charges.map Row.vals =
      fuseNd ts (a.charges.map Row.vals) (b.charges.map Row.vals) ∧
    (a.WF → (a.dual true).charges.map Row.vals = dualNd ts (a.charges.map Row.vals)) ∧
    (npUnique a.charges).map Row.vals =
      (uniqueArr ⟨2, ts.length, a.charges.map Row.vals⟩).uniq := by
  let _ := rowGroup ts ht
  let _ := rowOrder ts ht hne
  have hl : ∀ (l : List (Row ts)), ∀ r ∈ l.map Row.vals, r.length = ts.length := by
    intro l r hr
    obtain ⟨s, _, rfl⟩ := List.mem_map.1 hr
    exact Valid.length s.2
  refine ⟨?_, ?_, ?_⟩
  · rw [fuseNd_eq (hl _) (hl _)]
    simp only [Charge.add, Charge.charges, outerRavel, List.map_flatMap, List.flatMap_map,
      List.map_map]
    rfl
  · intro h
    rw [dualNd_eq (hl _), Charge.dual_charges h, if_pos rfl, List.map_map, List.map_map]
    rfl
  · have hok : (⟨2, ts.length, a.charges.map Row.vals⟩ : Arr).OK := by
      refine ⟨Or.inr (Or.inl rfl), List.length_pos_iff.2 hne, ?_⟩
      intro r hr
      obtain ⟨s, _, rfl⟩ := List.mem_map.1 hr
      exact Row.rowOK ht s.2
    have h := uniqueArr_parts hok
    have hinj : Function.Injective (Row.vals (ts := ts)) := fun r s h => Subtype.ext h
    have hasymm : ∀ r s, rowLt 2 ts.length r s → rowLt 2 ts.length s r → False := by
      intro r s h3 h4
      unfold rowLt at h3 h4
      split_ifs at h3 h4
      · exact absurd h3 (lt_asymm h4)
      · omega
    refine List.Perm.eq_of_pairwise (le := rowLt 2 ts.length)
      (fun x y _ _ h3 h4 => (hasymm x y h3 h4).elim) ?_ h.sorted ?_
    · rw [List.pairwise_map]
      refine (npUnique_lt a.charges).imp ?_
      intro r s hrs
      have hrs : rowKey ts r < rowKey ts s := hrs
      unfold rowKey at hrs
      unfold rowLt
      by_cases hw : 2 * ts.length > 8
      · rw [if_pos hw, if_pos hw] at hrs; rw [if_pos hw]; exact hrs
      · rw [if_neg hw, if_neg hw] at hrs; rw [if_neg hw]
        rcases List.cons_lt_cons_iff.1 hrs with h | h
        · exact h
        · exact absurd h.2 (lt_irrefl _)
    · refine (List.perm_ext_iff_of_nodup ((npUnique_nodup _).map hinj) h.nodup).2 (fun x => ?_)
      rw [h.mem]
      simp only [List.mem_map, mem_npUnique]

example := C28_model typesEx_ok (by decide)
  (.raw [⟨[-3, 1, 4], chargesEx_valid _ (by simp [chargesEx])⟩])
  (.raw [⟨[32767, 0, 2], chargesEx_valid _ (by simp [chargesEx])⟩])

end TN.Bs
