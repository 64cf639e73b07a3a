import Mathlib.Algebra.Group.Defs
import Mathlib.Data.List.GetD
import Mathlib.Data.List.Flatten
import Mathlib.Data.Int.Order.Basic
import Mathlib.Tactic.Ring
import Mathlib.Tactic.Linarith

/-!
# Charges of symmetric tensors (block_sparse/charge.py)

A charge is a row of integers of type `np.int16`, one for each symmetry.  Arithmetic of this
type wraps around modulo `2 ^ 16`; this is part of the model (`wrap`).
-/

namespace TN.Bs

/-- A value of type `np.int16` after overflow (two's complement); `charge_dtype` has the default
`np.int16` in `BaseCharge.__init__` (charge.py:51-80). -/
def wrap (x : Int) : Int := x.bmod 65536

/-- The charge types `U1Charge` (charge.py:487-506), `Z2Charge` (509-549) and `ZNCharge(n)`
(552-604). -/
inductive CType
  | u1
  | z2
  | zn (n : Nat)
  deriving DecidableEq

/-- One entry of `fuse` (charge.py:491-492, 526-528, 579-580). -/
def CType.fuse : CType → Int → Int → Int
  | .u1, a, b => wrap (a + b)
  | .z2, a, b => ((a.toNat ^^^ b.toNat : Nat) : Int)
  | .zn n, a, b => wrap (a + b) % n

/-- One entry of `dual_charges` (charge.py:495-496, 531-532, 583-584). -/
def CType.dual : CType → Int → Int
  | .u1, a => wrap (a * wrap (-1))
  | .z2, a => a
  | .zn n, a => wrap (n - a) % n

/-- `identity_charge` (charge.py:499-500, 535-536, 587-588) -/
def CType.one (_ : CType) : Int := 0

/-- The values that the constructor accepts: any `np.int16`, or the check of `Z2Charge.__init__`
(charge.py:518-520) and of `ModularCharge.__init__` (charge.py:570-572). -/
def CType.Valid : CType → Int → Prop
  | .u1, a => -32768 ≤ a ∧ a < 32768
  | .z2, a => a = 0 ∨ a = 1
  | .zn n, a => 0 ≤ a ∧ a < n

/-- `ZNCharge` raises for `n < 2` (charge.py:560-561).  The upper bound is not checked by the
code: for a larger `n` the sum of two charges may not fit into `np.int16`. -/
def CType.OK : CType → Prop
  | .zn n => 2 ≤ n ∧ n ≤ 16384
  | _ => True

theorem wrap_of_range {x : Int} (h : -32768 ≤ x) (h' : x < 32768) : wrap x = x := by
  unfold wrap
  rw [Int.bmod_eq_of_le] <;> omega

theorem wrap_range (x : Int) : -32768 ≤ wrap x ∧ wrap x < 32768 := by
  unfold wrap
  have h1 := Int.le_bmod (x := x) (m := 65536) (by norm_num)
  have h2 := Int.bmod_lt (x := x) (m := 65536) (by norm_num)
  omega

theorem wrap_add_wrap (x y : Int) : wrap (wrap x + y) = wrap (x + y) := by
  simp [wrap]

theorem CType.fuse_valid {t : CType} {a b : Int} (ht : t.OK) (ha : t.Valid a) (hb : t.Valid b) :
    t.Valid (t.fuse a b) := by
  cases t with
  | u1 => exact wrap_range _
  | z2 => rcases ha with rfl | rfl <;> rcases hb with rfl | rfl <;> simp [CType.fuse, CType.Valid]
  | zn n =>
    have : (n : Int) ≠ 0 := by have := ht.1; omega
    exact ⟨Int.emod_nonneg _ this, Int.emod_lt_of_pos _ (by have := ht.1; omega)⟩

theorem CType.dual_valid {t : CType} {a : Int} (ht : t.OK) (ha : t.Valid a) :
    t.Valid (t.dual a) := by
  cases t with
  | u1 => exact wrap_range _
  | z2 => exact ha
  | zn n =>
    have : (n : Int) ≠ 0 := by have := ht.1; omega
    exact ⟨Int.emod_nonneg _ this, Int.emod_lt_of_pos _ (by have := ht.1; omega)⟩

theorem CType.one_valid {t : CType} (ht : t.OK) : t.Valid t.one := by
  cases t with
  | u1 => simp [CType.Valid, CType.one]
  | z2 => simp [CType.Valid, CType.one]
  | zn n => simp only [CType.Valid, CType.one]; have := ht.1; omega

theorem CType.fuse_comm {t : CType} (a b : Int) : t.fuse a b = t.fuse b a := by
  cases t <;> simp [CType.fuse, Int.add_comm, Nat.xor_comm]

theorem CType.fuse_assoc {t : CType} {a b c : Int} (ht : t.OK) (ha : t.Valid a) (hb : t.Valid b)
    (hc : t.Valid c) : t.fuse (t.fuse a b) c = t.fuse a (t.fuse b c) := by
  cases t with
  | u1 => simp [CType.fuse, wrap, Int.add_assoc]
  | z2 =>
    rcases ha with rfl | rfl <;> rcases hb with rfl | rfl <;> rcases hc with rfl | rfl <;>
      simp [CType.fuse]
  | zn n =>
    obtain ⟨h1, h2⟩ := ht
    obtain ⟨a1, a2⟩ := ha
    obtain ⟨b1, b2⟩ := hb
    obtain ⟨c1, c2⟩ := hc
    simp only [CType.fuse]
    rw [wrap_of_range (x := a + b) (by omega) (by omega),
      wrap_of_range (x := b + c) (by omega) (by omega)]
    have hn : (0 : Int) < n := by omega
    have e1 := Int.emod_nonneg (a + b) hn.ne'
    have e2 := Int.emod_lt_of_pos (a + b) hn
    have e3 := Int.emod_nonneg (b + c) hn.ne'
    have e4 := Int.emod_lt_of_pos (b + c) hn
    rw [wrap_of_range (by omega) (by omega), wrap_of_range (by omega) (by omega),
      Int.emod_add_emod, Int.add_emod_emod, Int.add_assoc]

theorem CType.one_fuse {t : CType} {a : Int} (ht : t.OK) (ha : t.Valid a) :
    t.fuse t.one a = a := by
  cases t with
  | u1 =>
    simp only [CType.fuse, CType.one, Int.zero_add]
    exact wrap_of_range ha.1 ha.2
  | z2 => rcases ha with rfl | rfl <;> simp [CType.fuse, CType.one]
  | zn n =>
    obtain ⟨h1, h2⟩ := ht
    obtain ⟨a1, a2⟩ := ha
    simp only [CType.fuse, CType.one, Int.zero_add]
    rw [wrap_of_range (by omega) (by omega), Int.emod_eq_of_lt a1 a2]

theorem CType.dual_fuse {t : CType} {a : Int} (ht : t.OK) (ha : t.Valid a) :
    t.fuse (t.dual a) a = t.one := by
  cases t with
  | u1 =>
    have h : wrap (-1) = -1 := by decide
    simp only [CType.fuse, CType.dual, CType.one, h, wrap_add_wrap]
    have : a * -1 + a = 0 := by ring
    rw [this]; decide
  | z2 => rcases ha with rfl | rfl <;> simp [CType.fuse, CType.dual, CType.one]
  | zn n =>
    obtain ⟨h1, h2⟩ := ht
    obtain ⟨a1, a2⟩ := ha
    simp only [CType.fuse, CType.dual, CType.one]
    have hn : (0 : Int) < n := by omega
    rw [wrap_of_range (x := n - a) (by omega) (by omega)]
    have e3 := Int.emod_nonneg (n - a) hn.ne'
    have e4 := Int.emod_lt_of_pos (n - a) hn
    rw [wrap_of_range (by omega) (by omega), Int.emod_add_emod]
    simp

/-! ## Rows -/

/-- A valid charge for the types `ts`. -/
def Valid (ts : List CType) (r : List Int) : Prop := List.Forall₂ CType.Valid ts r

/-- All types are usable. -/
def TypesOK (ts : List CType) : Prop := ∀ t ∈ ts, t.OK

/-- Fusion of two charges, symmetry by symmetry.  This is the specification; the code works
column by column (`fuseNd`). -/
def fuseRow : List CType → List Int → List Int → List Int
  | t :: ts, a :: as, b :: bs => t.fuse a b :: fuseRow ts as bs
  | _, _, _ => []

/-- The dual of a charge. -/
def dualRow : List CType → List Int → List Int
  | t :: ts, a :: as => t.dual a :: dualRow ts as
  | _, _ => []

/-- `[ct.identity_charge() for ct in self.charge_types]` (charge.py:203-205) -/
def oneRow (ts : List CType) : List Int := ts.map CType.one

theorem TypesOK.cons {t : CType} {ts : List CType} (h : TypesOK (t :: ts)) : t.OK ∧ TypesOK ts :=
  ⟨h t (by simp), fun s hs => h s (by simp [hs])⟩

theorem fuseRow_valid {ts : List CType} {a b : List Int} (ht : TypesOK ts) (ha : Valid ts a)
    (hb : Valid ts b) : Valid ts (fuseRow ts a b) := by
  induction ts generalizing a b with
  | nil => cases ha; exact List.Forall₂.nil
  | cons t ts ih =>
    cases ha with | cons a1 ha =>
    cases hb with | cons b1 hb =>
    exact List.Forall₂.cons (CType.fuse_valid ht.cons.1 a1 b1) (ih ht.cons.2 ha hb)

theorem dualRow_valid {ts : List CType} {a : List Int} (ht : TypesOK ts) (ha : Valid ts a) :
    Valid ts (dualRow ts a) := by
  induction ts generalizing a with
  | nil => cases ha; exact List.Forall₂.nil
  | cons t ts ih =>
    cases ha with | cons a1 ha =>
    exact List.Forall₂.cons (CType.dual_valid ht.cons.1 a1) (ih ht.cons.2 ha)

theorem oneRow_valid {ts : List CType} (ht : TypesOK ts) : Valid ts (oneRow ts) := by
  induction ts with
  | nil => exact List.Forall₂.nil
  | cons t ts ih => exact List.Forall₂.cons (CType.one_valid ht.cons.1) (ih ht.cons.2)

theorem fuseRow_comm (ts : List CType) (a b : List Int) : fuseRow ts a b = fuseRow ts b a := by
  induction ts generalizing a b with
  | nil => cases a <;> cases b <;> rfl
  | cons t ts ih =>
    cases a <;> cases b <;> simp [fuseRow, ih, CType.fuse_comm]

theorem fuseRow_assoc {ts : List CType} {a b c : List Int} (ht : TypesOK ts) (ha : Valid ts a)
    (hb : Valid ts b) (hc : Valid ts c) :
    fuseRow ts (fuseRow ts a b) c = fuseRow ts a (fuseRow ts b c) := by
  induction ts generalizing a b c with
  | nil => cases ha; cases hb; rfl
  | cons t ts ih =>
    cases ha with | cons a1 ha =>
    cases hb with | cons b1 hb =>
    cases hc with | cons c1 hc =>
    simp only [fuseRow, CType.fuse_assoc ht.cons.1 a1 b1 c1, ih ht.cons.2 ha hb hc]

theorem oneRow_fuse {ts : List CType} {a : List Int} (ht : TypesOK ts) (ha : Valid ts a) :
    fuseRow ts (oneRow ts) a = a := by
  induction ts generalizing a with
  | nil => cases ha; rfl
  | cons t ts ih =>
    cases ha with | cons a1 ha =>
    simp only [oneRow, List.map_cons, fuseRow, CType.one_fuse ht.cons.1 a1]
    rw [← oneRow, ih ht.cons.2 ha]

theorem dualRow_fuse {ts : List CType} {a : List Int} (ht : TypesOK ts) (ha : Valid ts a) :
    fuseRow ts (dualRow ts a) a = oneRow ts := by
  induction ts generalizing a with
  | nil => cases ha; rfl
  | cons t ts ih =>
    cases ha with | cons a1 ha =>
    simp only [oneRow, List.map_cons, fuseRow, dualRow, CType.dual_fuse ht.cons.1 a1]
    rw [← oneRow, ih ht.cons.2 ha]

/-- The charges for given types. -/
def Row (ts : List CType) : Type := { r : List Int // Valid ts r }

instance (ts : List CType) : DecidableEq (Row ts) :=
  inferInstanceAs (DecidableEq { r : List Int // Valid ts r })

/-- The fusion rules as an abelian group; the later files work with any abelian group of
charges. -/
@[reducible] def rowGroup (ts : List CType) (ht : TypesOK ts) : AddCommGroup (Row ts) where
  add a b := ⟨fuseRow ts a.1 b.1, fuseRow_valid ht a.2 b.2⟩
  zero := ⟨oneRow ts, oneRow_valid ht⟩
  neg a := ⟨dualRow ts a.1, dualRow_valid ht a.2⟩
  add_assoc a b c := Subtype.ext (fuseRow_assoc ht a.2 b.2 c.2)
  zero_add a := Subtype.ext (oneRow_fuse ht a.2)
  add_zero a := Subtype.ext ((fuseRow_comm ts _ _).trans (oneRow_fuse ht a.2))
  neg_add_cancel a := Subtype.ext (dualRow_fuse ht a.2)
  add_comm a b := Subtype.ext (fuseRow_comm ts _ _)
  nsmul := @nsmulRec _ ⟨⟨oneRow ts, oneRow_valid ht⟩⟩
    ⟨fun a b => ⟨fuseRow ts a.1 b.1, fuseRow_valid ht a.2 b.2⟩⟩
  zsmul := @zsmulRec _ ⟨⟨oneRow ts, oneRow_valid ht⟩⟩
    ⟨fun a b => ⟨fuseRow ts a.1 b.1, fuseRow_valid ht a.2 b.2⟩⟩
    ⟨fun a => ⟨dualRow ts a.1, dualRow_valid ht a.2⟩⟩
    (@nsmulRec _ ⟨⟨oneRow ts, oneRow_valid ht⟩⟩
      ⟨fun a b => ⟨fuseRow ts a.1 b.1, fuseRow_valid ht a.2 b.2⟩⟩)

/-! ## Arrays of charges -/

/-- The column `[:, n]` of an array. -/
def col (A : List (List Int)) (n : Nat) : List Int := A.map (fun r => r.getD n 0)

/-- `np.add.outer(charge1, charge2).ravel()` and its relatives: all pairs, row-major. -/
def outerRavel {α β : Type} (f : α → α → β) (x y : List α) : List β :=
  x.flatMap (fun a => y.map (f a))

/-- `fuse_ndarray_charges` (charge.py:607-622): the columns are fused one by one and put side by
side. -/
def fuseNd (ts : List CType) (A B : List (List Int)) : List (List Int) :=
  let comb := ts.zipIdx.map (fun p => outerRavel p.1.fuse (col A p.2) (col B p.2))
  (List.range (A.length * B.length)).map (fun i => comb.map (fun c => c.getD i 0))

theorem outerRavel_length {α β : Type} (f : α → α → β) (x y : List α) :
    (outerRavel f x y).length = x.length * y.length := by
  simp [outerRavel, List.length_flatMap, List.map_const']

theorem outerRavel_getElem? {α β : Type} (f : α → α → β) (x y : List α) {i j : Nat}
    (hj : j < y.length) :
    (outerRavel f x y)[i * y.length + j]? =
      (x[i]?).bind (fun a => (y[j]?).map (f a)) := by
  induction x generalizing i with
  | nil => simp [outerRavel]
  | cons a x ih =>
    have h0 : outerRavel f (a :: x) y = y.map (f a) ++ outerRavel f x y := by simp [outerRavel]
    rw [h0]
    cases i with
    | zero => simp [List.getElem?_append, hj]
    | succ i =>
      rw [List.getElem?_append_right (by simp; nlinarith), List.length_map,
        show (i + 1) * y.length + j - y.length = i * y.length + j by
          rw [Nat.add_mul]; omega, ih]
      simp

theorem fuseRow_getD {ts : List CType} {a b : List Int} (ha : a.length = ts.length)
    (hb : b.length = ts.length) :
    fuseRow ts a b = ts.zipIdx.map (fun p => p.1.fuse (a.getD p.2 0) (b.getD p.2 0)) := by
  induction ts generalizing a b with
  | nil => cases a <;> rfl
  | cons t ts ih =>
    cases a with
    | nil => simp at ha
    | cons x a =>
      cases b with
      | nil => simp at hb
      | cons y b =>
        simp only [fuseRow, ih (by simpa using ha) (by simpa using hb), List.zipIdx_cons,
          List.map_cons, Nat.zero_add]
        congr 1
        rw [List.zipIdx_succ, List.map_map]
        simp [Function.comp_def]

/-- `fuse_ndarray_charges` lists the fused charge of every pair of rows in row-major order. -/
theorem fuseNd_eq {ts : List CType} {A B : List (List Int)} (hA : ∀ r ∈ A, r.length = ts.length)
    (hB : ∀ r ∈ B, r.length = ts.length) :
    fuseNd ts A B = outerRavel (fuseRow ts) A B := by
  apply List.ext_getElem?
  intro k
  by_cases hk : k < A.length * B.length
  · have hB0 : 0 < B.length := by
      rcases Nat.eq_zero_or_pos B.length with h | h
      · simp [h] at hk
      · exact h
    obtain ⟨i, j, hj, rfl⟩ : ∃ i j, j < B.length ∧ k = i * B.length + j :=
      ⟨k / B.length, k % B.length, Nat.mod_lt _ hB0, (Nat.div_add_mod' k _).symm⟩
    have hi : i < A.length := by
      by_contra h
      have := Nat.mul_le_mul_right B.length (Nat.le_of_not_lt h)
      omega
    rw [outerRavel_getElem? _ _ _ hj]
    simp only [fuseNd, List.getElem?_map, List.getElem?_range hk, Option.map_some,
      List.getElem?_eq_getElem hi, List.getElem?_eq_getElem hj, Option.bind_some]
    rw [fuseRow_getD (hA _ (List.getElem_mem _)) (hB _ (List.getElem_mem _)), List.map_map]
    congr 1
    apply List.map_congr_left
    intro p _
    have h := outerRavel_getElem? p.1.fuse (col A p.2) (col B p.2) (i := i) (j := j)
      (by simpa [col] using hj)
    have hc : (col B p.2).length = B.length := by simp [col]
    rw [hc] at h
    simp only [Function.comp_apply]
    rw [List.getD_eq_getElem?_getD, h]
    simp [col, hi, hj]
  · rw [List.getElem?_eq_none, List.getElem?_eq_none]
    · rw [outerRavel_length]; omega
    · simp [fuseNd]; omega

end TN.Bs
