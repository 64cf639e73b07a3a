import Verif.Nd
import Mathlib.Data.List.Rotate
import Mathlib.Algebra.BigOperators.Ring.Finset

/-!
# C90: infinite MPOs and `roll`

matrixproductstates/mpo.py.  The axes of an MPO tensor are left, right, out, in.  Simplification: all tensors have the same dtype.
-/

set_option linter.unusedSectionVars false

namespace TN.MpoRoll

open TN Finset

variable {R : Type}

/-! ### The model -/

/-- `l[n]` -/
def item {α : Type} (l : List α) (n : Int) : Py α :=
  match (if n < 0 then (if n + l.length < 0 then none else l[(n + l.length).toNat]?) else l[n.toNat]?) with
  | some x => .ok x
  | none => .error .indexError

/-- `[l[n] for n in ns]` -/
def items {α : Type} (l : List α) : List Int → Py (List α)
  | [] => .ok []
  | n :: ns => do
    let x ← item l n
    let xs ← items l ns
    .ok (x :: xs)

/-- `range(a, b)` -/
def pyRange (a b : Int) : List Int := (List.range (b - a).toNat).map fun k => a + (k : Nat)

/-- `BaseMPO.bond_dimensions` (mpo.py:69-74) -/
def bondDims (ts : List (NDArray R)) : Py (List Nat) := do
  let t ← item ts 0
  .ok (t.shape.getD 0 0 :: ts.map fun t => t.shape.getD 1 0)

/-- `InfiniteMPO.__init__` (mpo.py:83-97) -/
def infiniteInit (ts : List (NDArray R)) : Py (List (NDArray R)) := do
  let d ← bondDims ts
  let a ← item d 0
  let b ← item d (-1)
  if a ≠ b then .error .valueError else .ok ts

/-- `InfiniteMPO.roll` (mpo.py:99-102): the tensors after the call. -/
def roll (ts : List (NDArray R)) (n : Int) : Py (List (NDArray R)) := do
  let a ← items ts (pyRange n ts.length)
  let b ← items ts (pyRange 0 n)
  .ok (a ++ b)

/-! ### Specification -/

/-- The dimensions of the bonds of a tensor. -/
def ldim (t : NDArray R) : Nat := t.shape.getD 0 0

@[inherit_doc ldim]
def rdim (t : NDArray R) : Nat := t.shape.getD 1 0

/-- The bonds fit all around the ring. -/
def Ring (ts : List (NDArray R)) : Prop := ∀ k (h : k < ts.length), rdim ts[k] = ldim (ts[(k + 1) % ts.length]'(Nat.mod_lt _ (by omega)))

/-- The entry of a piece of the chain with the given ends; a physical index is a pair of out and in. -/
def chain [CommSemiring R] : List (NDArray R) → List (Nat × Nat) → Nat → Nat → R
  | [t], [p], a, b => t.get [a, b, p.1, p.2]
  | t :: ts, p :: ps, a, b => ∑ c ∈ range (rdim t), t.get [a, c, p.1, p.2] * chain ts ps c b
  | _, _, _, _ => 0

/-- The entry of the operator that the tensors make on a ring. -/
def ring [CommSemiring R] : List (NDArray R) → List (Nat × Nat) → R
  | [], _ => 0
  | t :: ts, ps => ∑ a ∈ range (ldim t), chain (t :: ts) ps a a

/-! ### Construction -/

theorem item_nat {α : Type} {l : List α} {k : Nat} (h : k < l.length) : item l (k : Int) = .ok l[k] := by
  have : ¬ ((k : Int) < 0) := by omega
  simp [item, this, h]

theorem item_last {α : Type} (l : List α) (x : α) : item (x :: l) (-1) = .ok ((x :: l).getLast (by simp)) := by
  have h : ¬ ((-1 : Int) + ((x :: l).length : Nat) < 0) := by simp
  have h2 : ((-1 : Int) + ((x :: l).length : Nat)).toNat = (x :: l).length - 1 := by simp
  simp only [item, if_pos (show (-1 : Int) < 0 by decide), if_neg h, h2]
  rw [List.getLast_eq_getElem, List.getElem?_eq_getElem (by simp)]

/-- **C90.**  `InfiniteMPO` raises `IndexError` for no tensors and `ValueError` exactly if the first and the last bond differ. -/
theorem C90_init (ts : List (NDArray R)) :
    (ts = [] → infiniteInit ts = .error .indexError) ∧
    ∀ h : ts ≠ [], infiniteInit ts = if ldim (ts.head h) = rdim (ts.getLast h) then .ok ts else .error .valueError := by
  refine ⟨fun h => by rw [h]; rfl, fun h => ?_⟩
  obtain ⟨t, l, rfl⟩ := List.exists_cons_of_ne_nil h
  have h1 : bondDims (t :: l) = .ok (ldim t :: (t :: l).map fun t => rdim t) := rfl
  have h2 : item (ldim t :: (t :: l).map fun t => rdim t) (-1) = .ok (rdim ((t :: l).getLast h)) := by
    rw [item_last, List.getLast_cons (by simp), List.getLast_map]
  unfold infiniteInit
  rw [h1]
  change (do let b ← item (ldim t :: (t :: l).map fun t => rdim t) (-1); if ldim t ≠ b then (.error .valueError : Py (List (NDArray R))) else .ok (t :: l)) = _
  rw [h2]
  change (if ldim t ≠ rdim ((t :: l).getLast h) then (.error .valueError : Py (List (NDArray R))) else .ok (t :: l)) = _
  simp only [List.head_cons]
  split <;> simp_all

/-! ### `roll` -/

theorem items_map {α : Type} {l : List α} {ns : List Int} {xs : List α} (h : List.Forall₂ (fun n x => item l n = .ok x) ns xs) :
    items l ns = .ok xs := by
  induction h with
  | nil => rfl
  | cons h _ ih => simp only [items, h, ih]; rfl

theorem items_error {α : Type} {l : List α} {ns : List Int} {n : Int} (hn : n ∈ ns) (h : item l n = .error .indexError) :
    items l ns = .error .indexError := by
  have hall : ∀ m, item l m = .error .indexError ∨ ∃ x, item l m = .ok x := by
    intro m
    unfold item
    split
    · exact .inr ⟨_, rfl⟩
    · exact .inl rfl
  induction ns with
  | nil => simp at hn
  | cons m ns ih =>
    rcases hall m with hm | ⟨x, hm⟩
    · simp only [items, hm]; rfl
    · rcases List.mem_cons.1 hn with rfl | hn
      · rw [h] at hm; cases hm
      · simp only [items, hm, ih hn]; rfl

theorem items_range {α : Type} (l : List α) {a b : Nat} (hb : b ≤ l.length) : items l (pyRange a b) = .ok ((l.take b).drop a) := by
  refine items_map (List.forall₂_iff_get.2 ⟨by simp [pyRange]; omega, fun k h1 h2 => ?_⟩)
  simp only [List.get_eq_getElem, pyRange, List.getElem_map, List.getElem_range]
  have hk : a + k < l.length := by simp at h2; omega
  have := item_nat hk
  simpa using this

theorem roll_ok {ts : List (NDArray R)} {n : Nat} (hn : n ≤ ts.length) : roll ts n = .ok (ts.drop n ++ ts.take n) := by
  have h1 := items_range ts (a := n) (le_refl ts.length)
  have h2 := items_range ts (a := 0) hn
  unfold roll
  rw [h1]
  change (do let b ← items ts (pyRange ((0 : Nat) : Int) n); .ok ((ts.take ts.length).drop n ++ b)) = _
  rw [h2]
  simp only [List.take_length, List.drop_zero]
  rfl

theorem chain_cons [CommSemiring R] {t : NDArray R} {ts : List (NDArray R)} (h : ts ≠ []) (p : Nat × Nat) (ps : List (Nat × Nat)) (a b : Nat) :
    chain (t :: ts) (p :: ps) a b = ∑ c ∈ range (rdim t), t.get [a, c, p.1, p.2] * chain ts ps c b := by
  rw [chain]
  rintro h'
  exact absurd h' h

theorem chain_append [CommSemiring R] {A B : List (NDArray R)} {p q : List (Nat × Nat)} (hA : A ≠ []) (hB : B ≠ [])
    (hp : p.length = A.length) (hq : q.length = B.length) (a b : Nat) :
    chain (A ++ B) (p ++ q) a b = ∑ c ∈ range (rdim (A.getLast hA)), chain A p a c * chain B q c b := by
  induction A generalizing p a with
  | nil => exact absurd rfl hA
  | cons t A ih =>
    obtain ⟨x, p, rfl⟩ := List.exists_cons_of_ne_nil (l := p) (by rintro rfl; simp at hp)
    obtain ⟨u, B', rfl⟩ := List.exists_cons_of_ne_nil hB
    obtain ⟨y, q, rfl⟩ := List.exists_cons_of_ne_nil (l := q) (by rintro rfl; simp at hq)
    cases A with
    | nil =>
      have : p = [] := by simpa using hp
      subst this
      simp only [List.cons_append, List.nil_append, List.getLast_singleton]
      rw [chain]
      · rfl
      · simp
    | cons t' A =>
      obtain ⟨x', p, rfl⟩ := List.exists_cons_of_ne_nil (l := p) (by rintro rfl; simp at hp)
      have ih' := fun c => ih (p := x' :: p) (by simp) (by simpa using hp) c
      simp only [List.cons_append] at ih' ⊢
      rw [chain_cons (by simp), List.getLast_cons (by simp)]
      simp only [ih', mul_sum]
      rw [sum_comm]
      refine sum_congr rfl fun c _ => ?_
      rw [chain_cons (t := t) (ts := t' :: A) (by simp), sum_mul]
      exact sum_congr rfl fun d _ => by ring

theorem ring_rotate [CommSemiring R] {A B : List (NDArray R)} {p q : List (Nat × Nat)} (hp : p.length = A.length) (hq : q.length = B.length)
    (h1 : ∀ (hA : A ≠ []) (hB : B ≠ []), rdim (A.getLast hA) = ldim (B.head hB))
    (h2 : ∀ (hA : A ≠ []) (hB : B ≠ []), rdim (B.getLast hB) = ldim (A.head hA)) : ring (B ++ A) (q ++ p) = ring (A ++ B) (p ++ q) := by
  by_cases hA : A = []
  · subst hA
    have : p = [] := by simpa using hp
    subst this
    simp
  by_cases hB : B = []
  · subst hB
    have : q = [] := by simpa using hq
    subst this
    simp
  have e : ∀ {A B : List (NDArray R)} {p q : List (Nat × Nat)} (hA : A ≠ []) (hB : B ≠ []), p.length = A.length → q.length = B.length →
      ring (A ++ B) (p ++ q) = ∑ a ∈ range (ldim (A.head hA)), ∑ c ∈ range (rdim (A.getLast hA)), chain A p a c * chain B q c a := by
    intro A B p q hA hB hp hq
    have := fun a => chain_append hA hB hp hq a a
    obtain ⟨t, A, rfl⟩ := List.exists_cons_of_ne_nil hA
    simp only [List.cons_append, ring, List.head_cons] at this ⊢
    exact sum_congr rfl fun a _ => this a
  rw [e hA hB hp hq, e hB hA hq hp, h1 hA hB, h2 hA hB, sum_comm]
  exact sum_congr rfl fun a _ => sum_congr rfl fun c _ => mul_comm _ _

theorem Ring.parts {ts : List (NDArray R)} (hr : Ring ts) (n : Nat) (hA : ts.take n ≠ []) (hB : ts.drop n ≠ []) :
    rdim ((ts.take n).getLast hA) = ldim ((ts.drop n).head hB) ∧ rdim ((ts.drop n).getLast hB) = ldim ((ts.take n).head hA) := by
  have hn : n < ts.length := by
    by_contra h
    exact hB (List.drop_eq_nil_of_le (by omega))
  have hn0 : 0 < n := by
    rcases Nat.eq_zero_or_pos n with rfl | h
    · simp at hA
    · exact h
  have h1 := hr (n - 1) (by omega)
  have h2 := hr (ts.length - 1) (by omega)
  have e1 : (n - 1 + 1) % ts.length = n := by rw [Nat.sub_add_cancel hn0, Nat.mod_eq_of_lt hn]
  have e2 : (ts.length - 1 + 1) % ts.length = 0 := by rw [Nat.sub_add_cancel (by omega), Nat.mod_self]
  simp only [e1, e2] at h1 h2
  constructor
  · rw [List.getLast_eq_getElem, List.head_eq_getElem]
    simp only [List.getElem_take, List.getElem_drop, List.length_take, Nat.add_zero]
    rw [← h1]
    congr 2
    omega
  · rw [List.getLast_eq_getElem, List.head_eq_getElem]
    simp only [List.getElem_take, List.getElem_drop, List.length_drop]
    rw [← h2]
    congr 2
    omega

/-- **C90.**  Rolling by `0 ≤ n ≤ N` sites starts the unit cell `n` sites later: the bonds still fit all around, so that the constructor would
accept the tensors, and the operator on the ring is the same with the sites shifted. -/
theorem C90_roll_partial [CommSemiring R] {ts : List (NDArray R)} (h0 : ts ≠ []) (hr : Ring ts) {n : Nat} (hn : n ≤ ts.length) :
    ∃ ts', roll ts n = .ok ts' ∧ ts' = ts.rotate n ∧ Ring ts' ∧ infiniteInit ts' = .ok ts' ∧
      ∀ ps : List (Nat × Nat), ps.length = ts.length → ring ts' (ps.rotate n) = ring ts ps := by
  have hrot : ts.rotate n = ts.drop n ++ ts.take n := List.rotate_eq_drop_append_take hn
  have hR : Ring (ts.rotate n) := by
    intro k hk
    have hk' : k < ts.length := by simpa using hk
    simp only [List.getElem_rotate, List.length_rotate]
    rw [hr ((k + n) % ts.length) (Nat.mod_lt _ (by omega))]
    congr 2
    simp [Nat.add_right_comm]
  refine ⟨ts.rotate n, by rw [roll_ok hn, hrot], rfl, hR, ?_, ?_⟩
  · have hne : ts.rotate n ≠ [] := by simpa using h0
    have hl : 0 < (ts.rotate n).length := List.length_pos_iff.2 hne
    rw [(C90_init _).2 hne, if_pos]
    have h2 := hR ((ts.rotate n).length - 1) (by omega)
    have e2 : ((ts.rotate n).length - 1 + 1) % (ts.rotate n).length = 0 := by rw [Nat.sub_add_cancel hl, Nat.mod_self]
    simp only [e2] at h2
    rw [List.getLast_eq_getElem, List.head_eq_getElem]
    exact h2.symm
  · intro ps hps
    rw [hrot, List.rotate_eq_drop_append_take (hps ▸ hn), ring_rotate (by simp [hps]) (by simp [hps]) (fun a b => (hr.parts n a b).1)
      (fun a b => (hr.parts n a b).2), List.take_append_drop, List.take_append_drop]

/-- **C90.**  Rolling by more than the number of sites, in either direction, raises `IndexError`. -/
theorem C90_roll_raises {ts : List (NDArray R)} {n : Int} (h : (ts.length : Int) < n ∨ n < -(ts.length : Int)) :
    roll ts n = .error .indexError := by
  rcases h with h | h
  · have h1 : items ts (pyRange n ts.length) = .ok [] := by
      have : ((ts.length : Int) - n).toNat = 0 := by omega
      simp [pyRange, this, items]
    have h2 : items ts (pyRange 0 n) = .error .indexError := by
      refine items_error (n := ts.length) ?_ ?_
      · simp only [pyRange, List.mem_map, List.mem_range]
        exact ⟨ts.length, by omega, by simp⟩
      · have : ¬ ((ts.length : Int) < 0) := by omega
        simp [item, this]
    unfold roll
    rw [h1]
    change (do let b ← items ts (pyRange 0 n); .ok ([] ++ b)) = _
    rw [h2]
    rfl
  · have h1 : items ts (pyRange n ts.length) = .error .indexError := by
      refine items_error (n := n) ?_ ?_
      · simp only [pyRange, List.mem_map, List.mem_range]
        exact ⟨0, by omega, by simp⟩
      · have h3 : n < 0 := by omega
        have h4 : n + ts.length < 0 := by omega
        simp [item, h3, h4]
    unfold roll
    rw [h1]
    rfl

/-- **C90**, what fails: rolling to the left, which Python's negative positions allow, is no rotation.  `roll(-m)` puts the last `m` tensors in front
and keeps all the others, so that the unit cell grows. -/
theorem C90_roll_negative_false {ts : List (NDArray R)} {m : Nat} (hm : 0 < m) (hm' : m ≤ ts.length) :
    roll ts (-(m : Int)) = .ok (ts.drop (ts.length - m) ++ ts) ∧ ∀ k, ts.drop (ts.length - m) ++ ts ≠ ts.rotate k := by
  constructor
  · have h1 : items ts (pyRange (-(m : Int)) ts.length) = .ok (ts.drop (ts.length - m) ++ ts) := by
      refine items_map (List.forall₂_iff_get.2 ⟨by simp [pyRange]; omega, fun k k1 k2 => ?_⟩)
      simp only [List.get_eq_getElem, pyRange, List.getElem_map, List.getElem_range]
      simp only [List.length_append, List.length_drop] at k2
      by_cases hk : k < m
      · have h3 : -(m : Int) + k < 0 := by omega
        have h4 : ¬ (-(m : Int) + k + ts.length < 0) := by omega
        have h5 : (-(m : Int) + k + ts.length).toNat = ts.length - m + k := by omega
        rw [List.getElem_append_left (by simp; omega), List.getElem_drop]
        simp only [item, if_pos h3, if_neg h4, h5]
        rw [List.getElem?_eq_getElem (by omega)]
      · have h3 : -(m : Int) + k = ((k - m : Nat) : Int) := by omega
        rw [h3, List.getElem_append_right (by simp; omega), item_nat (by omega)]
        congr 2
        simp
        omega
    have h2 : pyRange 0 (-(m : Int)) = [] := by
      have : (-(m : Int) - 0).toNat = 0 := by omega
      simp [pyRange]
    unfold roll
    rw [h1, h2]
    change Except.ok (_ ++ []) = _
    rw [List.append_nil]
  · intro k h
    have := congrArg List.length h
    simp at this
    omega

/-! ### Examples -/

/-- Two tensors with bonds of dimensions 2 and 3. -/
def exA : NDArray Int := ⟨[2, 3, 1, 1], fun i => i.getD 0 0 + 2 * i.getD 1 0⟩

@[inherit_doc exA]
def exB : NDArray Int := ⟨[3, 2, 1, 1], fun i => 1 + i.getD 0 0 * i.getD 1 0⟩

theorem ex_ring : Ring [exA, exB] := by
  intro k hk
  have : k = 0 ∨ k = 1 := by simp at hk; omega
  rcases this with rfl | rfl <;> rfl

example : ∃ ts', roll [exA, exB] 1 = .ok ts' ∧ ring ts' [(0, 0), (0, 0)] = ring [exA, exB] [(0, 0), (0, 0)] ∧
    ring [exA, exB] [(0, 0), (0, 0)] ≠ 0 := by
  obtain ⟨ts', h1, -, -, -, h2⟩ := C90_roll_partial (ts := [exA, exB]) (by simp) ex_ring (n := 1) (by decide)
  exact ⟨ts', h1, h2 [(0, 0), (0, 0)] rfl, by decide +kernel⟩

/-- **C90**, what fails: the constructor accepts tensors whose inner bonds do not fit, and after `roll` their ends do not fit either. -/
theorem C90_init_false : ∃ ts ts' : List (NDArray Int), infiniteInit ts = .ok ts ∧ ¬ Ring ts ∧ roll ts 1 = .ok ts' ∧
    infiniteInit ts' = .error .valueError := by
  refine ⟨[exA, ⟨[5, 2, 1, 1], fun _ => 0⟩], [⟨[5, 2, 1, 1], fun _ => 0⟩, exA], rfl, ?_, rfl, rfl⟩
  intro h
  have := h 0 (by decide)
  revert this
  decide

end TN.MpoRoll
