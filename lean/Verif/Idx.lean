import Mathlib.Algebra.BigOperators.Ring.Finset
import Mathlib.Algebra.BigOperators.Intervals
import Mathlib.Data.List.Forall2
import Mathlib.Algebra.BigOperators.Group.List.Lemmas
import Mathlib.Tactic.Ring
import Mathlib.Tactic.Linarith
import Mathlib.Tactic.Push

/-!
# Row-major multi-indices

Index arithmetic of numpy's C-order arrays: `ravel` turns a multi-index into the flat
position, `unravel` is its inverse.  These are the facts behind `np.reshape` as used
all over the code (e.g. `backends/numpy/numpy_backend.py:56-57`).
-/

namespace TN

open Finset

/-- Flat C-order position of a multi-index (numpy documentation of C order;
used through `np.reshape`, numpy_backend.py:56-57). -/
def ravel : List Nat → List Nat → Nat
  | _ :: ds, i :: is => i * ds.prod + ravel ds is
  | _, _ => 0

/-- Multi-index of a flat C-order position, inverse of `ravel`. -/
def unravel : List Nat → Nat → List Nat
  | [], _ => []
  | _ :: ds, k => (k / ds.prod) :: unravel ds (k % ds.prod)

/-- `idx` is a valid multi-index for an array of shape `shape`. -/
def InB (shape idx : List Nat) : Prop := List.Forall₂ (· < ·) idx shape

theorem InB.length {s i : List Nat} (h : InB s i) : i.length = s.length :=
  List.Forall₂.length_eq h

@[simp] theorem inB_nil : InB [] [] := List.Forall₂.nil

@[simp] theorem inB_cons {d i : Nat} {s is : List Nat} :
    InB (d :: s) (i :: is) ↔ i < d ∧ InB s is := by
  simp [InB]

theorem inB_cons_iff {d : Nat} {s i : List Nat} :
    InB (d :: s) i ↔ ∃ a is, i = a :: is ∧ a < d ∧ InB s is := by
  cases i with
  | nil => simp [InB]
  | cons a is => simp

theorem inB_nil_iff {i : List Nat} : InB [] i ↔ i = [] := by
  cases i <;> simp [InB]

theorem inB_append {s t i j : List Nat} (hi : InB s i) (hj : InB t j) :
    InB (s ++ t) (i ++ j) := by
  induction s generalizing i with
  | nil => rw [inB_nil_iff] at hi; subst hi; simpa using hj
  | cons d s ih =>
    obtain ⟨a, is, rfl, ha, h⟩ := inB_cons_iff.1 hi
    simp [ha, ih h]

theorem inB_append_iff {s t i j : List Nat} (hl : i.length = s.length) :
    InB (s ++ t) (i ++ j) ↔ InB s i ∧ InB t j := by
  induction s generalizing i with
  | nil =>
    have : i = [] := List.length_eq_zero_iff.1 (by simpa using hl)
    subst this; simp
  | cons d s ih =>
    cases i with
    | nil => simp at hl
    | cons a is => simp [ih (by simpa using hl), and_assoc]

theorem inB_map {L : Type*} (ls : List L) (σ : L → Nat) (dim : L → Nat) :
    InB (ls.map dim) (ls.map σ) ↔ ∀ l ∈ ls, σ l < dim l := by
  induction ls with
  | nil => simp
  | cons a l ih => simp [ih]

theorem inB_iff_getD {s i : List Nat} :
    InB s i ↔ i.length = s.length ∧ ∀ k < s.length, i.getD k 0 < s.getD k 0 := by
  induction s generalizing i with
  | nil => simp [inB_nil_iff]
  | cons d s ih =>
    cases i with
    | nil => simp [InB]
    | cons a is =>
      rw [inB_cons, ih]
      constructor
      · rintro ⟨h1, h2, h3⟩
        refine ⟨by simp [h2], fun k hk => ?_⟩
        cases k with
        | zero => simpa using h1
        | succ k => simpa using h3 k (by simpa using hk)
      · rintro ⟨h1, h2⟩
        refine ⟨by simpa using h2 0 (by simp), by simpa using h1, fun k hk => ?_⟩
        simpa using h2 (k + 1) (by simpa using hk)

theorem prod_pos_of_inB {s i : List Nat} (h : InB s i) : 0 < s.prod := by
  induction s generalizing i with
  | nil => simp
  | cons d s ih =>
    obtain ⟨a, is, rfl, ha, h⟩ := inB_cons_iff.1 h
    simp only [List.prod_cons]
    exact Nat.mul_pos (by omega) (ih h)

theorem ravel_lt {s i : List Nat} (h : InB s i) : ravel s i < s.prod := by
  induction s generalizing i with
  | nil => rw [inB_nil_iff] at h; subst h; simp [ravel]
  | cons d s ih =>
    obtain ⟨a, is, rfl, ha, h⟩ := inB_cons_iff.1 h
    simp only [ravel, List.prod_cons]
    have h1 := ih h
    calc a * s.prod + ravel s is < a * s.prod + s.prod := by omega
      _ = (a + 1) * s.prod := by ring
      _ ≤ d * s.prod := Nat.mul_le_mul_right _ ha

theorem unravel_length (s : List Nat) (k : Nat) : (unravel s k).length = s.length := by
  induction s generalizing k with
  | nil => simp [unravel]
  | cons d s ih => simp [unravel, ih]

theorem unravel_inB {s : List Nat} {k : Nat} (h : k < s.prod) : InB s (unravel s k) := by
  induction s generalizing k with
  | nil => simp [unravel]
  | cons d s ih =>
    simp only [List.prod_cons] at h
    have hp : 0 < s.prod := by
      rcases Nat.eq_zero_or_pos s.prod with h0 | h0
      · simp [h0] at h
      · exact h0
    simp only [unravel, inB_cons]
    exact ⟨(Nat.div_lt_iff_lt_mul hp).2 h, ih (Nat.mod_lt _ hp)⟩

theorem ravel_unravel {s : List Nat} {k : Nat} (h : k < s.prod) :
    ravel s (unravel s k) = k := by
  induction s generalizing k with
  | nil => simp at h; simp [ravel, h]
  | cons d s ih =>
    simp only [List.prod_cons] at h
    have hp : 0 < s.prod := by
      rcases Nat.eq_zero_or_pos s.prod with h0 | h0
      · simp [h0] at h
      · exact h0
    simp only [unravel, ravel, ih (Nat.mod_lt _ hp)]
    exact Nat.div_add_mod' k s.prod

theorem unravel_ravel {s i : List Nat} (h : InB s i) : unravel s (ravel s i) = i := by
  induction s generalizing i with
  | nil => rw [inB_nil_iff] at h; subst h; simp [unravel]
  | cons d s ih =>
    obtain ⟨a, is, rfl, ha, h⟩ := inB_cons_iff.1 h
    have h1 := ravel_lt h
    simp only [ravel, unravel]
    have h2 : (a * s.prod + ravel s is) / s.prod = a := by
      rw [Nat.mul_comm, Nat.mul_add_div (by omega)]
      simp [Nat.div_eq_of_lt h1]
    have h3 : (a * s.prod + ravel s is) % s.prod = ravel s is := by
      rw [Nat.mul_comm, Nat.mul_add_mod, Nat.mod_eq_of_lt h1]
    rw [h2, h3, ih h]

theorem ravel_inj {s i j : List Nat} (hi : InB s i) (hj : InB s j)
    (h : ravel s i = ravel s j) : i = j := by
  rw [← unravel_ravel hi, h, unravel_ravel hj]

theorem ravel_append {s t i j : List Nat} (hl : i.length = s.length) :
    ravel (s ++ t) (i ++ j) = ravel s i * t.prod + ravel t j := by
  induction s generalizing i with
  | nil =>
    have : i = [] := List.length_eq_zero_iff.1 (by simpa using hl)
    subst this; simp [ravel]
  | cons d s ih =>
    cases i with
    | nil => simp at hl
    | cons a is =>
      simp only [List.cons_append, ravel, ih (by simpa using hl), List.prod_append]
      ring

theorem unravel_append {s t : List Nat} {a b : Nat} (ha : a < s.prod) (hb : b < t.prod) :
    unravel (s ++ t) (a * t.prod + b) = unravel s a ++ unravel t b := by
  have h1 := unravel_inB ha
  have h2 := unravel_inB hb
  have := unravel_ravel (inB_append h1 h2)
  rw [ravel_append h1.length, ravel_unravel ha, ravel_unravel hb] at this
  exact this

/-! ### Sums over multi-indices -/

/-- Sum of `f` over all valid multi-indices of a given shape. -/
def sumIdx {R : Type*} [AddCommMonoid R] : List Nat → (List Nat → R) → R
  | [], f => f []
  | d :: ds, f => ∑ i ∈ range d, sumIdx ds (fun is => f (i :: is))

section
variable {R : Type*} [AddCommMonoid R]

theorem sumIdx_congr {s : List Nat} {f g : List Nat → R}
    (h : ∀ i, InB s i → f i = g i) : sumIdx s f = sumIdx s g := by
  induction s generalizing f g with
  | nil => exact h [] inB_nil
  | cons d s ih =>
    simp only [sumIdx]
    refine Finset.sum_congr rfl fun i hi => ih fun is his => h _ ?_
    simp [his, Finset.mem_range.1 hi]

theorem sumIdx_append (s t : List Nat) (f : List Nat → R) :
    sumIdx (s ++ t) f = sumIdx s (fun i => sumIdx t (fun j => f (i ++ j))) := by
  induction s generalizing f with
  | nil => simp [sumIdx]
  | cons d s ih => simp [sumIdx, ih]

/-- Summing over flat positions is summing over multi-indices. -/
theorem sum_range_unravel (s : List Nat) (f : List Nat → R) :
    ∑ k ∈ range s.prod, f (unravel s k) = sumIdx s f := by
  induction s generalizing f with
  | nil => simp [sumIdx, unravel, one_nsmul]
  | cons d s ih =>
    simp only [List.prod_cons, sumIdx, unravel]
    rcases Nat.eq_zero_or_pos s.prod with h0 | h0
    · have : ∀ f : List Nat → R, sumIdx s f = 0 := fun f => by
        rw [← ih]; simp [h0]
      simp [this, h0]
    · have key : ∀ d : Nat, ∑ k ∈ range (d * s.prod), f (k / s.prod :: unravel s (k % s.prod))
          = ∑ i ∈ range d, sumIdx s (fun is => f (i :: is)) := by
        intro d
        induction d with
        | zero => simp
        | succ d ihd =>
          rw [Nat.succ_mul, Finset.sum_range_add, ihd, Finset.sum_range_succ]
          congr 1
          rw [← ih]
          refine Finset.sum_congr rfl fun k hk => ?_
          have hk' := Finset.mem_range.1 hk
          have h2 : (d * s.prod + k) / s.prod = d := by
            rw [Nat.mul_comm, Nat.mul_add_div (by omega)]
            simp [Nat.div_eq_of_lt hk']
          have h3 : (d * s.prod + k) % s.prod = k := by
            rw [Nat.mul_comm, Nat.mul_add_mod, Nat.mod_eq_of_lt hk']
          rw [h2, h3]
      exact key d

theorem sumIdx_comm (s t : List Nat) (f : List Nat → List Nat → R) :
    sumIdx s (fun i => sumIdx t (fun j => f i j)) =
      sumIdx t (fun j => sumIdx s (fun i => f i j)) := by
  simp only [← sum_range_unravel]
  exact Finset.sum_comm

end

theorem sumIdx_mul_left {R : Type*} [NonUnitalNonAssocSemiring R] (s : List Nat) (c : R)
    (f : List Nat → R) : c * sumIdx s f = sumIdx s (fun i => c * f i) := by
  simp only [← sum_range_unravel, Finset.mul_sum]

theorem sumIdx_mul_right {R : Type*} [NonUnitalNonAssocSemiring R] (s : List Nat) (c : R)
    (f : List Nat → R) : sumIdx s f * c = sumIdx s (fun i => f i * c) := by
  simp only [← sum_range_unravel, Finset.sum_mul]

end TN
