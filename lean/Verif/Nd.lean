import Verif.Idx
import Mathlib.Data.List.GetD

/-!
# Arrays and the numpy operations used by the library

An array is a shape together with its entries as a function of the multi-index; only
the values at valid multi-indices (`InB shape`) are observable.  Every operation
returns a value in `Py`, i.e. either a result or the Python exception it raises.
-/

namespace TN

universe u

open Finset

/-- The kinds of Python exceptions raised by the modelled code. -/
inductive PyErr
  | valueError | indexError | typeError | keyError | attributeError | runtimeError
  deriving DecidableEq, Repr

/-- A Python computation: a value or an exception. -/
abbrev Py (α : Type*) := Except PyErr α

@[simp] theorem py_bind_ok {α β : Type u} (x : Py α) (f : α → Py β) (b : β) :
    (x >>= f) = Except.ok b ↔ ∃ a, x = Except.ok a ∧ f a = Except.ok b := by
  cases x with
  | error e => simp [bind, Except.bind]
  | ok a => simp [bind, Except.bind]

@[simp] theorem py_pure_ok {α : Type*} (a b : α) :
    (pure a : Py α) = Except.ok b ↔ a = b := by
  simp [pure, Except.pure]

@[simp] theorem py_throw_ok {α : Type*} (e : PyErr) (b : α) :
    (throw e : Py α) = Except.ok b ↔ False := by
  simp [throw, throwThe, MonadExceptOf.throw]

/-- An n-dimensional array (`np.ndarray`).  Simplification: entries are elements of an
abstract semiring, dtype and memory layout are not modelled. -/
structure NDArray (R : Type*) where
  shape : List Nat
  get : List Nat → R

namespace NDArray

variable {R : Type*}

/-- `tensor.ndim` -/
def ndim (t : NDArray R) : Nat := t.shape.length

/-- Two arrays are observably equal: same shape, same entries. -/
def Same (a b : NDArray R) : Prop :=
  a.shape = b.shape ∧ ∀ i, InB a.shape i → a.get i = b.get i

theorem Same.refl (a : NDArray R) : a.Same a := ⟨rfl, fun _ _ => rfl⟩

theorem Same.symm {a b : NDArray R} (h : a.Same b) : b.Same a :=
  ⟨h.1.symm, fun i hi => (h.2 i (h.1 ▸ hi)).symm⟩

theorem Same.trans {a b c : NDArray R} (h : a.Same b) (h' : b.Same c) : a.Same c :=
  ⟨h.1.trans h'.1, fun i hi => (h.2 i hi).trans (h'.2 i (h.1 ▸ hi))⟩

/-- `np.transpose(tensor, perm)` (numpy_backend.py:59-62): axis `k` of the result is
axis `perm[k]` of the argument; anything but a permutation of the axes raises. -/
def transpose (t : NDArray R) (perm : List Nat) : Py (NDArray R) :=
  if perm.Perm (List.range t.ndim) then
    .ok { shape := perm.map (fun p => t.shape.getD p 0)
          get := fun i => t.get ((List.range t.ndim).map fun a => i.getD (perm.idxOf a) 0) }
  else .error .valueError

/-- `np.reshape(tensor, shape)` (numpy_backend.py:56-57), C order.  A shape with a
different number of entries raises.  Simplification: no `-1` wildcard. -/
def reshape (t : NDArray R) (s : List Nat) : Py (NDArray R) :=
  if s.prod = t.shape.prod then
    .ok { shape := s, get := fun i => t.get (unravel t.shape (ravel s i)) }
  else .error .valueError

/-- The axes of an `n`-dimensional array which are not in `axes`, ascending. -/
def freeAxes (n : Nat) (axes : List Nat) : List Nat :=
  (List.range n).filter (fun p => p ∉ axes)

/-- The multi-index with the entries `c` at the positions `axes` and the entries `i` at
the remaining positions, in ascending order. -/
def mergeIdx (n : Nat) (axes c i : List Nat) : List Nat :=
  (List.range n).map fun p =>
    if p ∈ axes then c.getD (axes.idxOf p) 0 else i.getD ((freeAxes n axes).idxOf p) 0

/-- `np.tensordot(a, b, (ax1, ax2))` and `NumPyBackend.tensordot`
(numpy_backend.py:35-54; the `einsum` branch for full contractions computes the same
sum).  Axes out of range, repeated axes or different dimensions raise.
Simplification: the limit of 26 axes in the `einsum` branch is not modelled. -/
def tensordot [NonUnitalNonAssocSemiring R] (a b : NDArray R) (ax1 ax2 : List Nat) :
    Py (NDArray R) :=
  if ax1.length = ax2.length ∧ ax1.Nodup ∧ ax2.Nodup ∧ (∀ p ∈ ax1, p < a.ndim) ∧
      (∀ p ∈ ax2, p < b.ndim) ∧
      ax1.map (fun p => a.shape.getD p 0) = ax2.map (fun p => b.shape.getD p 0) then
    let f1 := freeAxes a.ndim ax1
    let f2 := freeAxes b.ndim ax2
    .ok { shape := f1.map (fun p => a.shape.getD p 0) ++ f2.map (fun p => b.shape.getD p 0)
          get := fun i => sumIdx (ax1.map (fun p => a.shape.getD p 0)) fun c =>
            a.get (mergeIdx a.ndim ax1 c (i.take f1.length)) *
            b.get (mergeIdx b.ndim ax2 c (i.drop f1.length)) }
  else .error .valueError

/-- `NumPyBackend.outer_product`, `np.tensordot(a, b, 0)` (numpy_backend.py:99-100). -/
def outerProduct [Mul R] (a b : NDArray R) : NDArray R where
  shape := a.shape ++ b.shape
  get := fun i => a.get (i.take a.ndim) * b.get (i.drop a.ndim)

/-- `np.trace(tensor, axis1=-2, axis2=-1)` (numpy_backend.py:684-707, default
arguments): sum over the diagonal of the last two axes. -/
def trace [AddCommMonoid R] (t : NDArray R) : Py (NDArray R) :=
  if 2 ≤ t.ndim then
    .ok { shape := t.shape.take (t.ndim - 2)
          get := fun i =>
            ∑ k ∈ range (min (t.shape.getD (t.ndim - 2) 0) (t.shape.getD (t.ndim - 1) 0)),
              t.get (i ++ [k, k]) }
  else .error .valueError

/-- `np.sum(tensor, axis=axes)` (numpy_backend.py:603-607). -/
def sum [AddCommMonoid R] (t : NDArray R) (axes : List Nat) : Py (NDArray R) :=
  if axes.Nodup ∧ ∀ p ∈ axes, p < t.ndim then
    .ok { shape := (freeAxes t.ndim axes).map (fun p => t.shape.getD p 0)
          get := fun i => sumIdx (axes.map (fun p => t.shape.getD p 0)) fun c =>
            t.get (mergeIdx t.ndim axes c i) }
  else .error .valueError

/-- `np.matmul` on two rank-3 arrays (numpy_backend.py:609-612): batched matrix product,
a batch dimension of size one is broadcast.  Simplification: only rank 3, the only use
in the modelled code (ncon_interface.py:334). -/
def matmul3 [NonUnitalNonAssocSemiring R] (a b : NDArray R) : Py (NDArray R) :=
  match a.shape, b.shape with
  | [b1, m, k1], [b2, k2, n] =>
    if k1 = k2 ∧ (b1 = b2 ∨ b1 = 1 ∨ b2 = 1) then
      .ok { shape := [if b1 = 1 then b2 else b1, m, n]
            get := fun i => ∑ k ∈ range k1,
              a.get [if b1 = 1 then 0 else i.getD 0 0, i.getD 1 0, k] *
              b.get [if b2 = 1 then 0 else i.getD 0 0, k, i.getD 2 0] }
    else .error .valueError
  | _, _ => .error .valueError

end NDArray

/-! ## Labelled arrays

The entry of an array whose axes carry labels, under an assignment `σ` of positions to
labels, is `t.get (ls.map σ)`.  -/

open NDArray

section labels

variable {R : Type*} {L : Type*} [DecidableEq L]

/-- Assign the values `c` to the labels `C`, keep `σ` elsewhere. -/
def assign (σ : L → Nat) : List L → List Nat → L → Nat
  | l :: ls, i :: is => assign (Function.update σ l i) ls is
  | _, _ => σ

theorem assign_not_mem {σ : L → Nat} {C : List L} {c : List Nat} {l : L} (h : l ∉ C) :
    assign σ C c l = σ l := by
  induction C generalizing σ c with
  | nil => simp [assign]
  | cons a C ih =>
    simp only [List.mem_cons, not_or] at h
    cases c with
    | nil => simp [assign]
    | cons i is => simp [assign, ih h.2, Function.update_of_ne h.1]

theorem assign_mem {σ : L → Nat} {C : List L} {c : List Nat} {l : L} (h : l ∈ C)
    (hn : C.Nodup) (hc : c.length = C.length) :
    assign σ C c l = c.getD (C.idxOf l) 0 := by
  induction C generalizing σ c with
  | nil => simp at h
  | cons a C ih =>
    cases c with
    | nil => simp at hc
    | cons i is =>
      rw [List.nodup_cons] at hn
      by_cases hla : l = a
      · subst hla
        simp [assign, assign_not_mem hn.1]
      · have hm : l ∈ C := by simpa [hla] using h
        simp [assign, ih hm hn.2 (by simpa using hc), List.idxOf_cons_ne _ (Ne.symm hla)]

theorem assign_map_self {σ : L → Nat} {C : List L} {c : List Nat}
    (hn : C.Nodup) (hc : c.length = C.length) : C.map (assign σ C c) = c := by
  apply List.ext_getElem (by simp [hc])
  intro k h1 h2
  have h3 : k < C.length := by simpa using h1
  simp only [List.getElem_map]
  rw [assign_mem (List.getElem_mem h3) hn hc, hn.idxOf_getElem]
  exact List.getD_eq_getElem _ _ h2

theorem mergeIdx_map {n : Nat} {axes c : List Nat} {ls C : List L} [Inhabited L] {σ : L → Nat}
    (hn : ls.length = n)
    (hC : axes.map (fun p => ls.getD p default) = C) (hCn : C.Nodup)
    (hmem : ∀ p < n, ls.getD p default ∈ C → p ∈ axes)
    (hc : c.length = axes.length) :
    mergeIdx n axes c (((freeAxes n axes).map (fun p => ls.getD p default)).map σ) =
      ls.map (assign σ C c) := by
  apply List.ext_getElem (by simp [mergeIdx, hn])
  intro p h1 h2
  have hp : p < n := by simpa [mergeIdx] using h1
  have hpl : p < ls.length := by omega
  simp only [mergeIdx, List.getElem_map, List.getElem_range]
  have hl : ls.getD p default = ls[p] := List.getD_eq_getElem _ _ hpl
  by_cases hpa : p ∈ axes
  · have hlC : ls[p] ∈ C := by
      rw [← hC, ← hl]; exact List.mem_map.2 ⟨p, hpa, rfl⟩
    rw [if_pos hpa, assign_mem hlC hCn (by rw [hc, ← hC]; simp)]
    congr 1
    have hi : axes.idxOf p < axes.length := List.idxOf_lt_length_of_mem hpa
    have hi' : axes.idxOf p < C.length := by rw [← hC]; simpa using hi
    have h4 : C[axes.idxOf p] = ls[p] := by
      subst hC
      simp only [List.getElem_map, List.getElem_idxOf]
      exact hl
    rw [← h4, hCn.idxOf_getElem]
  · have hlC : ls[p] ∉ C := fun h => hpa (hmem p hp (hl ▸ h))
    rw [if_neg hpa, assign_not_mem hlC]
    have hf : p ∈ freeAxes n axes := by simp [freeAxes, hp, hpa]
    have hi := List.idxOf_lt_length_of_mem hf
    rw [List.getD_eq_getElem _ _ (by simpa using hi)]
    simp only [List.getElem_map, List.getElem_idxOf, hl]

end labels

end TN
