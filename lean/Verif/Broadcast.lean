import Verif.Nd
import Mathlib.Algebra.Star.Basic

/-!
# Broadcasting of arrays

The rule by which numpy combines two arrays of different shapes in an elementwise operation
(numpy documentation, "Broadcasting"), as used by `NumPyBackend.addition`, `subtraction`, `multiply`,
`divide` (numpy_backend.py:536-546), `broadcast_right_multiplication`,
`broadcast_left_multiplication` (numpy_backend.py:560-575) and `matmul` (numpy_backend.py:609-612).
The shapes are aligned at their last axes, so the recursion runs over the reversed shapes.
-/

namespace TN.Bcast

open TN NDArray

variable {R : Type}

/-- The common dimension of two aligned axes: equal, or one of them is one. -/
def bdim (x y : Nat) : Option Nat :=
  if x = y then some x else if x = 1 then some y else if y = 1 then some x else none

/-- The common shape of two reversed shapes. -/
def bshapeR : List Nat → List Nat → Option (List Nat)
  | [], b => some b
  | a, [] => some a
  | x :: a, y :: b => (bdim x y).bind fun d => (bshapeR a b).map (d :: ·)

/-- `np.broadcast_shapes(a, b)`. -/
def bshape (a b : List Nat) : Option (List Nat) := (bshapeR a.reverse b.reverse).map List.reverse

/-- The reversed index of an array with the reversed shape `s` that belongs to the reversed index
`i` of the result: an axis of dimension one is repeated. -/
def bidxR (s i : List Nat) : List Nat := List.zipWith (fun d k => if d = 1 then 0 else k) s i

/-- The index of an array with shape `s` that belongs to the index `i` of the result. -/
def bidx (s i : List Nat) : List Nat := (bidxR s.reverse i.reverse).reverse

/-- An elementwise operation of two arrays, `ValueError` if the shapes do not fit together
("operands could not be broadcast together"). -/
def elementwise {S T : Type} (f : R → S → T) (a : NDArray R) (b : NDArray S) : Py (NDArray T) :=
  match bshape a.shape b.shape with
  | none => .error .valueError
  | some s => .ok ⟨s, fun i => f (a.get (bidx a.shape i)) (b.get (bidx b.shape i))⟩

/-! ### Facts about the rule -/

theorem bdim_comm (x y : Nat) : bdim x y = bdim y x := by
  unfold bdim; split_ifs <;> simp_all

theorem bdim_self (x : Nat) : bdim x x = some x := by simp [bdim]

theorem bdim_assoc (x y z : Nat) : ((bdim x y).bind fun d => bdim d z) = ((bdim y z).bind fun d => bdim x d) := by
  unfold bdim
  by_cases h1 : x = y <;> by_cases h2 : y = z <;> by_cases h3 : x = 1 <;> by_cases h4 : y = 1 <;>
    by_cases h5 : z = 1 <;> by_cases h6 : x = z <;> simp_all

theorem bdim_left {x y d : Nat} (h : bdim x y = some d) (hx : x ≠ 1) : d = x := by
  unfold bdim at h; split_ifs at h <;> simp_all

theorem bdim_eq_some {x y d : Nat} : bdim x y = some d ↔
    (x = y ∨ x = 1 ∨ y = 1) ∧ d = if x = 1 then y else x := by
  unfold bdim; split_ifs <;> simp_all [eq_comm]

theorem bshapeR_nil_right (a : List Nat) : bshapeR a [] = some a := by cases a <;> rfl

theorem bshapeR_comm (a b : List Nat) : bshapeR a b = bshapeR b a := by
  induction a generalizing b with
  | nil => cases b <;> rfl
  | cons x a ih => cases b with
    | nil => rfl
    | cons y b => simp [bshapeR, bdim_comm x y, ih b]

theorem bshapeR_self (a : List Nat) : bshapeR a a = some a := by
  induction a with
  | nil => rfl
  | cons x a ih => simp [bshapeR, bdim_self, ih]

theorem bshapeR_assoc (a b c : List Nat) :
    ((bshapeR a b).bind fun s => bshapeR s c) = ((bshapeR b c).bind fun s => bshapeR a s) := by
  induction a generalizing b c with
  | nil => simp [bshapeR]
  | cons x a ih =>
    cases b with
    | nil => cases c <;> simp [bshapeR]
    | cons y b =>
      cases c with
      | nil =>
        simp only [bshapeR_nil_right, Option.bind_some]
        cases bshapeR (x :: a) (y :: b) <;> simp
      | cons z c =>
        have l1 : ∀ (o : Option Nat) (u : Option (List Nat)),
            ((o.bind fun d => u.map (d :: ·)).bind fun s => bshapeR s (z :: c)) =
              (o.bind fun d => bdim d z).bind fun e => (u.bind fun s => bshapeR s c).map (e :: ·) := by
          intro o u
          cases o with
          | none => rfl
          | some d => cases u with
            | none => cases h : bdim d z <;> simp [h]
            | some s => simp [bshapeR]
        have l2 : ∀ (o : Option Nat) (u : Option (List Nat)),
            ((o.bind fun d => u.map (d :: ·)).bind fun s => bshapeR (x :: a) s) =
              (o.bind fun d => bdim x d).bind fun e => (u.bind fun s => bshapeR a s).map (e :: ·) := by
          intro o u
          cases o with
          | none => rfl
          | some d => cases u with
            | none => cases h : bdim x d <;> simp [h]
            | some s => simp [bshapeR]
        have e1 : bshapeR (x :: a) (y :: b) = (bdim x y).bind fun d => (bshapeR a b).map (d :: ·) := rfl
        have e2 : bshapeR (y :: b) (z :: c) = (bdim y z).bind fun d => (bshapeR b c).map (d :: ·) := rfl
        rw [e1, e2, l1, l2, bdim_assoc, ih]

theorem bidxR_bidxR {a b s : List Nat} (h : bshapeR a b = some s) (i : List Nat) :
    bidxR a (bidxR s i) = bidxR a i := by
  induction a generalizing b s i with
  | nil => simp [bidxR]
  | cons x a ih =>
    cases i with
    | nil => cases s <;> simp [bidxR]
    | cons k i =>
      cases b with
      | nil =>
        simp only [bshapeR, Option.some.injEq] at h
        subst h
        have := ih (bshapeR_nil_right a) i
        simp only [bidxR, List.zipWith_cons_cons] at this ⊢
        rw [this]; split_ifs <;> rfl
      | cons y b =>
        simp only [bshapeR, Option.bind_eq_some_iff, Option.map_eq_some_iff] at h
        obtain ⟨d, hd, s', hs, rfl⟩ := h
        have := ih hs i
        simp only [bidxR, List.zipWith_cons_cons] at this ⊢
        rw [this]
        congr 1
        by_cases hx : x = 1
        · simp [hx]
        · rw [bdim_left hd hx]; simp [hx]

theorem bshape_comm (a b : List Nat) : bshape a b = bshape b a := by
  simp [bshape, bshapeR_comm a.reverse]

theorem bshape_self (a : List Nat) : bshape a a = some a := by simp [bshape, bshapeR_self]

theorem bshape_nil_right (a : List Nat) : bshape a [] = some a := by simp [bshape, bshapeR_nil_right]

theorem bshape_nil_left (a : List Nat) : bshape [] a = some a := by rw [bshape_comm, bshape_nil_right]

theorem bshape_assoc (a b c : List Nat) :
    ((bshape a b).bind fun s => bshape s c) = ((bshape b c).bind fun s => bshape a s) := by
  have h := bshapeR_assoc a.reverse b.reverse c.reverse
  have h' := congrArg (Option.map List.reverse) h
  simp only [bshape, Option.bind_map, Function.comp_def, List.reverse_reverse]
  simpa only [Option.map_bind, Function.comp_def] using h'

theorem bidx_bidx {a b s : List Nat} (h : bshape a b = some s) (i : List Nat) :
    bidx a (bidx s i) = bidx a i := by
  obtain ⟨s', hs, rfl⟩ := Option.map_eq_some_iff.1 h
  simp [bidx, bidxR_bidxR hs]

theorem bidx_bidx_right {a b s : List Nat} (h : bshape a b = some s) (i : List Nat) :
    bidx b (bidx s i) = bidx b i := bidx_bidx (bshape_comm a b ▸ h) i

theorem bidx_self {s i : List Nat} (h : InB s i) : bidx s i = i := by
  have key : ∀ {s i : List Nat}, List.Forall₂ (· < ·) i s → bidxR s i = i := by
    intro s i h
    induction h with
    | nil => rfl
    | @cons k d i s hk _ ih =>
      simp only [bidxR, List.zipWith_cons_cons] at ih ⊢
      rw [ih]
      split_ifs with hd
      · congr 1; omega
      · rfl
  unfold bidx
  rw [key (List.forall₂_reverse_iff.2 h), List.reverse_reverse]

theorem bidx_nil (i : List Nat) : bidx [] i = [] := by simp [bidx, bidxR]

/-- The index lies in the array. -/
theorem bidx_inB {a b s i : List Nat} (h : bshape a b = some s) (hi : InB s i) : InB a (bidx a i) := by
  have key : ∀ {a b s i : List Nat}, bshapeR a b = some s → List.Forall₂ (· < ·) i s →
      List.Forall₂ (· < ·) (bidxR a i) a := by
    intro a
    induction a with
    | nil => intro b s i _ _; simp [bidxR]
    | cons x a ih =>
      intro b s i h hi
      cases b with
      | nil =>
        simp only [bshapeR, Option.some.injEq] at h
        subst h
        obtain ⟨k, i', hk, hi', rfl⟩ := List.forall₂_cons_right_iff.1 hi
        have := ih (bshapeR_nil_right a) hi'
        simp only [bidxR, List.zipWith_cons_cons] at this ⊢
        refine List.Forall₂.cons ?_ this
        split_ifs <;> omega
      | cons y b =>
        simp only [bshapeR, Option.bind_eq_some_iff, Option.map_eq_some_iff] at h
        obtain ⟨d, hd, s', hs, rfl⟩ := h
        obtain ⟨k, i', hk, hi', rfl⟩ := List.forall₂_cons_right_iff.1 hi
        have := ih hs hi'
        simp only [bidxR, List.zipWith_cons_cons] at this ⊢
        refine List.Forall₂.cons ?_ this
        by_cases hx : x = 1
        · simp [hx]
        · rw [bdim_left hd hx] at hk; simpa [hx] using hk
  obtain ⟨s', hs, rfl⟩ := Option.map_eq_some_iff.1 h
  have h1 : List.Forall₂ (· < ·) i.reverse s' := by
    have := (List.forall₂_reverse_iff (l₁ := i) (l₂ := s'.reverse) (R := (· < ·))).2 hi
    simpa using this
  have h2 := key hs h1
  unfold InB bidx
  have := (List.forall₂_reverse_iff).2 h2
  simpa using this

/-- The axis of `s` that is the `k`-th from the end, dimension one if there is none. -/
def axisFromEnd (s : List Nat) (k : Nat) : Nat := s.reverse.getD k 1

theorem bshapeR_eq_some {a b s : List Nat} : bshapeR a b = some s ↔
    (∀ k, a.getD k 1 = b.getD k 1 ∨ a.getD k 1 = 1 ∨ b.getD k 1 = 1) ∧
    s.length = max a.length b.length ∧
    ∀ k, s.getD k 1 = if a.getD k 1 = 1 then b.getD k 1 else a.getD k 1 := by
  induction a generalizing b s with
  | nil =>
    simp only [bshapeR, Option.some.injEq, List.getD_nil, true_or, or_true, implies_true,
      true_and, if_true, List.length_nil, Nat.zero_max]
    constructor
    · rintro rfl; simp
    · rintro ⟨h1, h2⟩
      refine (List.ext_getElem h1 fun k hk hk' => ?_).symm
      have := h2 k
      rwa [List.getD_eq_getElem _ _ hk, List.getD_eq_getElem _ _ hk'] at this
  | cons x a ih =>
    cases b with
    | nil =>
      simp only [bshapeR, Option.some.injEq, List.getD_nil, or_true, implies_true, true_and,
        List.length_nil, Nat.max_zero]
      constructor
      · rintro rfl
        refine ⟨rfl, fun k => ?_⟩
        split_ifs with h
        · exact h
        · rfl
      · rintro ⟨h1, h2⟩
        refine (List.ext_getElem h1 fun k hk hk' => ?_).symm
        have := h2 k
        rw [List.getD_eq_getElem _ _ hk, List.getD_eq_getElem _ _ hk'] at this
        rw [this]; split_ifs with h
        · exact h.symm
        · rfl
    | cons y b =>
      simp only [bshapeR, Option.bind_eq_some_iff, Option.map_eq_some_iff, bdim_eq_some]
      constructor
      · rintro ⟨d, ⟨hxy, rfl⟩, s', hs, rfl⟩
        obtain ⟨h1, h2, h3⟩ := ih.1 hs
        refine ⟨fun k => ?_, by simp [h2], fun k => ?_⟩
        · cases k with
          | zero => simpa using hxy
          | succ k => simpa using h1 k
        · cases k with
          | zero => simp
          | succ k => simpa using h3 k
      · rintro ⟨h1, h2, h3⟩
        cases s with
        | nil => simp at h2
        | cons d s' =>
          refine ⟨d, ⟨by simpa using h1 0, by simpa using h3 0⟩, s', ih.2 ⟨fun k => by simpa using h1 (k + 1),
            by simpa using h2, fun k => by simpa using h3 (k + 1)⟩, rfl⟩

/-- Two shapes fit together when on every axis, counted from the end, the dimensions agree or one of
them is one; the result then has the larger dimension. -/
theorem bshape_eq_some {a b s : List Nat} : bshape a b = some s ↔
    (∀ k, axisFromEnd a k = axisFromEnd b k ∨ axisFromEnd a k = 1 ∨ axisFromEnd b k = 1) ∧
    s.length = max a.length b.length ∧
    ∀ k, axisFromEnd s k = if axisFromEnd a k = 1 then axisFromEnd b k else axisFromEnd a k := by
  have : bshape a b = some s ↔ bshapeR a.reverse b.reverse = some s.reverse := by
    unfold bshape
    rw [Option.map_eq_some_iff]
    constructor
    · rintro ⟨s', h, rfl⟩; simpa using h
    · intro h; exact ⟨_, h, by simp⟩
  rw [this, bshapeR_eq_some]
  simp [axisFromEnd]

theorem bshape_eq_none {a b : List Nat} : bshape a b = none ↔
    ∃ k, axisFromEnd a k ≠ axisFromEnd b k ∧ axisFromEnd a k ≠ 1 ∧ axisFromEnd b k ≠ 1 := by
  constructor
  · intro h
    by_contra hc
    push Not at hc
    have key : ∀ a b : List Nat, (∀ k, a.getD k 1 = b.getD k 1 ∨ a.getD k 1 = 1 ∨ b.getD k 1 = 1) →
        ∃ s, bshapeR a b = some s := by
      intro a
      induction a with
      | nil => exact fun b _ => ⟨b, rfl⟩
      | cons x a ih =>
        intro b hb
        cases b with
        | nil => exact ⟨_, rfl⟩
        | cons y b =>
          obtain ⟨s, hs⟩ := ih b fun k => by simpa using hb (k + 1)
          exact ⟨_, by simp only [bshapeR, bdim_eq_some.2 ⟨by simpa using hb 0, rfl⟩, hs]; rfl⟩
    obtain ⟨s, hs⟩ := key a.reverse b.reverse fun k => by
      have := hc k
      simp only [axisFromEnd] at this
      tauto
    simp [bshape, hs] at h
  · rintro ⟨k, h1, h2, h3⟩
    cases h : bshape a b with
    | none => rfl
    | some s =>
      have := (bshape_eq_some.1 h).1 k
      tauto

/-! ### Elementwise operations -/

theorem elementwise_error {S T : Type} {f : R → S → T} {a : NDArray R} {b : NDArray S} {e : PyErr}
    (h : elementwise f a b = .error e) : e = .valueError := by
  unfold elementwise at h; split at h <;> simp_all

theorem elementwise_comm (f : R → R → R) (hf : ∀ x y, f x y = f y x) (a b : NDArray R) :
    elementwise f a b = elementwise f b a := by
  unfold elementwise
  rw [bshape_comm]
  split <;> simp_all

/-- Nested operations, the first argument is itself an operation. -/
theorem elementwise_bind_left {A B C D E : Type} (f : A → B → C) (g : C → D → E) (a : NDArray A) (b : NDArray B) (c : NDArray D) :
    (elementwise f a b >>= fun x => elementwise g x c) =
      match (bshape a.shape b.shape).bind fun s => bshape s c.shape with
      | none => .error .valueError
      | some s => .ok ⟨s, fun i => g (f (a.get (bidx a.shape i)) (b.get (bidx b.shape i))) (c.get (bidx c.shape i))⟩ := by
  unfold elementwise
  cases h : bshape a.shape b.shape with
  | none => rfl
  | some s =>
    simp only [Option.bind_some, bind, Except.bind]
    cases h' : bshape s c.shape with
    | none => rfl
    | some s' => simp only [bidx_bidx h, bidx_bidx_right h]

/-- Nested operations, the second argument is itself an operation. -/
theorem elementwise_bind_right {A B C D E : Type} (f : A → B → C) (g : D → C → E) (a : NDArray A) (b : NDArray B) (c : NDArray D) :
    (elementwise f a b >>= fun x => elementwise g c x) =
      match (bshape a.shape b.shape).bind fun s => bshape c.shape s with
      | none => .error .valueError
      | some s => .ok ⟨s, fun i => g (c.get (bidx c.shape i)) (f (a.get (bidx a.shape i)) (b.get (bidx b.shape i)))⟩ := by
  unfold elementwise
  cases h : bshape a.shape b.shape with
  | none => rfl
  | some s =>
    simp only [Option.bind_some, bind, Except.bind]
    cases h' : bshape c.shape s with
    | none => rfl
    | some s' => simp only [bidx_bidx h, bidx_bidx_right h]

theorem elementwise_assoc (f : R → R → R) (hf : ∀ x y z, f (f x y) z = f x (f y z)) (a b c : NDArray R) :
    (elementwise f a b >>= fun x => elementwise f x c) = (elementwise f b c >>= fun x => elementwise f a x) := by
  rw [elementwise_bind_left, elementwise_bind_right, bshape_assoc]
  simp only [hf]

theorem bshape_distrib (a b c : List Nat) :
    ((bshape a b).bind fun s => (bshape a c).bind fun t => bshape s t) =
      ((bshape b c).bind fun s => bshape a s) := by
  rw [← bshape_assoc]
  cases h : bshape a b with
  | none => rfl
  | some s =>
    simp only [Option.bind_some]
    have h1 := bshape_assoc s a c
    have h2 := bshape_assoc b a a
    rw [bshape_self, bshape_comm b a, h] at h2
    simp only [Option.bind_some] at h2
    rw [← h1, h2, bshape_comm b a, h]
    rfl

end TN.Bcast
