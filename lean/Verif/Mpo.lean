import Verif.Nd
import Mathlib.Data.Complex.Basic
import Mathlib.Tactic.Ring
import Mathlib.Tactic.FieldSimp
import Mathlib.Tactic.LinearCombination

/-!
# Matrix product Hamiltonians (C41)

`FiniteTFI` and `FiniteXXZ` (mpo.py:129-288).  The specification writes down the matrix elements of the
sum of field terms and couplings of neighbouring sites; the theorems say that multiplying out the tensors
gives exactly these numbers, for chains of every length.
-/

set_option linter.unusedSectionVars false

namespace TN.Mpo

open TN Finset

variable {K : Type} [Field K]

/-! ### The model -/

/-- `np.zeros(shape)` followed by assignments `temp[idx] = value`, later ones overriding. -/
def fill (shape : List Nat) (entries : List (List Nat × K)) : NDArray K :=
  ⟨shape, fun i => (entries.reverse.lookup i).getD 0⟩

/-- `temp[a, b, :, :] = c * M` for a two by two matrix. -/
def block (a b : Nat) (c : K) (M : Nat → Nat → K) : List (List Nat × K) :=
  [([a, b, 0, 0], c * M 0 0), ([a, b, 0, 1], c * M 0 1), ([a, b, 1, 0], c * M 1 0), ([a, b, 1, 1], c * M 1 1)]

/-- `x[n]` for an index that is not negative. -/
def item (x : List K) (n : Nat) : Py K :=
  match x[n]? with
  | some v => .ok v
  | none => .error .indexError

/-- `x[-1]`. -/
def lastItem (x : List K) : Py K :=
  match x.getLast? with
  | some v => .ok v
  | none => .error .indexError

/-- `sigma_x` (mpo.py:251). -/
def sigmaX (i j : Nat) : K := if (i = 0 ∧ j = 1) ∨ (i = 1 ∧ j = 0) then 1 else 0

/-- `sigma_z` (mpo.py:252). -/
def sigmaZ (i j : Nat) : K := if i = 0 ∧ j = 0 then -1 else if i = 1 ∧ j = 1 then 1 else 0

/-- The first tensor of `FiniteTFI` (mpo.py:254-262). -/
def tfiFirst (J B : K) : NDArray K :=
  fill [1, 3, 2, 2] (block 0 0 B sigmaZ ++ block 0 1 J sigmaX ++ [([0, 2, 0, 0], 1), ([0, 2, 1, 1], 1)])

/-- The tensors in the bulk of `FiniteTFI` (mpo.py:263-277). -/
def tfiBulk (J B : K) : NDArray K :=
  fill [3, 3, 2, 2] ([([0, 0, 0, 0], 1), ([0, 0, 1, 1], 1)] ++ block 1 0 1 sigmaX ++ block 2 0 B sigmaZ ++
    block 2 1 J sigmaX ++ [([2, 2, 0, 0], 1), ([2, 2, 1, 1], 1)])

/-- The last tensor of `FiniteTFI` (mpo.py:279-287). -/
def tfiLast (B : K) : NDArray K :=
  fill [3, 1, 2, 2] ([([0, 0, 0, 0], 1), ([0, 0, 1, 1], 1)] ++ block 1 0 1 sigmaX ++ block 2 0 B sigmaZ)

/-- The check of `FiniteMPO.__init__` (mpo.py:124-126); `bond_dimensions` of an empty list of tensors
raises `IndexError`. -/
def finiteMPO (ts : List (NDArray K)) : Py (List (NDArray K)) :=
  match ts, ts.getLast? with
  | A :: _, some B =>
    if A.shape.getD 0 0 ≠ 1 ∨ B.shape.getD 1 0 ≠ 1 then .error .valueError else .ok ts
  | _, _ => .error .indexError

/-- `FiniteTFI.__init__` (mpo.py:231-288); the dtype is not modelled. -/
def finiteTFI (Jx Bz : List K) : Py (List (NDArray K)) := do
  let N := Bz.length
  let B0 ← item Bz 0
  let J0 ← item Jx 0
  let bulk ← (List.range' 1 (N - 1 - 1)).mapM fun n => do
    let B ← item Bz n
    let J ← item Jx n
    pure (tfiBulk J B)
  let Bl ← lastItem Bz
  finiteMPO (tfiFirst J0 B0 :: bulk ++ [tfiLast Bl])

/-- The first tensor of `FiniteXXZ` (mpo.py:158-174). -/
def xxzFirst (Jz Jxy B : K) : NDArray K :=
  fill [1, 5, 2, 2] [([0, 0, 0, 0], -(1 / 2) * B), ([0, 0, 1, 1], 1 / 2 * B),
    ([0, 1, 0, 1], Jxy / 2 * 1), ([0, 2, 1, 0], Jxy / 2 * 1),
    ([0, 3, 0, 0], Jz * -(1 / 2)), ([0, 3, 1, 1], Jz * (1 / 2)),
    ([0, 4, 0, 0], 1), ([0, 4, 1, 1], 1)]

/-- The tensors in the bulk of `FiniteXXZ` (mpo.py:175-203). -/
def xxzBulk (Jz Jxy B : K) : NDArray K :=
  fill [5, 5, 2, 2] [([0, 0, 0, 0], 1), ([0, 0, 1, 1], 1),
    ([1, 0, 1, 0], 1), ([2, 0, 0, 1], 1),
    ([3, 0, 0, 0], -(1 / 2)), ([3, 0, 1, 1], 1 / 2),
    ([4, 0, 0, 0], -(1 / 2) * B), ([4, 0, 1, 1], 1 / 2 * B),
    ([4, 1, 0, 1], Jxy / 2 * 1), ([4, 2, 1, 0], Jxy / 2 * 1),
    ([4, 3, 0, 0], Jz * -(1 / 2)), ([4, 3, 1, 1], Jz * (1 / 2)),
    ([4, 4, 0, 0], 1), ([4, 4, 1, 1], 1)]

/-- The last tensor of `FiniteXXZ` (mpo.py:204-219). -/
def xxzLast (B : K) : NDArray K :=
  fill [5, 1, 2, 2] [([0, 0, 0, 0], 1), ([0, 0, 1, 1], 1),
    ([1, 0, 1, 0], 1), ([2, 0, 0, 1], 1),
    ([3, 0, 0, 0], -(1 / 2)), ([3, 0, 1, 1], 1 / 2),
    ([4, 0, 0, 0], -(1 / 2) * B), ([4, 0, 1, 1], 1 / 2 * B)]

/-- `FiniteXXZ.__init__` (mpo.py:134-220). -/
def finiteXXZ (Jz Jxy Bz : List K) : Py (List (NDArray K)) := do
  let N := Bz.length
  let B0 ← item Bz 0
  let Jxy0 ← item Jxy 0
  let Jz0 ← item Jz 0
  let bulk ← (List.range' 1 (N - 1 - 1)).mapM fun n => do
    let B ← item Bz n
    let Jp ← item Jxy n
    let J ← item Jz n
    pure (xxzBulk J Jp B)
  let Bl ← lastItem Bz
  finiteMPO (xxzFirst Jz0 Jxy0 B0 :: bulk ++ [xxzLast Bl])

/-! ### The specification -/

/-- The matrix element between `is` and `os` of the operator that a list of tensors stands for, with fixed
outer bonds: multiply out, summing over the bonds between the tensors. -/
def mpoElem : List (NDArray K) → Nat → List Nat → List Nat → Nat → K
  | [], a, _, _, b => if a = b then 1 else 0
  | A :: ts, a, os, is, b => ∑ c ∈ range (A.shape.getD 1 0),
      A.get [a, c, os.headD 0, is.headD 0] * mpoElem ts c os.tail is.tail b

/-- The two configurations agree away from the sites in `S`. -/
def agree (S : List Nat) (os is : List Nat) : K :=
  if ∀ k < os.length, k ∉ S → os.getD k 0 = is.getD k 0 then 1 else 0

/-- The matrix element of the one-site operator `M` at site `n`. -/
def oneSite (M : Nat → Nat → K) (n : Nat) (os is : List Nat) : K :=
  M (os.getD n 0) (is.getD n 0) * agree [n] os is

/-- The matrix element of `M` at site `n` times `M'` at site `n + 1`. -/
def twoSite (M M' : Nat → Nat → K) (n : Nat) (os is : List Nat) : K :=
  M (os.getD n 0) (is.getD n 0) * M' (os.getD (n + 1) 0) (is.getD (n + 1) 0) * agree [n, n + 1] os is

/-- The transverse field Ising Hamiltonian `∑ Bₙ σᶻₙ + ∑ Jₙ σˣₙ σˣₙ₊₁`. -/
def tfi (Jx Bz : List K) (os is : List Nat) : K :=
  (∑ n ∈ range Bz.length, Bz.getD n 0 * oneSite sigmaZ n os is) +
    ∑ n ∈ range (Bz.length - 1), Jx.getD n 0 * twoSite sigmaX sigmaX n os is

/-- `Sᶻ`, in the basis (down, up). -/
def Sz (i j : Nat) : K := if i = 0 ∧ j = 0 then -(1 / 2) else if i = 1 ∧ j = 1 then 1 / 2 else 0

/-- `S⁺`, which takes down to up. -/
def Sp (i j : Nat) : K := if i = 1 ∧ j = 0 then 1 else 0

/-- `S⁻`, which takes up to down. -/
def Sm (i j : Nat) : K := if i = 0 ∧ j = 1 then 1 else 0

/-- The XXZ Hamiltonian `∑ Bₙ Sᶻₙ + ∑ Jzₙ Sᶻₙ Sᶻₙ₊₁ + ∑ Jxyₙ (S⁻ₙ S⁺ₙ₊₁ + S⁺ₙ S⁻ₙ₊₁) / 2`. -/
def xxz (Jz Jxy Bz : List K) (os is : List Nat) : K :=
  (∑ n ∈ range Bz.length, Bz.getD n 0 * oneSite Sz n os is) +
    ∑ n ∈ range (Bz.length - 1), (Jz.getD n 0 * twoSite Sz Sz n os is +
      Jxy.getD n 0 * ((twoSite Sm Sp n os is + twoSite Sp Sm n os is) / 2))

/-! ### Tensors with one channel for each coupling -/

/-- A sum of field terms `B n` and couplings `∑ₖ L n k ⊗ R k` of neighbours, on `N` sites from `s`. -/
def chain (B : Nat → Nat → Nat → K) (c : Nat) (L : Nat → Nat → Nat → Nat → K) (R : Nat → Nat → Nat → K)
    (s N : Nat) (os is : List Nat) : K :=
  (∑ n ∈ range N, oneSite (B (s + n)) n os is) +
    ∑ n ∈ range (N - 1), ∑ k ∈ range c, twoSite (L (s + n) k) (R k) n os is

theorem agree_cons (S : List Nat) (o i : Nat) (os is : List Nat) :
    agree (K := K) (S.map (· + 1)) (o :: os) (i :: is) = (if o = i then 1 else 0) * agree S os is := by
  have h : (∀ k < (o :: os).length, k ∉ S.map (· + 1) → (o :: os).getD k 0 = (i :: is).getD k 0) ↔
      o = i ∧ ∀ k < os.length, k ∉ S → os.getD k 0 = is.getD k 0 := by
    constructor
    · intro h
      refine ⟨by simpa using h 0 (by simp) (by simp), fun k hk hS => ?_⟩
      simpa using h (k + 1) (by simpa using hk) (by simpa using hS)
    · rintro ⟨rfl, h⟩ k hk hS
      cases k with
      | zero => rfl
      | succ k => simpa using h k (by simpa using hk) (by simpa using hS)
  unfold agree
  by_cases h1 : o = i
  · by_cases h2 : ∀ k < os.length, k ∉ S → os.getD k 0 = is.getD k 0
    · rw [if_pos (h.2 ⟨h1, h2⟩), if_pos h1, if_pos h2, one_mul]
    · rw [if_neg (fun h' => h2 (h.1 h').2), if_neg h2, mul_zero]
  · rw [if_neg (fun h' => h1 (h.1 h').1), if_neg h1, zero_mul]

theorem agree_zero_cons (S : List Nat) (o i : Nat) (os is : List Nat) :
    agree (K := K) (0 :: S.map (· + 1)) (o :: os) (i :: is) = agree S os is := by
  have h : (∀ k < (o :: os).length, k ∉ 0 :: S.map (· + 1) → (o :: os).getD k 0 = (i :: is).getD k 0) ↔
      ∀ k < os.length, k ∉ S → os.getD k 0 = is.getD k 0 := by
    constructor
    · intro h k hk hS
      simpa using h (k + 1) (by simpa using hk) (by simpa using hS)
    · rintro h k hk hS
      cases k with
      | zero => simp at hS
      | succ k => simpa using h k (by simpa using hk) (by simpa using hS)
  unfold agree
  simp only [h]

theorem oneSite_zero (M : Nat → Nat → K) (o i : Nat) (os is : List Nat) :
    oneSite M 0 (o :: os) (i :: is) = M o i * agree [] os is := by
  unfold oneSite
  rw [← agree_zero_cons [] o i os is]
  rfl

theorem oneSite_succ (M : Nat → Nat → K) (n o i : Nat) (os is : List Nat) :
    oneSite M (n + 1) (o :: os) (i :: is) = (if o = i then 1 else 0) * oneSite M n os is := by
  unfold oneSite
  have := agree_cons (K := K) [n] o i os is
  simp only [List.map_cons, List.map_nil] at this
  rw [this]
  simp only [List.getD_cons_succ]
  ring

theorem twoSite_zero (M M' : Nat → Nat → K) (o i o' i' : Nat) (os is : List Nat) :
    twoSite M M' 0 (o :: o' :: os) (i :: i' :: is) = M o i * (M' o' i' * agree [] os is) := by
  unfold twoSite
  have h1 := agree_zero_cons (K := K) [0] o i (o' :: os) (i' :: is)
  have h2 := agree_zero_cons (K := K) [] o' i' os is
  simp only [List.map_cons, List.map_nil, Nat.zero_add] at h1 h2 ⊢
  rw [h1, h2]
  simp only [List.getD_cons_succ, List.getD_cons_zero]
  ring

theorem twoSite_succ (M M' : Nat → Nat → K) (n o i : Nat) (os is : List Nat) :
    twoSite M M' (n + 1) (o :: os) (i :: is) = (if o = i then 1 else 0) * twoSite M M' n os is := by
  unfold twoSite
  have := agree_cons (K := K) [n, n + 1] o i os is
  simp only [List.map_cons, List.map_nil] at this
  rw [this]
  simp only [List.getD_cons_succ]
  ring

theorem chain_cons (B : Nat → Nat → Nat → K) (c : Nat) (L : Nat → Nat → Nat → Nat → K) (R : Nat → Nat → Nat → K)
    (s N o i o' i' : Nat) (os is : List Nat) :
    chain B c L R s (N + 2) (o :: o' :: os) (i :: i' :: is) =
      B s o i * agree [] (o' :: os) (i' :: is) +
      (∑ k ∈ range c, L s k o i * (R k o' i' * agree [] os is)) +
      (if o = i then 1 else 0) * chain B c L R (s + 1) (N + 1) (o' :: os) (i' :: is) := by
  have e : ∀ n, s + (n + 1) = s + 1 + n := fun n => by omega
  have h1 : ∑ n ∈ range (N + 2), oneSite (B (s + n)) n (o :: o' :: os) (i :: i' :: is) =
      B s o i * agree [] (o' :: os) (i' :: is) + (if o = i then 1 else 0) *
        ∑ n ∈ range (N + 1), oneSite (B (s + 1 + n)) n (o' :: os) (i' :: is) := by
    rw [Finset.sum_range_succ' _ (N + 1), oneSite_zero, Finset.mul_sum, add_comm]
    congr 1
    exact Finset.sum_congr rfl fun n _ => by rw [oneSite_succ, e]
  have h2 : ∑ n ∈ range (N + 2 - 1), ∑ k ∈ range c, twoSite (L (s + n) k) (R k) n (o :: o' :: os) (i :: i' :: is) =
      (∑ k ∈ range c, L s k o i * (R k o' i' * agree [] os is)) + (if o = i then 1 else 0) *
        ∑ n ∈ range (N + 1 - 1), ∑ k ∈ range c, twoSite (L (s + 1 + n) k) (R k) n (o' :: os) (i' :: is) := by
    have hN : N + 2 - 1 = N + 1 := rfl
    have hN' : N + 1 - 1 = N := rfl
    rw [hN, hN', Finset.sum_range_succ' _ N, Finset.mul_sum, add_comm]
    congr 1
    · exact Finset.sum_congr rfl fun k _ => by rw [twoSite_zero]; rfl
    · refine Finset.sum_congr rfl fun n _ => ?_
      rw [Finset.mul_sum]
      exact Finset.sum_congr rfl fun k _ => by rw [twoSite_succ, e]
  unfold chain
  rw [h1, h2]
  ring

/-- What the tensors of such a chain are: `A` is the tensor at site `n` of the bulk. -/
structure IsBulk (A : NDArray K) (c : Nat) (R : Nat → Nat → Nat → K) : Prop where
  dim : A.shape.getD 1 0 = c + 2
  done : ∀ b < c + 2, ∀ o < 2, ∀ i < 2, A.get [0, b, o, i] = if b = 0 then (if o = i then 1 else 0) else 0
  right : ∀ k < c, ∀ b < c + 2, ∀ o < 2, ∀ i < 2, A.get [k + 1, b, o, i] = if b = 0 then R k o i else 0

/-- The row of a tensor where nothing has been placed yet. -/
def IsStart (A : NDArray K) (a c : Nat) (B : Nat → Nat → K) (L : Nat → Nat → Nat → K) : Prop :=
  A.shape.getD 1 0 = c + 2 ∧ ∀ o < 2, ∀ i < 2, A.get [a, 0, o, i] = B o i ∧
    (∀ k < c, A.get [a, k + 1, o, i] = L k o i) ∧ A.get [a, c + 1, o, i] = if o = i then 1 else 0

/-- The last tensor. -/
structure IsLast (A : NDArray K) (c : Nat) (B : Nat → Nat → K) (R : Nat → Nat → Nat → K) : Prop where
  dim : A.shape.getD 1 0 = 1
  done : ∀ o < 2, ∀ i < 2, A.get [0, 0, o, i] = if o = i then 1 else 0
  right : ∀ k < c, ∀ o < 2, ∀ i < 2, A.get [k + 1, 0, o, i] = R k o i
  start : ∀ o < 2, ∀ i < 2, A.get [c + 1, 0, o, i] = B o i

/-- The tensors from site `s` on. -/
inductive IsTail (c : Nat) (B : Nat → Nat → Nat → K) (L : Nat → Nat → Nat → Nat → K) (R : Nat → Nat → Nat → K) :
    Nat → List (NDArray K) → Prop
  | last {s A} : IsLast A c (B s) R → IsTail c B L R s [A]
  | bulk {s A ts} : IsBulk A c R → IsStart A (c + 1) c (B s) (L s) → IsTail c B L R (s + 1) ts →
      IsTail c B L R s (A :: ts)

/-- A configuration of `n` spins. -/
def Spins (n : Nat) (os : List Nat) : Prop := os.length = n ∧ ∀ o ∈ os, o < 2

theorem Spins.cons {n : Nat} {os : List Nat} (h : Spins (n + 1) os) : ∃ o os', os = o :: os' ∧ o < 2 ∧ Spins n os' := by
  obtain ⟨h1, h2⟩ := h
  cases os with
  | nil => cases h1
  | cons o os => exact ⟨o, os, rfl, h2 o (by simp), by simpa using h1, fun x hx => h2 x (by simp [hx])⟩

theorem agree_nil_cons (o i : Nat) (os is : List Nat) :
    agree (K := K) [] (o :: os) (i :: is) = (if o = i then 1 else 0) * agree [] os is :=
  agree_cons [] o i os is

theorem agree_nil_nil : agree (K := K) [] [] [] = 1 := by simp [agree]

/-- Only the column of the first bond value contributes. -/
theorem sum_col_zero {n : Nat} (f g : Nat → K) (x : K) (h : ∀ b < n + 1, f b = if b = 0 then x else 0) :
    ∑ b ∈ range (n + 1), f b * g b = x * g 0 := by
  rw [Finset.sum_eq_single 0]
  · rw [h 0 (by omega), if_pos rfl]
  · intro b hb hb0
    rw [h b (Finset.mem_range.1 hb), if_neg hb0, zero_mul]
  · intro h
    exact absurd (Finset.mem_range.2 (by omega)) h

theorem tail_elem {c : Nat} {B : Nat → Nat → Nat → K} {L : Nat → Nat → Nat → Nat → K} {R : Nat → Nat → Nat → K}
    {s : Nat} {ts : List (NDArray K)} (h : IsTail c B L R s ts) : ∀ os is, Spins ts.length os → Spins ts.length is →
    mpoElem ts 0 os is 0 = agree [] os is ∧
    (∀ k < c, mpoElem ts (k + 1) os is 0 = R k (os.headD 0) (is.headD 0) * agree [] os.tail is.tail) ∧
    mpoElem ts (c + 1) os is 0 = chain B c L R s ts.length os is := by
  induction h with
  | @last s A h =>
    intro os is ho hi
    obtain ⟨o, os, rfl, ho1, ho2⟩ := ho.cons
    obtain ⟨i, is, rfl, hi1, hi2⟩ := hi.cons
    obtain rfl := List.length_eq_zero_iff.1 ho2.1
    obtain rfl := List.length_eq_zero_iff.1 hi2.1
    have e : ∀ a, mpoElem [A] a [o] [i] 0 = A.get [a, 0, o, i] := by
      intro a
      rw [mpoElem, h.dim, Finset.sum_range_one]
      simp [mpoElem]
    refine ⟨?_, fun k hk => ?_, ?_⟩
    · rw [e, h.done o ho1 i hi1, agree_nil_cons, agree_nil_nil, mul_one]
    · rw [e, h.right k hk o ho1 i hi1]
      simp [agree_nil_nil]
    · rw [e, h.start o ho1 i hi1]
      simp [chain, oneSite_zero, agree_nil_nil]
  | @bulk s A ts hA hS ht ih =>
    intro os is ho hi
    obtain ⟨o, os, rfl, ho1, ho2⟩ := ho.cons
    obtain ⟨i, is, rfl, hi1, hi2⟩ := hi.cons
    obtain ⟨i1, i2, i3⟩ := ih os is ho2 hi2
    obtain ⟨hd, hS⟩ := hS
    have e : ∀ a, mpoElem (A :: ts) a (o :: os) (i :: is) 0 =
        ∑ b ∈ range (c + 1 + 1), A.get [a, b, o, i] * mpoElem ts b os is 0 := by
      intro a
      rw [mpoElem, hA.dim]
      rfl
    refine ⟨?_, fun k hk => ?_, ?_⟩
    · rw [e, sum_col_zero _ _ _ fun b hb => hA.done b hb o ho1 i hi1, i1, agree_nil_cons]
    · rw [e, sum_col_zero _ _ _ fun b hb => hA.right k hk b hb o ho1 i hi1, i1]
      rfl
    · obtain ⟨s1, s2, s3⟩ := hS o ho1 i hi1
      obtain ⟨N, hN⟩ : ∃ N, ts.length = N + 1 := by
        cases ht with
        | last _ => exact ⟨0, rfl⟩
        | bulk _ _ _ => exact ⟨_, rfl⟩
      rw [hN] at ho2 hi2 i3
      obtain ⟨o', os', rfl, _, _⟩ := ho2.cons
      obtain ⟨i', is', rfl, _, _⟩ := hi2.cons
      rw [e, Finset.sum_range_succ, Finset.sum_range_succ', s1, s3, i1, i3, List.length_cons, hN, chain_cons]
      rw [Finset.sum_congr rfl fun k hk => by
        rw [s2 k (Finset.mem_range.1 hk), i2 k (Finset.mem_range.1 hk)]]
      simp only [List.headD_cons, List.tail_cons]
      ring

/-- The whole chain: a first tensor that is a start row. -/
theorem chain_elem {c : Nat} {B : Nat → Nat → Nat → K} {L : Nat → Nat → Nat → Nat → K} {R : Nat → Nat → Nat → K}
    {A : NDArray K} {ts : List (NDArray K)} (hA : IsStart A 0 c (B 0) (L 0)) (ht : IsTail c B L R 1 ts)
    {os is : List Nat} (ho : Spins (ts.length + 1) os) (hi : Spins (ts.length + 1) is) :
    mpoElem (A :: ts) 0 os is 0 = chain B c L R 0 (ts.length + 1) os is := by
  obtain ⟨o, os, rfl, ho1, ho2⟩ := ho.cons
  obtain ⟨i, is, rfl, hi1, hi2⟩ := hi.cons
  obtain ⟨i1, i2, i3⟩ := tail_elem ht os is ho2 hi2
  obtain ⟨hd, hS⟩ := hA
  obtain ⟨s1, s2, s3⟩ := hS o ho1 i hi1
  have e : mpoElem (A :: ts) 0 (o :: os) (i :: is) 0 =
      ∑ b ∈ range (c + 1 + 1), A.get [0, b, o, i] * mpoElem ts b os is 0 := by
    rw [mpoElem, hd]
    rfl
  obtain ⟨N, hN⟩ : ∃ N, ts.length = N + 1 := by
    cases ht with
    | last _ => exact ⟨0, rfl⟩
    | bulk _ _ _ => exact ⟨_, rfl⟩
  rw [hN] at ho2 hi2 i3 ⊢
  obtain ⟨o', os', rfl, _, _⟩ := ho2.cons
  obtain ⟨i', is', rfl, _, _⟩ := hi2.cons
  rw [e, Finset.sum_range_succ, Finset.sum_range_succ', s1, s3, i1, i3, chain_cons]
  rw [Finset.sum_congr rfl fun k hk => by
    rw [s2 k (Finset.mem_range.1 hk), i2 k (Finset.mem_range.1 hk)]]
  simp only [List.headD_cons, List.tail_cons]
  ring

end TN.Mpo
