import Verif.MpoProps

/-!
# Free fermions on a grid (C66)

`FiniteFreeFermion2D` (mpo.py:291-387).  The specification writes down creation and annihilation
operators on occupation numbers, with the sign that makes them anticommute, and sums their products over
the bonds of the grid.
-/

set_option linter.unusedSectionVars false

namespace TN.Mpo

open TN Finset

variable {K : Type} [Field K]

/-! ### The model -/

/-- `mpo_matrix[a, b, :, :] = M`. -/
def put (a b : Nat) (M : Nat → Nat → K) (A : NDArray K) : NDArray K :=
  ⟨A.shape, fun i => match i with
    | [x, y, o, j] => if x = a ∧ y = b then M o j else A.get [x, y, o, j]
    | _ => A.get i⟩

/-- `np.zeros` (mpo.py:337). -/
def zeros (shape : List Nat) : NDArray K := ⟨shape, fun _ => 0⟩

/-- `eye` (mpo.py:330). -/
def eye2 (o i : Nat) : K := if o = i then 1 else 0

/-- `c` (mpo.py:331). -/
def low (o i : Nat) : K := if o = 0 ∧ i = 1 then 1 else 0

/-- `cdag` (mpo.py:334). -/
def raise (o i : Nat) : K := if o = 1 ∧ i = 0 then 1 else 0

/-- `particle_number` (mpo.py:332). -/
def number (o i : Nat) : K := if o = 1 ∧ i = 1 then 1 else 0

/-- `sigma_z` (mpo.py:333). -/
def parity (o i : Nat) : K := if o = 0 ∧ i = 0 then 1 else if o = 1 ∧ i = 1 then -1 else 0

/-- The scalar multiple of a matrix. -/
def scaled (x : K) (M : Nat → Nat → K) (o i : Nat) : K := x * M o i

/-- The six assignments to the row `a` of a tensor (mpo.py:338-345 and 371-378). -/
def ffRow (a N1 : Nat) (t1 t2 v : K) (A : NDArray K) : NDArray K :=
  put a (2 * N1 + 1) eye2 <| put a (2 * N1) (scaled t2 low) <| put a (N1 + 1) (scaled t1 low) <|
    put a N1 (scaled t2 raise) <| put a 1 (scaled t1 raise) <| put a 0 (scaled v number) A

/-- The first tensor (mpo.py:336-346). -/
def ffFirst (N1 : Nat) (t1 t2 v : K) : NDArray K :=
  ffRow 0 N1 t1 t2 v (zeros [1, 2 * N1 + 2, 2, 2])

/-- The tensor at site `n` (mpo.py:349-379). -/
def ffBulk (N1 N2 : Nat) (t1 t2 v : K) (n : Nat) : NDArray K :=
  let t1' := if (n + 1) % N1 = 0 then 0 else t1
  let t2' := if n < N1 * (N2 - 1) then t2 else 0
  let A := put 1 0 low (put 0 0 eye2 (zeros [2 * N1 + 2, 2 * N1 + 2, 2, 2]))
  let A := (List.range' 2 (N1 + 1 - 2)).foldl (fun A n1 => put n1 (n1 - 1) parity A) A
  let A := put (N1 + 1) 0 raise A
  let A := (List.range' (N1 + 2) (2 * N1 + 1 - (N1 + 2))).foldl (fun A n1 => put n1 (n1 - 1) parity A) A
  ffRow (2 * N1 + 1) N1 t1' t2' v A

/-- The last tensor (mpo.py:381-386). -/
def ffLast (N1 : Nat) (v : K) : NDArray K :=
  put (2 * N1 + 1) 0 (scaled v number) <| put (N1 + 1) 0 raise <| put 1 0 low <| put 0 0 eye2
    (zeros [2 * N1 + 2, 1, 2, 2])

/-- `FiniteFreeFermion2D.__init__` (mpo.py:296-387); the dtype is not modelled, and `N1` is positive (for
`N1 = 0` the assignments to columns that do not exist raise). -/
def freeFermion2D (t1 t2 v : K) (N1 N2 : Nat) : Py (List (NDArray K)) :=
  finiteMPO (ffFirst N1 t1 t2 v :: (List.range' 1 (N1 * N2 - 1 - 1)).map (ffBulk N1 N2 t1 t2 v) ++ [ffLast N1 v])

/-! ### The specification -/

/-- The matrix element between `is` and `os` of the operator that removes the fermion at `n`; fermions at
smaller sites give a sign each. -/
def annihilate (n : Nat) (os is : List Nat) : K :=
  if is[n]? = some 1 ∧ os = is.set n 0 then (-1) ^ (is.take n).sum else 0

/-- The matrix element of the operator that adds a fermion at `n`. -/
def create (n : Nat) (os is : List Nat) : K :=
  if is[n]? = some 0 ∧ os = is.set n 1 then (-1) ^ (is.take n).sum else 0

/-- The matrix element of the product of the operators that remove a fermion at `n` and add one at `m`, on
`N` sites. -/
def hop (N m n : Nat) (os is : List Nat) : K :=
  sumIdx (List.replicate N 2) fun ms => create m os ms * annihilate n ms is

/-- Hopping between two sites, both ways. -/
def bond (N m n : Nat) (os is : List Nat) : K := hop N m n os is + hop N n m os is

/-- The number of the site in row `x` and column `y`. -/
def gridSite (N1 x y : Nat) : Nat := N1 * y + x

/-- Fermions on the grid: hopping `t1` between vertical neighbours and `t2` between horizontal ones, and a
potential `v`. -/
def fermions2D (t1 t2 v : K) (N1 N2 : Nat) (os is : List Nat) : K :=
  t1 * (∑ y ∈ range N2, ∑ x ∈ range (N1 - 1), bond (N1 * N2) (gridSite N1 x y) (gridSite N1 (x + 1) y) os is) +
  t2 * (∑ y ∈ range (N2 - 1), ∑ x ∈ range N1, bond (N1 * N2) (gridSite N1 x y) (gridSite N1 x (y + 1)) os is) +
  v * (∑ y ∈ range N2, ∑ x ∈ range N1, hop (N1 * N2) (gridSite N1 x y) (gridSite N1 x y) os is)

/-! ### Entries of the tensors -/

theorem put_get (a b : Nat) (M : Nat → Nat → K) (A : NDArray K) (x y o i : Nat) :
    (put a b M A).get [x, y, o, i] = if x = a ∧ y = b then M o i else A.get [x, y, o, i] := rfl

theorem put_shape (a b : Nat) (M : Nat → Nat → K) (A : NDArray K) : (put a b M A).shape = A.shape := rfl

theorem puts_get (M : Nat → Nat → K) (x y o i : Nat) : ∀ (m s : Nat) (A : NDArray K), 1 ≤ s →
    ((List.range' s m).foldl (fun A n1 => put n1 (n1 - 1) M A) A).get [x, y, o, i] =
      if s ≤ x ∧ x < s + m ∧ y + 1 = x then M o i else A.get [x, y, o, i]
  | 0, s, A, _ => by
    rw [List.range'_zero, List.foldl_nil, if_neg (by omega)]
  | m + 1, s, A, hs => by
    rw [List.range'_succ, List.foldl_cons, puts_get M x y o i m (s + 1) _ (by omega), put_get]
    by_cases h1 : s + 1 ≤ x ∧ x < s + 1 + m ∧ y + 1 = x
    · rw [if_pos h1, if_pos (by omega)]
    · rw [if_neg h1]
      by_cases h2 : x = s ∧ y = s - 1
      · rw [if_pos h2, if_pos (by omega)]
      · rw [if_neg h2, if_neg (by omega)]

theorem puts_shape (M : Nat → Nat → K) : ∀ (l : List Nat) (A : NDArray K),
    (l.foldl (fun A n1 => put n1 (n1 - 1) M A) A).shape = A.shape
  | [], _ => rfl
  | x :: l, A => by rw [List.foldl_cons, puts_shape M l, put_shape]

/-- The row where nothing has been placed yet. -/
theorem ffRow_get {L : Nat} (hL : 0 < L) {t1 t1' : K} (ht : t1' = if L = 1 then 0 else t1) (t2 v : K) {a : Nat}
    {A : NDArray K} (hA : ∀ b o i, A.get [a, b, o, i] = 0) (b o i : Nat) :
    (ffRow a L t1 t2 v A).get [a, b, o, i] = (if b = 0 then v * number o i else 0) +
      (if b = 1 then t1' * raise o i else 0) + (if b = L then t2 * raise o i else 0) +
      (if b = L + 1 then t1' * low o i else 0) + (if b = 2 * L then t2 * low o i else 0) +
      (if b = 2 * L + 1 then eye2 o i else 0) := by
  unfold ffRow
  simp only [put_get, true_and, hA, scaled]
  rcases Nat.lt_or_ge 1 L with h | h
  · rw [if_neg (by omega)] at ht
    subst ht
    by_cases h5 : b = 2 * L + 1
    · subst h5
      simp [show ¬ 2 * L + 1 = L by omega, show ¬ L = 0 by omega, show ¬ (2 * L = L) by omega]
    · by_cases h4 : b = 2 * L
      · subst h4
        simp [show ¬ 2 * L = L by omega, show ¬ L = 0 by omega, show ¬ (2 * L = L + 1) by omega, show ¬ (2 * L = 1) by omega]
      · by_cases h3 : b = L + 1
        · subst h3
          simp [show ¬ L = 0 by omega, show ¬ (L + 1 = 2 * L) by omega, show ¬ (L = 2 * L) by omega]
        · by_cases h2 : b = L
          · subst h2
            simp [show ¬ b = 0 by omega, show ¬ (b = 2 * b + 1) by omega, show ¬ (b = 2 * b) by omega, show ¬ b = 1 by omega]
          · by_cases h1 : b = 1
            · subst h1
              simp [h2, h4, show ¬ L = 0 by omega]
            · simp [h1, h2, h3, h4, h5]
  · obtain rfl : L = 1 := by omega
    rw [if_pos rfl] at ht
    subst ht
    by_cases h3 : b = 3
    · subst h3; simp
    · by_cases h2 : b = 2
      · subst h2; simp
      · by_cases h1 : b = 1
        · subst h1; simp
        · simp [h1, h2, h3]

/-! ### Operators site by site -/

/-- The matrix element of the identity. -/
def same (os is : List Nat) : K := if os = is then 1 else 0

theorem same_cons (o i : Nat) (os is : List Nat) :
    same (K := K) (o :: os) (i :: is) = eye2 o i * same os is := by
  unfold same eye2
  by_cases h : o = i <;> by_cases h' : os = is <;> simp [h, h']

theorem annihilate_zero (o i : Nat) (os is : List Nat) :
    annihilate (K := K) 0 (o :: os) (i :: is) = low o i * same os is := by
  unfold annihilate same low
  by_cases h : o = 0 <;> by_cases h' : os = is <;> by_cases h'' : i = 1 <;> simp [h, h', h'']

theorem create_zero (o i : Nat) (os is : List Nat) :
    create (K := K) 0 (o :: os) (i :: is) = raise o i * same os is := by
  unfold create same raise
  by_cases h : o = 1 <;> by_cases h' : os = is <;> by_cases h'' : i = 0 <;> simp [h, h', h'']

theorem parity_eq {i : Nat} (hi : i < 2) (o : Nat) : parity (K := K) o i = if o = i then (-1) ^ i else 0 := by
  unfold parity
  interval_cases i <;> by_cases h0 : o = 0 <;> by_cases h1 : o = 1 <;> simp_all

theorem annihilate_succ (n : Nat) {o i : Nat} (hi : i < 2) (os is : List Nat) :
    annihilate (K := K) (n + 1) (o :: os) (i :: is) = parity o i * annihilate n os is := by
  unfold annihilate
  rw [parity_eq hi]
  by_cases h : o = i <;> by_cases h' : is[n]? = some 1 <;> by_cases h'' : os = is.set n 0 <;>
    simp [h, h', h'', pow_add]

theorem create_succ (n : Nat) {o i : Nat} (hi : i < 2) (os is : List Nat) :
    create (K := K) (n + 1) (o :: os) (i :: is) = parity o i * create n os is := by
  unfold create
  rw [parity_eq hi]
  by_cases h : o = i <;> by_cases h' : is[n]? = some 0 <;> by_cases h'' : os = is.set n 1 <;>
    simp [h, h', h'', pow_add]

theorem annihilate_past {n : Nat} {is : List Nat} (h : is.length ≤ n) (os : List Nat) :
    annihilate (K := K) n os is = 0 := by
  unfold annihilate
  rw [List.getElem?_eq_none h]
  simp

theorem create_past {n : Nat} {is : List Nat} (h : is.length ≤ n) (os : List Nat) :
    create (K := K) n os is = 0 := by
  unfold create
  rw [List.getElem?_eq_none h]
  simp

theorem sum_same_left : ∀ {N : Nat} {os : List Nat} (_ : Spins N os) (f : List Nat → K),
    sumIdx (List.replicate N 2) (fun ms => same os ms * f ms) = f os
  | 0, os, h, f => by
    obtain rfl : os = [] := List.length_eq_zero_iff.mp h.1
    simp [sumIdx, same]
  | N + 1, os, h, f => by
    obtain ⟨o, os, rfl, ho, h⟩ := h.cons
    rw [List.replicate_succ, sumIdx, Finset.sum_eq_single o]
    · rw [← sum_same_left h fun ms => f (o :: ms)]
      refine sumIdx_congr fun ms _ => ?_
      rw [same_cons]
      simp [eye2]
    · intro j _ hj
      rw [show (fun is => same (o :: os) (j :: is) * f (j :: is)) = fun _ => (0 : K) * 0 from ?_]
      · rw [← sumIdx_mul_left, zero_mul]
      · funext ms
        rw [same_cons]
        simp [eye2, Ne.symm hj]
    · intro hn
      exact absurd (Finset.mem_range.mpr ho) hn

theorem sum_same_right {N : Nat} {is : List Nat} (h : Spins N is) (f : List Nat → K) :
    sumIdx (List.replicate N 2) (fun ms => f ms * same ms is) = f is := by
  rw [← sum_same_left h f]
  refine sumIdx_congr fun ms _ => ?_
  unfold same
  rw [mul_comm]
  simp [eq_comm]

/-! ### Hopping site by site -/

theorem hop_split (N m n o i : Nat) (os is : List Nat) :
    hop (K := K) (N + 1) m n (o :: os) (i :: is) =
      sumIdx (List.replicate N 2) (fun ms => create m (o :: os) (0 :: ms) * annihilate n (0 :: ms) (i :: is)) +
      sumIdx (List.replicate N 2) (fun ms => create m (o :: os) (1 :: ms) * annihilate n (1 :: ms) (i :: is)) := by
  unfold hop
  rw [List.replicate_succ, sumIdx, Finset.sum_range_succ, Finset.sum_range_one]

theorem hop_succ_succ (N m n : Nat) {o i : Nat} (ho : o < 2) (hi : i < 2) (os is : List Nat) :
    hop (K := K) (N + 1) (m + 1) (n + 1) (o :: os) (i :: is) = eye2 o i * hop N m n os is := by
  rw [hop_split]
  simp only [create_succ m (show 0 < 2 by omega), create_succ m (show 1 < 2 by omega), annihilate_succ n hi]
  have e : ∀ x y : K, ∀ ms, x * create m os ms * (y * annihilate n ms is) =
      x * y * (create m os ms * annihilate n ms is) := fun _ _ _ => by ring
  simp only [e, ← sumIdx_mul_left]
  rw [← add_mul]
  unfold hop
  congr 1
  interval_cases o <;> interval_cases i <;> simp [parity, eye2]

theorem hop_zero_succ {N : Nat} (n : Nat) {o i : Nat} (ho : o < 2) (hi : i < 2) {os : List Nat} (hos : Spins N os)
    (is : List Nat) :
    hop (K := K) (N + 1) 0 (n + 1) (o :: os) (i :: is) = raise o i * annihilate n os is := by
  rw [hop_split]
  simp only [create_zero, annihilate_succ n hi]
  have e : ∀ x y : K, ∀ ms, x * same os ms * (y * annihilate n ms is) =
      x * y * (same os ms * annihilate n ms is) := fun _ _ _ => by ring
  simp only [e, ← sumIdx_mul_left]
  rw [← add_mul, sum_same_left hos fun ms => annihilate n ms is]
  congr 1
  interval_cases o <;> interval_cases i <;> simp [parity, raise]

theorem hop_succ_zero {N : Nat} (m : Nat) {o i : Nat} (ho : o < 2) (hi : i < 2) (os : List Nat) {is : List Nat}
    (his : Spins N is) :
    hop (K := K) (N + 1) (m + 1) 0 (o :: os) (i :: is) = low o i * create m os is := by
  rw [hop_split]
  simp only [create_succ m (show 0 < 2 by omega), create_succ m (show 1 < 2 by omega), annihilate_zero]
  have e : ∀ x y : K, ∀ ms, x * create m os ms * (y * same ms is) =
      x * y * (create m os ms * same ms is) := fun _ _ _ => by ring
  simp only [e, ← sumIdx_mul_left]
  rw [← add_mul, sum_same_right his fun ms => create m os ms]
  congr 1
  interval_cases o <;> interval_cases i <;> simp [parity, low]

theorem hop_zero_zero {N : Nat} {o i : Nat} (ho : o < 2) (hi : i < 2) (os : List Nat) {is : List Nat}
    (his : Spins N is) :
    hop (K := K) (N + 1) 0 0 (o :: os) (i :: is) = number o i * same os is := by
  rw [hop_split]
  simp only [create_zero, annihilate_zero]
  have e : ∀ x y : K, ∀ ms, x * same os ms * (y * same ms is) =
      x * y * (same os ms * same ms is) := fun _ _ _ => by ring
  simp only [e, ← sumIdx_mul_left]
  rw [← add_mul, sum_same_right his fun ms => same os ms]
  congr 1
  interval_cases o <;> interval_cases i <;> simp [number, raise, low]

theorem hop_past_right {N m n : Nat} {is : List Nat} (h : is.length ≤ n) (os : List Nat) :
    hop (K := K) N m n os is = 0 := by
  unfold hop
  simp only [annihilate_past h]
  rw [← sumIdx_mul_right, mul_zero]

theorem hop_past_left {N m n : Nat} (h : N ≤ m) (os is : List Nat) : hop (K := K) N m n os is = 0 := by
  unfold hop
  rw [sumIdx_congr (g := fun _ => (0 : K) * 0)]
  · rw [← sumIdx_mul_left, zero_mul]
  · intro ms hms
    rw [create_past, zero_mul, zero_mul]
    have := hms.length
    simp only [List.length_replicate] at this
    omega

theorem bond_past {N m n : Nat} {is : List Nat} (his : is.length = N) (h : N ≤ n) (os : List Nat) :
    bond (K := K) N m n os is = 0 := by
  unfold bond
  rw [hop_past_right (by omega), hop_past_left h, add_zero]

/-! ### The chain -/

/-- The sum over the sites of a chain whose first site has the number `s`. -/
def lin (L : Nat) (T1 T2 : Nat → K) (v : K) (s N : Nat) (os is : List Nat) : K :=
  ∑ n ∈ range N, (v * hop N n n os is + T1 (s + n) * bond N n (n + 1) os is + T2 (s + n) * bond N n (n + L) os is)

theorem lin_cons {L : Nat} (hL : 0 < L) (T1 T2 : Nat → K) (v : K) (s N : Nat) {o i : Nat} {os is : List Nat}
    (ho : o < 2) (hi : i < 2) (hos : Spins N os) (his : Spins N is) :
    lin L T1 T2 v s (N + 1) (o :: os) (i :: is) = v * number o i * same os is +
      T1 s * raise o i * annihilate 0 os is + T2 s * raise o i * annihilate (L - 1) os is +
      T1 s * low o i * create 0 os is + T2 s * low o i * create (L - 1) os is +
      eye2 o i * lin L T1 T2 v (s + 1) N os is := by
  obtain ⟨L, rfl⟩ : ∃ l, L = l + 1 := ⟨L - 1, by omega⟩
  unfold lin
  rw [Finset.sum_range_succ', Finset.mul_sum]
  have e : ∀ n, v * hop (N + 1) (n + 1) (n + 1) (o :: os) (i :: is) +
      T1 (s + (n + 1)) * bond (N + 1) (n + 1) (n + 1 + 1) (o :: os) (i :: is) +
      T2 (s + (n + 1)) * bond (N + 1) (n + 1) (n + 1 + (L + 1)) (o :: os) (i :: is) =
      eye2 o i * (v * hop N n n os is + T1 (s + 1 + n) * bond N n (n + 1) os is +
        T2 (s + 1 + n) * bond N n (n + (L + 1)) os is) := by
    intro n
    rw [show n + 1 + (L + 1) = (n + (L + 1)) + 1 by omega, show s + (n + 1) = s + 1 + n by omega]
    unfold bond
    simp only [hop_succ_succ N _ _ ho hi]
    ring
  simp only [e]
  rw [Nat.zero_add, Nat.zero_add]
  unfold bond
  rw [show hop (N + 1) 0 1 (o :: os) (i :: is) = raise o i * annihilate (K := K) 0 os is from
    hop_zero_succ 0 ho hi hos is, show hop (N + 1) 1 0 (o :: os) (i :: is) = low o i * create (K := K) 0 os is from
    hop_succ_zero 0 ho hi os his, hop_zero_succ L ho hi hos, hop_succ_zero L ho hi os his, hop_zero_zero ho hi os his]
  simp only [Nat.add_zero, Nat.add_sub_cancel]
  ring

/-! ### Multiplying out -/

theorem ffRow_other {a x L : Nat} (h : x ≠ a) (t1 t2 v : K) (A : NDArray K) (b o i : Nat) :
    (ffRow a L t1 t2 v A).get [x, b, o, i] = A.get [x, b, o, i] := by
  unfold ffRow
  simp only [put_get, h, false_and, if_false]

theorem ffRow_shape (a L : Nat) (t1 t2 v : K) (A : NDArray K) : (ffRow a L t1 t2 v A).shape = A.shape := rfl

/-- The entries of a tensor in the bulk outside its last row. -/
theorem ffBulk_get (L N2 : Nat) (t1 t2 v : K) (n : Nat) {x : Nat} (hx : x ≠ 2 * L + 1) (b o i : Nat) :
    (ffBulk L N2 t1 t2 v n).get [x, b, o, i] =
      if L + 2 ≤ x ∧ x < 2 * L + 1 ∧ b + 1 = x then parity o i else
      if x = L + 1 ∧ b = 0 then raise o i else
      if 2 ≤ x ∧ x < L + 1 ∧ b + 1 = x then parity o i else
      if x = 1 ∧ b = 0 then low o i else if x = 0 ∧ b = 0 then eye2 o i else 0 := by
  unfold ffBulk
  simp only
  rw [ffRow_other hx, puts_get _ _ _ _ _ _ _ _ (by omega), put_get, puts_get _ _ _ _ _ _ _ _ (by omega), put_get, put_get]
  simp only [show (x < L + 2 + (2 * L + 1 - (L + 2)) ↔ x < max (2 * L + 1) (L + 2)) by omega,
    show (x < 2 + (L + 1 - 2) ↔ x < max (L + 1) 2) by omega]
  have e1 : (L + 2 ≤ x ∧ x < max (2 * L + 1) (L + 2) ∧ b + 1 = x) ↔ (L + 2 ≤ x ∧ x < 2 * L + 1 ∧ b + 1 = x) := by omega
  have e2 : (2 ≤ x ∧ x < max (L + 1) 2 ∧ b + 1 = x) ↔ (2 ≤ x ∧ x < L + 1 ∧ b + 1 = x) := by omega
  simp only [e1, e2]
  rfl

theorem ffBulk_last {L : Nat} (hL : 0 < L) (N2 : Nat) (t1 t2 v : K) (n b o i : Nat) :
    (ffBulk L N2 t1 t2 v n).get [2 * L + 1, b, o, i] = (if b = 0 then v * number o i else 0) +
      (if b = 1 then (if (n + 1) % L = 0 then 0 else t1) * raise o i else 0) +
      (if b = L then (if n < L * (N2 - 1) then t2 else 0) * raise o i else 0) +
      (if b = L + 1 then (if (n + 1) % L = 0 then 0 else t1) * low o i else 0) +
      (if b = 2 * L then (if n < L * (N2 - 1) then t2 else 0) * low o i else 0) +
      (if b = 2 * L + 1 then eye2 o i else 0) := by
  unfold ffBulk
  simp only
  refine ffRow_get hL ?_ _ _ ?_ b o i
  · by_cases h : L = 1
    · subst h
      simp [Nat.mod_one]
    · rw [if_neg h]
  · intro b o i
    rw [puts_get _ _ _ _ _ _ _ _ (by omega), put_get, puts_get _ _ _ _ _ _ _ _ (by omega), put_get, put_get,
      if_neg (by omega), if_neg (by omega), if_neg (by omega), if_neg (by omega), if_neg (by omega)]
    rfl

theorem ffBulk_shape (L N2 : Nat) (t1 t2 v : K) (n : Nat) :
    (ffBulk L N2 t1 t2 v n).shape = [2 * L + 2, 2 * L + 2, 2, 2] := by
  unfold ffBulk
  simp only [ffRow_shape, puts_shape, put_shape]
  rfl

/-- A row with a single entry. -/
theorem sum_col {n c : Nat} (hc : c < n) {f : Nat → K} (g : Nat → K) {x : K} (h : ∀ b, f b = if b = c then x else 0) :
    ∑ b ∈ range n, f b * g b = x * g c := by
  simp only [h, ite_mul, zero_mul, Finset.sum_ite_eq', Finset.mem_range, if_pos hc]

/-- The row that starts the terms. -/
theorem sum_row {L : Nat} (g : Nat → K) (x0 x1 x2 x3 x4 x5 : K) {f : Nat → K}
    (h : ∀ b, f b = (if b = 0 then x0 else 0) + (if b = 1 then x1 else 0) + (if b = L then x2 else 0) +
      (if b = L + 1 then x3 else 0) + (if b = 2 * L then x4 else 0) + (if b = 2 * L + 1 then x5 else 0)) :
    ∑ b ∈ range (2 * L + 2), f b * g b =
      x0 * g 0 + x1 * g 1 + x2 * g L + x3 * g (L + 1) + x4 * g (2 * L) + x5 * g (2 * L + 1) := by
  simp only [h, add_mul, ite_mul, zero_mul, Finset.sum_add_distrib, Finset.sum_ite_eq', Finset.mem_range]
  rw [if_pos (by omega), if_pos (by omega), if_pos (by omega), if_pos (by omega), if_pos (by omega), if_pos (by omega)]

/-- The hopping along the chain out of site `n`. -/
def T1 (L : Nat) (t1 : K) (n : Nat) : K := if (n + 1) % L = 0 then 0 else t1

/-- The hopping to the next column out of site `n`. -/
def T2 (L N2 : Nat) (t2 : K) (n : Nat) : K := if n < L * (N2 - 1) then t2 else 0

/-- What the tensors from a site to the end multiply out to. -/
structure Tail (L : Nat) (T1 T2 : Nat → K) (v : K) (s : Nat) (ts : List (NDArray K)) : Prop where
  done : ∀ os is, Spins ts.length os → Spins ts.length is → mpoElem ts 0 os is 0 = same os is
  low : ∀ k, k < L → ∀ os is, Spins ts.length os → Spins ts.length is →
    mpoElem ts (k + 1) os is 0 = annihilate k os is
  raise : ∀ k, k < L → ∀ os is, Spins ts.length os → Spins ts.length is →
    mpoElem ts (L + 1 + k) os is 0 = create k os is
  start : ∀ os is, Spins ts.length os → Spins ts.length is → mpoElem ts (2 * L + 1) os is 0 = lin L T1 T2 v s ts.length os is

theorem tail_last {L : Nat} (hL : 0 < L) (T1 T2 : Nat → K) (v : K) (s : Nat) : Tail L T1 T2 v s [ffLast L v] := by
  have hg : ∀ a os is, mpoElem [ffLast L v] a os is 0 = (ffLast L v).get [a, 0, os.headD 0, is.headD 0] := by
    intro a os is
    rw [mpoElem, show (ffLast L v).shape.getD 1 0 = 1 from rfl, Finset.sum_range_one]
    simp [mpoElem]
  have hs : ∀ os, Spins [ffLast L v].length os → ∃ o, os = [o] ∧ o < 2 := by
    intro os h
    obtain ⟨o, os, rfl, ho, h⟩ := Spins.cons (n := 0) h
    obtain rfl := List.length_eq_zero_iff.mp h.1
    exact ⟨o, rfl, ho⟩
  have h1 : same (K := K) [] [] = 1 := if_pos rfl
  constructor
  · intro os is h h'
    obtain ⟨o, rfl, ho⟩ := hs os h
    obtain ⟨i, rfl, hi⟩ := hs is h'
    rw [hg, same_cons, h1, mul_one]
    simp [ffLast, put_get]
  · intro k hk os is h h'
    obtain ⟨o, rfl, ho⟩ := hs os h
    obtain ⟨i, rfl, hi⟩ := hs is h'
    rw [hg]
    cases k with
    | zero =>
      rw [annihilate_zero, h1, mul_one]
      simp [ffLast, put_get, show ¬ L = 0 by omega]
    | succ k =>
      rw [annihilate_past (by simp)]
      simp [ffLast, put_get, show ¬ k + 1 = L by omega, show ¬ k + 1 = 2 * L by omega]
      rfl
  · intro k hk os is h h'
    obtain ⟨o, rfl, ho⟩ := hs os h
    obtain ⟨i, rfl, hi⟩ := hs is h'
    rw [hg]
    cases k with
    | zero =>
      rw [create_zero, h1, mul_one]
      simp [ffLast, put_get, show ¬ L = 2 * L by omega]
    | succ k =>
      rw [create_past (by simp)]
      simp [ffLast, put_get, show ¬ L + 1 + (k + 1) = 2 * L + 1 by omega, show ¬ L + 1 + (k + 1) = 1 by omega]
      rfl
  · intro os is h h'
    obtain ⟨o, rfl, ho⟩ := hs os h
    obtain ⟨i, rfl, hi⟩ := hs is h'
    rw [hg]
    rw [show [ffLast L v].length = 0 + 1 from rfl, lin_cons hL T1 T2 v s 0 ho hi ⟨rfl, by simp⟩ ⟨rfl, by simp⟩, h1,
      annihilate_past (by simp), annihilate_past (by simp), create_past (by simp), create_past (by simp)]
    simp [ffLast, put_get, lin, scaled]

theorem tail_bulk {L : Nat} (hL : 0 < L) (N2 : Nat) (t1 t2 v : K) (s : Nat) {ts : List (NDArray K)} {T2' : Nat → K}
    (hT : T2' s = T2 L N2 t2 s)
    (h : Tail L (T1 L t1) T2' v (s + 1) ts) :
    Tail L (T1 L t1) T2' v s (ffBulk L N2 t1 t2 v s :: ts) := by
  have hg : ∀ a o i os is, mpoElem (ffBulk L N2 t1 t2 v s :: ts) a (o :: os) (i :: is) 0 =
      ∑ c ∈ range (2 * L + 2), (ffBulk L N2 t1 t2 v s).get [a, c, o, i] * mpoElem ts c os is 0 := by
    intro a o i os is
    rw [mpoElem, ffBulk_shape]
    rfl
  constructor
  · intro os is ho hi
    obtain ⟨o, os, rfl, ho', ho⟩ := Spins.cons (n := ts.length) ho
    obtain ⟨i, is, rfl, hi', hi⟩ := Spins.cons (n := ts.length) hi
    rw [hg, sum_col (c := 0) (x := eye2 o i) (by omega), h.done _ _ ho hi, same_cons]
    intro b
    rw [ffBulk_get _ _ _ _ _ _ (by omega)]
    by_cases hb : b = 0 <;> simp [hb]
  · intro k hk os is ho hi
    obtain ⟨o, os, rfl, ho', ho⟩ := Spins.cons (n := ts.length) ho
    obtain ⟨i, is, rfl, hi', hi⟩ := Spins.cons (n := ts.length) hi
    cases k with
    | zero =>
      rw [hg, sum_col (c := 0) (x := Mpo.low o i) (by omega), h.done _ _ ho hi, annihilate_zero]
      intro b
      rw [ffBulk_get _ _ _ _ _ _ (by omega)]
      by_cases hb : b = 0 <;> simp [hb, show ¬ L = 0 by omega]
    | succ k =>
      rw [hg, sum_col (c := k + 1) (x := parity o i) (by omega), h.low k (by omega) _ _ ho hi, annihilate_succ _ hi']
      intro b
      rw [ffBulk_get _ _ _ _ _ _ (by omega)]
      rw [if_neg (by omega), if_neg (by omega)]
      by_cases hb : b = k + 1
      · rw [if_pos (by omega), if_pos hb]
      · rw [if_neg (by omega), if_neg (by omega), if_neg (by omega), if_neg hb]
  · intro k hk os is ho hi
    obtain ⟨o, os, rfl, ho', ho⟩ := Spins.cons (n := ts.length) ho
    obtain ⟨i, is, rfl, hi', hi⟩ := Spins.cons (n := ts.length) hi
    cases k with
    | zero =>
      rw [hg, sum_col (c := 0) (x := Mpo.raise o i) (by omega), h.done _ _ ho hi, create_zero]
      intro b
      rw [ffBulk_get _ _ _ _ _ _ (by omega)]
      by_cases hb : b = 0 <;> simp [hb, show ¬ L = 0 by omega]
    | succ k =>
      rw [hg, sum_col (c := L + 1 + k) (x := parity o i) (by omega), h.raise k (by omega) _ _ ho hi, create_succ _ hi']
      intro b
      rw [ffBulk_get _ _ _ _ _ _ (by omega)]
      by_cases hb : b = L + 1 + k
      · rw [if_pos (by omega), if_pos hb]
      · rw [if_neg (by omega), if_neg (by omega), if_neg (by omega), if_neg (by omega), if_neg (by omega), if_neg hb]
  · intro os is ho hi
    obtain ⟨o, os, rfl, ho', ho⟩ := Spins.cons (n := ts.length) ho
    obtain ⟨i, is, rfl, hi', hi⟩ := Spins.cons (n := ts.length) hi
    rw [hg, sum_row _ _ _ _ _ _ _ (ffBulk_last hL N2 t1 t2 v s · o i), List.length_cons,
      lin_cons hL _ _ _ _ _ ho' hi' ho hi, h.done _ _ ho hi, h.start _ _ ho hi, hT]
    have e1 := h.low 0 hL _ _ ho hi
    have e2 := h.low (L - 1) (by omega) _ _ ho hi
    have e3 := h.raise 0 hL _ _ ho hi
    have e4 := h.raise (L - 1) (by omega) _ _ ho hi
    rw [show L - 1 + 1 = L by omega] at e2
    rw [show L + 1 + (L - 1) = 2 * L by omega] at e4
    rw [Nat.zero_add] at e1
    rw [Nat.add_zero] at e3
    rw [e1, e2, e3, e4]
    rfl

theorem tail_all {L : Nat} (hL : 0 < L) (N2 : Nat) (t1 t2 v : K) {T2' : Nat → K}
    (hT : ∀ n, 0 < n → T2' n = T2 L N2 t2 n) :
    ∀ m s, 0 < s → Tail L (T1 L t1) T2' v s ((List.range' s m).map (ffBulk L N2 t1 t2 v) ++ [ffLast L v])
  | 0, s, _ => tail_last hL _ _ v s
  | m + 1, s, hs => by
    rw [List.range'_succ, List.map_cons, List.cons_append]
    exact tail_bulk hL N2 t1 t2 v s (hT s hs) (tail_all hL N2 t1 t2 v hT m (s + 1) (by omega))

/-! ### Rows and columns -/

theorem sum_grid (f : Nat → K) (L : Nat) : ∀ M, ∑ n ∈ range (L * M), f n = ∑ y ∈ range M, ∑ x ∈ range L, f (L * y + x)
  | 0 => by simp
  | M + 1 => by
    rw [Nat.mul_succ, Finset.sum_range_add, sum_grid f L M, Finset.sum_range_succ]

theorem lin_grid {L : Nat} (hL : 0 < L) {N2 : Nat} (t1 t2 v : K) {T2' : Nat → K}
    (hT : ∀ n, n < L * (N2 - 1) → T2' n = t2) {os is : List Nat} (his : is.length = L * N2) :
    lin L (T1 L t1) T2' v 0 (L * N2) os is = fermions2D t1 t2 v L N2 os is := by
  unfold lin fermions2D
  simp only [Nat.zero_add]
  rw [Finset.sum_add_distrib, Finset.sum_add_distrib, sum_grid, sum_grid (fun n => T1 L t1 n * _),
    sum_grid (fun n => T2' n * _)]
  have e1 : ∑ y ∈ range N2, ∑ x ∈ range L, v * hop (L * N2) (L * y + x) (L * y + x) os is =
      v * ∑ y ∈ range N2, ∑ x ∈ range L, hop (L * N2) (gridSite L x y) (gridSite L x y) os is := by
    simp only [Finset.mul_sum, gridSite]
  have e2 : ∑ y ∈ range N2, ∑ x ∈ range L, T1 L t1 (L * y + x) * bond (L * N2) (L * y + x) (L * y + x + 1) os is =
      t1 * ∑ y ∈ range N2, ∑ x ∈ range (L - 1), bond (L * N2) (gridSite L x y) (gridSite L (x + 1) y) os is := by
    simp only [Finset.mul_sum, gridSite]
    refine Finset.sum_congr rfl fun y _ => ?_
    obtain ⟨l, rfl⟩ : ∃ l, L = l + 1 := ⟨L - 1, by omega⟩
    rw [Finset.sum_range_succ, Nat.add_sub_cancel, T1, Nat.add_assoc, Nat.mul_add_mod, Nat.mod_self, if_pos rfl,
      zero_mul, add_zero]
    refine Finset.sum_congr rfl fun x hx => ?_
    rw [Finset.mem_range] at hx
    rw [T1, Nat.add_assoc, Nat.mul_add_mod, Nat.mod_eq_of_lt (by omega), if_neg (by omega)]
  have e3 : ∑ y ∈ range N2, ∑ x ∈ range L, T2' (L * y + x) * bond (L * N2) (L * y + x) (L * y + x + L) os is =
      t2 * ∑ y ∈ range (N2 - 1), ∑ x ∈ range L, bond (L * N2) (gridSite L x y) (gridSite L x (y + 1)) os is := by
    simp only [Finset.mul_sum, gridSite]
    cases N2 with
    | zero => simp
    | succ M =>
      rw [Finset.sum_range_succ, Nat.add_sub_cancel]
      have : ∑ x ∈ range L, T2' (L * M + x) * bond (L * (M + 1)) (L * M + x) (L * M + x + L) os is = 0 := by
        refine Finset.sum_eq_zero fun x _ => ?_
        rw [bond_past his (by rw [Nat.mul_succ]; omega), mul_zero]
      rw [this, add_zero]
      refine Finset.sum_congr rfl fun y hy => Finset.sum_congr rfl fun x hx => ?_
      rw [Finset.mem_range] at hx hy
      have hlt : L * y + x < L * M := calc
        L * y + x < L * (y + 1) := by rw [Nat.mul_succ]; omega
        _ ≤ L * M := Nat.mul_le_mul_left _ hy
      rw [hT _ hlt, Nat.mul_succ L y, Nat.add_right_comm]
  rw [e1, e2, e3]
  ring

/-- **C66**: on every grid of at least two sites the constructor succeeds, and the tensors multiply out to
the Hamiltonian of free fermions. -/
theorem C66_fermions (t1 t2 v : K) {N1 N2 : Nat} (hN : 2 ≤ N1 * N2) :
    ∃ ts, freeFermion2D t1 t2 v N1 N2 = .ok ts ∧ ts.length = N1 * N2 ∧
      ∀ os is, Spins (N1 * N2) os → Spins (N1 * N2) is → mpoElem ts 0 os is 0 = fermions2D t1 t2 v N1 N2 os is := by
  have hL : 0 < N1 := by
    rcases Nat.eq_zero_or_pos N1 with h | h
    · rw [h, Nat.zero_mul] at hN
      omega
    · exact h
  refine ⟨_, finiteMPO_ok rfl rfl, ?_, ?_⟩
  · simp only [List.length_cons, List.length_append, List.length_map, List.length_range', List.length_nil]
    omega
  · intro os is ho hi
    obtain ⟨N, hN'⟩ : ∃ N, N1 * N2 = N + 2 := ⟨N1 * N2 - 2, by omega⟩
    have ht := tail_all hL N2 t1 t2 v (T2' := fun n => if n = 0 then t2 else T2 N1 N2 t2 n)
      (fun n hn => if_neg (by omega)) N 1 (by omega)
    rw [← lin_grid hL (T2' := fun n => if n = 0 then t2 else T2 N1 N2 t2 n) t1 t2 v _ hi.1]
    · rw [hN'] at ho hi ⊢
      obtain ⟨o, os, rfl, ho', ho⟩ := ho.cons
      obtain ⟨i, is, rfl, hi', hi⟩ := hi.cons
      simp only [show N + 2 - 1 - 1 = N by omega]
      have hl : ((List.range' 1 N).map (ffBulk N1 N2 t1 t2 v) ++ [ffLast N1 v]).length = N + 1 := by simp
      rw [← hl] at ho hi
      have hT1 : T1 N1 t1 0 = if N1 = 1 then 0 else t1 := by
        unfold T1
        by_cases h : N1 = 1
        · subst h; simp
        · rw [if_neg h, if_neg]
          rw [Nat.mod_eq_of_lt (by omega)]
          omega
      have hf : ∀ b, (ffFirst N1 t1 t2 v).get [0, b, o, i] = _ := fun b =>
        ffRow_get (A := zeros [1, 2 * N1 + 2, 2, 2]) (a := 0) hL hT1 t2 v (fun _ _ _ => rfl) b o i
      rw [List.cons_append, mpoElem, show (ffFirst N1 t1 t2 v).shape.getD 1 0 = 2 * N1 + 2 from rfl]
      simp only [List.headD_cons, List.tail_cons]
      rw [sum_row _ _ _ _ _ _ _ hf, lin_cons hL _ _ _ _ _ ho' hi' (hl ▸ ho) (hl ▸ hi)]
      rw [ht.done _ _ ho hi, ht.start _ _ ho hi]
      have e1 := ht.low 0 hL _ _ ho hi
      have e2 := ht.low (N1 - 1) (by omega) _ _ ho hi
      have e3 := ht.raise 0 hL _ _ ho hi
      have e4 := ht.raise (N1 - 1) (by omega) _ _ ho hi
      rw [show N1 - 1 + 1 = N1 by omega] at e2
      rw [show N1 + 1 + (N1 - 1) = 2 * N1 by omega] at e4
      rw [Nat.zero_add] at e1
      rw [Nat.add_zero] at e3
      rw [e1, e2, e3, e4, hl]
      simp
    · intro n hn
      by_cases h : n = 0
      · exact if_pos h
      · rw [if_neg h, T2, if_pos hn]

/-- **C66** fails for one site: the constructor returns two tensors, an operator on two sites. -/
theorem C66_one_site_false (t1 t2 v : K) : ∃ ts, freeFermion2D t1 t2 v 1 1 = .ok ts ∧ ts.length ≠ 1 * 1 :=
  ⟨[ffFirst 1 t1 t2 v, ffLast 1 v], rfl, by simp⟩

/-! ### The operators of the specification are fermions -/

/-- The matrix element of `a` after `b`. -/
def after (N : Nat) (a b : List Nat → List Nat → K) (os is : List Nat) : K :=
  sumIdx (List.replicate N 2) fun ms => a os ms * b ms is

theorem after_cons {N : Nat} {a b : List Nat → List Nat → K} {a' b' : Nat → Nat → K} {a'' b'' : List Nat → List Nat → K}
    {o i : Nat} {os is : List Nat} (ha : ∀ j < 2, ∀ ms, a (o :: os) (j :: ms) = a' o j * a'' os ms)
    (hb : ∀ j < 2, ∀ ms, b (j :: ms) (i :: is) = b' j i * b'' ms is) :
    after (N + 1) a b (o :: os) (i :: is) = (a' o 0 * b' 0 i + a' o 1 * b' 1 i) * after N a'' b'' os is := by
  unfold after
  rw [List.replicate_succ, sumIdx, Finset.sum_range_succ, Finset.sum_range_one]
  simp only [ha 0 (by omega), ha 1 (by omega), hb 0 (by omega), hb 1 (by omega)]
  have e : ∀ x y : K, ∀ ms, x * a'' os ms * (y * b'' ms is) = x * y * (a'' os ms * b'' ms is) := fun _ _ _ => by ring
  simp only [e, ← sumIdx_mul_left]
  ring

theorem after_same_left {N : Nat} {os : List Nat} (h : Spins N os) (b : List Nat → List Nat → K) (is : List Nat) :
    after N same b os is = b os is := sum_same_left h fun ms => b ms is

theorem after_same_right {N : Nat} {is : List Nat} (h : Spins N is) (a : List Nat → List Nat → K) (os : List Nat) :
    after N a same os is = a os is := sum_same_right h fun ms => a os ms

/-- Removing at `n` and adding at `m` anticommute, up to the identity at the same site. -/
theorem C66_anticommute : ∀ {N m n : Nat}, m < N → n < N → ∀ {os is : List Nat}, Spins N os → Spins N is →
    after N (create (K := K) m) (annihilate n) os is + after N (annihilate n) (create m) os is =
      if m = n then same os is else 0
  | N + 1, 0, 0, _, _, os, is, ho, hi => by
    obtain ⟨o, os, rfl, ho', ho⟩ := ho.cons
    obtain ⟨i, is, rfl, hi', hi⟩ := hi.cons
    rw [after_cons (fun j _ ms => create_zero o j os ms) (fun j _ ms => annihilate_zero j i ms is),
      after_cons (fun j _ ms => annihilate_zero o j os ms) (fun j _ ms => create_zero j i ms is),
      after_same_left ho, same_cons, if_pos rfl, ← add_mul]
    congr 1
    interval_cases o <;> interval_cases i <;> simp [raise, low, eye2]
  | N + 1, 0, n + 1, _, _, os, is, ho, hi => by
    obtain ⟨o, os, rfl, ho', ho⟩ := ho.cons
    obtain ⟨i, is, rfl, hi', hi⟩ := hi.cons
    rw [after_cons (fun j _ ms => create_zero o j os ms) (fun j _ ms => annihilate_succ n hi' ms is),
      after_cons (fun j hj ms => annihilate_succ n hj os ms) (fun j _ ms => create_zero j i ms is),
      after_same_left ho, after_same_right hi, ← add_mul, if_neg (by omega)]
    convert zero_mul _
    interval_cases o <;> interval_cases i <;> simp [raise, parity]
  | N + 1, m + 1, 0, _, _, os, is, ho, hi => by
    obtain ⟨o, os, rfl, ho', ho⟩ := ho.cons
    obtain ⟨i, is, rfl, hi', hi⟩ := hi.cons
    rw [after_cons (fun j hj ms => create_succ m hj os ms) (fun j _ ms => annihilate_zero j i ms is),
      after_cons (fun j _ ms => annihilate_zero o j os ms) (fun j _ ms => create_succ m hi' ms is),
      after_same_left ho, after_same_right hi, ← add_mul, if_neg (by omega)]
    convert zero_mul _
    interval_cases o <;> interval_cases i <;> simp [low, parity]
  | N + 1, m + 1, n + 1, hm, hn, os, is, ho, hi => by
    obtain ⟨o, os, rfl, ho', ho⟩ := ho.cons
    obtain ⟨i, is, rfl, hi', hi⟩ := hi.cons
    have ih := C66_anticommute (Nat.lt_of_succ_lt_succ hm) (Nat.lt_of_succ_lt_succ hn) ho hi
    rw [after_cons (fun j hj ms => create_succ m hj os ms) (fun j _ ms => annihilate_succ n hi' ms is),
      after_cons (fun j hj ms => annihilate_succ n hj os ms) (fun j _ ms => create_succ m hi' ms is),
      ← mul_add, ih, same_cons]
    have e : (parity o 0 * parity 0 i + parity o 1 * parity 1 i : K) = eye2 o i := by
      interval_cases o <;> interval_cases i <;> simp [parity, eye2]
    rw [e]
    by_cases h : m = n <;> simp [h]

/-- Removing at two sites anticommutes. -/
theorem C66_anticommute_low : ∀ {N m n : Nat}, m < N → n < N → ∀ {os is : List Nat}, Spins N os → Spins N is →
    after N (annihilate (K := K) m) (annihilate n) os is + after N (annihilate n) (annihilate m) os is = 0
  | N + 1, 0, 0, _, _, os, is, ho, hi => by
    obtain ⟨o, os, rfl, ho', ho⟩ := ho.cons
    obtain ⟨i, is, rfl, hi', hi⟩ := hi.cons
    rw [after_cons (fun j _ ms => annihilate_zero o j os ms) (fun j _ ms => annihilate_zero j i ms is), ← add_mul]
    convert zero_mul _
    interval_cases o <;> interval_cases i <;> simp [low]
  | N + 1, 0, n + 1, _, _, os, is, ho, hi => by
    obtain ⟨o, os, rfl, ho', ho⟩ := ho.cons
    obtain ⟨i, is, rfl, hi', hi⟩ := hi.cons
    rw [after_cons (fun j _ ms => annihilate_zero o j os ms) (fun j _ ms => annihilate_succ n hi' ms is),
      after_cons (fun j hj ms => annihilate_succ n hj os ms) (fun j _ ms => annihilate_zero j i ms is),
      after_same_left ho, after_same_right hi, ← add_mul]
    convert zero_mul _
    interval_cases o <;> interval_cases i <;> simp [low, parity]
  | N + 1, m + 1, 0, _, _, os, is, ho, hi => by
    obtain ⟨o, os, rfl, ho', ho⟩ := ho.cons
    obtain ⟨i, is, rfl, hi', hi⟩ := hi.cons
    rw [after_cons (fun j hj ms => annihilate_succ m hj os ms) (fun j _ ms => annihilate_zero j i ms is),
      after_cons (fun j _ ms => annihilate_zero o j os ms) (fun j _ ms => annihilate_succ m hi' ms is),
      after_same_left ho, after_same_right hi, ← add_mul]
    convert zero_mul _
    interval_cases o <;> interval_cases i <;> simp [low, parity]
  | N + 1, m + 1, n + 1, hm, hn, os, is, ho, hi => by
    obtain ⟨o, os, rfl, ho', ho⟩ := ho.cons
    obtain ⟨i, is, rfl, hi', hi⟩ := hi.cons
    have ih := C66_anticommute_low (Nat.lt_of_succ_lt_succ hm) (Nat.lt_of_succ_lt_succ hn) ho hi
    rw [after_cons (fun j hj ms => annihilate_succ m hj os ms) (fun j _ ms => annihilate_succ n hi' ms is),
      after_cons (fun j hj ms => annihilate_succ n hj os ms) (fun j _ ms => annihilate_succ m hi' ms is),
      ← mul_add, ih, mul_zero]

/-- Two rows and two columns; a fermion that hops past another one changes sign. -/
example : ∃ ts, freeFermion2D (3 : ℚ) 5 7 2 2 = .ok ts ∧ mpoElem ts 0 [0, 1, 1, 0] [1, 1, 0, 0] 0 = -5 := by
  obtain ⟨ts, h, _, he⟩ := C66_fermions (3 : ℚ) 5 7 (N1 := 2) (N2 := 2) (by omega)
  refine ⟨ts, h, ?_⟩
  rw [he _ _ ⟨rfl, by simp⟩ ⟨rfl, by simp⟩]
  decide +kernel

end TN.Mpo
