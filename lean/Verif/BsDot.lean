import Verif.BsContig
import Verif.NconOps

/-!
# Outer products and contractions of block-sparse tensors
-/

set_option linter.unusedSectionVars false

namespace TN.Bs

open NDArray

section
variable {Q : Type} [AddCommGroup Q] [LinearOrder Q] {R : Type}

/-! ## The model -/

/-- `charge_equal` (charge.py:644-673) -/
def chargeEq (c1 c2 : Charge Q) : Prop :=
  c1.dim = c2.dim ∧
    match c1, c2 with
    | .lab u1 l1, .lab u2 l2 => u1 = u2 ∧ l1 = l2
    | .raw a, .raw b => a = b
    | a, b => a.charges = b.charges

instance (c1 c2 : Charge Q) : Decidable (chargeEq c1 c2) := by
  unfold chargeEq
  cases c1 <;> cases c2 <;> infer_instance

namespace BST

/-- `outerproduct` (blocksparsetensor.py:887-922) -/
def outer [Zero R] [Mul R] (argsort : List Nat → List Nat) (T1 T2 : BST Q R) : Py (BST Q R) := do
  let legs := T1.legs ++ T2.legs
  let order := T1.order ++ T2.order.map (List.map (· + T1.legs.length))
  let n ← numNonzero argsort legs
  if (T1.data.length > 0 ∧ T2.data.length > 0) ∧ n > 0 then
    let b ← findDiagonal argsort legs T1.legs.length
    match (List.range b.qnums.charges.length).filter (fun k => b.qnums.charges.getD k 0 = 0) with
    | [] => .error .indexError
    | ind :: _ =>
      let data ← setAll (List.replicate n 0) (b.maps.getD ind []) (outerRavel (· * ·) T1.data T2.data)
      .ok ⟨data, legs, order⟩
  else .ok ⟨List.replicate n 0, legs, order⟩

end BST

/-- `np.ravel(np.matmul(data1[block1.reshape(shape1)], data2[block2.reshape(shape2)]))`
(blocksparsetensor.py:1098-1101) -/
def blockDot [NonUnitalNonAssocSemiring R] (src1 src2 : List R) (m1 m2 : List Nat) (r1 c1 r2 c2 : Nat) :
    Py (List R) :=
  if m1.length = r1 * c1 ∧ m2.length = r2 * c2 then do
    let a ← takeAll src1 m1
    let b ← takeAll src2 m2
    if c1 = r2 then
      .ok ((List.range r1).flatMap (fun i => (List.range c2).map (fun j =>
        ((List.range c1).map (fun x => a.getD (i * c1 + x) 0 * b.getD (x * c2 + j) 0)).sum)))
    else .error .valueError
  else .error .valueError

/-- `l[n]` for a list and a non-negative index. -/
def getPy {α : Type} (l : List α) (n : Nat) : Py α :=
  match l[n]? with
  | some x => .ok x
  | none => .error .indexError

/-- The loop over the common charges in `tensordot` (blocksparsetensor.py:1094-1101); `ns` are the
remaining values of the loop variable. -/
def dotLoop [NonUnitalNonAssocSemiring R] (src1 src2 : List R) (b1 b2 bf : Blocks Q)
    (l1 l2 lf : List Nat) : List Nat → List R → Py (List R)
  | [], data => .ok data
  | n :: ns, data => do
    let n1 ← getPy l1 n
    let n2 ← getPy l2 n
    let nf ← getPy lf n
    let vals ← blockDot src1 src2 (b1.maps.getD n1 []) (b2.maps.getD n2 []) (b1.rows.getD n1 0)
      (b1.cols.getD n1 0) (b2.rows.getD n2 0) (b2.cols.getD n2 0)
    let data ← setAll data (bf.maps.getD nf []) vals
    dotLoop src1 src2 b1 b2 bf l1 l2 lf ns data

/-- The legs of some axes, in order (`for a in axes: ... tensor._order[a]`). -/
def BST.axisLegs (T : BST Q R) (axes : List Nat) : List Nat :=
  (axes.map (fun a => T.order.getD a [])).flatten

namespace BST

/-- `tensordot` (blocksparsetensor.py:925-1108) for `axes` given as two lists of non-negative
numbers.  Simplifications: the error message for charges that differ is not modelled (building it
can itself raise an `IndexError`); the number of elements is the total length of the blocks. -/
def tensordot [NonUnitalNonAssocSemiring R] (argsort : List Nat → List Nat) (empty : Nat → List R)
    (T1 T2 : BST Q R) (axes1 axes2 : List Nat) : Py (BST Q R) := do
  if axes1.length ≠ axes2.length then .error .valueError
  else if axes1.length > T1.ndim then .error .valueError
  else if axes2.length > T2.ndim then .error .valueError
  else if axes1 = [] then T1.outer argsort T2
  else if ∃ a ∈ axes1, T1.ndim ≤ a then .error .valueError
  else if ∃ a ∈ axes2, T2.ndim ≤ a then .error .valueError
  else
    let con1 := pick (T1.axisLegs axes1) T1.legs (.raw [], false)
    let con2 := pick (T2.axisLegs axes2) T2.legs (.raw [], false)
    if con2.length ≠ con1.length then .error .valueError
    else if con1.map Prod.snd ≠ con2.map (fun l => !l.2) then .error .valueError
    else if ¬ ∀ p ∈ con1.zip con2, chargeEq p.1.1 p.2.1 then .error .valueError
    else if axes1.length = T1.ndim ∧ axes2.length = T2.ndim then
      let t1 ← T1.transpose axes1
      let t1 ← t1.contiguous argsort empty none
      let t2 ← T2.transpose axes2
      let t2 ← t2.contiguous argsort empty none
      -- `np.dot`
      if t1.data.length = t2.data.length then
        .ok ⟨[(List.zipWith (· * ·) t1.data t2.data).sum], [], []⟩
      else .error .valueError
    else
      let free1 := freeAxes T1.ndim axes1
      let free2 := freeAxes T2.ndim axes2
      let left := pick (T1.axisLegs free1) T1.legs (.raw [], false)
      let right := pick (T2.axisLegs free2) T2.legs (.raw [], false)
      let lo := consecutive 0 (free1.map (fun a => (T1.order.getD a []).length))
      let ro := consecutive left.length (free2.map (fun a => (T2.order.getD a []).length))
      let b1 ← findTransposed argsort T1.legs left.length (T1.axisLegs free1 ++ T1.axisLegs axes1)
      let b2 ← findTransposed argsort T2.legs con2.length (T2.axisLegs axes2 ++ T2.axisLegs free2)
      let com := intersect b1.qnums.uniq b2.qnums.uniq
      let bf ← findTransposed argsort (left ++ right) left.length (List.range (left ++ right).length)
      let n := (bf.maps.map List.length).sum
      let lf := (intersect bf.qnums.uniq com.1).2.1
      let data ← dotLoop T1.data T2.data b1 b2 bf com.2.1 com.2.2 lf (List.range com.1.length)
        (List.replicate n 0)
      .ok ⟨data, left ++ right, lo ++ ro⟩

/-- The forms of the argument `axes` of `tensordot` (blocksparsetensor.py:938-950). -/
inductive Axes
  | int (k : Nat)
  | single (l : List Nat)
  | pair (l1 l2 : List Nat)

/-- `tensordot` with the given form of `axes`.  `np.arange(ndim - k, ndim)` has `k` elements, also if
some of them are negative; then there are more axes than the tensor has. -/
def tensordotAxes [NonUnitalNonAssocSemiring R] (argsort : List Nat → List Nat) (empty : Nat → List R)
    (T1 T2 : BST Q R) : Axes → Py (BST Q R)
  | .int k =>
    if k > T1.ndim then .error .valueError
    else T1.tensordot argsort empty T2 (List.range' (T1.ndim - k) k) (List.range k)
  | .single l =>
    if l = [] then .error .indexError
    else if l.length > 1 then .error .valueError
    else T1.tensordot argsort empty T2 l l
  | .pair l1 l2 => T1.tensordot argsort empty T2 l1 l2

end BST

/-! ## Sums -/

theorem sum_map_range [AddCommMonoid R] (n : Nat) (f : Nat → R) :
    ((List.range n).map f).sum = ∑ k ∈ Finset.range n, f k := by
  induction n with
  | zero => simp
  | succ n ih => rw [List.range_succ, List.map_append, List.sum_append, ih, Finset.sum_range_succ]; simp

theorem sum_grid [AddCommMonoid R] (ds : List Nat) (f : List Nat → R) :
    ((grid ds).map f).sum = sumIdx ds f := by
  rw [grid_eq, List.map_map, sum_map_range, ← sum_range_unravel]
  rfl

theorem sum_filter [AddCommMonoid R] {α : Type} (l : List α) (p : α → Bool) (f : α → R)
    (h : ∀ x ∈ l, p x = false → f x = 0) : ((l.filter p).map f).sum = (l.map f).sum := by
  induction l with
  | nil => rfl
  | cons x l ih =>
    have ih := ih (fun y hy => h y (List.mem_cons_of_mem _ hy))
    cases hx : p x with
    | true => rw [List.filter_cons_of_pos hx, List.map_cons, List.sum_cons, ih, List.map_cons, List.sum_cons]
    | false =>
      rw [List.filter_cons_of_neg (by simp [hx]), ih, List.map_cons, List.sum_cons, h x (by simp) hx, zero_add]

theorem map_range_eq {α β : Type} (l : List α) (f : Nat → β) (g : α → β)
    (h : ∀ k (hk : k < l.length), f k = g l[k]) : (List.range l.length).map f = l.map g := by
  apply List.ext_getElem
  · simp
  · intro k h1 h2
    have hk : k < l.length := by simpa using h2
    simp [h k hk]

/-! ## The product of two blocks -/

theorem outerRavel_getD [Zero R] {α : Type} (f : α → α → R) (x y : List α) {i j : Nat}
    (hi : i < x.length) (hj : j < y.length) : (outerRavel f x y).getD (i * y.length + j) 0 = f x[i] y[j] := by
  rw [List.getD_eq_getElem?_getD, outerRavel_getElem? f x y hj, List.getElem?_eq_getElem hi,
    List.getElem?_eq_getElem hj]
  rfl

theorem blockDot_spec [NonUnitalNonAssocSemiring R] {α : Type} (src1 src2 : List R) (A K B : List α)
    (p1 p2 : α → α → Nat) (h1 : ∀ a ∈ A, ∀ k ∈ K, p1 a k < src1.length)
    (h2 : ∀ k ∈ K, ∀ b ∈ B, p2 k b < src2.length) :
    blockDot src1 src2 (A.flatMap (fun a => K.map (p1 a))) (K.flatMap (fun k => B.map (p2 k)))
      A.length K.length K.length B.length =
      .ok (A.flatMap (fun a => B.map (fun b =>
        (K.map (fun k => src1.getD (p1 a k) 0 * src2.getD (p2 k b) 0)).sum))) := by
  have e1 : A.flatMap (fun a => K.map (p1 a)) = outerRavel p1 A K := rfl
  have e2 : K.flatMap (fun k => B.map (p2 k)) = outerRavel p2 K B := rfl
  rw [blockDot, if_pos ⟨by rw [e1, outerRavel_length], by rw [e2, outerRavel_length]⟩]
  have t1 : takeAll src1 (outerRavel p1 A K) = .ok (outerRavel (fun a k => src1.getD (p1 a k) 0) A K) := by
    rw [takeAll, if_pos]
    · simp only [outerRavel, List.map_flatMap, List.map_map]; rfl
    · intro k hk
      simp only [outerRavel, List.mem_flatMap, List.mem_map] at hk
      obtain ⟨a, ha, x, hx, rfl⟩ := hk
      exact h1 a ha x hx
  have t2 : takeAll src2 (outerRavel p2 K B) = .ok (outerRavel (fun k b => src2.getD (p2 k b) 0) K B) := by
    rw [takeAll, if_pos]
    · simp only [outerRavel, List.map_flatMap, List.map_map]; rfl
    · intro k hk
      simp only [outerRavel, List.mem_flatMap, List.mem_map] at hk
      obtain ⟨a, ha, x, hx, rfl⟩ := hk
      exact h2 a ha x hx
  rw [e1, e2, t1]
  simp only [bind, Except.bind]
  rw [t2]
  simp only [if_true]
  congr 1
  rw [List.flatMap_def, List.flatMap_def]
  congr 1
  apply map_range_eq
  intro i hi
  apply map_range_eq
  intro j hj
  congr 1
  apply map_range_eq
  intro x hx
  rw [outerRavel_getD _ _ _ hi hx, outerRavel_getD _ _ _ hx hj]

theorem dotLoop_spec [NonUnitalNonAssocSemiring R] {src1 src2 : List R} {b1 b2 bf : Blocks Q}
    {l1 l2 lf : List Nat} (f : Nat → R) (ns : List Nat) (data : List R)
    (h : ∀ n ∈ ns, ∃ n1 n2 nf, l1[n]? = some n1 ∧ l2[n]? = some n2 ∧ lf[n]? = some nf ∧
      blockDot src1 src2 (b1.maps.getD n1 []) (b2.maps.getD n2 []) (b1.rows.getD n1 0)
        (b1.cols.getD n1 0) (b2.rows.getD n2 0) (b2.cols.getD n2 0) = .ok ((bf.maps.getD nf []).map f) ∧
      ∀ k ∈ bf.maps.getD nf [], k < data.length) :
    ∃ r, dotLoop src1 src2 b1 b2 bf l1 l2 lf ns data = .ok r ∧ r.length = data.length ∧
      ∀ k, r.getD k 0 = if ∃ n ∈ ns, k ∈ bf.maps.getD (lf.getD n 0) [] then f k else data.getD k 0 := by
  induction ns generalizing data with
  | nil => exact ⟨data, rfl, rfl, by simp⟩
  | cons n ns ih =>
    obtain ⟨n1, n2, nf, e1, e2, e3, e4, e5⟩ := h n (by simp)
    obtain ⟨r1, s1, s2, s3⟩ := setAll_fun (a := data) (locs := bf.maps.getD nf []) f e5
    obtain ⟨r, r2, r3, r4⟩ := ih r1 (fun m hm => by rw [s2]; exact h m (by simp [hm]))
    refine ⟨r, ?_, r3.trans s2, ?_⟩
    · rw [dotLoop]
      simp only [getPy, e1, e2, e3, bind, Except.bind]
      rw [e4]
      simp only
      rw [s1]
      exact r2
    · intro k
      have hnf : lf.getD n 0 = nf := by rw [List.getD_eq_getElem?_getD, e3]; rfl
      rw [r4, s3]
      by_cases h1 : ∃ n ∈ ns, k ∈ bf.maps.getD (lf.getD n 0) []
      · rw [if_pos h1, if_pos]
        obtain ⟨m, hm, hk⟩ := h1
        exact ⟨m, by simp [hm], hk⟩
      · rw [if_neg h1]
        by_cases h2 : k ∈ bf.maps.getD nf []
        · rw [if_pos h2, if_pos ⟨n, by simp, by rw [hnf]; exact h2⟩]
        · rw [if_neg h2, if_neg]
          rintro ⟨m, hm, hk⟩
          rcases List.mem_cons.1 hm with rfl | hm
          · rw [hnf] at hk; exact h2 hk
          · exact h1 ⟨m, hm, hk⟩

/-! ## The contraction of the legs -/

theorem intersect_sub {A B : List Q} (h : ∀ x ∈ B, x ∈ A) (hB : B.Pairwise (· < ·)) : (intersect A B).1 = B := by
  have h1 : npUnique B = B := npUnique_eq hB (fun _ => Iff.rfl)
  rw [← h1]
  rw [h1]
  have h2 : npUnique B = (intersect A B).1 := npUnique_eq (intersect_sorted _ _) (fun x => by
    rw [intersect_mem]
    exact ⟨fun h => h.2, fun hx => ⟨h x hx, hx⟩⟩)
  rw [← h2, h1]

theorem rows_neg (K : List (List Q)) (q : Q) :
    rowsOf (K.map (fun A => A.map (fun q => -q))) q = colsOf K q := by
  have hd : dims (K.map (fun A => A.map (fun q => -q))) = dims K := by simp [dims, Function.comp_def]
  rw [rowsOf, colsOf, hd]
  apply List.filter_congr
  intro i hi
  rw [total_neg _ _ (mem_grid.1 hi)]
  have : -total K i = q ↔ q + total K i = 0 := by
    constructor
    · rintro rfl; simp
    · intro h; exact (eq_neg_of_add_eq_zero_left h).symm
  simp [this]

theorem mem_rows {A : List (List Q)} {q : Q} {r : List Nat} : r ∈ rowsOf A q ↔ InB (dims A) r ∧ total A r = q := by
  rw [rowsOf, List.mem_filter, mem_grid, decide_eq_true_eq]

theorem mem_cols {A : List (List Q)} {q : Q} {r : List Nat} : r ∈ colsOf A q ↔ InB (dims A) r ∧ q + total A r = 0 := by
  rw [colsOf, List.mem_filter, mem_grid, decide_eq_true_eq]

/-- A block of the tensor transposed by `o1 ++ o2`. -/
theorem mem_stored_two {L : List (List Q)} {o1 o2 : List Nat} (ho : (o1 ++ o2).Perm (List.range L.length))
    {r c : List Nat} (hr : r.length = o1.length) (hc : c.length = o2.length) :
    unperm (o1 ++ o2) (r ++ c) ∈ stored L ↔ r ∈ rowsOf (permL o1 L) (total (permL o1 L) r) ∧
      c ∈ colsOf (permL o2 L) (total (permL o1 L) r) := by
  have hol : (o1 ++ o2).length = L.length := by simpa using ho.length_eq
  rw [List.length_append] at hol
  rw [mem_stored_unperm ho (by rw [List.length_append]; omega), mem_rows, mem_cols, mem_stored]
  have hp : permL (o1 ++ o2) L = permL o1 L ++ permL o2 L := by simp [permL]
  have hd : dims (permL (o1 ++ o2) L) = dims (permL o1 L) ++ dims (permL o2 L) := by rw [hp]; simp [dims]
  have hl : r.length = (permL o1 L).length := by simp [permL, hr]
  rw [hd, hp, total_append hl, inB_append_iff (by simp [dims, permL, hr])]
  tauto

theorem getElem?_idxOf_map {α β : Type} [BEq α] [LawfulBEq α] {l : List α} {x : α} (h : x ∈ l) (f : α → β) :
    (l.map f)[l.idxOf x]? = some (f x) := by
  have hlt := List.idxOf_lt_length_iff.2 h
  rw [List.getElem?_map, List.getElem?_eq_getElem hlt, List.getElem_idxOf]
  rfl

theorem getD_idxOf_map {α β : Type} [BEq α] [LawfulBEq α] {l : List α} {x : α} (h : x ∈ l) (f : α → β) (d : β) :
    (l.map f).getD (l.idxOf x) d = f x := by
  rw [List.getD_eq_getElem?_getD, getElem?_idxOf_map h]
  rfl

/-- The contraction at the level of elementary legs.  Legs `C1` of the first tensor, with charges
opposite to those of the legs `C2` of the second, are summed over. -/
theorem contract_flat [NonUnitalNonAssocSemiring R] {argsort : List Nat → List Nat} (ha : ArgsortOK argsort)
    {T1 T2 : BST Q R} (h1 : T1.Valid) (h2 : T2.Valid) {A1 C1 C2 B2 : List Nat}
    (p1 : (A1 ++ C1).Perm (List.range T1.legs.length)) (p2 : (C2 ++ B2).Perm (List.range T2.legs.length))
    (hC1 : C1 ≠ []) (hC2 : C2 ≠ []) (hne : A1 ++ B2 ≠ [])
    (hK : permL C2 (eff T2.legs) = (permL C1 (eff T1.legs)).map (fun A => A.map (fun q => -q)))
    {left right : List (Leg Q)} (hleft : left = pick A1 T1.legs (.raw [], false))
    (hright : right = pick B2 T2.legs (.raw [], false)) :
    ∃ b1 b2 bf data, findTransposed argsort T1.legs left.length (A1 ++ C1) = .ok b1 ∧
      findTransposed argsort T2.legs C2.length (C2 ++ B2) = .ok b2 ∧
      findTransposed argsort (left ++ right) left.length (List.range (left ++ right).length) = .ok bf ∧
      dotLoop T1.data T2.data b1 b2 bf (intersect b1.qnums.uniq b2.qnums.uniq).2.1
        (intersect b1.qnums.uniq b2.qnums.uniq).2.2
        (intersect bf.qnums.uniq (intersect b1.qnums.uniq b2.qnums.uniq).1).2.1
        (List.range (intersect b1.qnums.uniq b2.qnums.uniq).1.length)
        (List.replicate (bf.maps.map List.length).sum 0) = .ok data ∧
      data.length = (stored (eff (left ++ right))).length ∧
      eff (left ++ right) = permL A1 (eff T1.legs) ++ permL B2 (eff T2.legs) ∧
      ∀ l r, InB (dims (permL A1 (eff T1.legs))) l → InB (dims (permL B2 (eff T2.legs))) r →
        (if l ++ r ∈ stored (eff (left ++ right)) then
          data.getD ((stored (eff (left ++ right))).idxOf (l ++ r)) 0 else 0) =
        sumIdx (dims (permL C1 (eff T1.legs))) (fun c =>
          T1.sval (unperm (A1 ++ C1) (l ++ c)) * T2.sval (unperm (C2 ++ B2) (c ++ r))) := by
  obtain ⟨L1, hL1⟩ : ∃ L, L = eff T1.legs := ⟨_, rfl⟩
  obtain ⟨L2, hL2⟩ : ∃ L, L = eff T2.legs := ⟨_, rfl⟩
  have hl1 : L1.length = T1.legs.length := by rw [hL1]; simp [eff]
  have hl2 : L2.length = T2.legs.length := by rw [hL2]; simp [eff]
  rw [← hL1, ← hL2] at hK ⊢
  obtain ⟨A, hA⟩ : ∃ A, A = permL A1 L1 := ⟨_, rfl⟩
  obtain ⟨K, hKd⟩ : ∃ K, K = permL C1 L1 := ⟨_, rfl⟩
  obtain ⟨B, hB⟩ : ∃ B, B = permL B2 L2 := ⟨_, rfl⟩
  rw [← hKd] at hK
  have hAl : A.length = A1.length := by rw [hA]; simp [permL]
  have hKl : K.length = C1.length := by rw [hKd]; simp [permL]
  have hBl : B.length = B2.length := by rw [hB]; simp [permL]
  have hCC : C2.length = C1.length := by
    have := congrArg List.length hK; simpa [permL, hKl] using this
  have hm1 : ∀ n ∈ A1 ++ C1, n < T1.legs.length := fun n hn => by simpa using p1.mem_iff.1 hn
  have hm2 : ∀ n ∈ C2 ++ B2, n < T2.legs.length := fun n hn => by simpa using p2.mem_iff.1 hn
  have hmA : ∀ n ∈ A1, n < T1.legs.length := fun n hn => hm1 n (List.mem_append_left _ hn)
  have hmB : ∀ n ∈ B2, n < T2.legs.length := fun n hn => hm2 n (List.mem_append_right _ hn)
  have hle : left.length = A1.length := by rw [hleft]; simp [pick]
  have hre : right.length = B2.length := by rw [hright]; simp [pick]
  have heL : eff left = A := by rw [hA, hL1, permL_eff _ _ hmA, hleft]; rfl
  have heR : eff right = B := by rw [hB, hL2, permL_eff _ _ hmB, hright]; rfl
  have heF : eff (left ++ right) = A ++ B := by rw [eff_append, heL, heR]
  have hwl : LegsWF (left ++ right) := by
    intro x hx
    rcases List.mem_append.1 hx with hx | hx
    · exact h1.pick_wf hmA x (hleft ▸ hx)
    · exact h2.pick_wf hmB x (hright ▸ hx)
  have hlrne : left ++ right ≠ [] := by
    intro h0
    have := congrArg List.length h0
    rw [List.length_append, hle, hre, List.length_nil] at this
    apply hne
    exact List.length_eq_zero_iff.1 (by rw [List.length_append]; omega)
  have hp1l : A1.length + C1.length = T1.legs.length := by simpa using p1.length_eq
  have hp2l : C2.length + B2.length = T2.legs.length := by simpa using p2.length_eq
  have hC1l : 0 < C1.length := List.length_pos_iff.2 hC1
  have hC2l : 0 < C2.length := List.length_pos_iff.2 hC2
  have hT1 : T1.legs ≠ [] := by intro h0; rw [h0, List.length_nil] at hp1l; omega
  have hT2 : T2.legs ≠ [] := by intro h0; rw [h0, List.length_nil] at hp2l; omega
  obtain ⟨b1, q1, f1, i1, t1⟩ := findTransposed_spec ha h1.wf hT1 (p := left.length) (by omega) p1
  obtain ⟨b2, q2, f2, i2, t2⟩ := findTransposed_spec ha h2.wf hT2 (p := C2.length) (by omega) p2
  obtain ⟨bf, qf, f3, i3, t3⟩ := findTransposed_spec ha hwl hlrne (p := left.length)
    (by rw [List.length_append]; omega) (List.Perm.refl (List.range (left ++ right).length))
  rw [← hL1, hle] at i1 t1
  rw [← hL2] at i2 t2
  rw [heF, show (left ++ right).length = (A ++ B).length by
    rw [List.length_append, List.length_append, hle, hre, hAl, hBl], hle] at i3 t3
  have sp1 : (permL (A1 ++ C1) L1).take A1.length = A ∧ (permL (A1 ++ C1) L1).drop A1.length = K := by
    rw [hA, hKd]
    simp only [permL, List.map_append]
    exact ⟨List.take_left' (by simp), List.drop_left' (by simp)⟩
  have sp2 : (permL (C2 ++ B2) L2).take C2.length = K.map (fun A => A.map (fun q => -q)) ∧
      (permL (C2 ++ B2) L2).drop C2.length = B := by
    rw [hB, ← hK]
    simp only [permL, List.map_append]
    exact ⟨List.take_left' (by simp), List.drop_left' (by simp)⟩
  have sp3 : (permL (List.range (A ++ B).length) (A ++ B)).take A1.length = A ∧
      (permL (List.range (A ++ B).length) (A ++ B)).drop A1.length = B := by
    rw [permL_range]
    exact ⟨List.take_left' hAl, List.drop_left' hAl⟩
  obtain ⟨cq, hcq⟩ : ∃ cq, cq = (intersect b1.qnums.uniq b2.qnums.uniq).1 := ⟨_, rfl⟩
  have hcm : ∀ q, q ∈ cq ↔ q ∈ q1 ∧ q ∈ q2 := by
    intro q; rw [hcq, intersect_mem, i1.uniq, i2.uniq]
  have hcn : cq.Nodup := hcq ▸ intersect_nodup _ _
  have hc1 : (intersect b1.qnums.uniq b2.qnums.uniq).2.1 = cq.map (fun x => q1.idxOf x) := by
    rw [hcq, ← i1.uniq]; rfl
  have hc2 : (intersect b1.qnums.uniq b2.qnums.uniq).2.2 = cq.map (fun x => q2.idxOf x) := by
    rw [hcq, ← i2.uniq]; rfl
  -- all common charges are charges of the result
  have hsub : ∀ q ∈ cq, q ∈ qf := by
    intro q hq
    obtain ⟨m1, m2⟩ := (hcm q).1 hq
    by_cases hedge : A1.length = 0 ∨ A1.length = (A ++ B).length
    · have hu : bf.qnums.uniq = [0] := by
        have hfd : findDiagonal argsort (left ++ right) left.length = .ok bf := by
          rw [← f3, findTransposed, if_pos rfl]
        exact findDiagonal_edge ha hwl hlrne (by
          rw [hle, List.length_append, hle, hre]
          rw [List.length_append, hAl, hBl] at hedge
          exact hedge) hfd
      rw [← i3.uniq, hu, List.mem_singleton]
      rcases hedge with h0 | h0
      · exact (t1 q m1).1 (Or.inl h0)
      · rw [List.length_append, hAl, hBl] at h0
        exact (t2 q m2).1 (Or.inr (by rw [hl2]; omega))
    · rw [List.length_append, hAl, hBl] at hedge
      have e1 := (t1 q m1).2 (by omega) (by rw [hl1]; omega)
      have e2 := (t2 q m2).2 (by omega) (by rw [hl2]; omega)
      rw [sp1.1, sp1.2] at e1
      rw [sp2.1, sp2.2] at e2
      exact i3.complete q (by rw [sp3.1]; exact e1.1) (by rw [sp3.2]; exact e2.2)
  have hlf : (intersect bf.qnums.uniq cq).2.1 = cq.map (fun x => qf.idxOf x) := by
    have : (intersect bf.qnums.uniq cq).2.1 = (intersect bf.qnums.uniq cq).1.map (fun x => bf.qnums.uniq.idxOf x) := rfl
    rw [this, intersect_sub (by rw [i3.uniq]; exact hsub) (hcq ▸ intersect_sorted _ _), i3.uniq]
  have hq1n : q1.Nodup := by rw [← i1.uniq]; exact Charge.uniq_nodup i1.wf
  have hbmF : ∀ q, blockMap (A ++ B) (List.range (A ++ B).length) A1.length q =
      (rowsOf A q).flatMap (fun r => (colsOf B q).map (fun c => (stored (A ++ B)).idxOf (r ++ c))) := by
    intro q; rw [← hAl]; exact blockMap_range A B q
  have hcov := i3.cover (List.Perm.refl _)
  have hnum : (bf.maps.map List.length).sum = (stored (A ++ B)).length := by
    rw [← List.length_flatten]
    simpa using hcov.length_eq
  obtain ⟨G, hG⟩ : ∃ G : List Nat → R, G = fun o => sumIdx (dims K) (fun c =>
    T1.sval (unperm (A1 ++ C1) (o.take A1.length ++ c)) * T2.sval (unperm (C2 ++ B2) (c ++ o.drop A1.length))) :=
    ⟨_, rfl⟩
  have hGlr : ∀ l r, l.length = A1.length → G (l ++ r) = sumIdx (dims K) (fun c =>
      T1.sval (unperm (A1 ++ C1) (l ++ c)) * T2.sval (unperm (C2 ++ B2) (c ++ r))) := by
    intro l r hl
    rw [hG]
    simp only
    rw [List.take_left' hl, List.drop_left' hl]
  have hKd2 : dims (K.map (fun A => A.map (fun q => -q))) = dims K := by simp [dims, Function.comp_def]
  -- where the factors do not vanish
  have hst1 : ∀ l c, InB (dims A) l → InB (dims K) c → (unperm (A1 ++ C1) (l ++ c) ∈ stored L1 ↔
      c ∈ colsOf K (total A l)) := by
    intro l c hl hc
    rw [mem_stored_two (L := L1) (by rw [hl1]; exact p1) (by rw [hl.length]; simp [dims, hAl])
      (by rw [hc.length]; simp [dims, hKl]), ← hA, ← hKd, mem_rows]
    simp [hl]
  have hst2 : ∀ c r, InB (dims K) c → InB (dims B) r → (unperm (C2 ++ B2) (c ++ r) ∈ stored L2 ↔
      r ∈ colsOf B (- total K c)) := by
    intro c r hc hr
    rw [mem_stored_two (L := L2) (by rw [hl2]; exact p2) (by rw [hc.length]; simp [dims, hKl, hCC])
      (by rw [hr.length]; simp [dims, hBl]), ← hB, hK, mem_rows, hKd2, total_neg _ _ hc]
    simp [hc]
  -- the value on a block of the result
  have hblock : ∀ q ∈ cq, ∀ l ∈ rowsOf A q, ∀ r ∈ colsOf B q,
      ((colsOf K q).map (fun c => T1.data.getD ((stored L1).idxOf (unperm (A1 ++ C1) (l ++ c))) 0 *
        T2.data.getD ((stored L2).idxOf (unperm (C2 ++ B2) (c ++ r))) 0)).sum = G (l ++ r) := by
    intro q hq l hl r hr
    rw [mem_rows] at hl
    rw [hGlr l r (by rw [hl.1.length]; simp [dims, hAl]), ← sum_grid, colsOf]
    rw [← sum_filter (grid (dims K)) (fun c => decide (q + total K c = 0))]
    · congr 1
      apply List.map_congr_left
      intro c hc
      rw [List.mem_filter, mem_grid, decide_eq_true_eq] at hc
      have hneg : - total K c = q := (eq_neg_of_add_eq_zero_left hc.2).symm
      rw [BST.sval, BST.sval, ← hL1, ← hL2, if_pos, if_pos]
      · rw [hst2 c r hc.1 (mem_cols.1 hr).1, hneg]; exact hr
      · rw [hst1 l c hl.1 hc.1, hl.2, mem_cols]; exact hc
    · intro c hc hc2
      rw [mem_grid] at hc
      have hc3 : ¬ q + total K c = 0 := by simpa using hc2
      rw [BST.sval, ← hL1, if_neg, zero_mul]
      rw [hst1 l c hl.1 hc, hl.2, mem_cols]
      exact fun h => hc3 h.2
  -- outside the common blocks the result vanishes
  have hzero : ∀ l r, InB (dims A) l → InB (dims B) r → (total A l ∉ cq ∨ l ++ r ∉ stored (A ++ B)) → G (l ++ r) = 0 := by
    intro l r hl hr hout
    rw [hGlr l r (by rw [hl.length]; simp [dims, hAl])]
    rw [← sum_grid]
    apply List.sum_eq_zero
    intro x hx
    obtain ⟨c, hc, rfl⟩ := List.mem_map.1 hx
    rw [mem_grid] at hc
    by_cases e1 : unperm (A1 ++ C1) (l ++ c) ∈ stored L1
    · by_cases e2 : unperm (C2 ++ B2) (c ++ r) ∈ stored L2
      · exfalso
        have g1 := (hst1 l c hl hc).1 e1
        have g2 := (hst2 c r hc hr).1 e2
        have g3 : - total K c = total A l := (eq_neg_of_add_eq_zero_left (mem_cols.1 g1).2).symm
        rw [g3] at g2
        have hrow : l ∈ rowsOf A (total A l) := mem_rows.2 ⟨hl, rfl⟩
        rcases hout with hout | hout
        · apply hout
          rw [hcm]
          refine ⟨i1.complete _ ?_ ?_, i2.complete _ ?_ ?_⟩
          · rw [sp1.1]; exact List.ne_nil_of_mem hrow
          · rw [sp1.2]; exact List.ne_nil_of_mem g1
          · rw [sp2.1, rows_neg]; exact List.ne_nil_of_mem g1
          · rw [sp2.2]; exact List.ne_nil_of_mem g2
        · apply hout
          rw [mem_stored, total_append (by rw [hl.length]; simp [dims])]
          refine ⟨?_, (mem_cols.1 g2).2⟩
          have : dims (A ++ B) = dims A ++ dims B := by simp [dims]
          rw [this]
          exact inB_append hl hr
      · rw [BST.sval, BST.sval, ← hL2, if_neg e2, mul_zero]
    · rw [BST.sval, ← hL1, if_neg e1, zero_mul]
  obtain ⟨data, d1, d2, d3⟩ := dotLoop_spec (src1 := T1.data) (src2 := T2.data) (b1 := b1) (b2 := b2) (bf := bf)
    (l1 := cq.map (fun x => q1.idxOf x)) (l2 := cq.map (fun x => q2.idxOf x)) (lf := cq.map (fun x => qf.idxOf x))
    (fun k => G ((stored (A ++ B)).getD k [])) (List.range cq.length)
    (List.replicate (bf.maps.map List.length).sum 0) (by
      intro n hn
      have hn' : n < cq.length := by simpa using hn
      obtain ⟨q, hq⟩ : ∃ q, q = cq[n] := ⟨_, rfl⟩
      have hqm : q ∈ cq := hq ▸ List.getElem_mem hn'
      obtain ⟨m1, m2⟩ := (hcm q).1 hqm
      have mf := hsub q hqm
      refine ⟨q1.idxOf q, q2.idxOf q, qf.idxOf q, by simp [hn', hq], by simp [hn', hq], by simp [hn', hq], ?_, ?_⟩
      · rw [i1.maps, i2.maps, i3.maps, i1.rows, i2.rows, i1.cols, i2.cols]
        rw [getD_idxOf_map m1, getD_idxOf_map m2, getD_idxOf_map mf, getD_idxOf_map m1, getD_idxOf_map m1,
          getD_idxOf_map m2, getD_idxOf_map m2]
        rw [hbmF, blockMap, blockMap, sp1.1, sp1.2, sp2.1, sp2.2, rows_neg]
        rw [blockDot_spec]
        · congr 1
          rw [List.map_flatMap]
          apply List.flatMap_congr
          intro l hl
          rw [List.map_map]
          apply List.map_congr_left
          intro r hr
          rw [hblock q hqm l hl r hr, Function.comp_apply, stored_getElem_idxOf]
          have hl' := mem_rows.1 hl
          have hr' := mem_cols.1 hr
          rw [mem_stored, total_append (by rw [hl'.1.length]; simp [dims])]
          have : dims (A ++ B) = dims A ++ dims B := by simp [dims]
          rw [this]
          exact ⟨inB_append hl'.1 hr'.1, by rw [hl'.2]; exact hr'.2⟩
        · intro l hl c hc
          have hl' := mem_rows.1 hl
          have hc' := mem_cols.1 hc
          rw [h1.size, ← hL1]
          apply List.idxOf_lt_length_iff.2
          rw [hst1 l c hl'.1 hc'.1, hl'.2]; exact hc
        · intro c hc r hr
          have hc' := mem_cols.1 hc
          have hr' := mem_cols.1 hr
          rw [h2.size, ← hL2]
          apply List.idxOf_lt_length_iff.2
          rw [hst2 c r hc'.1 hr'.1, (eq_neg_of_add_eq_zero_left hc'.2).symm]; exact hr
      · intro k hk
        rw [List.length_replicate, hnum]
        have : k ∈ bf.maps.flatten := by
          refine List.mem_flatten.2 ⟨_, ?_, hk⟩
          rw [i3.maps, getD_idxOf_map mf]
          exact List.mem_map_of_mem mf
        simpa using hcov.mem_iff.1 this)
  refine ⟨b1, b2, bf, data, f1, f2, f3, ?_, ?_, by rw [heF, hA, hB], ?_⟩
  · rw [hc1, hc2, ← hcq, hlf]; exact d1
  · rw [d2, List.length_replicate, hnum, heF]
  · rw [← hA, ← hB, ← hKd, heF]
    intro l r hl hr
    have hll : l.length = A1.length := by rw [hl.length]; simp [dims, hAl]
    rw [← hGlr l r hll]
    by_cases hs : l ++ r ∈ stored (A ++ B)
    · rw [if_pos hs, d3]
      by_cases hq : total A l ∈ cq
      · rw [if_pos, stored_getElem_idxOf hs]
        have hlt := List.idxOf_lt_length_iff.2 hq
        refine ⟨cq.idxOf (total A l), by simpa using hlt, ?_⟩
        rw [getD_idxOf_map hq, i3.maps, getD_idxOf_map (hsub _ hq), hbmF]
        refine List.mem_flatMap.2 ⟨l, mem_rows.2 ⟨hl, rfl⟩, List.mem_map.2 ⟨r, ?_, rfl⟩⟩
        rw [mem_cols]
        refine ⟨hr, ?_⟩
        have := (mem_stored.1 hs).2
        rwa [total_append (by rw [hl.length]; simp [dims])] at this
      · rw [hzero l r hl hr (Or.inl hq)]
        split_ifs with hex
        · rw [stored_getElem_idxOf hs, hzero l r hl hr (Or.inl hq)]
        · rw [List.getD_eq_getElem?_getD, List.getElem?_replicate]
          split_ifs <;> rfl
    · rw [if_neg hs, hzero l r hl hr (Or.inr hs)]

/-! ## Dense forms -/

theorem gshape {T : BST Q R} {d : NDArray R} (hsh : d.shape = T.order.map (gdim T.ldim)) {p : Nat} (hp : p < T.ndim) :
    d.shape.getD p 0 = gdim T.ldim (T.order.getD p []) := by
  have hp' : p < T.order.length := hp
  rw [hsh, List.getD_eq_getElem?_getD, List.getElem?_map, List.getElem?_eq_getElem hp',
    List.getD_eq_getElem _ _ hp']
  rfl

theorem mem_freeAxes {n p : Nat} {axes : List Nat} : p ∈ freeAxes n axes ↔ p < n ∧ p ∉ axes := by
  simp [freeAxes]

theorem freeAxes_nodup (n : Nat) (axes : List Nat) : (freeAxes n axes).Nodup := List.nodup_range.filter _

namespace BST

theorem Valid.axes_perm {T : BST Q R} (h : T.Valid) {axes : List Nat} (hn : axes.Nodup) (hlt : ∀ a ∈ axes, a < T.ndim) :
    (T.axisLegs (freeAxes T.ndim axes) ++ T.axisLegs axes).Perm (List.range T.legs.length) := by
  have h1 := freeAxes_append_perm hn hlt
  have h2 := (h1.map (fun a => T.order.getD a [])).flatten
  rw [show (List.range T.ndim).map (fun a => T.order.getD a []) = T.order from map_range_getD _ _] at h2
  rw [axisLegs, axisLegs, ← List.flatten_append, ← List.map_append]
  exact h2.trans h.perm

/-- An entry of the dense form, with the position given along the contracted and the free axes. -/
theorem Valid.dense_split [Zero R] {T : BST Q R} (h : T.Valid) {d : NDArray R} (hsh : d.shape = T.order.map (gdim T.ldim))
    (hget : ∀ σ : Nat → Nat, (∀ n, n < T.legs.length → σ n < T.ldim n) →
        d.get (T.order.map (fun g => gpos T.ldim g σ)) = T.sval ((List.range T.legs.length).map σ))
    {axes : List Nat} (hn : axes.Nodup) (hlt : ∀ a ∈ axes, a < T.ndim) {i c : List Nat}
    (hi : InB ((freeAxes T.ndim axes).map (fun p => d.shape.getD p 0)) i)
    (hc : InB (axes.map (fun p => d.shape.getD p 0)) c) {l x : List Nat}
    (hl : l = unravel ((T.axisLegs (freeAxes T.ndim axes)).map T.ldim)
      (ravel ((freeAxes T.ndim axes).map (fun p => d.shape.getD p 0)) i))
    (hx : x = unravel ((T.axisLegs axes).map T.ldim) (ravel (axes.map (fun p => d.shape.getD p 0)) c)) :
    d.get (mergeIdx T.ndim axes c i) =
      T.sval (unperm (T.axisLegs (freeAxes T.ndim axes) ++ T.axisLegs axes) (l ++ x)) ∧
    d.get (mergeIdx T.ndim axes c i) =
      T.sval (unperm (T.axisLegs axes ++ T.axisLegs (freeAxes T.ndim axes)) (x ++ l)) := by
  obtain ⟨free, hfree⟩ : ∃ f, f = freeAxes T.ndim axes := ⟨_, rfl⟩
  rw [← hfree] at hi hl ⊢
  have hperm := h.axes_perm hn hlt
  rw [← hfree] at hperm
  have hfl : ∀ a ∈ free, a < T.ndim := fun a ha => (mem_freeAxes.1 (hfree ▸ ha)).1
  have hfsh : free.map (fun p => d.shape.getD p 0) = (free.map (fun a => T.order.getD a [])).map (gdim T.ldim) := by
    rw [List.map_map]
    exact List.map_congr_left (fun a ha => gshape hsh (hfl a ha))
  have hash : axes.map (fun p => d.shape.getD p 0) = (axes.map (fun a => T.order.getD a [])).map (gdim T.ldim) := by
    rw [List.map_map]
    exact List.map_congr_left (fun a ha => gshape hsh (hlt a ha))
  rw [hfsh] at hi hl
  rw [hash] at hc hx
  have hnd : ((free.map (fun a => T.order.getD a []) ++ axes.map (fun a => T.order.getD a [])).flatten).Nodup := by
    rw [List.flatten_append]
    exact hperm.nodup_iff.2 List.nodup_range
  obtain ⟨σ, hσ, hσi⟩ := exists_gpos (dim := T.ldim) hnd (i := i ++ c) (by
    rw [List.map_append]; exact inB_append hi hc)
  rw [List.map_append] at hσi
  obtain ⟨e1, e2⟩ := List.append_inj hσi (by rw [List.length_map]; have := hi.length; simpa using this.symm)
  have hσ' : ∀ n, n < T.legs.length → σ n < T.ldim n := by
    intro n hn
    apply hσ
    rw [List.flatten_append]
    exact hperm.mem_iff.2 (by simpa using hn)
  have hmerge : mergeIdx T.ndim axes c i = T.order.map (fun g => gpos T.ldim g σ) := by
    rw [mergeIdx, ← hfree]
    conv_rhs => rw [← map_range_getD T.order [], List.map_map]
    apply List.map_congr_left
    intro p hp
    rw [Function.comp_apply]
    split_ifs with hpa
    · rw [← e2, List.map_map, getD_idxOf_map hpa]; rfl
    · have hpf : p ∈ free := by
        rw [hfree, mem_freeAxes]
        exact ⟨by simpa using hp, hpa⟩
      rw [← e1, List.map_map, getD_idxOf_map hpf]; rfl
  have hb : ∀ n ∈ T.axisLegs free ++ T.axisLegs axes, σ n < T.ldim n := fun n hn =>
    hσ' n (by simpa using hperm.mem_iff.1 hn)
  have hlσ : l = (T.axisLegs free).map σ := by
    rw [hl, ← e1, ravel_groups]
    refine unravel_ravel ?_
    · refine (inB_map _ _ _).2 ?_
      exact fun n hn => hb n (List.mem_append_left _ hn)
  have hxσ : x = (T.axisLegs axes).map σ := by
    rw [hx, ← e2, ravel_groups]
    refine unravel_ravel ?_
    · refine (inB_map _ _ _).2 ?_
      exact fun n hn => hb n (List.mem_append_right _ hn)
  rw [hmerge, hget σ hσ', hlσ, hxσ, ← List.map_append, ← List.map_append, perm_unperm_map hperm,
    perm_unperm_map (List.perm_append_comm.trans hperm)]
  exact ⟨rfl, rfl⟩

/-- A tensor whose axes are groups of consecutive legs. -/
theorem consec_spec [Zero R] {T : BST Q R} {gs : List (List (Leg Q))} (hlegs : T.legs = gs.flatten)
    (hord : T.order = consecutive 0 (gs.map List.length)) (hw : LegsWF T.legs) (hg : ∀ g ∈ gs, g ≠ [])
    (hsz : T.data.length = (stored (eff T.legs)).length) (hne : gs ≠ []) :
    T.Valid ∧ ∃ d, T.todense = .ok d ∧ d.shape = gs.map (fun g => (g.map (fun l => l.1.dim)).prod) ∧
      ∀ i, InB d.shape i → d.get i = T.sval (unravel (dims (eff T.legs)) (ravel d.shape i)) := by
  have hcf : T.order.flatten = List.range T.legs.length := by
    rw [hord, consecutive_flatten, ← List.length_flatten, List.range_eq_range', hlegs]
  have hv : T.Valid := by
    refine ⟨hw, by rw [hcf], ?_, hsz⟩
    intro g hgm hg0
    have h1 : g.length ∈ T.order.map List.length := List.mem_map_of_mem hgm
    rw [hord, consecutive_length, hg0] at h1
    obtain ⟨g', hg', h2⟩ := List.mem_map.1 h1
    exact hg g' hg' (List.length_eq_zero_iff.1 h2)
  have ho : T.order ≠ [] := by
    intro h0
    have h1 := consecutive_length 0 (gs.map List.length)
    rw [← hord, h0] at h1
    exact hne (List.map_eq_nil_iff.1 h1.symm)
  obtain ⟨d, d1, d2, d3⟩ := hv.todense ho
  refine ⟨hv, d, d1, ?_, ?_⟩
  · rw [d2, hord]
    apply consecutive_gdim (fun l : Leg Q => l.1.dim) []
    intro n _
    rw [BST.ldim, hlegs]; rfl
  · intro i hi
    rw [d2] at hi
    obtain ⟨σ, hσ, hσi⟩ := exists_gpos hv.order_nodup hi
    have hσ' : ∀ n, n < T.legs.length → σ n < T.ldim n := fun n hn => hσ n (hv.mem_order.2 hn)
    have e := d3 σ hσ'
    rw [hσi] at e
    rw [e]
    congr 1
    rw [d2, ← hσi, ravel_groups, hcf, T.dims_range, unravel_ravel]
    rw [inB_map]
    intro n hn
    exact hσ' n (by simpa using hn)

end BST

theorem consecutive_append (s : Nat) (a b : List Nat) :
    consecutive s a ++ consecutive (s + a.sum) b = consecutive s (a ++ b) := by
  induction a generalizing s with
  | nil => simp [consecutive]
  | cons n a ih =>
    rw [List.cons_append, consecutive, consecutive, List.cons_append, List.sum_cons, ← Nat.add_assoc, ih]

theorem chargeEq_charges {c1 c2 : Charge Q} (h : chargeEq c1 c2) : c1.charges = c2.charges := by
  obtain ⟨_, h2⟩ := h
  cases c1 <;> cases c2 <;> simp_all [Charge.charges]

/-- The checks of the contracted legs. -/
theorem eff_opposite {a b : List (Leg Q)} (ha : LegsWF a) (hb : LegsWF b) (hl : b.length = a.length)
    (hf : a.map Prod.snd = b.map (fun l => !l.2)) (hc : ∀ p ∈ a.zip b, chargeEq p.1.1 p.2.1) :
    eff b = (eff a).map (fun A => A.map (fun q => -q)) := by
  induction a generalizing b with
  | nil =>
    have : b = [] := List.length_eq_zero_iff.1 (by simpa using hl)
    rw [this]; rfl
  | cons x a ih =>
    cases b with
    | nil => simp at hl
    | cons y b =>
      rw [List.map_cons, List.map_cons, List.cons.injEq] at hf
      have hc0 := chargeEq_charges (hc (x, y) (by simp))
      have := ih (b := b) (fun l hl => ha l (by simp [hl])) (fun l hl => hb l (by simp [hl])) (by simpa using hl)
        hf.2 (fun p hp => hc p (by simp [hp]))
      simp only [eff, List.map_cons] at this ⊢
      rw [this]
      congr 1
      have hx : x.1.WF := ha x (by simp)
      have hy : y.1.WF := hb y (by simp)
      rw [Charge.dual_charges hx, Charge.dual_charges hy, hf.1]
      simp only at hc0
      rw [← hc0]
      cases y.2 <;> simp

/-! ## Outer product -/

theorem filter_zero {qs : List Q} (hn : qs.Nodup) {q : Q} (hq : q ∈ qs) :
    (List.range qs.length).filter (fun k => decide (qs.getD k 0 = q)) = [qs.idxOf q] := by
  let _ : Inhabited Q := ⟨0⟩
  have h1 := filter_range_map qs hn (fun x => decide (x = q)) id
  rw [List.map_id] at h1
  have h3 : qs.filter (fun x => decide (x = q)) = [q] := by
    have h4 := List.filter_beq (l := qs) q
    rw [List.count_eq_one_of_mem hn hq] at h4
    simpa [beq_eq_decide] using h4
  refine Eq.trans h1 ?_
  rw [h3]; rfl

theorem outer_flat [NonUnitalNonAssocSemiring R] {argsort : List Nat → List Nat} (ha : ArgsortOK argsort)
    {T1 T2 : BST Q R} (h1 : T1.Valid) (h2 : T2.Valid) (hne : T1.legs ++ T2.legs ≠ []) :
    ∃ data, T1.outer argsort T2 = .ok ⟨data, T1.legs ++ T2.legs,
        T1.order ++ T2.order.map (List.map (· + T1.legs.length))⟩ ∧
      data.length = (stored (eff (T1.legs ++ T2.legs))).length ∧
      ∀ l r, InB (dims (eff T1.legs)) l → InB (dims (eff T2.legs)) r →
        (if l ++ r ∈ stored (eff (T1.legs ++ T2.legs)) then
          data.getD ((stored (eff (T1.legs ++ T2.legs))).idxOf (l ++ r)) 0 else 0) = T1.sval l * T2.sval r := by
  obtain ⟨A, hA⟩ : ∃ L, L = eff T1.legs := ⟨_, rfl⟩
  obtain ⟨B, hB⟩ : ∃ L, L = eff T2.legs := ⟨_, rfl⟩
  have hAl : A.length = T1.legs.length := by rw [hA]; simp [eff]
  have hw : LegsWF (T1.legs ++ T2.legs) := by
    intro x hx
    rcases List.mem_append.1 hx with hx | hx
    · exact h1.wf x hx
    · exact h2.wf x hx
  have hAB : eff (T1.legs ++ T2.legs) = A ++ B := by rw [eff_append, hA, hB]
  have hdAB : dims (A ++ B) = dims A ++ dims B := by simp [dims]
  have hnum : numNonzero argsort (T1.legs ++ T2.legs) = .ok (stored (A ++ B)).length := by
    rw [C22_num_nonzero ha hw hne, hAB, stored, ← List.countP_eq_length_filter, ← dims_eff, hAB]
  have hr0 : rowsOf A 0 = stored A := rfl
  have hc0 : colsOf B 0 = stored B := by rw [colsOf, stored]; simp
  have hnil : ∀ {T : BST Q R}, T.Valid → T.data.length = 0 → ∀ o, T.sval o = 0 := by
    intro T h h0 o
    rw [h.size] at h0
    rw [BST.sval, if_neg]
    rw [List.length_eq_zero_iff.1 h0]; simp
  have hmem : ∀ l r, l ∈ stored A → r ∈ stored B → l ++ r ∈ stored (A ++ B) := by
    intro l r hl hr
    rw [mem_stored] at hl hr ⊢
    rw [hdAB, total_append (by rw [hl.1.length]; simp [dims]), hl.2, hr.2, add_zero]
    exact ⟨inB_append hl.1 hr.1, rfl⟩
  rw [← hA, ← hB, hAB, BST.outer, hnum]
  simp only [bind, Except.bind]
  by_cases hpos : (T1.data.length > 0 ∧ T2.data.length > 0) ∧ (stored (A ++ B)).length > 0
  · rw [if_pos hpos]
    obtain ⟨b, qs, f1, f2, f3⟩ := findDiagonal_spec ha hw hne (p := T1.legs.length) (by simp)
    rw [hAB] at f2
    have hperm := permL_range (A ++ B)
    have h0 : (0 : Q) ∈ qs := by
      apply f2.complete
      · rw [hperm, List.take_left' hAl, hr0]
        intro h0
        have := hpos.1.1
        rw [h1.size, ← hA, h0] at this
        simp at this
      · rw [hperm, List.drop_left' hAl, hc0]
        intro h0
        have := hpos.1.2
        rw [h2.size, ← hB, h0] at this
        simp at this
    have hqn : qs.Nodup := by rw [← f2.uniq]; exact Charge.uniq_nodup f2.wf
    have hblock : b.maps.getD (qs.idxOf 0) [] =
        (stored A).flatMap (fun r => (stored B).map (fun c => (stored (A ++ B)).idxOf (r ++ c))) := by
      rw [f2.maps, getD_idxOf_map h0, ← hAl, blockMap_range, hr0, hc0]
    obtain ⟨f, hf⟩ : ∃ f : Nat → R, f = fun k =>
        T1.sval (((stored (A ++ B)).getD k []).take A.length) * T2.sval (((stored (A ++ B)).getD k []).drop A.length) :=
      ⟨_, rfl⟩
    have hfk : ∀ l ∈ stored A, ∀ r ∈ stored B, f ((stored (A ++ B)).idxOf (l ++ r)) = T1.sval l * T2.sval r := by
      intro l hl r hr
      have hll : l.length = A.length := by rw [(stored_inB hl).length]; simp [dims]
      rw [hf]
      simp only
      rw [stored_getElem_idxOf (hmem l r hl hr), List.take_left' hll, List.drop_left' hll]
    have hvals : outerRavel (· * ·) T1.data T2.data = (b.maps.getD (qs.idxOf 0) []).map f := by
      rw [hblock, List.map_flatMap]
      have e1 : T1.data = (stored A).map T1.sval := by
        apply List.ext_getElem
        · rw [List.length_map, h1.size, hA]
        · intro k k1 k2
          have hk : k < (stored A).length := by simpa using k2
          have hm := List.getElem_mem hk
          have hi : (stored A).idxOf (stored A)[k] = k := Charge.idxOf_getElem_nodup (stored_nodup _) hk
          rw [List.getElem_map, BST.sval, ← hA, if_pos hm, hi, List.getD_eq_getElem _ _ k1]
      have e2 : T2.data = (stored B).map T2.sval := by
        apply List.ext_getElem
        · rw [List.length_map, h2.size, hB]
        · intro k k1 k2
          have hk : k < (stored B).length := by simpa using k2
          have hm := List.getElem_mem hk
          have hi : (stored B).idxOf (stored B)[k] = k := Charge.idxOf_getElem_nodup (stored_nodup _) hk
          rw [List.getElem_map, BST.sval, ← hB, if_pos hm, hi, List.getD_eq_getElem _ _ k1]
      rw [outerRavel, e1, e2, List.flatMap_map]
      apply List.flatMap_congr
      intro l hl
      rw [List.map_map, List.map_map]
      apply List.map_congr_left
      intro r hr
      simp only [Function.comp_apply]
      rw [hfk l hl r hr]
    obtain ⟨data, s1, s2, s3⟩ := setAll_fun (a := List.replicate (stored (A ++ B)).length 0)
      (locs := b.maps.getD (qs.idxOf 0) []) f (by
        intro k hk
        rw [hblock] at hk
        obtain ⟨l, hl, hk⟩ := List.mem_flatMap.1 hk
        obtain ⟨r, hr, rfl⟩ := List.mem_map.1 hk
        rw [List.length_replicate]
        exact List.idxOf_lt_length_iff.2 (hmem l r hl hr))
    refine ⟨data, ?_, by rw [s2, List.length_replicate], ?_⟩
    · rw [f1]
      simp only
      rw [f2.charges, filter_zero hqn h0]
      simp only
      rw [hvals, s1]
    · intro l r hl hr
      have hll : l.length = A.length := by rw [hl.length]; simp [dims]
      by_cases hs : l ++ r ∈ stored (A ++ B)
      · rw [if_pos hs, s3]
        by_cases hsl : l ∈ stored A
        · have hsr : r ∈ stored B := by
            rw [mem_stored] at hs hsl ⊢
            have := hs.2
            rw [total_append hll, hsl.2, zero_add] at this
            exact ⟨hr, this⟩
          rw [if_pos, hfk l hsl r hsr]
          rw [hblock]
          exact List.mem_flatMap.2 ⟨l, hsl, List.mem_map.2 ⟨r, hsr, rfl⟩⟩
        · have hz : T1.sval l = 0 := by rw [BST.sval, ← hA, if_neg hsl]
          rw [hz, zero_mul, if_neg]
          · rw [List.getD_eq_getElem?_getD, List.getElem?_replicate]
            split_ifs <;> rfl
          · rw [hblock]
            intro hk
            obtain ⟨l', hl', hk⟩ := List.mem_flatMap.1 hk
            obtain ⟨r', hr', hk⟩ := List.mem_map.1 hk
            have h3 := stored_getElem_idxOf (hmem l' r' hl' hr')
            rw [hk, stored_getElem_idxOf hs] at h3
            have := List.append_inj_left h3 (by rw [hll, (stored_inB hl').length]; simp [dims])
            exact hsl (this ▸ hl')
      · rw [if_neg hs]
        by_cases hsl : l ∈ stored A
        · by_cases hsr : r ∈ stored B
          · exact absurd (hmem l r hsl hsr) hs
          · rw [show T2.sval r = 0 by rw [BST.sval, ← hB, if_neg hsr], mul_zero]
        · rw [show T1.sval l = 0 by rw [BST.sval, ← hA, if_neg hsl], zero_mul]
  · rw [if_neg hpos]
    refine ⟨_, rfl, by simp, ?_⟩
    intro l r hl hr
    have hz : ∀ k, (List.replicate (stored (A ++ B)).length (0 : R)).getD k 0 = 0 := by
      intro k
      rw [List.getD_eq_getElem?_getD, List.getElem?_replicate]
      split_ifs <;> rfl
    rw [hz, ite_self]
    by_cases e1 : T1.data.length > 0
    · by_cases e2 : T2.data.length > 0
      · have e3 : stored (A ++ B) = [] := by
          by_contra h0
          exact hpos ⟨⟨e1, e2⟩, List.length_pos_iff.2 h0⟩
        by_cases hsl : l ∈ stored A
        · by_cases hsr : r ∈ stored B
          · have := hmem l r hsl hsr
            rw [e3] at this
            simp at this
          · rw [show T2.sval r = 0 by rw [BST.sval, ← hB, if_neg hsr], mul_zero]
        · rw [show T1.sval l = 0 by rw [BST.sval, ← hA, if_neg hsl], zero_mul]
      · rw [hnil h2 (by omega), mul_zero]
    · rw [hnil h1 (by omega), zero_mul]

end
end TN.Bs
