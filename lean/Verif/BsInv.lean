import Verif.BsFactor
import Mathlib.LinearAlgebra.Matrix.NonsingularInverse
import Mathlib.LinearAlgebra.Matrix.Rank

/-!
# Inverse and pseudo-inverse of block-sparse matrices (block_sparse/linalg.py:514-547, 659-694)
-/

set_option linter.unusedSectionVars false

namespace TN.Bs

open NDArray

section
variable {Q : Type} [AddCommGroup Q] [LinearOrder Q] {R : Type}

/-! ## Model -/

/-- `np.reshape(matrix.data[block], shapes[:, n])` -/
def blk [Zero R] (T : BST Q R) (b : Blocks Q) (n : Nat) : Nat → Nat → R :=
  fun i j => T.data.getD ((b.maps.getD n []).getD (i * b.cols.getD n 0 + j) 0) 0

/-- The loop `for n, block in enumerate(blocks): data[block] = np.ravel(np.linalg.inv(...).T)` (linalg.py:534-536,
683-688).  `inv` stands for `np.linalg.inv` or `np.linalg.pinv` and gets the number of rows and columns and the
elements of the block; its result has as many rows as the block has columns. -/
def invLoop [Zero R] (inv : Nat → Nat → (Nat → Nat → R) → Py (Nat → Nat → R)) (T : BST Q R) (b : Blocks Q) :
    List Nat → List R → Py (List R)
  | [], a => .ok a
  | n :: ns, a => do
    let G ← inv (b.rows.getD n 0) (b.cols.getD n 0) (blk T b n)
    let a ← setAll a (b.maps.getD n [])
      ((List.range (b.rows.getD n 0)).flatMap (fun i => (List.range (b.cols.getD n 0)).map (fun j => G j i)))
    invLoop inv T b ns a

/-- `inv(matrix)` (linalg.py:514-544) and `pinv(matrix, rcond, hermitian)` (linalg.py:659-694), which differ in the
function called for each block.  `empty` stands for the contents of `np.empty`. -/
def bsInverse [Zero R] (argsort : List Nat → List Nat) (empty : Nat → List R)
    (inv : Nat → Nat → (Nat → Nat → R) → Py (Nat → Nat → R)) (T : BST Q R) : Py (BST Q R) :=
  match T.order with
  | [o0, o1] => do
    let b ← findTransposed argsort T.legs o0.length (o0 ++ o1)
    let data ← invLoop inv T b (List.range b.maps.length) (empty b.size)
    BST.transpose ⟨data, flipFlows T.legs, T.order⟩ [1, 0]
  | _ => .error .valueError

/-! ## Matrices that are made of blocks -/

/-- The places of an axis of dimension `m` carry a charge and a position among the places of that charge. -/
structure Side (m : Nat) (lab : Nat → Q) (pos : Nat → Nat) (cnt : Q → Nat) : Prop where
  lt : ∀ i < m, pos i < cnt (lab i)
  inj : ∀ i < m, ∀ j < m, lab i = lab j → pos i = pos j → i = j
  surj : ∀ q, ∀ a < cnt q, ∃ i < m, lab i = q ∧ pos i = a

theorem Side.sum {m : Nat} {lab : Nat → Q} {pos : Nat → Nat} {cnt : Q → Nat} (h : Side m lab pos cnt)
    {S : Type} [AddCommMonoid S] (q : Q) (g : Nat → S) :
    ∑ i ∈ Finset.range m, (if lab i = q then g (pos i) else 0) = ∑ a ∈ Finset.range (cnt q), g a := by
  rw [← Finset.sum_filter]
  apply Finset.sum_nbij pos
  · intro i hi
    rw [Finset.mem_filter, Finset.mem_range] at hi
    rw [Finset.mem_range, ← hi.2]
    exact h.lt i hi.1
  · intro i hi j hj e
    rw [Finset.mem_coe, Finset.mem_filter, Finset.mem_range] at hi hj
    exact h.inj i hi.1 j hj.1 (hi.2.trans hj.2.symm) e
  · intro a ha
    rw [Finset.mem_coe, Finset.mem_range] at ha
    obtain ⟨i, h1, h2, h3⟩ := h.surj q a ha
    exact ⟨i, by simp [h1, h2], h3⟩
  · intro i _
    rfl

/-- A matrix that vanishes where the charges of row and column differ. -/
def Form [Zero R] (m n : Nat) (d : Nat → Nat → R) (labr : Nat → Q) (posr : Nat → Nat) (labc : Nat → Q) (posc : Nat → Nat)
    (M : Q → Nat → Nat → R) : Prop :=
  ∀ i < m, ∀ j < n, d i j = if labr i = labc j then M (labr i) (posr i) (posc j) else 0

/-- The product of two matrices made of blocks consists of the products of the blocks. -/
theorem Form.mul [NonUnitalNonAssocSemiring R] {m n l : Nat} {d e : Nat → Nat → R} {la lb lc : Nat → Q} {pa pb pc : Nat → Nat}
    {cnt : Q → Nat} {M N : Q → Nat → Nat → R} (hd : Form m n d la pa lb pb M) (he : Form n l e lb pb lc pc N)
    (hs : Side n lb pb cnt) :
    Form m l (fun i k => ∑ j ∈ Finset.range n, d i j * e j k) la pa lc pc
      (fun q x z => ∑ y ∈ Finset.range (cnt q), M q x y * N q y z) := by
  intro i hi k hk
  simp only
  by_cases hik : la i = lc k
  · rw [if_pos hik, ← hs.sum (la i) (fun y => M (la i) (pa i) y * N (la i) y (pc k))]
    apply Finset.sum_congr rfl
    intro j hj
    rw [Finset.mem_range] at hj
    rw [hd i hi j hj, he j hj k hk]
    by_cases hj' : lb j = la i
    · rw [if_pos hj'.symm, if_pos (hj'.trans hik), if_pos hj', hj']
    · rw [if_neg (fun h => hj' h.symm), if_neg hj', zero_mul]
  · rw [if_neg hik]
    apply Finset.sum_eq_zero
    intro j hj
    rw [Finset.mem_range] at hj
    rw [hd i hi j hj, he j hj k hk]
    by_cases hj' : la i = lb j
    · rw [if_neg (c := lb j = lc k) (fun h => hik (hj'.trans h)), mul_zero]
    · rw [if_neg hj', zero_mul]

/-- The transposed matrix, its elements changed by a function that fixes zero. -/
theorem Form.swap [Zero R] {m n : Nat} {d : Nat → Nat → R} {la lb : Nat → Q} {pa pb : Nat → Nat} {M : Q → Nat → Nat → R}
    (hd : Form m n d la pa lb pb M) (c : R → R) (hc : c 0 = 0) :
    Form n m (fun j i => c (d i j)) lb pb la pa (fun q y x => c (M q x y)) := by
  intro j hj i hi
  simp only
  rw [hd i hi j hj]
  by_cases h : la i = lb j
  · rw [if_pos h, if_pos h.symm, h]
  · rw [if_neg h, if_neg (fun e => h e.symm), hc]

/-- Two matrices agree if their blocks do. -/
theorem Form.ext [Zero R] {m n : Nat} {d e : Nat → Nat → R} {la lb : Nat → Q} {pa pb : Nat → Nat} {M N : Q → Nat → Nat → R}
    (hd : Form m n d la pa lb pb M) (he : Form m n e la pa lb pb N) {ca cb : Q → Nat} (ha : Side m la pa ca)
    (hb : Side n lb pb cb) (h : ∀ q, ∀ a < ca q, ∀ b < cb q, M q a b = N q a b) :
    ∀ i < m, ∀ j < n, d i j = e i j := by
  intro i hi j hj
  rw [hd i hi j hj, he i hi j hj]
  by_cases e : la i = lb j
  · rw [if_pos e, if_pos e]
    exact h _ _ (ha.lt i hi) _ (by rw [e]; exact hb.lt j hj)
  · rw [if_neg e, if_neg e]

/-- Conversely the blocks of equal matrices agree. -/
theorem Form.ext_iff [Zero R] {m n : Nat} {d e : Nat → Nat → R} {la lb : Nat → Q} {pa pb : Nat → Nat} {M N : Q → Nat → Nat → R}
    (hd : Form m n d la pa lb pb M) (he : Form m n e la pa lb pb N) {ca cb : Q → Nat} (ha : Side m la pa ca)
    (hb : Side n lb pb cb) :
    (∀ i < m, ∀ j < n, d i j = e i j) ↔ ∀ q, ∀ a < ca q, ∀ b < cb q, M q a b = N q a b := by
  refine ⟨?_, hd.ext he ha hb⟩
  intro h q a hqa b hqb
  obtain ⟨i, hi, i1, i2⟩ := ha.surj q a hqa
  obtain ⟨j, hj, j1, j2⟩ := hb.surj q b hqb
  have := h i hi j hj
  rwa [hd i hi j hj, he i hi j hj, if_pos (i1.trans j1.symm), if_pos (i1.trans j1.symm), i1, i2, j2] at this

/-- The identity matrix is made of identity matrices. -/
theorem form_one [Zero R] [One R] {m : Nat} {la : Nat → Q} {pa : Nat → Nat} {ca : Q → Nat} (ha : Side m la pa ca) :
    Form m m (fun i j => if i = j then (1 : R) else 0) la pa la pa (fun _ a b => if a = b then 1 else 0) := by
  intro i hi j hj
  simp only
  by_cases h : la i = la j
  · rw [if_pos h]
    by_cases hij : i = j
    · rw [if_pos hij, if_pos (by rw [hij])]
    · rw [if_neg hij, if_neg (fun e => hij (ha.inj i hi j hj h e))]
  · rw [if_neg h, if_neg (fun e => h (by rw [e]))]

theorem side_of (S : List Nat) (X : Q → List (List Nat)) (lab : List Nat → Q) (hn : ∀ q, (X q).Nodup)
    (hX : ∀ q r, r ∈ X q ↔ InB S r ∧ lab r = q) :
    Side S.prod (fun i => lab (unravel S i)) (fun i => (X (lab (unravel S i))).idxOf (unravel S i))
      (fun q => (X q).length) := by
  have hm : ∀ i < S.prod, unravel S i ∈ X (lab (unravel S i)) := fun i hi => (hX _ _).2 ⟨unravel_inB hi, rfl⟩
  refine ⟨fun i hi => List.idxOf_lt_length_iff.2 (hm i hi), ?_, ?_⟩
  · intro i hi j hj h1 h2
    have h3 := hm i hi
    have h4 := hm j hj
    rw [← h1] at h2 h4
    have : unravel S i = unravel S j := by
      rw [← List.getElem_idxOf (List.idxOf_lt_length_iff.2 h3), ← List.getElem_idxOf (List.idxOf_lt_length_iff.2 h4)]
      simp only [h2]
    rw [← ravel_unravel hi, ← ravel_unravel hj, this]
  · intro q a ha
    have h1 := (hX q _).1 (List.getElem_mem ha)
    refine ⟨ravel S (X q)[a], ravel_lt h1.1, ?_, ?_⟩
    · rw [unravel_ravel h1.1, h1.2]
    · rw [unravel_ravel h1.1, h1.2]
      exact List.Nodup.idxOf_getElem (hn q) _ _

/-- The charge of row `i` of a matrix whose rows are the legs `A`. -/
def rlab (A : List (List Q)) (i : Nat) : Q := total A (unravel (dims A) i)

/-- The position of row `i` in the block of its charge. -/
def rpos (A : List (List Q)) (i : Nat) : Nat := (rowsOf A (rlab A i)).idxOf (unravel (dims A) i)

/-- The charge of the block of column `j` of a matrix whose columns are the legs `B`. -/
def clab (B : List (List Q)) (j : Nat) : Q := - total B (unravel (dims B) j)

/-- The position of column `j` in the block of its charge. -/
def cpos (B : List (List Q)) (j : Nat) : Nat := (colsOf B (clab B j)).idxOf (unravel (dims B) j)

theorem side_rows (A : List (List Q)) : Side (dims A).prod (rlab A) (rpos A) (fun q => (rowsOf A q).length) :=
  side_of (dims A) (rowsOf A) (total A) (fun _ => (grid_nodup _).filter _) (fun _ _ => mem_rows)

theorem side_cols (B : List (List Q)) : Side (dims B).prod (clab B) (cpos B) (fun q => (colsOf B q).length) :=
  side_of (dims B) (colsOf B) (fun r => - total B r) (fun _ => (grid_nodup _).filter _) (fun q r => by
    rw [mem_cols]
    have : q + total B r = 0 ↔ - total B r = q := by rw [add_eq_zero_iff_eq_neg]; exact eq_comm
    rw [this])

/-! ## Proofs -/

theorem unperm_swap {o0 o1 r c : List Nat} {n : Nat} (ho : (o0 ++ o1).Perm (List.range n)) (hr : r.length = o0.length)
    (hc : c.length = o1.length) : unperm (o1 ++ o0) (c ++ r) = unperm (o0 ++ o1) (r ++ c) := by
  obtain ⟨o, hod⟩ : ∃ o, o = unperm (o0 ++ o1) (r ++ c) := ⟨_, rfl⟩
  have hl : (o0 ++ o1).length = n := by simpa using ho.length_eq
  have hrc : (r ++ c).length = n := by rw [List.length_append, hr, hc, ← hl, List.length_append]
  have h1 := unperm_map ho hrc
  rw [← hod, List.map_append] at h1
  obtain ⟨h2, h3⟩ := List.append_inj h1 (by simp [hr])
  have hol : o.length = n := by rw [hod, unperm_length, hl]
  have ho' : (o1 ++ o0).Perm (List.range n) := List.perm_append_comm.trans ho
  have := perm_unperm ho' hol
  rw [List.map_append, h2, h3] at this
  rw [this, hod]

theorem flatMap_range_idxOf {α β : Type} [BEq α] [LawfulBEq α] {X : List α} (hX : X.Nodup) (g : Nat → List β) :
    (List.range X.length).flatMap g = X.flatMap (fun x => g (X.idxOf x)) := by
  rw [← range_idxOf hX, List.flatMap_map]

theorem map_range_idxOf {α β : Type} [BEq α] [LawfulBEq α] {X : List α} (hX : X.Nodup) (g : Nat → β) :
    (List.range X.length).map g = X.map (fun x => g (X.idxOf x)) := by
  rw [← range_idxOf hX, List.map_map]
  rfl

theorem invLoop_ok [Zero R] {inv : Nat → Nat → (Nat → Nat → R) → Py (Nat → Nat → R)} {T : BST Q R} {b : Blocks Q}
    {G : Nat → Nat → Nat → R} {ns : List Nat}
    (h : ∀ n ∈ ns, inv (b.rows.getD n 0) (b.cols.getD n 0) (blk T b n) = .ok (G n)) (a : List R) :
    invLoop inv T b ns a = writeBlocks (ns.map (fun n => (b.maps.getD n [],
      (List.range (b.rows.getD n 0)).flatMap (fun i => (List.range (b.cols.getD n 0)).map (fun j => G n j i))))) a := by
  induction ns generalizing a with
  | nil => rfl
  | cons n ns ih =>
    rw [invLoop, h n (by simp), List.map_cons, writeBlocks]
    simp only [bind, Except.bind]
    cases setAll a (b.maps.getD n []) ((List.range (b.rows.getD n 0)).flatMap (fun i =>
      (List.range (b.cols.getD n 0)).map (fun j => G n j i))) with
    | error e => rfl
    | ok a' => exact ih (fun m hm => h m (by simp [hm])) a'

theorem invLoop_err [Zero R] {inv : Nat → Nat → (Nat → Nat → R) → Py (Nat → Nat → R)} {T : BST Q R} {b : Blocks Q}
    {ns : List Nat} {a r : List R} (h : invLoop inv T b ns a = .ok r) :
    ∀ n ∈ ns, ∃ G, inv (b.rows.getD n 0) (b.cols.getD n 0) (blk T b n) = .ok G := by
  induction ns generalizing a with
  | nil => simp
  | cons n ns ih =>
    rw [invLoop] at h
    simp only [bind, Except.bind] at h
    cases hG : inv (b.rows.getD n 0) (b.cols.getD n 0) (blk T b n) with
    | error e => rw [hG] at h; simp at h
    | ok G =>
      rw [hG] at h
      simp only at h
      cases hs : setAll a (b.maps.getD n []) ((List.range (b.rows.getD n 0)).flatMap (fun i =>
        (List.range (b.cols.getD n 0)).map (fun j => G j i))) with
      | error e => rw [hs] at h; simp at h
      | ok a' =>
        rw [hs] at h
        intro m hm
        rcases List.mem_cons.1 hm with rfl | hm
        · exact ⟨G, hG⟩
        · exact ih h m hm

/-- What is needed of the legs of a matrix. -/
theorem BST.Valid.mat_legs {T : BST Q R} (h : T.Valid) {o0 o1 : List Nat} (hord : T.order = [o0, o1]) :
    (o0 ++ o1).Perm (List.range (eff T.legs).length) ∧ dims (permL o0 (eff T.legs)) = o0.map T.ldim ∧
      dims (permL o1 (eff T.legs)) = o1.map T.ldim ∧
      (permL (o0 ++ o1) (eff T.legs)).take o0.length = permL o0 (eff T.legs) ∧
      (permL (o0 ++ o1) (eff T.legs)).drop o0.length = permL o1 (eff T.legs) := by
  have hLl : (eff T.legs).length = T.legs.length := by simp [eff]
  have hperm : (o0 ++ o1).Perm (List.range (eff T.legs).length) := by
    have := h.perm
    rwa [hord, show [o0, o1].flatten = o0 ++ o1 by simp, ← hLl] at this
  have hlt0 : ∀ n ∈ o0, n < T.legs.length := fun n hn => by
    rw [← hLl]; exact List.mem_range.1 (hperm.mem_iff.1 (List.mem_append_left _ hn))
  have hlt1 : ∀ n ∈ o1, n < T.legs.length := fun n hn => by
    rw [← hLl]; exact List.mem_range.1 (hperm.mem_iff.1 (List.mem_append_right _ hn))
  have hpl : permL (o0 ++ o1) (eff T.legs) = permL o0 (eff T.legs) ++ permL o1 (eff T.legs) := by simp [permL]
  have hl0 : (permL o0 (eff T.legs)).length = o0.length := by simp [permL]
  refine ⟨hperm, ?_, ?_, ?_, ?_⟩
  · rw [permL_eff _ _ hlt0, dims_eff]; exact pick_dims T hlt0
  · rw [permL_eff _ _ hlt1, dims_eff]; exact pick_dims T hlt1
  · rw [hpl]; exact List.take_left' hl0
  · rw [hpl]; exact List.drop_left' hl0

/-- The dense form of a block-sparse matrix is made of its blocks. -/
theorem matrix_form [Zero R] {T : BST Q R} (h : T.Valid) {o0 o1 : List Nat} (hord : T.order = [o0, o1]) {b : Blocks Q}
    {qs : List Q} (hb : IsBlocks (eff T.legs) (o0 ++ o1) o0.length b qs) :
    ∃ d, T.todense = .ok d ∧
      d.shape = [(dims (permL o0 (eff T.legs))).prod, (dims (permL o1 (eff T.legs))).prod] ∧
      Form (dims (permL o0 (eff T.legs))).prod (dims (permL o1 (eff T.legs))).prod (fun i j => d.get [i, j])
        (rlab (permL o0 (eff T.legs))) (rpos (permL o0 (eff T.legs))) (clab (permL o1 (eff T.legs)))
        (cpos (permL o1 (eff T.legs))) (fun q => blk T b (qs.idxOf q)) := by
  obtain ⟨hperm, h0, h1, _, _⟩ := h.mat_legs hord
  obtain ⟨d, d1, d2, d3⟩ := h.matrix hord
  refine ⟨d, d1, by rw [d2, h0, h1]; rfl, ?_⟩
  intro i hi j hj
  have hi' : i < gdim T.ldim o0 := by rw [h0] at hi; exact hi
  have hj' : j < gdim T.ldim o1 := by rw [h1] at hj; exact hj
  have hri := unravel_inB hi
  have hcj := unravel_inB hj
  have hq : qs.Nodup := by rw [← hb.uniq]; exact Charge.uniq_nodup hb.wf
  have hel := block_elem h hord hb (r := unravel (o0.map T.ldim) i) (c := unravel (o1.map T.ldim) j)
    (by rw [← h0]; exact hri) (by rw [← h1]; exact hcj)
  simp only
  rw [d3 i j hi' hj']
  rw [← h0, ← h1] at hel ⊢
  by_cases hz : rlab (permL o0 (eff T.legs)) i = clab (permL o1 (eff T.legs)) j
  · rw [if_pos hz]
    have hz' : total (permL o0 (eff T.legs)) (unravel (dims (permL o0 (eff T.legs))) i) +
        total (permL o1 (eff T.legs)) (unravel (dims (permL o1 (eff T.legs))) j) = 0 := by
      rw [add_eq_zero_iff_eq_neg]; exact hz
    obtain ⟨n, hn, n1, _, _, n4⟩ := hel.1 hz'
    rw [n4]
    have hidx : qs.idxOf (rlab (permL o0 (eff T.legs)) i) = n := by
      rw [rlab, ← n1, List.getD_eq_getElem _ _ hn]
      exact List.Nodup.idxOf_getElem hq _ _
    rw [hidx, blk, rpos, cpos, ← hz, n1]
    rfl
  · rw [if_neg hz]
    exact hel.2 (fun e => hz (by rw [rlab, clab]; exact add_eq_zero_iff_eq_neg.1 e))

/-- If all blocks have a result, so has the matrix, and its dense form is made of the results. -/
theorem bsInverse_spec [Zero R] {argsort : List Nat → List Nat} {empty : Nat → List R} (he : ∀ n, (empty n).length = n)
    {inv : Nat → Nat → (Nat → Nat → R) → Py (Nat → Nat → R)} {T : BST Q R} (h : T.Valid) {o0 o1 : List Nat}
    (hord : T.order = [o0, o1]) {b : Blocks Q} {qs : List Q}
    (b1 : findTransposed argsort T.legs o0.length (o0 ++ o1) = .ok b)
    (hb : IsBlocks (eff T.legs) (o0 ++ o1) o0.length b qs) (G : Nat → Nat → Nat → R)
    (hG : ∀ n < qs.length, inv (b.rows.getD n 0) (b.cols.getD n 0) (blk T b n) = .ok (G n)) :
    ∃ T' d', bsInverse argsort empty inv T = .ok T' ∧ T'.Valid ∧ T'.legs = flipFlows T.legs ∧ T'.order = [o1, o0] ∧
      T'.todense = .ok d' ∧
      d'.shape = [(dims (permL o1 (eff T.legs))).prod, (dims (permL o0 (eff T.legs))).prod] ∧
      Form (dims (permL o1 (eff T.legs))).prod (dims (permL o0 (eff T.legs))).prod (fun j i => d'.get [j, i])
        (clab (permL o1 (eff T.legs))) (cpos (permL o1 (eff T.legs))) (rlab (permL o0 (eff T.legs)))
        (rpos (permL o0 (eff T.legs))) (fun q => G (qs.idxOf q)) := by
  obtain ⟨hperm, h0, h1, htake, hdrop⟩ := h.mat_legs hord
  obtain ⟨L, hL⟩ : ∃ L, L = eff T.legs := ⟨_, rfl⟩
  have hLl : L.length = T.legs.length := by rw [hL]; simp [eff]
  rw [← hL] at hperm h0 h1 htake hdrop hb ⊢
  obtain ⟨A, hA⟩ : ∃ A, A = permL o0 L := ⟨_, rfl⟩
  obtain ⟨B, hB⟩ : ∃ B, B = permL o1 L := ⟨_, rfl⟩
  rw [← hA] at h0 htake ⊢
  rw [← hB] at h1 hdrop ⊢
  have hAl : A.length = o0.length := by rw [hA]; simp [permL]
  have hBl : B.length = o1.length := by rw [hB]; simp [permL]
  have hq : qs.Nodup := by rw [← hb.uniq]; exact Charge.uniq_nodup hb.wf
  have hml : b.maps.length = qs.length := by rw [hb.maps, List.length_map]
  obtain ⟨f, hf⟩ : ∃ f : Nat → R, f = fun k =>
      let r := o0.map (fun a => ((stored L).getD k []).getD a 0)
      let c := o1.map (fun a => ((stored L).getD k []).getD a 0)
      G (qs.idxOf (total A r)) ((colsOf B (total A r)).idxOf c) ((rowsOf A (total A r)).idxOf r) := ⟨_, rfl⟩
  have hfv : ∀ r c, r.length = o0.length → c.length = o1.length → unperm (o0 ++ o1) (r ++ c) ∈ stored L →
      f ((stored L).idxOf (unperm (o0 ++ o1) (r ++ c))) =
        G (qs.idxOf (total A r)) ((colsOf B (total A r)).idxOf c) ((rowsOf A (total A r)).idxOf r) := by
    intro r c hr hc hm
    have hlen : (r ++ c).length = L.length := by
      have := hperm.length_eq
      rw [List.length_range] at this
      rw [← this, List.length_append, List.length_append, hr, hc]
    have h2 := unperm_map hperm hlen
    rw [List.map_append] at h2
    obtain ⟨h3, h4⟩ := List.append_inj h2 (by simp [hr])
    rw [hf]
    simp only
    rw [stored_getElem_idxOf hm, h3, h4]
  obtain ⟨data, e1, e2, e3⟩ := writeBlocks_all hb hperm f
    (fun n => (List.range (b.rows.getD n 0)).flatMap (fun i => (List.range (b.cols.getD n 0)).map (fun j => G n j i)))
    (by
      intro n hn
      have hrn : b.rows.getD n 0 = (rowsOf A qs[n]).length := by
        rw [hb.rows, List.getD_eq_getElem _ _ (by simpa using hn), List.getElem_map, htake]
      have hcn : b.cols.getD n 0 = (colsOf B qs[n]).length := by
        rw [hb.cols, List.getD_eq_getElem _ _ (by simpa using hn), List.getElem_map, hdrop]
      rw [hrn, hcn, flatMap_range_idxOf (X := rowsOf A qs[n]) ((grid_nodup _).filter _), blockMap, htake, hdrop, List.map_flatMap]
      apply List.flatMap_congr
      intro r hr
      rw [List.map_map, map_range_idxOf (X := colsOf B qs[n]) ((grid_nodup _).filter _)]
      apply List.map_congr_left
      intro c hc
      have hr' := mem_rows.1 hr
      have hc' := mem_cols.1 hc
      have hrl : r.length = o0.length := by rw [hr'.1.length]; simp [dims, hAl]
      have hcl : c.length = o1.length := by rw [hc'.1.length]; simp [dims, hBl]
      have hst := mem_stored_two hperm hrl hcl
      rw [← hA, ← hB, hr'.2] at hst
      rw [Function.comp_apply, hfv r c hrl hcl (hst.2 ⟨hr, hc⟩), hr'.2]
      rw [List.Nodup.idxOf_getElem hq])
    (a := empty b.size) (by rw [he, hb.size_eq hperm])
  have hfl : eff (flipFlows T.legs) = L.map (fun A => A.map (fun q => -q)) := by rw [eff_flip h.wf, hL]
  have hst : stored (eff (flipFlows T.legs)) = stored L := by rw [stored_flip h.wf, hL]
  obtain ⟨T', hT⟩ : ∃ T' : BST Q R, T' = ⟨data, flipFlows T.legs, [o1, o0]⟩ := ⟨_, rfl⟩
  have hv : T'.Valid := by
    rw [hT]
    refine ⟨flipFlows_wf h.wf, ?_, ?_, ?_⟩
    · simp only
      rw [show [o1, o0].flatten = o1 ++ o0 by simp, show (flipFlows T.legs).length = L.length by rw [hLl]; simp [flipFlows]]
      exact List.perm_append_comm.trans hperm
    · intro g hg
      apply h.groups g
      rw [hord]
      simp only [List.mem_cons, List.not_mem_nil, or_false] at hg ⊢
      exact hg.symm
    · simp only
      rw [hst, e2]
  have hld : T'.ldim = T.ldim := by
    rw [hT]
    funext n
    simp [BST.ldim, flipFlows, Function.comp_def]
  obtain ⟨d, d1, d2, d3⟩ := hv.matrix (o0 := o1) (o1 := o0) (by rw [hT])
  rw [hld, ← h0, ← h1] at d3
  rw [hld] at d2
  have hg0 : gdim T.ldim o0 = (dims A).prod := by rw [h0]; rfl
  have hg1 : gdim T.ldim o1 = (dims B).prod := by rw [h1]; rfl
  rw [hg0, hg1] at d2 d3
  refine ⟨T', d, ?_, hv, by rw [hT], by rw [hT], d1, d2, ?_⟩
  · rw [bsInverse, hord]
    simp only [bind, Except.bind]
    rw [b1]
    simp only
    rw [invLoop_ok (G := G) (fun n hn => hG n (by rw [← hml]; exact List.mem_range.1 hn)), e1]
    simp only
    rw [hT]
    rfl
  · intro j hj i hi
    simp only
    rw [d3 j i hj hi]
    have hri := unravel_inB hi
    have hcj := unravel_inB hj
    have hrl : (unravel (dims A) i).length = o0.length := by rw [hri.length]; simp [dims, hAl]
    have hcl : (unravel (dims B) j).length = o1.length := by rw [hcj.length]; simp [dims, hBl]
    have hms := mem_stored_two hperm hrl hcl
    rw [← hA, ← hB] at hms
    rw [unperm_swap hperm hrl hcl, BST.sval]
    have hTl : stored (eff T'.legs) = stored L := by rw [hT]; exact hst
    rw [hTl]
    by_cases hz : clab B j = rlab A i
    · have hc : unravel (dims B) j ∈ colsOf B (total A (unravel (dims A) i)) := by
        rw [mem_cols]
        refine ⟨hcj, ?_⟩
        rw [add_eq_zero_iff_eq_neg]
        exact hz.symm
      have hm := hms.2 ⟨mem_rows.2 ⟨hri, rfl⟩, hc⟩
      rw [if_pos hm, if_pos hz]
      have hdt : T'.data = data := by rw [hT]
      rw [hdt, e3 _ (List.idxOf_lt_length_iff.2 hm), hfv _ _ hrl hcl hm, cpos, rpos, hz]
      rfl
    · rw [if_neg hz, if_neg]
      intro hm
      apply hz
      have := (mem_cols.1 (hms.1 hm).2).2
      rw [add_eq_zero_iff_eq_neg] at this
      exact this.symm

/-! ## Specification -/

/-- `M` and `N` are inverse to each other. -/
def TwoSided [CommRing R] (m n : Nat) (M N : Nat → Nat → R) : Prop :=
  (∀ i < m, ∀ k < m, ∑ j ∈ Finset.range n, M i j * N j k = if i = k then 1 else 0) ∧
  ∀ j < n, ∀ l < n, ∑ i ∈ Finset.range m, N j i * M i l = if j = l then 1 else 0

/-- What `np.linalg.inv` does: it returns the inverse of a square matrix that has one and raises otherwise. -/
structure InvKernel [CommRing R] (inv : Nat → Nat → (Nat → Nat → R) → Py (Nat → Nat → R)) : Prop where
  sound : ∀ m n M G, inv m n M = .ok G → m = n ∧ TwoSided m n M G
  complete : ∀ n M N, TwoSided n n M N → ∃ G, inv n n M = .ok G

/-- The four conditions of Moore and Penrose that characterise the pseudo-inverse. -/
def Penrose [CommRing R] [StarRing R] (m n : Nat) (M P : Nat → Nat → R) : Prop :=
  (∀ i < m, ∀ l < n, ∑ k ∈ Finset.range m, (∑ j ∈ Finset.range n, M i j * P j k) * M k l = M i l) ∧
  (∀ j < n, ∀ k < m, ∑ l ∈ Finset.range n, (∑ i ∈ Finset.range m, P j i * M i l) * P l k = P j k) ∧
  (∀ i < m, ∀ k < m, star (∑ j ∈ Finset.range n, M i j * P j k) = ∑ j ∈ Finset.range n, M k j * P j i) ∧
  ∀ j < n, ∀ l < n, star (∑ i ∈ Finset.range m, P j i * M i l) = ∑ i ∈ Finset.range m, P l i * M i j

theorem TwoSided.square [CommRing R] [Nontrivial R] {m n : Nat} {M N : Nat → Nat → R} (h : TwoSided m n M N) : m = n := by
  have h1 : (Matrix.of (fun (i : Fin m) (j : Fin n) => M i j)) * (Matrix.of (fun (j : Fin n) (i : Fin m) => N j i)) = 1 := by
    ext i k
    simp only [Matrix.mul_apply, Matrix.one_apply, Matrix.of_apply]
    rw [← Finset.sum_range (fun j => M i j * N j k), h.1 i i.2 k k.2]
    simp [Fin.ext_iff]
  have h2 : (Matrix.of (fun (j : Fin n) (i : Fin m) => N j i)) * (Matrix.of (fun (i : Fin m) (j : Fin n) => M i j)) = 1 := by
    ext i k
    simp only [Matrix.mul_apply, Matrix.one_apply, Matrix.of_apply]
    rw [← Finset.sum_range (fun j => N i j * M j k), h.2 i i.2 k k.2]
    simp [Fin.ext_iff]
  have := Matrix.square_of_invertible _ _ h1 h2
  simpa using this

/-- A place for each charge and position. -/
theorem Side.place {m : Nat} {lab : Nat → Q} {pos : Nat → Nat} {cnt : Q → Nat} (h : Side m lab pos cnt) :
    ∃ at_ : Q → Nat → Nat, (∀ q, ∀ a < cnt q, at_ q a < m ∧ lab (at_ q a) = q ∧ pos (at_ q a) = a) ∧
      ∀ i < m, at_ (lab i) (pos i) = i := by
  classical
  refine ⟨fun q a => if ha : a < cnt q then (h.surj q a ha).choose else 0, ?_, ?_⟩
  · intro q a ha
    simp only
    rw [dif_pos ha]
    exact (h.surj q a ha).choose_spec
  · intro i hi
    simp only
    rw [dif_pos (h.lt i hi)]
    obtain ⟨h1, h2, h3⟩ := (h.surj (lab i) (pos i) (h.lt i hi)).choose_spec
    exact h.inj _ h1 i hi h2 h3

/-- The blocks of a matrix with an inverse have inverses. -/
theorem Form.blocks_inv [CommRing R] {m n : Nat} {d e : Nat → Nat → R} {la lb : Nat → Q} {pa pb : Nat → Nat}
    {ca cb : Q → Nat} {M : Q → Nat → Nat → R} (hd : Form m n d la pa lb pb M) (ha : Side m la pa ca) (hb : Side n lb pb cb)
    (h : TwoSided m n d e) (q : Q) : ∃ E, TwoSided (ca q) (cb q) (M q) E := by
  obtain ⟨ia, a1, a2⟩ := ha.place
  obtain ⟨ib, b1, b2⟩ := hb.place
  refine ⟨fun y x => e (ib q y) (ia q x), ?_, ?_⟩
  · intro x hx z hz
    obtain ⟨x1, x2, x3⟩ := a1 q x hx
    obtain ⟨z1, z2, z3⟩ := a1 q z hz
    have := h.1 _ x1 _ z1
    rw [← hb.sum q (fun y => M q x y * e (ib q y) (ia q z))]
    have h2 : (if ia q x = ia q z then (1 : R) else 0) = if x = z then 1 else 0 := by
      by_cases hxz : x = z
      · rw [if_pos hxz, if_pos (by rw [hxz])]
      · rw [if_neg hxz, if_neg]
        intro e
        exact hxz (by rw [← x3, ← z3, e])
    rw [← h2, ← this]
    apply Finset.sum_congr rfl
    intro j hj
    rw [Finset.mem_range] at hj
    rw [hd _ x1 j hj, x2, x3]
    by_cases hq : lb j = q
    · rw [if_pos hq, if_pos hq.symm, ← hq, b2 j hj]
    · rw [if_neg hq, if_neg (fun e => hq e.symm), zero_mul]
  · intro y hy z hz
    obtain ⟨y1, y2, y3⟩ := b1 q y hy
    obtain ⟨z1, z2, z3⟩ := b1 q z hz
    have := h.2 _ y1 _ z1
    simp only
    rw [← ha.sum q (fun x => e (ib q y) (ia q x) * M q x z)]
    have h2 : (if ib q y = ib q z then (1 : R) else 0) = if y = z then 1 else 0 := by
      by_cases hyz : y = z
      · rw [if_pos hyz, if_pos (by rw [hyz])]
      · rw [if_neg hyz, if_neg]
        intro e
        exact hyz (by rw [← y3, ← z3, e])
    rw [← h2, ← this]
    apply Finset.sum_congr rfl
    intro i hi
    rw [Finset.mem_range] at hi
    rw [hd i hi _ z1, z2, z3]
    by_cases hq : la i = q
    · rw [if_pos hq, if_pos hq, ← hq, a2 i hi]
    · rw [if_neg hq, if_neg hq, mul_zero]

/-- Matrices made of inverse blocks are inverse. -/
theorem Form.inv_of_blocks [CommRing R] {m n : Nat} {d e : Nat → Nat → R} {la lb : Nat → Q} {pa pb : Nat → Nat}
    {ca cb : Q → Nat} {M N : Q → Nat → Nat → R} (hd : Form m n d la pa lb pb M) (he : Form n m e lb pb la pa N)
    (ha : Side m la pa ca) (hb : Side n lb pb cb) (h : ∀ q, TwoSided (ca q) (cb q) (M q) (N q)) : TwoSided m n d e :=
  ⟨(hd.mul he hb).ext (form_one ha) ha ha (fun q => (h q).1), (he.mul hd ha).ext (form_one hb) hb hb (fun q => (h q).2)⟩

/-- Matrices made of blocks that meet the conditions of Moore and Penrose meet them. -/
theorem Form.penrose_of_blocks [CommRing R] [StarRing R] {m n : Nat} {d e : Nat → Nat → R} {la lb : Nat → Q}
    {pa pb : Nat → Nat} {ca cb : Q → Nat} {M N : Q → Nat → Nat → R} (hd : Form m n d la pa lb pb M)
    (he : Form n m e lb pb la pa N) (ha : Side m la pa ca) (hb : Side n lb pb cb)
    (h : ∀ q, Penrose (ca q) (cb q) (M q) (N q)) : Penrose m n d e := by
  have hde := hd.mul he hb
  have hed := he.mul hd ha
  refine ⟨?_, ?_, ?_, ?_⟩
  · exact (hde.mul hd ha).ext hd ha hb (fun q => (h q).1)
  · exact (hed.mul he hb).ext he hb ha (fun q => (h q).2.1)
  · intro i hi k hk
    exact (hde.swap star (star_zero R)).ext hde ha ha (fun q a ha b hb => (h q).2.2.1 b hb a ha) k hk i hi
  · intro i hi k hk
    exact (hed.swap star (star_zero R)).ext hed hb hb (fun q a ha b hb => (h q).2.2.2 b hb a ha) k hk i hi

/-- The number of rows and columns of the blocks, and that other charges have no block. -/
theorem IsBlocks.counts {L : List (List Q)} {o0 o1 : List Nat} {b : Blocks Q} {qs : List Q}
    (hb : IsBlocks L (o0 ++ o1) o0.length b qs) :
    (∀ q ∈ qs, b.rows.getD (qs.idxOf q) 0 = (rowsOf (permL o0 L) q).length ∧
      b.cols.getD (qs.idxOf q) 0 = (colsOf (permL o1 L) q).length ∧ qs.idxOf q < qs.length) ∧
    ∀ q, q ∉ qs → (rowsOf (permL o0 L) q).length = 0 ∨ (colsOf (permL o1 L) q).length = 0 := by
  have hpl : permL (o0 ++ o1) L = permL o0 L ++ permL o1 L := by simp [permL]
  have hl0 : (permL o0 L).length = o0.length := by simp [permL]
  have htake : (permL (o0 ++ o1) L).take o0.length = permL o0 L := by rw [hpl]; exact List.take_left' hl0
  have hdrop : (permL (o0 ++ o1) L).drop o0.length = permL o1 L := by rw [hpl]; exact List.drop_left' hl0
  constructor
  · intro q hq
    have hn := List.idxOf_lt_length_iff.2 hq
    refine ⟨?_, ?_, hn⟩
    · rw [hb.rows, List.getD_eq_getElem _ _ (by simpa using hn), List.getElem_map, List.getElem_idxOf, htake]
    · rw [hb.cols, List.getD_eq_getElem _ _ (by simpa using hn), List.getElem_map, List.getElem_idxOf, hdrop]
  · intro q hq
    by_contra hc
    rw [not_or] at hc
    apply hq
    apply hb.complete
    · rw [htake]; exact fun e => hc.1 (by rw [e]; rfl)
    · rw [hdrop]; exact fun e => hc.2 (by rw [e]; rfl)

/-- The blocks exist. -/
theorem BST.Valid.blocks {argsort : List Nat → List Nat} (ha : ArgsortOK argsort) {T : BST Q R} (h : T.Valid)
    {o0 o1 : List Nat} (hord : T.order = [o0, o1]) :
    ∃ b qs, findTransposed argsort T.legs o0.length (o0 ++ o1) = .ok b ∧
      IsBlocks (eff T.legs) (o0 ++ o1) o0.length b qs ∧ b.maps.length = qs.length ∧ qs.Nodup := by
  have hperm : (o0 ++ o1).Perm (List.range T.legs.length) := by
    have := h.perm
    rwa [hord, show [o0, o1].flatten = o0 ++ o1 by simp] at this
  have hl : o0.length ≤ T.legs.length := by
    have := hperm.length_eq
    rw [List.length_append, List.length_range] at this
    omega
  obtain ⟨b, qs, b1, b2, _⟩ := findTransposed_spec ha h.wf (h.legs_ne (by rw [hord]; simp)) hl hperm
  exact ⟨b, qs, b1, b2, by rw [b2.maps, List.length_map], by rw [← b2.uniq]; exact Charge.uniq_nodup b2.wf⟩

/-- If `inv` returns, the function for the blocks did for every block. -/
theorem bsInverse_blocks [Zero R] {argsort : List Nat → List Nat} {empty : Nat → List R}
    {inv : Nat → Nat → (Nat → Nat → R) → Py (Nat → Nat → R)} {T T' : BST Q R} {o0 o1 : List Nat}
    (hord : T.order = [o0, o1]) {b : Blocks Q} (b1 : findTransposed argsort T.legs o0.length (o0 ++ o1) = .ok b) {k : Nat}
    (hml : b.maps.length = k) (hT : bsInverse argsort empty inv T = .ok T') :
    ∃ G : Nat → Nat → Nat → R, ∀ n < k, inv (b.rows.getD n 0) (b.cols.getD n 0) (blk T b n) = .ok (G n) := by
  have hG : ∀ n, ∃ G, n < k → inv (b.rows.getD n 0) (b.cols.getD n 0) (blk T b n) = .ok G := by
    intro n
    by_cases hn : n < k
    · rw [bsInverse, hord] at hT
      simp only [bind, Except.bind] at hT
      rw [b1] at hT
      simp only at hT
      cases hl : invLoop inv T b (List.range b.maps.length) (empty b.size) with
      | error e => rw [hl] at hT; simp at hT
      | ok r =>
        obtain ⟨G, hG⟩ := invLoop_err hl n (List.mem_range.2 (by rw [hml]; exact hn))
        exact ⟨G, fun _ => hG⟩
    · exact ⟨fun _ _ => 0, fun h => absurd h hn⟩
  choose G hG using hG
  exact ⟨G, hG⟩

/-- C67: if the dense form of a block-sparse matrix has an inverse, `inv` returns a valid tensor whose dense form is
that inverse, with the flows of the legs reversed.  `inv` is `np.linalg.inv`, called for each block. -/
theorem C67_inv [CommRing R] [Nontrivial R] {argsort : List Nat → List Nat} (ha : ArgsortOK argsort)
    {empty : Nat → List R} (he : ∀ n, (empty n).length = n) {inv : Nat → Nat → (Nat → Nat → R) → Py (Nat → Nat → R)}
    (hinv : InvKernel inv) {T : BST Q R} (h : T.Valid) {o0 o1 : List Nat} (hord : T.order = [o0, o1]) {d : NDArray R}
    {m n : Nat} (hd : T.todense = .ok d) (hs : d.shape = [m, n]) {e : Nat → Nat → R}
    (hde : TwoSided m n (fun i j => d.get [i, j]) e) :
    ∃ T' d', bsInverse argsort empty inv T = .ok T' ∧ T'.Valid ∧ T'.legs = flipFlows T.legs ∧ T'.order = [o1, o0] ∧
      T'.todense = .ok d' ∧ d'.shape = [n, m] ∧ TwoSided m n (fun i j => d.get [i, j]) (fun j i => d'.get [j, i]) := by
  obtain ⟨b, qs, b1, hb, hml, hq⟩ := h.blocks ha hord
  obtain ⟨d0, d1, d2, d3⟩ := matrix_form h hord hb
  rw [hd] at d1
  cases d1
  rw [hs] at d2
  simp only [List.cons.injEq, and_true] at d2
  obtain ⟨rfl, rfl⟩ := d2
  obtain ⟨c1, c2⟩ := hb.counts
  have hbl := fun q => d3.blocks_inv (side_rows _) (side_cols _) hde q
  have hsq : ∀ q, (rowsOf (permL o0 (eff T.legs)) q).length = (colsOf (permL o1 (eff T.legs)) q).length := by
    intro q
    obtain ⟨E, hE⟩ := hbl q
    exact hE.square
  have hG : ∀ n, ∃ G, n < qs.length → inv (b.rows.getD n 0) (b.cols.getD n 0) (blk T b n) = .ok G := by
    intro n
    by_cases hn : n < qs.length
    · obtain ⟨E, hE⟩ := hbl qs[n]
      have hidx : qs.idxOf qs[n] = n := List.Nodup.idxOf_getElem hq _ _
      obtain ⟨r1, r2, _⟩ := c1 qs[n] (List.getElem_mem hn)
      rw [hidx] at r1 r2 hE
      rw [← hsq] at hE r2
      obtain ⟨G, hG⟩ := hinv.complete _ _ _ hE
      exact ⟨G, fun _ => by rw [r1, r2]; exact hG⟩
    · exact ⟨fun _ _ => 0, fun h => absurd h hn⟩
  choose G hG using hG
  obtain ⟨T', d', t1, t2, t3, t4, t5, t6, t7⟩ := bsInverse_spec he h hord b1 hb G (fun n hn => hG n hn)
  refine ⟨T', d', t1, t2, t3, t4, t5, t6, d3.inv_of_blocks t7 (side_rows _) (side_cols _) ?_⟩
  intro q
  by_cases hqq : q ∈ qs
  · obtain ⟨r1, r2, r3⟩ := c1 q hqq
    have := (hinv.sound _ _ _ _ (hG _ r3)).2
    rw [r1, r2] at this
    exact this
  · have hsq' := hsq q
    have hz : (rowsOf (permL o0 (eff T.legs)) q).length = 0 ∧ (colsOf (permL o1 (eff T.legs)) q).length = 0 := by
      have := c2 q hqq
      omega
    rw [hz.1, hz.2]
    exact ⟨fun i hi => absurd hi (by omega), fun i hi => absurd hi (by omega)⟩

/-- C67: the index of the columns is the one of the rows with the flows reversed.  Then what `inv` returns is the
inverse of the dense form; in particular it raises if there is none. -/
theorem C67_inv_returns [CommRing R] {argsort : List Nat → List Nat} (ha : ArgsortOK argsort)
    {empty : Nat → List R} (he : ∀ n, (empty n).length = n) {inv : Nat → Nat → (Nat → Nat → R) → Py (Nat → Nat → R)}
    (hinv : InvKernel inv) {T : BST Q R} (h : T.Valid) {o0 o1 : List Nat} (hord : T.order = [o0, o1])
    (hidx : permL o1 (eff T.legs) = (permL o0 (eff T.legs)).map (fun A => A.map (fun q => -q)))
    {T' : BST Q R} (hT : bsInverse argsort empty inv T = .ok T') :
    ∃ d d' m, T.todense = .ok d ∧ d.shape = [m, m] ∧ T'.Valid ∧ T'.legs = flipFlows T.legs ∧ T'.order = [o1, o0] ∧
      T'.todense = .ok d' ∧ d'.shape = [m, m] ∧ TwoSided m m (fun i j => d.get [i, j]) (fun j i => d'.get [j, i]) := by
  obtain ⟨b, qs, b1, hb, hml, hq⟩ := h.blocks ha hord
  obtain ⟨d, d1, d2, d3⟩ := matrix_form h hord hb
  obtain ⟨c1, c2⟩ := hb.counts
  have hsq : ∀ q, (rowsOf (permL o0 (eff T.legs)) q).length = (colsOf (permL o1 (eff T.legs)) q).length := by
    intro q
    rw [hidx, cols_neg]
  obtain ⟨G, hG⟩ := bsInverse_blocks hord b1 hml hT
  obtain ⟨T'', d', t1, t2, t3, t4, t5, t6, t7⟩ := bsInverse_spec he h hord b1 hb G hG
  rw [hT] at t1
  cases t1
  have hdm : (dims (permL o1 (eff T.legs))).prod = (dims (permL o0 (eff T.legs))).prod := by rw [hidx, dims_neg]
  have key : TwoSided (dims (permL o0 (eff T.legs))).prod (dims (permL o1 (eff T.legs))).prod
      (fun i j => d.get [i, j]) (fun j i => d'.get [j, i]) := by
    apply d3.inv_of_blocks t7 (side_rows _) (side_cols _)
    intro q
    by_cases hqq : q ∈ qs
    · obtain ⟨r1, r2, r3⟩ := c1 q hqq
      have := (hinv.sound _ _ _ _ (hG _ r3)).2
      rw [r1, r2] at this
      exact this
    · have hsq' := hsq q
      have hz : (rowsOf (permL o0 (eff T.legs)) q).length = 0 ∧ (colsOf (permL o1 (eff T.legs)) q).length = 0 := by
        have := c2 q hqq
        omega
      rw [hz.1, hz.2]
      exact ⟨fun i hi => absurd hi (by omega), fun i hi => absurd hi (by omega)⟩
  rw [hdm] at d2 t6 key
  exact ⟨d, d', _, d1, d2, t2, t3, t4, t5, t6, key⟩

/-- C67: if the pseudo-inverses of the blocks meet the conditions of Moore and Penrose, so does what `pinv` returns:
its dense form is the pseudo-inverse of the dense form of the matrix, square or not.  `inv` is `np.linalg.pinv`. -/
theorem C67_pinv [CommRing R] [StarRing R] {argsort : List Nat → List Nat} (ha : ArgsortOK argsort)
    {empty : Nat → List R} (he : ∀ n, (empty n).length = n) {inv : Nat → Nat → (Nat → Nat → R) → Py (Nat → Nat → R)}
    (hinv : ∀ m n M G, inv m n M = .ok G → Penrose m n M G) {T : BST Q R} (h : T.Valid) {o0 o1 : List Nat}
    (hord : T.order = [o0, o1]) {T' : BST Q R} (hT : bsInverse argsort empty inv T = .ok T') :
    ∃ d d' m n, T'.Valid ∧ T'.legs = flipFlows T.legs ∧ T'.order = [o1, o0] ∧
      T.todense = .ok d ∧ d.shape = [m, n] ∧ T'.todense = .ok d' ∧ d'.shape = [n, m] ∧
      Penrose m n (fun i j => d.get [i, j]) (fun j i => d'.get [j, i]) := by
  obtain ⟨b, qs, b1, hb, hml, hq⟩ := h.blocks ha hord
  obtain ⟨d, d1, d2, d3⟩ := matrix_form h hord hb
  obtain ⟨c1, c2⟩ := hb.counts
  obtain ⟨G, hG⟩ := bsInverse_blocks hord b1 hml hT
  obtain ⟨T'', d', t1, t2, t3, t4, t5, t6, t7⟩ := bsInverse_spec he h hord b1 hb G hG
  rw [hT] at t1
  cases t1
  refine ⟨d, d', _, _, t2, t3, t4, d1, d2, t5, t6, d3.penrose_of_blocks t7 (side_rows _) (side_cols _) ?_⟩
  intro q
  by_cases hqq : q ∈ qs
  · obtain ⟨r1, r2, r3⟩ := c1 q hqq
    have := hinv _ _ _ _ (hG _ r3)
    rw [r1, r2] at this
    exact this
  · rcases c2 q hqq with hz | hz <;> rw [hz] <;> refine ⟨?_, ?_, ?_, ?_⟩ <;> intro x hx y hy <;> first
      | omega
      | simp

/-- C67: `pinv` raises only if `np.linalg.pinv` raises for a block. -/
theorem C67_pinv_total [Zero R] {argsort : List Nat → List Nat} (ha : ArgsortOK argsort)
    {empty : Nat → List R} (he : ∀ n, (empty n).length = n) {inv : Nat → Nat → (Nat → Nat → R) → Py (Nat → Nat → R)}
    (hinv : ∀ m n M, ∃ G, inv m n M = .ok G) {T : BST Q R} (h : T.Valid) (hnd : T.ndim = 2) :
    ∃ T', bsInverse argsort empty inv T = .ok T' := by
  obtain ⟨o0, o1, hord⟩ : ∃ o0 o1, T.order = [o0, o1] := List.length_eq_two.1 hnd
  obtain ⟨b, qs, b1, hb, hml, hq⟩ := h.blocks ha hord
  choose G hG using hinv
  obtain ⟨T', _, t1, _⟩ := bsInverse_spec (inv := inv) he h hord b1 hb (fun n => G _ _ _) (fun n _ => hG _ _ _)
  exact ⟨T', t1⟩

/-- C67: a tensor that is not a matrix raises `ValueError`. -/
theorem C67_rejects [Zero R] (argsort : List Nat → List Nat) (empty : Nat → List R)
    (inv : Nat → Nat → (Nat → Nat → R) → Py (Nat → Nat → R)) {T : BST Q R} (h : T.ndim ≠ 2) :
    bsInverse argsort empty inv T = .error .valueError := by
  rw [bsInverse]
  split
  · rename_i o0 o1 he
    exact absurd (by rw [BST.ndim, he]; rfl) h
  · rfl

/-! ## Examples and a matrix without inverse -/

/-- A function that does what `np.linalg.inv` does. -/
noncomputable def invSpec [CommRing R] (m n : Nat) (M : Nat → Nat → R) : Py (Nat → Nat → R) :=
  open Classical in
  if h : ∃ G, m = n ∧ TwoSided m n M G then .ok h.choose else .error .valueError

theorem invSpec_ok [CommRing R] : InvKernel (R := R) invSpec := by
  classical
  refine ⟨?_, ?_⟩
  · intro m n M G h
    rw [invSpec] at h
    split_ifs at h with hc
    cases h
    exact hc.choose_spec
  · intro n M N h
    refine ⟨_, by rw [invSpec, dif_pos ⟨N, rfl, h⟩]⟩

end

/-- The dense form of a tensor that has one. -/
def denseD (T : BST Int Int) : NDArray Int :=
  match T.todense with
  | .ok d => d
  | .error _ => ⟨[], fun _ => 0⟩

theorem denseD_spec {T : BST Int Int} (h : T.Valid) (ho : T.order ≠ []) : T.todense = .ok (denseD T) := by
  obtain ⟨d, hd, _⟩ := h.todense ho
  rw [denseD, hd]

/-- A matrix with a block of charge 0 in rows 0, 2 and columns 0, 1 and one of charge 1 in row 1 and column 2:
`[[1, 2, 0], [0, 0, -1], [3, 5, 0]]`. -/
def invEx : BST Int Int := ⟨[1, 2, -1, 3, 5], [(.raw [0, 1, 0], false), (.raw [0, 0, 1], true)], [[0], [1]]⟩

theorem invEx_valid : invEx.Valid :=
  ⟨fun l hl => by simp only [invEx, List.mem_cons, List.not_mem_nil, or_false] at hl; rcases hl with rfl | rfl <;> trivial,
    by decide, by decide, by decide⟩

example := C67_inv (argsort := argsortI) argsortI_ok (empty := fun n => List.replicate n (7 : Int)) (by simp) invSpec_ok
  invEx_valid rfl (denseD_spec invEx_valid (by decide)) (m := 3) (n := 3) rfl
  (e := fun i j => (([-5, 0, 2, 3, 0, -1, 0, -1, 0] : List Int)).getD (3 * i + j) 0) (by rw [TwoSided]; decide +kernel)

/-- A function that returns the pseudo-inverse where there is one. -/
noncomputable def pinvSpec {R : Type} [CommRing R] [StarRing R] (m n : Nat) (M : Nat → Nat → R) : Py (Nat → Nat → R) :=
  open Classical in
  if h : ∃ G, Penrose m n M G then .ok h.choose else .error .valueError

theorem pinvSpec_ok {R : Type} [CommRing R] [StarRing R] (m n : Nat) (M G : Nat → Nat → R) (h : pinvSpec m n M = .ok G) :
    Penrose m n M G := by
  classical
  rw [pinvSpec] at h
  split_ifs at h with hc
  cases h
  exact hc.choose_spec

/-- A matrix with the charges 0, 0, 1 in the rows and 0, 2 in the columns: `[[1, 0], [0, 0], [0, 0]]`. -/
def pinvEx : BST Int Int := ⟨[1, 0], [(.raw [0, 0, 1], false), (.raw [0, 2], true)], [[0], [1]]⟩

theorem pinvEx_valid : pinvEx.Valid :=
  ⟨fun l hl => by simp only [pinvEx, List.mem_cons, List.not_mem_nil, or_false] at hl; rcases hl with rfl | rfl <;> trivial,
    by decide, by decide, by decide⟩

/-- Its only block has the dimensions 2 and 1. -/
theorem pinvEx_blocks : ∃ b, findTransposed argsortI pinvEx.legs 1 ([0] ++ [1]) = .ok b ∧ b.maps = [[0, 1]] ∧ b.rows = [2] ∧
    b.cols = [1] := ⟨_, rfl, by decide, by decide, by decide⟩

theorem pinvEx_returns : ∃ T', bsInverse argsortI (fun n => List.replicate n (7 : Int)) pinvSpec pinvEx = .ok T' := by
  obtain ⟨b, b1, b2, b3, b4⟩ := pinvEx_blocks
  obtain ⟨b', qs, b1', hb, hml, hq⟩ := pinvEx_valid.blocks argsortI_ok (o0 := [0]) (o1 := [1]) rfl
  have e : findTransposed argsortI pinvEx.legs 1 ([0] ++ [1]) = .ok b' := b1'
  rw [b1] at e
  cases e
  have hk : ∃ G, pinvSpec 2 1 (blk pinvEx b 0) = .ok G := by
    rw [pinvSpec, dif_pos]
    · exact ⟨_, rfl⟩
    · refine ⟨fun j i => if i = 0 then 1 else 0, ?_⟩
      have h0 : blk pinvEx b 0 = fun i j => pinvEx.data.getD (([0, 1] : List Nat).getD (i * 1 + j) 0) 0 := by
        funext i j; rw [blk, b2, b4]; rfl
      rw [h0, Penrose]
      simp only [star_trivial]
      decide +kernel
  obtain ⟨G, hG⟩ := hk
  obtain ⟨T', _, t1, _⟩ := bsInverse_spec (inv := pinvSpec) (empty := fun n => List.replicate n (7 : Int)) (by simp)
    pinvEx_valid (o0 := [0]) (o1 := [1]) rfl b1 hb (fun _ => G) (fun n hn => by
      rw [← hml, b2] at hn
      have : n = 0 := by simp at hn; omega
      rw [this, b3, b4]
      exact hG)
  exact ⟨T', t1⟩

example := C67_pinv (argsort := argsortI) argsortI_ok (empty := fun n => List.replicate n (7 : Int)) (by simp) pinvSpec_ok
  pinvEx_valid (o0 := [0]) (o1 := [1]) rfl pinvEx_returns.choose_spec

example := C67_pinv_total (argsort := argsortI) argsortI_ok (empty := fun n => List.replicate n (7 : Int)) (by simp)
  (inv := fun _ _ M => .ok (fun i j => M j i)) (fun _ _ _ => ⟨_, rfl⟩) bstEx_valid rfl

/-- A matrix whose index of the columns is the one of the rows with the flow reversed: `[[1, 0, 2], [0, -1, 0], [3, 0, 5]]`. -/
def invEx2 : BST Int Int := ⟨[1, 2, -1, 3, 5], [(.raw [0, 1, 0], false), (.raw [0, 1, 0], true)], [[0], [1]]⟩

theorem invEx2_valid : invEx2.Valid :=
  ⟨fun l hl => by simp only [invEx2, List.mem_cons, List.not_mem_nil, or_false] at hl; rcases hl with rfl | rfl <;> trivial,
    by decide, by decide, by decide⟩

theorem invEx2_returns : ∃ T', bsInverse argsortI (fun n => List.replicate n (7 : Int)) invSpec invEx2 = .ok T' := by
  obtain ⟨T', _, t, _⟩ := C67_inv (argsort := argsortI) argsortI_ok (empty := fun n => List.replicate n (7 : Int)) (by simp) invSpec_ok
    invEx2_valid (o0 := [0]) (o1 := [1]) rfl (denseD_spec invEx2_valid (by decide)) (m := 3) (n := 3) rfl
    (e := fun i j => (([-5, 0, 2, 0, -1, 0, 3, 0, -1] : List Int)).getD (3 * i + j) 0) (by rw [TwoSided]; decide +kernel)
  exact ⟨T', t⟩

example := C67_inv_returns (argsort := argsortI) argsortI_ok (empty := fun n => List.replicate n (7 : Int)) (by simp) invSpec_ok
  invEx2_valid (o0 := [0]) (o1 := [1]) rfl (by decide) invEx2_returns.choose_spec

example := C67_rejects (R := Int) (Q := Int) argsortI (fun n => List.replicate n 7) invSpec
  (T := ⟨[1, 2, 3], legsEx, [[2], [0], [1]]⟩) (by decide)

/-- A square matrix with the charges 0, 1 in the rows and 0, 2 in the columns: `[[1, 0], [0, 0]]`. -/
def invEx3 : BST Int Int := ⟨[1], [(.raw [0, 1], false), (.raw [0, 2], true)], [[0], [1]]⟩

theorem invEx3_valid : invEx3.Valid :=
  ⟨fun l hl => by simp only [invEx3, List.mem_cons, List.not_mem_nil, or_false] at hl; rcases hl with rfl | rfl <;> trivial,
    by decide, by decide, by decide⟩

/-- C67: `inv` does not raise for every matrix without inverse.  A row and a column of zeros that belong to no block go
unnoticed: the blocks are inverted and a tensor is returned. -/
theorem C67_inv_false : ∃ (T : BST Int Int) (d : NDArray Int), T.Valid ∧ T.ndim = 2 ∧ T.todense = .ok d ∧ d.shape = [2, 2] ∧
    (∀ inv, InvKernel inv → ∃ T', bsInverse argsortI (fun n => List.replicate n 0) inv T = .ok T') ∧
    ¬ ∃ e, TwoSided 2 2 (fun i j => d.get [i, j]) e := by
  refine ⟨invEx3, denseD invEx3, invEx3_valid, rfl, denseD_spec invEx3_valid (by decide), rfl, ?_, ?_⟩
  · intro inv hinv
    obtain ⟨b, b1, b2, b3, b4⟩ : ∃ b, findTransposed argsortI invEx3.legs 1 ([0] ++ [1]) = .ok b ∧ b.maps = [[0]] ∧
      b.rows = [1] ∧ b.cols = [1] := ⟨_, rfl, by decide, by decide, by decide⟩
    obtain ⟨b', qs, b1', hb, hml, hq⟩ := invEx3_valid.blocks argsortI_ok (o0 := [0]) (o1 := [1]) rfl
    have e : findTransposed argsortI invEx3.legs 1 ([0] ++ [1]) = .ok b' := b1'
    rw [b1] at e
    cases e
    have h0 : blk invEx3 b 0 = fun i j => invEx3.data.getD (([0] : List Nat).getD (i * 1 + j) 0) 0 := by
      funext i j; rw [blk, b2, b4]; rfl
    obtain ⟨G, hG⟩ := hinv.complete 1 (blk invEx3 b 0) (fun _ _ => 1) (by rw [h0, TwoSided]; decide +kernel)
    obtain ⟨T', _, t1, _⟩ := bsInverse_spec (inv := inv) (empty := fun n => List.replicate n (0 : Int)) (by simp)
      invEx3_valid (o0 := [0]) (o1 := [1]) rfl b1 hb (fun _ => G) (fun n hn => by
        rw [← hml, b2] at hn
        have : n = 0 := by simp at hn; omega
        rw [this, b3, b4]
        exact hG)
    exact ⟨T', t1⟩
  · rintro ⟨e, he⟩
    have h1 := he.1 1 (by decide) 1 (by decide)
    have h2 : ∀ j, (denseD invEx3).get [1, j] = 0 ∨ 2 ≤ j := by
      intro j
      by_cases hj : j < 2
      · left
        revert j
        decide +kernel
      · right; omega
    rw [Finset.sum_eq_zero] at h1
    · exact absurd h1 (by decide)
    · intro j hj
      rw [Finset.mem_range] at hj
      rcases h2 j with h | h
      · simp only [h, zero_mul]
      · omega

end TN.Bs
