import Verif.BsEye

/-!
# Factorisations of block-sparse matrices (block_sparse/linalg.py:183-393, backends/symmetric/decompositions.py)
-/

set_option linter.unusedSectionVars false

namespace TN.Bs

open NDArray

section
variable {Q : Type} [AddCommGroup Q] [LinearOrder Q] {R : Type}

/-! ## Model -/

/-- The factors of one block as returned by `np.linalg.qr` (without `s`) or `np.linalg.svd`: the number of
columns of the left and rows of the right factor, the left factor, the singular values, the right factor. -/
structure Fac (R : Type) where
  k : Nat
  u : Nat → Nat → R
  s : Nat → R
  v : Nat → Nat → R

/-- The blocks and their factors (linalg.py:213-231, 329-343): the function `fac` gets the number of rows and
columns and the elements of the block, `np.reshape(matrix.data[block], shapes[:, n])`.  Anything but two axes
raises `NotImplementedError`, a `RuntimeError`. -/
def factorBlocks [Zero R] (argsort : List Nat → List Nat) (fac : Nat → Nat → (Nat → Nat → R) → Fac R) (T : BST Q R) :
    Py (Blocks Q × List (Fac R)) :=
  match T.order with
  | [o0, o1] => do
    let b ← findTransposed argsort T.legs o0.length (o0 ++ o1)
    .ok (b, (List.range b.maps.length).map (fun n => fac (b.rows.getD n 0) (b.cols.getD n 0)
      (fun i j => T.data.getD ((b.maps.getD n []).getD (i * b.cols.getD n 0 + j) 0) 0)))
  | _ => .error .runtimeError

/-- The labels of the new leg: `n` as often as block `n` has vectors (linalg.py:253-269, 347-355). -/
def bondLabels (fs : List (Fac R)) : List Nat :=
  (List.range fs.length).flatMap (fun n => List.replicate ((fs.map Fac.k).getD n 0) n)

/-- The left factor: the transposed factors of the blocks one after the other are the data of the transposed
tensor (linalg.py:271-291, 368-392). -/
def leftFactor (T : BST Q R) (o0 : List Nat) (b : Blocks Q) (fs : List (Fac R)) : Py (BST Q R) := do
  let c ← b.qnums.getItem (bondLabels fs)
  let data := ((fs.zip b.rows).map (fun p =>
    (List.range p.1.k).flatMap (fun x => (List.range p.2).map (fun i => p.1.u i x)))).flatten
  BST.transpose ⟨data, (c, true) :: pick o0 T.legs (.raw [], false), consecutive 0 [1, o0.length]⟩ [1, 0]

/-- The right factor (linalg.py:276-297, 345-366). -/
def rightFactor (T : BST Q R) (o1 : List Nat) (b : Blocks Q) (fs : List (Fac R)) : Py (BST Q R) := do
  let c ← b.qnums.getItem (bondLabels fs)
  let data := ((fs.zip b.cols).map (fun p =>
    (List.range p.1.k).flatMap (fun x => (List.range p.2).map (fun j => p.1.v x j)))).flatten
  .ok ⟨data, (c, false) :: pick o1 T.legs (.raw [], false), consecutive 0 [1, o1.length]⟩

/-- `qr(matrix, mode)` for the modes `'reduced'` and `'complete'` (linalg.py:300-393). -/
def bsQr [Zero R] (argsort : List Nat → List Nat) (fac : Nat → Nat → (Nat → Nat → R) → Fac R) (T : BST Q R) :
    Py (BST Q R × BST Q R) := do
  let (b, fs) ← factorBlocks argsort fac T
  let l ← leftFactor T (T.order.getD 0 []) b fs
  let r ← rightFactor T (T.order.getD 1 []) b fs
  .ok (l, r)

/-- The singular value decomposition of a matrix with `full_matrices=False` (linalg.py:183-297) and, with the
truncation `cut`, the one of the symmetric backend (decompositions.py:48-136): the left factor, the singular
values and the charges on their leg, the right factor.  `cut` gives the number of vectors kept in each block. -/
def bsSvd [Zero R] (argsort : List Nat → List Nat) (fac : Nat → Nat → (Nat → Nat → R) → Fac R)
    (cut : List (Fac R) → Py (List Nat)) (T : BST Q R) : Py (BST Q R × (List R × Charge Q) × BST Q R) := do
  let (b, fs) ← factorBlocks argsort fac T
  let ks ← cut fs
  let fs := (fs.zip ks).map (fun p => { p.1 with k := p.2 })
  let c ← b.qnums.getItem (bondLabels fs)
  let l ← leftFactor T (T.order.getD 0 []) b fs
  let r ← rightFactor T (T.order.getD 1 []) b fs
  .ok (l, ((fs.map (fun f => (List.range f.k).map f.s)).flatten, c), r)

/-! ## Tensors with a leg in front -/

theorem stored_bond (C : List Q) (A : List (List Q)) :
    stored (C :: A) = (List.range C.length).flatMap (fun p => (colsOf A (C.getD p 0)).map (fun r => p :: r)) := by
  have h := stored_append [C] A
  rw [List.singleton_append] at h
  rw [h, show dims [C] = [C.length] from rfl, grid_single, List.flatMap_map]
  apply List.flatMap_congr
  intro p _
  have : total [C] [p] = C.getD p 0 := by simp [total]
  rw [this]
  rfl

theorem sval_bond [Zero R] {T : BST Q R} {C : List Q} {A : List (List Q)} (hT : eff T.legs = C :: A)
    (g : Nat → List Nat → R)
    (hd : T.data = (List.range C.length).flatMap (fun p => (colsOf A (C.getD p 0)).map (g p))) {p : Nat} {r : List Nat}
    (hp : p < C.length) :
    T.sval (p :: r) = if r ∈ colsOf A (C.getD p 0) then g p r else 0 := by
  have hm : p :: r ∈ stored (C :: A) ↔ r ∈ colsOf A (C.getD p 0) := by
    rw [stored_bond, List.mem_flatMap]
    constructor
    · rintro ⟨p', _, h⟩
      obtain ⟨r', h1, h2⟩ := List.mem_map.1 h
      obtain ⟨rfl, rfl⟩ := List.cons_eq_cons.1 h2
      exact h1
    · intro h
      exact ⟨p, List.mem_range.2 hp, List.mem_map_of_mem h⟩
  have hmap : T.data = (stored (C :: A)).map (fun o => g (o.headD 0) o.tail) := by
    rw [hd, stored_bond, List.map_flatMap]
    apply List.flatMap_congr
    intro p _
    rw [List.map_map]
    rfl
  rw [BST.sval, hT]
  by_cases h : r ∈ colsOf A (C.getD p 0)
  · rw [if_pos (hm.2 h), if_pos h, hmap, getD_idxOf_map (hm.2 h)]
    rfl
  · rw [if_neg (fun h' => h (hm.1 h')), if_neg h]

/-- A tensor with a leg in front of one axis: validity and the dense form. -/
theorem bond_spec [Zero R] {c : Charge Q} (hc : c.WF) {fl : Bool} {legs : List (Leg Q)} (hw : LegsWF legs) (hne : legs ≠ [])
    {C : List Q} (hC : (c.dual fl).charges = C) (g : Nat → List Nat → R) {data : List R}
    (hd : data = (List.range C.length).flatMap (fun p => (colsOf (eff legs) (C.getD p 0)).map (g p))) :
    ∃ T : BST Q R, T = ⟨data, (c, fl) :: legs, consecutive 0 [1, legs.length]⟩ ∧ T.Valid ∧
      ∃ d, T.todense = .ok d ∧ d.shape = [C.length, (dims (eff legs)).prod] ∧
        ∀ p i, p < C.length → i < (dims (eff legs)).prod → d.get [p, i] =
          if unravel (dims (eff legs)) i ∈ colsOf (eff legs) (C.getD p 0) then g p (unravel (dims (eff legs)) i) else 0 := by
  obtain ⟨T, hT⟩ : ∃ T : BST Q R, T = ⟨data, (c, fl) :: legs, consecutive 0 [1, legs.length]⟩ := ⟨_, rfl⟩
  have heff : eff T.legs = C :: eff legs := by
    rw [hT]
    simp only [eff, List.map_cons, hC]
  have hdimc : c.dim = C.length := by
    have h1 := dims_eff ((c, fl) :: legs)
    rw [hT] at heff
    simp only at heff
    rw [heff] at h1
    simp only [dims, List.map_cons] at h1
    exact (List.cons_eq_cons.1 h1).1.symm
  obtain ⟨hv, d, d1, d2, d3⟩ := BST.consec_spec (T := T) (gs := [[(c, fl)], legs]) (by rw [hT]; simp) (by rw [hT]; rfl)
    (by
      rw [hT]
      intro l hl
      rcases List.mem_cons.1 hl with rfl | hl
      · exact hc
      · exact hw l hl)
    (by
      intro x hx
      simp only [List.mem_cons, List.not_mem_nil, or_false] at hx
      rcases hx with rfl | rfl
      · simp
      · exact hne)
    (by
      rw [heff, stored_bond]
      have : T.data = data := by rw [hT]
      rw [this, hd, List.length_flatMap, List.length_flatMap]
      simp) (by simp)
  have hsh : d.shape = [C.length, (dims (eff legs)).prod] := by
    rw [d2, dims_eff]
    simp [hdimc]
  refine ⟨T, hT, hv, d, d1, hsh, ?_⟩
  intro p i hp hi
  rw [d3 [p, i] (by rw [hsh]; exact .cons hp (.cons hi .nil)), heff, hsh]
  have hu : unravel (dims (C :: eff legs)) (ravel [C.length, (dims (eff legs)).prod] [p, i]) = p :: unravel (dims (eff legs)) i := by
    have e : ravel [C.length, (dims (eff legs)).prod] [p, i] = p * (dims (eff legs)).prod + i := by
      simp [ravel]
    rw [e]
    have := unravel_append (s := [C.length]) (t := dims (eff legs)) (a := p) (b := i) (by simpa using hp) hi
    rw [show dims (C :: eff legs) = [C.length] ++ dims (eff legs) from rfl, this]
    have : unravel [C.length] p = [p] := by
      have h1 : ravel [C.length] [p] = p := by simp [ravel]
      have h2 := unravel_ravel (s := [C.length]) (i := [p]) (.cons hp .nil)
      rwa [h1] at h2
    rw [this]
    rfl
  rw [hu]
  exact sval_bond heff g (by rw [hT]; exact hd) hp

/-! ## The new leg -/

/-- A factor without vectors. -/
def Fac.zero [Zero R] : Fac R := ⟨0, fun _ _ => 0, fun _ => 0, fun _ _ => 0⟩

/-- The new leg: the block and the number within the block of every position. -/
def bondPairs (fs : List (Fac R)) : List (Nat × Nat) :=
  (List.range fs.length).flatMap (fun n => (List.range ((fs.map Fac.k).getD n 0)).map (fun x => (n, x)))

theorem bondLabels_eq (fs : List (Fac R)) : bondLabels fs = (bondPairs fs).map Prod.fst := by
  rw [bondLabels, bondPairs, List.map_flatMap]
  apply List.flatMap_congr
  intro n _
  rw [List.map_map]
  apply List.ext_getElem
  · simp
  · intro i h1 h2
    simp

theorem flatMap_range {α β : Type} (X : List α) (d : α) (F : α → List β) :
    X.flatMap F = (List.range X.length).flatMap (fun p => F (X.getD p d)) := by
  rw [List.flatMap_def, List.flatMap_def]
  congr 1
  exact (map_range_eq X (fun p => F (X.getD p d)) F (by
    intro k hk
    rw [List.getD_eq_getElem _ _ hk])).symm

/-- The concatenated factors, element by element. -/
theorem factor_data [Zero R] (fs : List (Fac R)) (rs : Nat → List (List Nat)) (hrs : ∀ n, (rs n).Nodup) {ls : List Nat}
    (hls : ls = (List.range fs.length).map (fun n => (rs n).length)) (e : Fac R → Nat → Nat → R) :
    ((fs.zip ls).map (fun p => (List.range p.1.k).flatMap (fun x => (List.range p.2).map (fun i => e p.1 x i)))).flatten =
      (List.range (bondPairs fs).length).flatMap (fun p => (rs ((bondPairs fs).getD p (0, 0)).1).map (fun r =>
        e (fs.getD ((bondPairs fs).getD p (0, 0)).1 Fac.zero) ((bondPairs fs).getD p (0, 0)).2
          ((rs ((bondPairs fs).getD p (0, 0)).1).idxOf r))) := by
  rw [← flatMap_range (bondPairs fs) (0, 0) (fun p => (rs p.1).map (fun r => e (fs.getD p.1 Fac.zero) p.2 ((rs p.1).idxOf r))),
    bondPairs, List.flatMap_assoc, ← List.flatMap_def]
  have hz : fs.zip ls = (List.range fs.length).map (fun n => (fs.getD n Fac.zero, (rs n).length)) := by
    rw [hls]
    apply List.ext_getElem
    · simp
    · intro i h1 h2
      have hi : i < fs.length := by simpa using h2
      simp [hi]
  rw [hz, List.flatMap_map]
  apply List.flatMap_congr
  intro n hn
  have hn := List.mem_range.1 hn
  have hk : (fs.map Fac.k).getD n 0 = (fs.getD n Fac.zero).k := by simp [hn]
  rw [List.flatMap_map, hk]
  apply List.flatMap_congr
  intro x _
  apply map_range_eq
  intro i hi
  rw [List.Nodup.idxOf_getElem (hrs n) i hi]

theorem cols_of_neg (A : List (List Q)) (q : Q) : colsOf A (-q) = rowsOf A q := by
  rw [rowsOf, colsOf]
  apply List.filter_congr
  intro i _
  have : -q + total A i = 0 ↔ total A i = q := by
    rw [neg_add_eq_zero]; exact eq_comm
  simp [this]

theorem sum_bondPairs [AddCommMonoid R] (fs : List (Fac R)) (F : Nat × Nat → R) :
    ∑ p ∈ Finset.range (bondPairs fs).length, F ((bondPairs fs).getD p (0, 0)) =
      ∑ n ∈ Finset.range fs.length, ∑ x ∈ Finset.range ((fs.map Fac.k).getD n 0), F (n, x) := by
  rw [← sum_map_range, map_range_eq (bondPairs fs) (fun p => F ((bondPairs fs).getD p (0, 0))) F (by
    intro k hk
    rw [List.getD_eq_getElem _ _ hk]), bondPairs, List.map_flatMap, List.flatMap_def, List.sum_flatten, List.map_map,
    sum_map_range]
  apply Finset.sum_congr rfl
  intro n _
  rw [Function.comp_apply, List.map_map, sum_map_range]
  rfl

theorem bondPairs_mem {fs : List (Fac R)} {p : Nat} (hp : p < (bondPairs fs).length) :
    ((bondPairs fs).getD p (0, 0)).1 < fs.length := by
  have hm : (bondPairs fs).getD p (0, 0) ∈ bondPairs fs := by
    rw [List.getD_eq_getElem _ _ hp]; exact List.getElem_mem hp
  obtain ⟨y, hy⟩ : ∃ y, y = (bondPairs fs).getD p (0, 0) := ⟨_, rfl⟩
  rw [← hy] at hm ⊢
  rw [bondPairs, List.mem_flatMap] at hm
  obtain ⟨n, h1, h2⟩ := hm
  obtain ⟨x, _, h3⟩ := List.mem_map.1 h2
  rw [← h3]
  exact List.mem_range.1 h1

/-- The assembled factors: valid tensors, with the vectors of the blocks as columns and rows of the dense forms. -/
theorem factors_spec [Zero R] {T : BST Q R} (h : T.Valid) {o0 o1 : List Nat} (hord : T.order = [o0, o1]) {b : Blocks Q}
    {qs : List Q} (hb : IsBlocks (eff T.legs) (o0 ++ o1) o0.length b qs) {fs : List (Fac R)} (hfs : fs.length = qs.length) :
    ∃ c U V dU dV, b.qnums.getItem (bondLabels fs) = .ok c ∧ leftFactor T o0 b fs = .ok U ∧ rightFactor T o1 b fs = .ok V ∧
      U.Valid ∧ V.Valid ∧ U.todense = .ok dU ∧ V.todense = .ok dV ∧
      c.WF ∧ c.charges = (bondPairs fs).map (fun x => qs.getD x.1 0) ∧
      dU.shape = [gdim T.ldim o0, (bondPairs fs).length] ∧ dV.shape = [(bondPairs fs).length, gdim T.ldim o1] ∧
      (∀ i p, i < gdim T.ldim o0 → p < (bondPairs fs).length → dU.get [i, p] =
        if total (permL o0 (eff T.legs)) (unravel (o0.map T.ldim) i) = qs.getD ((bondPairs fs).getD p (0, 0)).1 0 then
          (fs.getD ((bondPairs fs).getD p (0, 0)).1 Fac.zero).u
            ((rowsOf (permL o0 (eff T.legs)) (qs.getD ((bondPairs fs).getD p (0, 0)).1 0)).idxOf (unravel (o0.map T.ldim) i))
            ((bondPairs fs).getD p (0, 0)).2
        else 0) ∧
      (∀ j p, j < gdim T.ldim o1 → p < (bondPairs fs).length → dV.get [p, j] =
        if qs.getD ((bondPairs fs).getD p (0, 0)).1 0 + total (permL o1 (eff T.legs)) (unravel (o1.map T.ldim) j) = 0 then
          (fs.getD ((bondPairs fs).getD p (0, 0)).1 Fac.zero).v ((bondPairs fs).getD p (0, 0)).2
            ((colsOf (permL o1 (eff T.legs)) (qs.getD ((bondPairs fs).getD p (0, 0)).1 0)).idxOf (unravel (o1.map T.ldim) j))
        else 0) := by
  obtain ⟨L, hL⟩ : ∃ L, L = eff T.legs := ⟨_, rfl⟩
  have hLl : L.length = T.legs.length := by rw [hL]; simp [eff]
  obtain ⟨X, hX⟩ : ∃ X, X = bondPairs fs := ⟨_, rfl⟩
  have hperm : (o0 ++ o1).Perm (List.range T.legs.length) := by
    have := h.perm
    rwa [hord, show [o0, o1].flatten = o0 ++ o1 by simp] at this
  have hlt0 : ∀ n ∈ o0, n < T.legs.length := fun n hn => List.mem_range.1 (hperm.mem_iff.1 (List.mem_append_left _ hn))
  have hlt1 : ∀ n ∈ o1, n < T.legs.length := fun n hn => List.mem_range.1 (hperm.mem_iff.1 (List.mem_append_right _ hn))
  have hne0 : o0 ≠ [] := h.groups o0 (by rw [hord]; simp)
  have hne1 : o1 ≠ [] := h.groups o1 (by rw [hord]; simp)
  have hA : permL o0 L = eff (pick o0 T.legs (.raw [], false)) := by rw [hL]; exact permL_eff _ _ hlt0
  have hB : permL o1 L = eff (pick o1 T.legs (.raw [], false)) := by rw [hL]; exact permL_eff _ _ hlt1
  have hdA : dims (permL o0 L) = o0.map T.ldim := by rw [hA, dims_eff, pick_dims T hlt0]
  have hdB : dims (permL o1 L) = o1.map T.ldim := by rw [hB, dims_eff, pick_dims T hlt1]
  have hpl : permL (o0 ++ o1) L = permL o0 L ++ permL o1 L := by simp [permL]
  have hl0 : (permL o0 L).length = o0.length := by simp [permL]
  rw [← hL] at hb ⊢
  have hrows : b.rows = (List.range fs.length).map (fun n => (rowsOf (permL o0 L) (qs.getD n 0)).length) := by
    rw [hb.rows, hfs, hpl, ← hl0, List.take_left' rfl]
    exact (map_range_eq qs _ _ (by intro k hk; rw [List.getD_eq_getElem _ _ hk])).symm
  have hcols : b.cols = (List.range fs.length).map (fun n => (colsOf (permL o1 L) (qs.getD n 0)).length) := by
    rw [hb.cols, hfs, hpl, ← hl0, List.drop_left' rfl]
    exact (map_range_eq qs _ _ (by intro k hk; rw [List.getD_eq_getElem _ _ hk])).symm
  -- the charges of the new leg
  have hdim : b.qnums.dim = qs.length := by rw [Charge.dim_eq, hb.charges]
  obtain ⟨c, c1, c2, c3⟩ := Charge.getItem_spec hb.wf (ns := bondLabels fs) (by
    intro n hn
    rw [bondLabels_eq] at hn
    obtain ⟨x, hx, rfl⟩ := List.mem_map.1 hn
    obtain ⟨p, hp, rfl⟩ := List.getElem_of_mem hx
    have := bondPairs_mem hp
    rw [List.getD_eq_getElem _ _ hp] at this
    rw [hdim]
    omega)
  have hcc : c.charges = X.map (fun x => qs.getD x.1 0) := by
    rw [c3, bondLabels_eq, List.map_map, hb.charges, hX]
    rfl
  have hCU : (c.dual true).charges = X.map (fun x => -qs.getD x.1 0) := by
    rw [Charge.dual_charges c2, if_pos rfl, hcc, List.map_map]
    rfl
  have hCV : (c.dual false).charges = X.map (fun x => qs.getD x.1 0) := by
    rw [Charge.dual_charges c2]; exact hcc
  have hgU : ∀ p < X.length, (X.map (fun x => -qs.getD x.1 0)).getD p 0 = -qs.getD (X.getD p (0, 0)).1 0 := by
    intro p hp
    simp [hp]
  have hgV : ∀ p < X.length, (X.map (fun x => qs.getD x.1 0)).getD p 0 = qs.getD (X.getD p (0, 0)).1 0 := by
    intro p hp
    simp [hp]
  obtain ⟨UT, u1, u2, dT, u3, u4, u5⟩ := bond_spec (fl := true) c2 (legs := pick o0 T.legs (.raw [], false))
    (h.pick_wf hlt0) (by simpa [pick] using hne0) hCU (fun p r => (fs.getD (X.getD p (0, 0)).1 Fac.zero).u
      ((rowsOf (permL o0 L) (qs.getD (X.getD p (0, 0)).1 0)).idxOf r) (X.getD p (0, 0)).2)
    (data := ((fs.zip b.rows).map (fun p =>
      (List.range p.1.k).flatMap (fun x => (List.range p.2).map (fun i => p.1.u i x)))).flatten) (by
      rw [factor_data fs (fun n => rowsOf (permL o0 L) (qs.getD n 0)) (fun n => (grid_nodup _).filter _) hrows
        (fun f x i => f.u i x), ← hX, List.length_map]
      apply List.flatMap_congr
      intro p hp
      rw [hgU p (List.mem_range.1 hp), cols_of_neg, hA])
  obtain ⟨V, v1, v2, dV, v3, v4, v5⟩ := bond_spec (fl := false) c2 (legs := pick o1 T.legs (.raw [], false))
    (h.pick_wf hlt1) (by simpa [pick] using hne1) hCV (fun p r => (fs.getD (X.getD p (0, 0)).1 Fac.zero).v (X.getD p (0, 0)).2
      ((colsOf (permL o1 L) (qs.getD (X.getD p (0, 0)).1 0)).idxOf r))
    (data := ((fs.zip b.cols).map (fun p =>
      (List.range p.1.k).flatMap (fun x => (List.range p.2).map (fun j => p.1.v x j)))).flatten) (by
      rw [factor_data fs (fun n => colsOf (permL o1 L) (qs.getD n 0)) (fun n => (grid_nodup _).filter _) hcols
        (fun f x i => f.v x i), ← hX, List.length_map]
      apply List.flatMap_congr
      intro p hp
      rw [hgV p (List.mem_range.1 hp), hB])
  have hUo : UT.order ≠ [] := by rw [u1]; simp [consecutive]
  have hUn : UT.ndim = 2 := by rw [u1]; rfl
  obtain ⟨U, dT', dU, dt, w1, w2, w3, w4, w5, w6⟩ := C26_transpose u2 hUo (perm := [1, 0]) (by rw [hUn]; decide)
  rw [u3] at w3
  have := Except.ok.inj w3
  subst this
  rw [← hA, hdA] at u4 u5
  rw [← hB, hdB] at v4 v5
  rw [List.length_map] at u4 v4
  rw [NDArray.transpose, if_pos (by rw [NDArray.ndim, u4]; show [1, 0].Perm (List.range 2); decide)] at w5
  have w5 := Except.ok.inj w5
  have hdUs : dU.shape = [gdim T.ldim o0, X.length] := by
    rw [w6.1, ← w5, u4]; rfl
  refine ⟨c, U, V, dU, dV, c1, ?_, ?_, w2, v2, w4, v3, c2, by rw [hcc, hX], by rw [hdUs, hX], by rw [v4, hX]; rfl, ?_, ?_⟩
  · rw [leftFactor, c1]
    simp only [bind, Except.bind]
    rw [← w1, u1]
    simp [pick]
  · rw [rightFactor, c1]
    simp only [bind, Except.bind]
    rw [v1]
    simp [pick]
  · intro i p hi hp
    rw [← hX] at hp ⊢
    rw [w6.2 [i, p] (by rw [hdUs]; exact .cons hi (.cons hp .nil)), ← w5]
    simp only
    have hidx : (List.range dT.ndim).map (fun a => ([i, p] : List Nat).getD (([1, 0] : List Nat).idxOf a) 0) = [p, i] := by
      rw [NDArray.ndim, u4]; rfl
    rw [hidx, u5 p i (by rw [List.length_map]; exact hp) hi, hgU p hp, cols_of_neg]
    have hin : InB (dims (permL o0 L)) (unravel (o0.map T.ldim) i) := by rw [hdA]; exact unravel_inB hi
    simp only [mem_rows, hin, true_and]
  · intro j p hj hp
    rw [← hX] at hp ⊢
    rw [v5 p j (by rw [List.length_map]; exact hp) hj, hgV p hp]
    have hin : InB (dims (permL o1 L)) (unravel (o1.map T.ldim) j) := by rw [hdB]; exact unravel_inB hj
    simp only [mem_cols, hin, true_and]

/-! ## The matrix and its blocks -/

/-- An entry of the dense form of a matrix. -/
theorem BST.Valid.matrix [Zero R] {T : BST Q R} (h : T.Valid) {o0 o1 : List Nat} (hord : T.order = [o0, o1]) :
    ∃ d, T.todense = .ok d ∧ d.shape = [gdim T.ldim o0, gdim T.ldim o1] ∧
      ∀ i j, i < gdim T.ldim o0 → j < gdim T.ldim o1 →
        d.get [i, j] = T.sval (unperm (o0 ++ o1) (unravel (o0.map T.ldim) i ++ unravel (o1.map T.ldim) j)) := by
  obtain ⟨d, d1, d2, d3⟩ := h.todense (by rw [hord]; simp)
  rw [hord] at d2 d3
  have hperm : (o0 ++ o1).Perm (List.range T.legs.length) := by
    have := h.perm
    rwa [hord, show [o0, o1].flatten = o0 ++ o1 by simp] at this
  have hnd : ([o0, o1] : List (List Nat)).flatten.Nodup := by
    have := h.order_nodup
    rwa [hord] at this
  refine ⟨d, d1, d2, ?_⟩
  intro i j hi hj
  obtain ⟨σ, hσ, hσi⟩ := exists_gpos (dim := T.ldim) hnd (i := [i, j]) (.cons hi (.cons hj .nil))
  rw [show [o0, o1].flatten = o0 ++ o1 by simp] at hσ
  have hσ' : ∀ n, n < T.legs.length → σ n < T.ldim n :=
    fun n hn => hσ n (hperm.mem_iff.2 (List.mem_range.2 hn))
  simp only [List.map_cons, List.map_nil, List.cons.injEq, and_true] at hσi
  have e := d3 σ hσ'
  simp only [List.map_cons, List.map_nil] at e
  rw [hσi.1, hσi.2] at e
  rw [e, ← hσi.1, ← hσi.2]
  have h0 : unravel (o0.map T.ldim) (gpos T.ldim o0 σ) = o0.map σ := by
    rw [gpos]
    exact unravel_ravel ((inB_map _ _ _).2 (fun n hn => hσ n (List.mem_append_left _ hn)))
  have h1 : unravel (o1.map T.ldim) (gpos T.ldim o1 σ) = o1.map σ := by
    rw [gpos]
    exact unravel_ravel ((inB_map _ _ _).2 (fun n hn => hσ n (List.mem_append_right _ hn)))
  rw [h0, h1, ← List.map_append, perm_unperm_map hperm]

/-- The element of a matrix at a position with matching charges is an element of the block of its charge. -/
theorem block_elem [Zero R] {T : BST Q R} (h : T.Valid) {o0 o1 : List Nat} (hord : T.order = [o0, o1]) {b : Blocks Q}
    {qs : List Q} (hb : IsBlocks (eff T.legs) (o0 ++ o1) o0.length b qs) {r c : List Nat}
    (hr : InB (o0.map T.ldim) r) (hc : InB (o1.map T.ldim) c) :
    (total (permL o0 (eff T.legs)) r + total (permL o1 (eff T.legs)) c = 0 →
      ∃ n < qs.length, qs.getD n 0 = total (permL o0 (eff T.legs)) r ∧
        (rowsOf (permL o0 (eff T.legs)) (qs.getD n 0)).idxOf r < b.rows.getD n 0 ∧
        (colsOf (permL o1 (eff T.legs)) (qs.getD n 0)).idxOf c < b.cols.getD n 0 ∧
        T.sval (unperm (o0 ++ o1) (r ++ c)) = T.data.getD ((b.maps.getD n []).getD
          ((rowsOf (permL o0 (eff T.legs)) (qs.getD n 0)).idxOf r * b.cols.getD n 0 +
            (colsOf (permL o1 (eff T.legs)) (qs.getD n 0)).idxOf c) 0) 0) ∧
    (total (permL o0 (eff T.legs)) r + total (permL o1 (eff T.legs)) c ≠ 0 →
      T.sval (unperm (o0 ++ o1) (r ++ c)) = 0) := by
  obtain ⟨L, hL⟩ : ∃ L, L = eff T.legs := ⟨_, rfl⟩
  have hLl : L.length = T.legs.length := by rw [hL]; simp [eff]
  have hperm : (o0 ++ o1).Perm (List.range L.length) := by
    have := h.perm
    rwa [hord, show [o0, o1].flatten = o0 ++ o1 by simp, ← hLl] at this
  have hlt0 : ∀ n ∈ o0, n < T.legs.length := fun n hn => by
    rw [← hLl]; exact List.mem_range.1 (hperm.mem_iff.1 (List.mem_append_left _ hn))
  have hlt1 : ∀ n ∈ o1, n < T.legs.length := fun n hn => by
    rw [← hLl]; exact List.mem_range.1 (hperm.mem_iff.1 (List.mem_append_right _ hn))
  rw [← hL] at hb ⊢
  have hdA : dims (permL o0 L) = o0.map T.ldim := by rw [hL, permL_eff _ _ hlt0, dims_eff]; exact pick_dims T hlt0
  have hdB : dims (permL o1 L) = o1.map T.ldim := by rw [hL, permL_eff _ _ hlt1, dims_eff]; exact pick_dims T hlt1
  have hpl : permL (o0 ++ o1) L = permL o0 L ++ permL o1 L := by simp [permL]
  have hl0 : (permL o0 L).length = o0.length := by simp [permL]
  have hst := mem_stored_two hperm (r := r) (c := c) (by rw [hr.length, List.length_map]) (by rw [hc.length, List.length_map])
  have hrm : r ∈ rowsOf (permL o0 L) (total (permL o0 L) r) := mem_rows.2 ⟨by rw [hdA]; exact hr, rfl⟩
  rw [← hdB] at hc
  have htake : (permL o0 L ++ permL o1 L).take o0.length = permL o0 L := List.take_left' hl0
  have hdrop : (permL o0 L ++ permL o1 L).drop o0.length = permL o1 L := List.drop_left' hl0
  constructor
  · intro hz
    have hcm : c ∈ colsOf (permL o1 L) (total (permL o0 L) r) := mem_cols.2 ⟨hc, hz⟩
    have hq : total (permL o0 L) r ∈ qs := by
      apply hb.complete
      · rw [hpl, htake]
        exact List.ne_nil_of_mem hrm
      · rw [hpl, hdrop]
        exact List.ne_nil_of_mem hcm
    obtain ⟨n, hn, hqn⟩ := List.getElem_of_mem hq
    have hqd : qs.getD n 0 = total (permL o0 L) r := by rw [List.getD_eq_getElem _ _ hn, hqn]
    refine ⟨n, hn, hqd, ?_, ?_, ?_⟩
    · rw [hqd, hb.rows, List.getD_eq_getElem _ _ (by simpa using hn), List.getElem_map, hqn, hpl, htake]
      exact List.idxOf_lt_length_iff.2 hrm
    · rw [hqd, hb.cols, List.getD_eq_getElem _ _ (by simpa using hn), List.getElem_map, hqn, hpl, hdrop]
      exact List.idxOf_lt_length_iff.2 hcm
    · rw [BST.sval, ← hL, if_pos (hst.2 ⟨hrm, hcm⟩)]
      congr 1
      have hcn : b.cols.getD n 0 = (colsOf (permL o1 L) (total (permL o0 L) r)).length := by
        rw [hb.cols, List.getD_eq_getElem _ _ (by simpa using hn), List.getElem_map, hqn, hpl, hdrop]
      have hmn : b.maps.getD n [] = outerRavel (fun r c => (stored L).idxOf (unperm (o0 ++ o1) (r ++ c)))
          (rowsOf (permL o0 L) (total (permL o0 L) r)) (colsOf (permL o1 L) (total (permL o0 L) r)) := by
        rw [hb.maps, List.getD_eq_getElem _ _ (by simpa using hn), List.getElem_map, hqn, blockMap, hpl, htake, hdrop]
        rfl
      rw [hqd, hcn, hmn, outerRavel_getD _ _ _ (List.idxOf_lt_length_iff.2 hrm) (List.idxOf_lt_length_iff.2 hcm),
        List.getElem_idxOf, List.getElem_idxOf]
  · intro hz
    rw [BST.sval, ← hL, if_neg]
    intro hm
    exact hz (mem_cols.1 (hst.1 hm).2).2

/-- The sum over the new leg is the sum over the vectors of one block. -/
theorem sum_bond [AddCommMonoid R] {qs : List Q} (hq : qs.Nodup) {fs : List (Fac R)} (hfs : fs.length = qs.length) (a z : Q)
    (F : Nat × Nat → R) :
    (∀ n < qs.length, qs.getD n 0 = a → a + z = 0 →
      ∑ p ∈ Finset.range (bondPairs fs).length, (if a = qs.getD ((bondPairs fs).getD p (0, 0)).1 0 ∧
        qs.getD ((bondPairs fs).getD p (0, 0)).1 0 + z = 0 then F ((bondPairs fs).getD p (0, 0)) else 0) =
      ∑ x ∈ Finset.range ((fs.map Fac.k).getD n 0), F (n, x)) ∧
    (a + z ≠ 0 → ∑ p ∈ Finset.range (bondPairs fs).length, (if a = qs.getD ((bondPairs fs).getD p (0, 0)).1 0 ∧
        qs.getD ((bondPairs fs).getD p (0, 0)).1 0 + z = 0 then F ((bondPairs fs).getD p (0, 0)) else 0) = 0) := by
  constructor
  · intro n hn hqa haz
    rw [sum_bondPairs fs (fun y => if a = qs.getD y.1 0 ∧ qs.getD y.1 0 + z = 0 then F y else 0),
      Finset.sum_eq_single n]
    · apply Finset.sum_congr rfl
      intro x _
      rw [if_pos ⟨hqa.symm, by rw [hqa]; exact haz⟩]
    · intro m hm hmn
      apply Finset.sum_eq_zero
      intro x _
      rw [if_neg]
      rintro ⟨h1, _⟩
      have hm : m < qs.length := by rw [← hfs]; exact Finset.mem_range.1 hm
      simp only at h1
      rw [← hqa, List.getD_eq_getElem _ _ hn, List.getD_eq_getElem _ _ hm] at h1
      exact hmn ((hq.getElem_inj_iff).1 h1).symm
    · intro h
      exact absurd (Finset.mem_range.2 (by omega)) h
  · intro haz
    apply Finset.sum_eq_zero
    intro p _
    rw [if_neg]
    rintro ⟨h1, h2⟩
    rw [← h1] at h2
    exact haz h2

theorem ite_mul_ite [MulZeroClass R] (a b : Prop) [Decidable a] [Decidable b] (x y : R) :
    (if a then x else 0) * (if b then y else 0) = if a ∧ b then x * y else 0 := by
  by_cases ha : a <;> by_cases hb : b <;> simp [ha, hb]

theorem bondPairs_nodup (fs : List (Fac R)) : (bondPairs fs).Nodup := by
  rw [bondPairs, List.nodup_flatMap]
  refine ⟨fun n _ => List.nodup_range.map (fun a b h => (Prod.mk.inj h).2), ?_⟩
  refine List.Pairwise.imp ?_ (List.nodup_range (n := fs.length))
  intro a b hab
  rw [Function.onFun, List.disjoint_left]
  intro x hx hx'
  obtain ⟨y, _, rfl⟩ := List.mem_map.1 hx
  obtain ⟨z, _, h⟩ := List.mem_map.1 hx'
  exact hab (Prod.mk.inj h).1.symm

theorem bondPairs_snd {fs : List (Fac R)} [Zero R] {p : Nat} (hp : p < (bondPairs fs).length) :
    ((bondPairs fs).getD p (0, 0)).2 < (fs.getD ((bondPairs fs).getD p (0, 0)).1 Fac.zero).k := by
  have h1 := bondPairs_mem hp
  have hm : (bondPairs fs).getD p (0, 0) ∈ bondPairs fs := by
    rw [List.getD_eq_getElem _ _ hp]; exact List.getElem_mem hp
  obtain ⟨y, hy⟩ : ∃ y, y = (bondPairs fs).getD p (0, 0) := ⟨_, rfl⟩
  rw [← hy] at hm h1 ⊢
  rw [bondPairs, List.mem_flatMap] at hm
  obtain ⟨n, _, h2⟩ := hm
  obtain ⟨x, h3, h4⟩ := List.mem_map.1 h2
  rw [← h4] at h1 ⊢
  have := List.mem_range.1 h3
  simpa [h1] using this

/-- The sum over the positions of an axis that have the charge `q`. -/
theorem sum_rows [AddCommMonoid R] (A : List (List Q)) (q : Q) (g : Nat → R) :
    ∑ i ∈ Finset.range (dims A).prod, (if total A (unravel (dims A) i) = q then g ((rowsOf A q).idxOf (unravel (dims A) i)) else 0) =
      ∑ k ∈ Finset.range (rowsOf A q).length, g k := by
  rw [← sum_map_range, ← sum_map_range]
  have h1 : (List.range (dims A).prod).map (fun i => if total A (unravel (dims A) i) = q then
      g ((rowsOf A q).idxOf (unravel (dims A) i)) else 0) =
      (grid (dims A)).map (fun r => if total A r = q then g ((rowsOf A q).idxOf r) else 0) := by
    rw [grid_eq, List.map_map]; rfl
  rw [h1, ← sum_filter (grid (dims A)) (fun r => total A r = q)]
  · congr 1
    symm
    have h2 : ((grid (dims A)).filter (fun r => decide (total A r = q))).map (fun r => if total A r = q then g ((rowsOf A q).idxOf r) else 0) =
        (rowsOf A q).map (fun r => g ((rowsOf A q).idxOf r)) := by
      rw [← rowsOf]
      apply List.map_congr_left
      intro r hr
      rw [if_pos (mem_rows.1 hr).2]
    rw [h2]
    apply map_range_eq
    intro k hk
    rw [List.Nodup.idxOf_getElem (show (rowsOf A q).Nodup from (grid_nodup _).filter _) k hk]
  · intro r _ hr
    rw [if_neg (by simpa using hr)]

theorem factorBlocks_spec [Zero R] {argsort : List Nat → List Nat} (ha : ArgsortOK argsort)
    (fac : Nat → Nat → (Nat → Nat → R) → Fac R) {T : BST Q R} (h : T.Valid) {o0 o1 : List Nat} (hord : T.order = [o0, o1]) :
    ∃ b qs, factorBlocks argsort fac T = .ok (b, (List.range b.maps.length).map (fun n => fac (b.rows.getD n 0) (b.cols.getD n 0)
      (fun i j => T.data.getD ((b.maps.getD n []).getD (i * b.cols.getD n 0 + j) 0) 0))) ∧
      IsBlocks (eff T.legs) (o0 ++ o1) o0.length b qs ∧ b.maps.length = qs.length ∧ qs.Nodup := by
  have hperm : (o0 ++ o1).Perm (List.range T.legs.length) := by
    have := h.perm
    rwa [hord, show [o0, o1].flatten = o0 ++ o1 by simp] at this
  have hl : o0.length ≤ T.legs.length := by
    have := hperm.length_eq
    rw [List.length_append, List.length_range] at this
    omega
  obtain ⟨b, qs, b1, b2, _⟩ := findTransposed_spec ha h.wf (h.legs_ne (by rw [hord]; simp)) hl hperm
  refine ⟨b, qs, ?_, b2, by rw [b2.maps, List.length_map], ?_⟩
  · rw [factorBlocks, hord]
    simp only [bind, Except.bind]
    rw [b1]
  · rw [← b2.uniq]; exact Charge.uniq_nodup b2.wf

/-- C52: the factors of `qr` are valid tensors, their dense forms multiply to the dense form of the matrix, and if the
factors of the blocks have orthonormal columns so has the left factor.  `fac` is `np.linalg.qr`. -/
theorem C52_qr [CommSemiring R] {argsort : List Nat → List Nat} (ha : ArgsortOK argsort)
    {fac : Nat → Nat → (Nat → Nat → R) → Fac R}
    (hfac : ∀ m n M, ∀ i < m, ∀ j < n, ∑ x ∈ Finset.range (fac m n M).k, (fac m n M).u i x * (fac m n M).v x j = M i j)
    {T : BST Q R} (h : T.Valid) (hnd : T.ndim = 2) :
    ∃ Qm Rm d dq dr m n k, bsQr argsort fac T = .ok (Qm, Rm) ∧ Qm.Valid ∧ Rm.Valid ∧ T.todense = .ok d ∧
      Qm.todense = .ok dq ∧ Rm.todense = .ok dr ∧ d.shape = [m, n] ∧ dq.shape = [m, k] ∧ dr.shape = [k, n] ∧
      (∀ i < m, ∀ j < n, ∑ p ∈ Finset.range k, dq.get [i, p] * dr.get [p, j] = d.get [i, j]) ∧
      ∀ conj : R → R, conj 0 = 0 → (∀ m n M, ∀ x < (fac m n M).k, ∀ y < (fac m n M).k,
          ∑ i ∈ Finset.range m, conj ((fac m n M).u i x) * (fac m n M).u i y = if x = y then 1 else 0) →
        ∀ p < k, ∀ p' < k, ∑ i ∈ Finset.range m, conj (dq.get [i, p]) * dq.get [i, p'] = if p = p' then 1 else 0 := by
  obtain ⟨o0, o1, hord⟩ : ∃ o0 o1, T.order = [o0, o1] := List.length_eq_two.1 hnd
  obtain ⟨b, qs, f1, hb, hml, hqn⟩ := factorBlocks_spec ha fac h hord
  obtain ⟨fs, hfs⟩ : ∃ fs, fs = (List.range b.maps.length).map (fun n => fac (b.rows.getD n 0) (b.cols.getD n 0)
      (fun i j => T.data.getD ((b.maps.getD n []).getD (i * b.cols.getD n 0 + j) 0) 0)) := ⟨_, rfl⟩
  rw [← hfs] at f1
  have hfl : fs.length = qs.length := by rw [hfs, List.length_map, List.length_range, hml]
  have hfg : ∀ n < qs.length, fs.getD n Fac.zero = fac (b.rows.getD n 0) (b.cols.getD n 0)
      (fun i j => T.data.getD ((b.maps.getD n []).getD (i * b.cols.getD n 0 + j) 0) 0) := by
    intro n hn
    have hn' : n < ((List.range b.maps.length).map (fun n => fac (b.rows.getD n 0) (b.cols.getD n 0)
      (fun i j => T.data.getD ((b.maps.getD n []).getD (i * b.cols.getD n 0 + j) 0) 0))).length := by
      rw [List.length_map, List.length_range, hml]; exact hn
    rw [hfs, List.getD_eq_getElem _ _ hn', List.getElem_map, List.getElem_range]
  have hkg : ∀ n < qs.length, (fs.map Fac.k).getD n 0 = (fs.getD n Fac.zero).k := by
    intro n hn
    have : n < fs.length := by omega
    simp [this]
  obtain ⟨c, U, V, dU, dV, c1, l1, r1, hU, hV, tU, tV, _, _, sU, sV, gU, gV⟩ := factors_spec h hord hb hfl
  obtain ⟨d, d1, d2, d3⟩ := h.matrix hord
  refine ⟨U, V, d, dU, dV, gdim T.ldim o0, gdim T.ldim o1, (bondPairs fs).length, ?_, hU, hV, d1, tU, tV, d2, sU, sV, ?_, ?_⟩
  · rw [bsQr, f1]
    simp only [bind, Except.bind, hord]
    rw [show ([o0, o1] : List (List Nat)).getD 0 [] = o0 from rfl, show ([o0, o1] : List (List Nat)).getD 1 [] = o1 from rfl,
      l1, r1]
  · intro i hi j hj
    have hri : InB (o0.map T.ldim) (unravel (o0.map T.ldim) i) := unravel_inB hi
    have hrj : InB (o1.map T.ldim) (unravel (o1.map T.ldim) j) := unravel_inB hj
    obtain ⟨e1, e2⟩ := block_elem h hord hb hri hrj
    rw [d3 i j hi hj]
    obtain ⟨s1, s2⟩ := sum_bond hqn hfl (total (permL o0 (eff T.legs)) (unravel (o0.map T.ldim) i))
      (total (permL o1 (eff T.legs)) (unravel (o1.map T.ldim) j)) (fun y => (fs.getD y.1 Fac.zero).u
        ((rowsOf (permL o0 (eff T.legs)) (qs.getD y.1 0)).idxOf (unravel (o0.map T.ldim) i)) y.2 *
        (fs.getD y.1 Fac.zero).v y.2
        ((colsOf (permL o1 (eff T.legs)) (qs.getD y.1 0)).idxOf (unravel (o1.map T.ldim) j)))
    have hsum : ∑ p ∈ Finset.range (bondPairs fs).length, dU.get [i, p] * dV.get [p, j] =
        ∑ p ∈ Finset.range (bondPairs fs).length, (if total (permL o0 (eff T.legs)) (unravel (o0.map T.ldim) i) =
          qs.getD ((bondPairs fs).getD p (0, 0)).1 0 ∧ qs.getD ((bondPairs fs).getD p (0, 0)).1 0 +
          total (permL o1 (eff T.legs)) (unravel (o1.map T.ldim) j) = 0 then
          (fs.getD ((bondPairs fs).getD p (0, 0)).1 Fac.zero).u
            ((rowsOf (permL o0 (eff T.legs)) (qs.getD ((bondPairs fs).getD p (0, 0)).1 0)).idxOf (unravel (o0.map T.ldim) i))
            ((bondPairs fs).getD p (0, 0)).2 *
          (fs.getD ((bondPairs fs).getD p (0, 0)).1 Fac.zero).v ((bondPairs fs).getD p (0, 0)).2
            ((colsOf (permL o1 (eff T.legs)) (qs.getD ((bondPairs fs).getD p (0, 0)).1 0)).idxOf (unravel (o1.map T.ldim) j))
          else 0) := by
      apply Finset.sum_congr rfl
      intro p hp
      have hp := Finset.mem_range.1 hp
      rw [gU i p hi hp, gV j p hj hp]
      exact ite_mul_ite _ _ _ _
    rw [hsum]
    by_cases hz : total (permL o0 (eff T.legs)) (unravel (o0.map T.ldim) i) +
        total (permL o1 (eff T.legs)) (unravel (o1.map T.ldim) j) = 0
    · obtain ⟨n, n1, n2, n3, n4, n5⟩ := e1 hz
      rw [s1 n n1 n2 hz, hkg n n1, n5]
      simp only
      rw [hfg n n1]
      exact hfac _ _ _ _ n3 _ n4
    · rw [s2 hz, e2 hz]
  · intro conj hc0 hiso p hp p' hp'
    have hlt0 : ∀ n ∈ o0, n < T.legs.length := by
      intro n hn
      have := h.mem_order (n := n)
      rw [hord] at this
      exact this.1 (by simp [hn])
    have hdA : dims (permL o0 (eff T.legs)) = o0.map T.ldim := by
      rw [permL_eff _ _ hlt0, dims_eff]; exact pick_dims T hlt0
    have hl0 : (permL o0 (eff T.legs)).length = o0.length := by simp [permL]
    obtain ⟨y, hy⟩ : ∃ y, y = (bondPairs fs).getD p (0, 0) := ⟨_, rfl⟩
    obtain ⟨y', hy'⟩ : ∃ y', y' = (bondPairs fs).getD p' (0, 0) := ⟨_, rfl⟩
    have hpp : p = p' ↔ y = y' := by
      rw [hy, hy', List.getD_eq_getElem _ _ hp, List.getD_eq_getElem _ _ hp', (bondPairs_nodup fs).getElem_inj_iff]
    have hn := bondPairs_mem hp
    have hn' := bondPairs_mem hp'
    have hx := bondPairs_snd hp
    have hx' := bondPairs_snd hp'
    rw [← hy] at hn hx
    rw [← hy'] at hn' hx'
    by_cases hnn : y.1 = y'.1
    · have hsum : ∑ i ∈ Finset.range (gdim T.ldim o0), conj (dU.get [i, p]) * dU.get [i, p'] =
          ∑ i ∈ Finset.range (dims (permL o0 (eff T.legs))).prod,
            (if total (permL o0 (eff T.legs)) (unravel (dims (permL o0 (eff T.legs))) i) = qs.getD y.1 0 then
              (fun k => conj ((fs.getD y.1 Fac.zero).u k y.2) * (fs.getD y.1 Fac.zero).u k y'.2)
                ((rowsOf (permL o0 (eff T.legs)) (qs.getD y.1 0)).idxOf (unravel (dims (permL o0 (eff T.legs))) i)) else 0) := by
        rw [hdA]
        apply Finset.sum_congr rfl
        intro i hi
        have hi := Finset.mem_range.1 hi
        rw [gU i p hi hp, gU i p' hi hp', ← hy, ← hy', ← hnn]
        split_ifs
        · rfl
        · rw [hc0, zero_mul]
      rw [hsum]
      refine (sum_rows (permL o0 (eff T.legs)) (qs.getD y.1 0)
        (fun k => conj ((fs.getD y.1 Fac.zero).u k y.2) * (fs.getD y.1 Fac.zero).u k y'.2)).trans ?_
      have hnq : y.1 < qs.length := by omega
      have hrl : (rowsOf (permL o0 (eff T.legs)) (qs.getD y.1 0)).length = b.rows.getD y.1 0 := by
        rw [hb.rows, List.getD_eq_getElem (l := List.map _ _) _ (by simpa using hnq), List.getElem_map,
          show permL (o0 ++ o1) (eff T.legs) = permL o0 (eff T.legs) ++ permL o1 (eff T.legs) by simp [permL],
          List.take_left' hl0, List.getD_eq_getElem _ _ hnq]
      rw [hrl]
      rw [← hnn] at hx'
      rw [hfg y.1 hnq] at hx hx' ⊢
      rw [hiso _ _ _ _ hx _ hx']
      simp only [hpp, Prod.ext_iff, hnn, true_and]
    · rw [if_neg (by rw [hpp]; intro he; exact hnn (by rw [he]))]
      apply Finset.sum_eq_zero
      intro i hi
      have hi := Finset.mem_range.1 hi
      rw [gU i p hi hp, gU i p' hi hp', ← hy, ← hy']
      split_ifs with g1 g2
      · exfalso
        rw [g1, List.getD_eq_getElem _ _ (by omega), List.getD_eq_getElem _ _ (by omega), hqn.getElem_inj_iff] at g2
        exact hnn g2
      · rw [mul_zero]
      · rw [hc0, zero_mul]
      · rw [mul_zero]

theorem singvals_getD [Zero R] (fs : List (Fac R)) {p : Nat} (hp : p < (bondPairs fs).length) :
    ((fs.map (fun f => (List.range f.k).map f.s)).flatten).getD p 0 =
      (fs.getD ((bondPairs fs).getD p (0, 0)).1 Fac.zero).s ((bondPairs fs).getD p (0, 0)).2 := by
  have h1 : (fs.map (fun f => (List.range f.k).map f.s)).flatten =
      (bondPairs fs).map (fun y => (fs.getD y.1 Fac.zero).s y.2) := by
    rw [bondPairs, List.map_flatMap, List.flatMap_def]
    congr 1
    symm
    apply map_range_eq
    intro n hn
    rw [List.map_map]
    have hk : (fs.map Fac.k).getD n 0 = fs[n].k := by simp [hn]
    rw [hk]
    apply List.map_congr_left
    intro x _
    simp [hn]
  rw [h1]
  simp [hp]

/-- C52: the factors of the singular value decomposition are valid tensors.  Without truncation their dense forms
multiply to the dense form of the matrix; with the truncation `cut` the terms of the discarded vectors are left out.
`fac` is `np.linalg.svd`. -/
theorem C52_svd [CommSemiring R] {argsort : List Nat → List Nat} (ha : ArgsortOK argsort)
    {fac : Nat → Nat → (Nat → Nat → R) → Fac R}
    (hfac : ∀ m n M, ∀ i < m, ∀ j < n,
      ∑ x ∈ Finset.range (fac m n M).k, (fac m n M).u i x * (fac m n M).s x * (fac m n M).v x j = M i j)
    {cut : List (Fac R) → Py (List Nat)} (hcut : ∀ fs, ∃ ks, cut fs = .ok ks ∧ ks.length = fs.length)
    {T : BST Q R} (h : T.Valid) (hnd : T.ndim = 2) :
    ∃ U S c V d dU dV fs ks m n k, bsSvd argsort fac cut T = .ok (U, (S, c), V) ∧ U.Valid ∧ V.Valid ∧ T.todense = .ok d ∧
      U.todense = .ok dU ∧ V.todense = .ok dV ∧ d.shape = [m, n] ∧ dU.shape = [m, k] ∧ dV.shape = [k, n] ∧
      S.length = k ∧ c.dim = k ∧ cut fs = .ok ks ∧ k = ks.sum ∧
      ∀ i < m, ∀ j < n,
        (∑ p ∈ Finset.range k, dU.get [i, p] * S.getD p 0 * dV.get [p, j] = 0 ∧ d.get [i, j] = 0) ∨
        ∃ l a b, l < fs.length ∧
          ∑ p ∈ Finset.range k, dU.get [i, p] * S.getD p 0 * dV.get [p, j] =
            ∑ x ∈ Finset.range (ks.getD l 0), (fs.getD l Fac.zero).u a x * (fs.getD l Fac.zero).s x * (fs.getD l Fac.zero).v x b ∧
          d.get [i, j] =
            ∑ x ∈ Finset.range (fs.getD l Fac.zero).k,
              (fs.getD l Fac.zero).u a x * (fs.getD l Fac.zero).s x * (fs.getD l Fac.zero).v x b := by
  obtain ⟨o0, o1, hord⟩ : ∃ o0 o1, T.order = [o0, o1] := List.length_eq_two.1 hnd
  obtain ⟨b, qs, f1, hb, hml, hqn⟩ := factorBlocks_spec ha fac h hord
  obtain ⟨f0, hf0⟩ : ∃ fs, fs = (List.range b.maps.length).map (fun n => fac (b.rows.getD n 0) (b.cols.getD n 0)
      (fun i j => T.data.getD ((b.maps.getD n []).getD (i * b.cols.getD n 0 + j) 0) 0)) := ⟨_, rfl⟩
  rw [← hf0] at f1
  obtain ⟨ks, k1, k2⟩ := hcut f0
  obtain ⟨fs, hfs⟩ : ∃ fs, fs = (f0.zip ks).map (fun p => ({ p.1 with k := p.2 } : Fac R)) := ⟨_, rfl⟩
  have hf0l : f0.length = qs.length := by rw [hf0, List.length_map, List.length_range, hml]
  have hfl : fs.length = qs.length := by rw [hfs, List.length_map, List.length_zip, k2]; omega
  have hfg : ∀ n < qs.length, f0.getD n Fac.zero = fac (b.rows.getD n 0) (b.cols.getD n 0)
      (fun i j => T.data.getD ((b.maps.getD n []).getD (i * b.cols.getD n 0 + j) 0) 0) := by
    intro n hn
    have hn' : n < ((List.range b.maps.length).map (fun n => fac (b.rows.getD n 0) (b.cols.getD n 0)
      (fun i j => T.data.getD ((b.maps.getD n []).getD (i * b.cols.getD n 0 + j) 0) 0))).length := by
      rw [List.length_map, List.length_range, hml]; exact hn
    rw [hf0, List.getD_eq_getElem _ _ hn', List.getElem_map, List.getElem_range]
  have hfs' : ∀ n < qs.length, fs.getD n Fac.zero = { f0.getD n Fac.zero with k := ks.getD n 0 } := by
    intro n hn
    have h1 : n < fs.length := by omega
    have h2 : n < f0.length := by omega
    have h3 : n < ks.length := by omega
    rw [List.getD_eq_getElem _ _ h2, List.getD_eq_getElem _ _ h3, List.getD_eq_getElem _ _ h1]
    simp [hfs]
  have hks : fs.map Fac.k = ks := by
    rw [hfs, List.map_map]
    have : (Fac.k ∘ fun p : Fac R × Nat => ({ p.1 with k := p.2 } : Fac R)) = Prod.snd := rfl
    rw [this, List.map_snd_zip (by omega)]
  have hlen : (bondPairs fs).length = ks.sum := by
    rw [bondPairs, List.length_flatMap, hks]
    simp only [List.length_map, List.length_range]
    rw [hfl, ← hf0l, ← k2, map_range_getD]
  obtain ⟨c, U, V, dU, dV, c1, l1, r1, hU, hV, tU, tV, c2, c3, sU, sV, gU, gV⟩ := factors_spec h hord hb hfl
  obtain ⟨d, d1, d2, d3⟩ := h.matrix hord
  refine ⟨U, (fs.map (fun f => (List.range f.k).map f.s)).flatten, c, V, d, dU, dV, f0, ks, gdim T.ldim o0, gdim T.ldim o1,
    (bondPairs fs).length, ?_, hU, hV, d1, tU, tV, d2, sU, sV, ?_, ?_, k1, hlen, ?_⟩
  · rw [bsSvd, f1]
    simp only [bind, Except.bind, hord]
    rw [show ([o0, o1] : List (List Nat)).getD 0 [] = o0 from rfl, show ([o0, o1] : List (List Nat)).getD 1 [] = o1 from rfl,
      k1]
    simp only
    rw [← hfs, c1, l1, r1]
  · rw [hlen, ← hks, List.length_flatten, List.map_map]
    congr 1
    apply List.map_congr_left
    intro f _
    simp
  · rw [Charge.dim_eq, c3, List.length_map]
  · intro i hi j hj
    have hri : InB (o0.map T.ldim) (unravel (o0.map T.ldim) i) := unravel_inB hi
    have hrj : InB (o1.map T.ldim) (unravel (o1.map T.ldim) j) := unravel_inB hj
    obtain ⟨e1, e2⟩ := block_elem h hord hb hri hrj
    rw [d3 i j hi hj]
    obtain ⟨s1, s2⟩ := sum_bond hqn hfl (total (permL o0 (eff T.legs)) (unravel (o0.map T.ldim) i))
      (total (permL o1 (eff T.legs)) (unravel (o1.map T.ldim) j)) (fun y => (fs.getD y.1 Fac.zero).u
        ((rowsOf (permL o0 (eff T.legs)) (qs.getD y.1 0)).idxOf (unravel (o0.map T.ldim) i)) y.2 *
        (fs.getD y.1 Fac.zero).s y.2 * (fs.getD y.1 Fac.zero).v y.2
        ((colsOf (permL o1 (eff T.legs)) (qs.getD y.1 0)).idxOf (unravel (o1.map T.ldim) j)))
    have hsum : ∑ p ∈ Finset.range (bondPairs fs).length, dU.get [i, p] *
          ((fs.map (fun f => (List.range f.k).map f.s)).flatten).getD p 0 * dV.get [p, j] =
        ∑ p ∈ Finset.range (bondPairs fs).length, (if total (permL o0 (eff T.legs)) (unravel (o0.map T.ldim) i) =
          qs.getD ((bondPairs fs).getD p (0, 0)).1 0 ∧ qs.getD ((bondPairs fs).getD p (0, 0)).1 0 +
          total (permL o1 (eff T.legs)) (unravel (o1.map T.ldim) j) = 0 then
          (fs.getD ((bondPairs fs).getD p (0, 0)).1 Fac.zero).u
            ((rowsOf (permL o0 (eff T.legs)) (qs.getD ((bondPairs fs).getD p (0, 0)).1 0)).idxOf (unravel (o0.map T.ldim) i))
            ((bondPairs fs).getD p (0, 0)).2 * (fs.getD ((bondPairs fs).getD p (0, 0)).1 Fac.zero).s ((bondPairs fs).getD p (0, 0)).2 *
          (fs.getD ((bondPairs fs).getD p (0, 0)).1 Fac.zero).v ((bondPairs fs).getD p (0, 0)).2
            ((colsOf (permL o1 (eff T.legs)) (qs.getD ((bondPairs fs).getD p (0, 0)).1 0)).idxOf (unravel (o1.map T.ldim) j))
          else 0) := by
      apply Finset.sum_congr rfl
      intro p hp
      have hp := Finset.mem_range.1 hp
      rw [gU i p hi hp, gV j p hj hp, singvals_getD fs hp, ite_mul, zero_mul]
      exact ite_mul_ite _ _ _ _
    rw [hsum]
    by_cases hz : total (permL o0 (eff T.legs)) (unravel (o0.map T.ldim) i) +
        total (permL o1 (eff T.legs)) (unravel (o1.map T.ldim) j) = 0
    · right
      obtain ⟨n, n1, n2, n3, n4, n5⟩ := e1 hz
      refine ⟨n, (rowsOf (permL o0 (eff T.legs)) (qs.getD n 0)).idxOf (unravel (o0.map T.ldim) i),
        (colsOf (permL o1 (eff T.legs)) (qs.getD n 0)).idxOf (unravel (o1.map T.ldim) j), by omega, ?_, ?_⟩
      · rw [s1 n n1 n2 hz, hks]
        simp only
        rw [hfs' n n1]
      · rw [n5, hfg n n1]
        symm
        exact hfac _ _ _ _ n3 _ n4
    · left
      exact ⟨s2 hz, e2 hz⟩

/-- Without truncation the factors multiply to the matrix. -/
theorem C52_svd_full [CommSemiring R] {argsort : List Nat → List Nat} (ha : ArgsortOK argsort)
    {fac : Nat → Nat → (Nat → Nat → R) → Fac R}
    (hfac : ∀ m n M, ∀ i < m, ∀ j < n,
      ∑ x ∈ Finset.range (fac m n M).k, (fac m n M).u i x * (fac m n M).s x * (fac m n M).v x j = M i j)
    {T : BST Q R} (h : T.Valid) (hnd : T.ndim = 2) :
    ∃ U S c V d dU dV m n k, bsSvd argsort fac (fun fs => .ok (fs.map Fac.k)) T = .ok (U, (S, c), V) ∧ U.Valid ∧ V.Valid ∧
      T.todense = .ok d ∧ U.todense = .ok dU ∧ V.todense = .ok dV ∧ d.shape = [m, n] ∧ dU.shape = [m, k] ∧ dV.shape = [k, n] ∧
      ∀ i < m, ∀ j < n, ∑ p ∈ Finset.range k, dU.get [i, p] * S.getD p 0 * dV.get [p, j] = d.get [i, j] := by
  obtain ⟨U, S, c, V, d, dU, dV, fs, ks, m, n, k, h1, h2, h3, h4, h5, h6, h7, h8, h9, _, _, h10, _, h11⟩ :=
    C52_svd ha hfac (cut := fun fs => .ok (fs.map Fac.k)) (fun fs => ⟨_, rfl, by simp⟩) h hnd
  refine ⟨U, S, c, V, d, dU, dV, m, n, k, h1, h2, h3, h4, h5, h6, h7, h8, h9, ?_⟩
  intro i hi j hj
  rcases h11 i hi j hj with ⟨g1, g2⟩ | ⟨l, a, b, g0, g1, g2⟩
  · rw [g1, g2]
  · rw [g1, g2]
    have : ks.getD l 0 = (fs.getD l Fac.zero).k := by
      have := Except.ok.inj h10
      rw [← this]
      simp [g0]
    rw [this]

/-- The factorisation of a block with the identity as left factor. -/
def facEx : Nat → Nat → (Nat → Nat → Int) → Fac Int :=
  fun m _ M => ⟨m, fun i x => if i = x then 1 else 0, fun _ => 1, M⟩

/-- The hypotheses are met by a matrix with pending transposition and a fused axis. -/
example := C52_qr (argsort := argsortI) argsortI_ok (fac := facEx)
  (by intro m n M i hi j hj; simp [facEx, hi]) bstEx_valid rfl

example := C52_svd_full (argsort := argsortI) argsortI_ok (fac := facEx)
  (by intro m n M i hi j hj; simp [facEx, hi]) bstEx_valid rfl

end
end TN.Bs
