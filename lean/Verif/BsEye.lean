import Verif.BsTensordot

/-!
# The identity matrix and functions that work block by block (block_sparse/linalg.py)
-/

set_option linter.unusedSectionVars false

namespace TN.Bs

section
variable {Q : Type} [AddCommGroup Q] [LinearOrder Q] {R : Type}

/-! ## Model -/

/-- The loop `for n, block in enumerate(blocks): data[block] = ...` of `eye`, `inv`, `pinv` and
others (linalg.py:537-538, 579-580, 683-688); the pairs are the blocks and the values. -/
def writeBlocks : List (List Nat × List R) → List R → Py (List R)
  | [], a => .ok a
  | (m, v) :: bs, a => do
    let a ← setAll a m v
    writeBlocks bs a

/-- `np.ravel(np.eye(r, c))` -/
def eyeRavel [Zero R] [One R] (r c : Nat) : List R :=
  (List.range r).flatMap (fun i => (List.range c).map (fun j => if i = j then 1 else 0))

/-- `np.sum(np.prod(shapes, axis=0))`: the number of elements of the blocks. -/
def Blocks.size (b : Blocks Q) : Nat := (List.zipWith (· * ·) b.rows b.cols).sum

/-- `eye(column_index, row_index)` (linalg.py:557-592); an index is its list of legs, and `empty`
stands for the contents of `np.empty`. -/
def eye [Zero R] [One R] (argsort : List Nat → List Nat) (empty : Nat → List R)
    (column : List (Leg Q)) (row : Option (List (Leg Q))) : Py (BST Q R) := do
  let row := row.getD (flipFlows column)
  let b ← findDiagonal argsort (column ++ row) column.length
  let data ← writeBlocks ((List.range b.maps.length).map (fun n =>
    (b.maps.getD n [], eyeRavel (b.rows.getD n 0) (b.cols.getD n 0)))) (empty b.size)
  .ok ⟨data, column ++ row, consecutive 0 [column.length, row.length]⟩

/-! ## Proofs -/

theorem writeBlocks_spec [Zero R] {bs : List (List Nat × List R)} {a : List R} (f : Nat → R)
    (hlt : ∀ b ∈ bs, ∀ k ∈ b.1, k < a.length) (hv : ∀ b ∈ bs, b.2 = b.1.map f) :
    ∃ r, writeBlocks bs a = .ok r ∧ r.length = a.length ∧
      ∀ k, r.getD k 0 = if k ∈ bs.flatMap Prod.fst then f k else a.getD k 0 := by
  induction bs generalizing a with
  | nil => exact ⟨a, rfl, rfl, by simp⟩
  | cons b bs ih =>
    obtain ⟨m, v⟩ := b
    obtain ⟨r1, s1, s2, s3⟩ := setAll_fun (a := a) (locs := m) f (hlt (m, v) (by simp))
    obtain ⟨r, r1', r2, r3⟩ := ih (a := r1) (fun b hb => by rw [s2]; exact hlt b (by simp [hb]))
      (fun b hb => hv b (by simp [hb]))
    refine ⟨r, ?_, r2.trans s2, ?_⟩
    · rw [writeBlocks]
      have : v = m.map f := hv (m, v) (by simp)
      rw [this, s1]
      exact r1'
    · intro k
      rw [r3, s3, List.flatMap_cons]
      by_cases h1 : k ∈ bs.flatMap Prod.fst
      · rw [if_pos h1, if_pos (List.mem_append.2 (Or.inr h1))]
      · rw [if_neg h1]
        by_cases h2 : k ∈ m
        · rw [if_pos h2, if_pos (List.mem_append.2 (Or.inl h2))]
        · rw [if_neg h2, if_neg]
          intro h
          rcases List.mem_append.1 h with h | h
          · exact h2 h
          · exact h1 h

/-- The size of the blocks is the number of stored elements. -/
theorem IsBlocks.size_eq {L : List (List Q)} {order : List Nat} {p : Nat} {b : Blocks Q} {qs : List Q}
    (h : IsBlocks L order p b qs) (ho : order.Perm (List.range L.length)) :
    b.size = (stored L).length := by
  have hc := (h.cover ho).length_eq
  rw [List.length_range] at hc
  rw [← hc, h.maps, List.length_flatten, List.map_map, Blocks.size, h.rows, h.cols,
    List.zipWith_map, List.zipWith_self]
  congr 1
  apply List.map_congr_left
  intro q _
  rw [Function.comp_apply, blockMap, List.length_flatMap]
  simp

/-- Filling all blocks gives the data vector with the elements `f`. -/
theorem writeBlocks_all [Zero R] {L : List (List Q)} {order : List Nat} {p : Nat} {b : Blocks Q}
    {qs : List Q} (h : IsBlocks L order p b qs) (ho : order.Perm (List.range L.length))
    (f : Nat → R) (vals : Nat → List R)
    (hv : ∀ n (hn : n < qs.length), vals n = (blockMap L order p qs[n]).map f) {a : List R}
    (ha : a.length = (stored L).length) :
    ∃ r, writeBlocks ((List.range b.maps.length).map (fun n => (b.maps.getD n [], vals n))) a = .ok r ∧
      r.length = (stored L).length ∧ ∀ k < (stored L).length, r.getD k 0 = f k := by
  have hc := h.cover ho
  have hml : b.maps.length = qs.length := by rw [h.maps, List.length_map]
  have hmg : ∀ n (hn : n < qs.length), b.maps.getD n [] = blockMap L order p qs[n] := by
    intro n hn
    rw [h.maps, List.getD_eq_getElem _ _ (by simpa using hn), List.getElem_map]
  have hfl : ((List.range b.maps.length).map (fun n => (b.maps.getD n [], vals n))).flatMap Prod.fst =
      b.maps.flatten := by
    rw [List.flatMap_map, List.flatMap_def]
    congr 1
    exact map_range_getD _ _
  obtain ⟨r, r1, r2, r3⟩ := writeBlocks_spec (a := a)
    (bs := (List.range b.maps.length).map (fun n => (b.maps.getD n [], vals n))) f
    (by
      intro x hx k hk
      have : k ∈ b.maps.flatten := by rw [← hfl]; exact List.mem_flatMap.2 ⟨x, hx, hk⟩
      rw [ha]
      simpa using hc.mem_iff.1 this)
    (by
      intro x hx
      obtain ⟨n, hn, rfl⟩ := List.mem_map.1 hx
      have hn : n < qs.length := by rw [← hml]; exact List.mem_range.1 hn
      simp only
      rw [hv n hn, hmg n hn])
  refine ⟨r, r1, r2.trans ha, ?_⟩
  intro k hk
  rw [r3, if_pos]
  rw [hfl, hc.mem_iff, List.mem_range]
  exact hk

theorem eyeRavel_eq [Zero R] [One R] {α : Type} [DecidableEq α] {X : List α} (hX : X.Nodup) :
    (eyeRavel X.length X.length : List R) =
      X.flatMap (fun r => X.map (fun c => if r = c then 1 else 0)) := by
  rw [eyeRavel, List.flatMap_def, List.flatMap_def]
  congr 1
  apply map_range_eq
  intro i hi
  apply map_range_eq
  intro j hj
  congr 1
  rw [hX.getElem_inj_iff]

theorem cols_neg (A : List (List Q)) (q : Q) :
    colsOf (A.map (fun A => A.map (fun q => -q))) q = rowsOf A q := by
  rw [rowsOf, colsOf, dims_neg]
  apply List.filter_congr
  intro i hi
  rw [total_neg _ _ (mem_grid.1 hi)]
  have : q + -total A i = 0 ↔ total A i = q := by
    rw [← sub_eq_add_neg, sub_eq_zero]; exact eq_comm
  simp [this]

/-- **C51** (`eye`).  For any index, made of any number of legs, `eye(index)` is a valid tensor
whose dense form is the identity matrix. -/
theorem C51_eye [Zero R] [One R] {argsort : List Nat → List Nat} (ha : ArgsortOK argsort)
    {empty : Nat → List R} (he : ∀ n, (empty n).length = n) {column : List (Leg Q)}
    (hw : LegsWF column) (hne : column ≠ []) :
    ∃ T d, eye argsort empty column none = .ok T ∧ T.Valid ∧
      T.legs = column ++ flipFlows column ∧
      T.order = consecutive 0 [column.length, (flipFlows column).length] ∧
      T.todense = .ok d ∧
      d.shape = [(column.map (fun l => l.1.dim)).prod, (column.map (fun l => l.1.dim)).prod] ∧
      ∀ i j, i < (column.map (fun l => l.1.dim)).prod → j < (column.map (fun l => l.1.dim)).prod →
        d.get [i, j] = if i = j then 1 else 0 := by
  obtain ⟨A, hA⟩ : ∃ A, A = eff column := ⟨_, rfl⟩
  have hAl : A.length = column.length := by rw [hA]; simp [eff]
  have hL : eff (column ++ flipFlows column) = A ++ A.map (fun A => A.map (fun q => -q)) := by
    rw [eff_append, eff_flip hw, hA]
  have hww : LegsWF (column ++ flipFlows column) := by
    intro l hl
    rcases List.mem_append.1 hl with h | h
    · exact hw l h
    · exact flipFlows_wf hw l h
  obtain ⟨L, hLd⟩ : ∃ L, L = A ++ A.map (fun A => A.map (fun q => -q)) := ⟨_, rfl⟩
  have hLl : L.length = A.length + A.length := by rw [hLd]; simp
  obtain ⟨b, qs, b1, b2, _⟩ := findDiagonal_spec ha hww (by simpa using fun h => absurd h hne)
    (p := column.length) (by simp)
  rw [hL, ← hLd] at b2
  have hperm : permL (List.range L.length) L = L := permL_range _
  have hbm : ∀ q, blockMap L (List.range L.length) column.length q =
      (rowsOf A q).flatMap (fun r => (rowsOf A q).map (fun c => (stored L).idxOf (r ++ c))) := by
    intro q
    rw [hLd, ← hAl, blockMap_range, cols_neg]
  have hin : ∀ q, ∀ r ∈ rowsOf A q, ∀ c ∈ rowsOf A q, r ++ c ∈ stored L := by
    intro q r hr c hc
    rw [mem_rows] at hr hc
    rw [mem_stored, hLd]
    refine ⟨?_, ?_⟩
    · rw [show dims (A ++ A.map (fun A => A.map (fun q => -q))) = dims A ++ dims A by
        rw [dims, List.map_append, ← dims, ← dims, dims_neg]]
      exact inB_append hr.1 hc.1
    · rw [total_append (by rw [hr.1.length]; simp [dims]), total_neg _ _ hc.1, hr.2, hc.2, add_neg_cancel]
  obtain ⟨f, hf⟩ : ∃ f : Nat → R, f = fun k =>
      if ((stored L).getD k []).take A.length = ((stored L).getD k []).drop A.length then 1 else 0 :=
    ⟨_, rfl⟩
  have hfv : ∀ r c, r.length = A.length → r ++ c ∈ stored L →
      f ((stored L).idxOf (r ++ c)) = if r = c then 1 else 0 := by
    intro r c hr h
    rw [hf]
    simp only
    rw [stored_getElem_idxOf h, List.take_left' hr, List.drop_left' hr]
  obtain ⟨data, e1, e2, e3⟩ := writeBlocks_all b2 (List.Perm.refl _) f
    (fun n => eyeRavel (b.rows.getD n 0) (b.cols.getD n 0))
    (by
      intro n hn
      have hrn : b.rows.getD n 0 = (rowsOf A qs[n]).length := by
        rw [b2.rows, List.getD_eq_getElem _ _ (by simpa using hn), List.getElem_map, hperm, hLd,
          ← hAl, List.take_left' rfl]
      have hcn : b.cols.getD n 0 = (rowsOf A qs[n]).length := by
        rw [b2.cols, List.getD_eq_getElem _ _ (by simpa using hn), List.getElem_map, hperm, hLd,
          ← hAl, List.drop_left' rfl, cols_neg]
      rw [hrn, hcn, eyeRavel_eq (X := rowsOf A qs[n]) ((grid_nodup _).filter _), hbm, List.map_flatMap]
      apply List.flatMap_congr
      intro r hr
      rw [List.map_map]
      apply List.map_congr_left
      intro c hc
      rw [Function.comp_apply, hfv r c _ (hin _ r hr c hc)]
      rw [mem_rows] at hr
      rw [hr.1.length]; simp [dims])
    (a := empty b.size) (by rw [he, b2.size_eq (List.Perm.refl _)])
  obtain ⟨T, hT⟩ : ∃ T : BST Q R, T = ⟨data, column ++ flipFlows column,
    consecutive 0 [column.length, (flipFlows column).length]⟩ := ⟨_, rfl⟩
  obtain ⟨hv, d, d1, d2, d3⟩ := BST.consec_spec (T := T) (gs := [column, flipFlows column])
    (by rw [hT]; simp) (by rw [hT]; rfl) (by rw [hT]; exact hww)
    (by
      intro g hg
      simp only [List.mem_cons, List.not_mem_nil, or_false] at hg
      rcases hg with rfl | rfl
      · exact hne
      · intro h; exact hne (List.map_eq_nil_iff.1 h))
    (by rw [hT]; simp only; rw [hL, ← hLd, e2]) (by simp)
  have hfd : (flipFlows column).map (fun l => l.1.dim) = column.map (fun l => l.1.dim) := by
    simp [flipFlows]
  have hdA : dims A = column.map (fun l => l.1.dim) := by rw [hA, dims_eff]
  have hdL : dims L = dims A ++ dims A := by
    rw [hLd, dims, List.map_append, ← dims, ← dims, dims_neg]
  rw [List.map_cons, List.map_cons, List.map_nil, hfd, ← hdA] at d2
  refine ⟨T, d, ?_, hv, by rw [hT], by rw [hT], d1, by rw [d2, hdA], ?_⟩
  · rw [eye]
    simp only [Option.getD_none, bind, Except.bind]
    rw [b1]
    simp only
    rw [e1, hT]
  · intro i j hi hj
    rw [← hdA] at hi hj
    have hTl : eff T.legs = L := by rw [hT]; simp only; rw [hL, hLd]
    rw [d3 [i, j] (by rw [d2]; exact .cons hi (.cons hj .nil)), hTl, d2, hdL]
    have hu : unravel (dims A ++ dims A) (ravel [(dims A).prod, (dims A).prod] [i, j]) =
        unravel (dims A) i ++ unravel (dims A) j := by
      have e : ravel [(dims A).prod, (dims A).prod] [i, j] = i * (dims A).prod + j := by
        simp [ravel]
      rw [e]
      exact unravel_append hi hj
    rw [hu]
    have hri := unravel_inB hi
    have hrj := unravel_inB hj
    have hrl : (unravel (dims A) i).length = A.length := by rw [hri.length]; simp [dims]
    have hij : i = j ↔ unravel (dims A) i = unravel (dims A) j := by
      constructor
      · rintro rfl; rfl
      · intro h
        rw [← ravel_unravel hi, ← ravel_unravel hj, h]
    rw [BST.sval, hTl]
    by_cases hm : unravel (dims A) i ++ unravel (dims A) j ∈ stored L
    · rw [if_pos hm]
      have hdt : T.data = data := by rw [hT]
      rw [hdt, e3 _ (List.idxOf_lt_length_iff.2 hm), hfv _ _ hrl hm]
      simp only [hij]
    · rw [if_neg hm, if_neg]
      intro h
      apply hm
      rw [hij] at h
      rw [← h]
      exact hin (total A (unravel (dims A) i)) _ (mem_rows.2 ⟨hri, rfl⟩) _ (mem_rows.2 ⟨hri, rfl⟩)

/-- Three legs with both flows, charges that repeat, and a work array filled with sevens. -/
example := C51_eye (argsort := argsortI) argsortI_ok (empty := fun n => List.replicate n (7 : Int)) (by simp)
  legsEx_wf (by decide)

end
end TN.Bs
