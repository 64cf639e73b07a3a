import Verif.BsEigh
import Mathlib.Analysis.RCLike.Basic

/-!
# Norm and diagonal of block-sparse tensors (block_sparse/linalg.py:28-111)
-/

set_option linter.unusedSectionVars false

namespace TN.Bs

open NDArray

section
variable {Q : Type} [AddCommGroup Q] [LinearOrder Q] {R : Type}

/-! ## Norm -/

/-- `norm(tensor)` (linalg.py:28-32): `np.linalg.norm` of the array of stored elements. -/
noncomputable def bsNorm {K : Type} [RCLike K] (T : BST Q K) : ℝ :=
  Real.sqrt ((T.data.map (fun x => ‖x‖ ^ 2)).sum)

/-- The sum over the stored elements is the sum over all elements of the storage. -/
theorem sum_stored [Zero R] {S : Type} [AddCommMonoid S] {T : BST Q R} (h : T.Valid) (g : R → S) (hg : g 0 = 0) :
    (T.data.map g).sum = ((grid (dims (eff T.legs))).map (fun o => g (T.sval o))).sum := by
  rw [← sum_filter (grid (dims (eff T.legs))) (fun o => decide (total (eff T.legs) o = 0))]
  · have h1 : T.data = (stored (eff T.legs)).map (fun o => T.data.getD ((stored (eff T.legs)).idxOf o) 0) := by
      have := range_idxOf (stored_nodup (eff T.legs))
      rw [← h.size] at this
      conv_lhs => rw [← map_range_getD T.data 0, ← this, List.map_map]
      rfl
    rw [← stored]
    conv_lhs => rw [h1, List.map_map]
    congr 1
    apply List.map_congr_left
    intro o ho
    rw [Function.comp_apply, BST.sval, if_pos ho]
  · intro o _ ho
    rw [BST.sval, if_neg, hg]
    intro hm
    rw [mem_stored] at hm
    simp [hm.2] at ho

/-- The sum over the stored elements is the sum over all elements of the dense form. -/
theorem sum_dense [Zero R] {S : Type} [AddCommMonoid S] {T : BST Q R} (h : T.Valid) (ho : T.order ≠ []) (g : R → S)
    (hg : g 0 = 0) :
    ∃ d, T.todense = .ok d ∧ (T.data.map g).sum = ((grid d.shape).map (fun i => g (d.get i))).sum := by
  obtain ⟨d, d1, d2, d3⟩ := h.todense ho
  refine ⟨d, d1, ?_⟩
  rw [sum_stored h g hg]
  obtain ⟨φ, hφ⟩ : ∃ φ : List Nat → List Nat, φ = fun o => T.order.map (fun l => gpos T.ldim l (fun n => o.getD n 0)) := ⟨_, rfl⟩
  have hd := T.dims_range
  have hlt : ∀ o ∈ grid (dims (eff T.legs)), o.length = T.legs.length ∧ ∀ n < T.legs.length, o.getD n 0 < T.ldim n := by
    intro o ho
    rw [mem_grid, hd] at ho
    have hl : o.length = T.legs.length := by rw [ho.length]; simp
    refine ⟨hl, ?_⟩
    have e : o = (List.range T.legs.length).map (fun n => o.getD n 0) := by
      rw [← hl]; exact (map_range_getD o 0).symm
    rw [e, inB_map] at ho
    intro n hn
    exact ho n (List.mem_range.2 hn)
  have hp : (grid d.shape).Perm ((grid (dims (eff T.legs))).map φ) := by
    rw [List.perm_ext_iff_of_nodup (grid_nodup _)]
    · intro i
      rw [mem_grid, List.mem_map]
      constructor
      · intro hi
        rw [d2] at hi
        obtain ⟨σ, s1, s2⟩ := exists_gpos h.order_nodup hi
        refine ⟨(List.range T.legs.length).map σ, ?_, ?_⟩
        · rw [mem_grid, hd, inB_map]
          intro n hn
          exact s1 n (h.mem_order.2 (List.mem_range.1 hn))
        · rw [hφ, ← s2]
          apply List.map_congr_left
          intro l hl
          simp only [gpos]
          congr 1
          apply List.map_congr_left
          intro n hn
          have : n < T.legs.length := h.mem_order.1 (List.mem_flatten.2 ⟨l, hl, hn⟩)
          simp [this]
      · rintro ⟨o, ho, rfl⟩
        rw [d2, hφ, inB_map]
        intro l hl
        exact gpos_lt (fun n hn => (hlt o ho).2 n (h.mem_order.1 (List.mem_flatten.2 ⟨l, hl, hn⟩)))
    · refine List.Nodup.map_on ?_ (grid_nodup _)
      intro o ho o' ho' e
      rw [hφ] at e
      have e' := List.map_inj_left.1 e
      apply List.ext_getElem
      · rw [(hlt o ho).1, (hlt o' ho').1]
      · intro n h1 h2
        rw [(hlt o ho).1] at h1
        obtain ⟨l, hl, hn⟩ := List.mem_flatten.1 (h.mem_order.2 h1)
        have e1 := e' l hl
        simp only [gpos] at e1
        have i1 : InB (l.map T.ldim) (l.map (fun n => o.getD n 0)) := (inB_map _ _ _).2 (fun n hn =>
          (hlt o ho).2 n (h.mem_order.1 (List.mem_flatten.2 ⟨l, hl, hn⟩)))
        have i2 : InB (l.map T.ldim) (l.map (fun n => o'.getD n 0)) := (inB_map _ _ _).2 (fun n hn =>
          (hlt o' ho').2 n (h.mem_order.1 (List.mem_flatten.2 ⟨l, hl, hn⟩)))
        have e2 := congrArg (unravel (l.map T.ldim)) e1
        rw [unravel_ravel i1, unravel_ravel i2] at e2
        have e3 := List.map_inj_left.1 e2 n hn
        simpa [(hlt o ho).1, (hlt o' ho').1, h1] using e3
  rw [(hp.map _).sum_eq, List.map_map]
  congr 1
  apply List.map_congr_left
  intro o ho
  rw [Function.comp_apply, hφ, d3 _ (hlt o ho).2, ← (hlt o ho).1, map_range_getD]

/-- C69: `norm` is the Frobenius norm of the dense form. -/
theorem C69_norm {K : Type} [RCLike K] {T : BST Q K} (h : T.Valid) (ho : T.order ≠ []) :
    ∃ d, T.todense = .ok d ∧ bsNorm T = Real.sqrt (((grid d.shape).map (fun i => ‖d.get i‖ ^ 2)).sum) := by
  obtain ⟨d, d1, d2⟩ := sum_dense h ho (fun x => ‖x‖ ^ 2) (by simp)
  exact ⟨d, d1, by rw [bsNorm, d2]⟩

/-! ## Diagonal of a matrix -/

/-- `diag(tensor)` of a `BlockSparseTensor` with two axes (linalg.py:92-111): the diagonal elements of the blocks one
after the other, with the charges on their leg.  Three or more axes raise `ValueError`; one axis is left out. -/
def diagMatrix [Zero R] (argsort : List Nat → List Nat) (T : BST Q R) : Py (List R × Charge Q) :=
  match T.order with
  | [o0, o1] => do
    let b ← findTransposed argsort T.legs o0.length (o0 ++ o1)
    let fs := (List.range b.maps.length).map (fun n => (⟨min (b.rows.getD n 0) (b.cols.getD n 0), fun _ _ => 0,
      fun x => blk T b n x x, fun _ _ => 0⟩ : Fac R))
    let c ← b.qnums.getItem (bondLabels fs)
    .ok ((fs.map (fun f => (List.range f.k).map f.s)).flatten, c)
  | _ => .error .valueError

/-- C70: the index of the columns is the one of the rows with the flows reversed.  Then `diag` of a matrix returns the
diagonal of the dense form, sorted into the charges: `π` permutes the rows, and the charges returned are those of the
rows. -/
theorem C70_diag_matrix [Zero R] {argsort : List Nat → List Nat} (ha : ArgsortOK argsort) {T : BST Q R}
    (h : T.Valid) {o0 o1 : List Nat} (hord : T.order = [o0, o1])
    (hidx : permL o1 (eff T.legs) = (permL o0 (eff T.legs)).map (fun A => A.map (fun q => -q))) :
    ∃ (E : List R) (c : Charge Q) (d : NDArray R) (m : Nat) (π : List Nat), diagMatrix argsort T = .ok (E, c) ∧
      T.todense = .ok d ∧ d.shape = [m, m] ∧ π.Perm (List.range m) ∧ E = π.map (fun i => d.get [i, i]) ∧
      c.charges = π.map (fun i => total (permL o0 (eff T.legs)) (unravel (dims (permL o0 (eff T.legs))) i)) := by
  obtain ⟨b, qs, b1, hb, hml, hq⟩ := h.blocks ha hord
  obtain ⟨d, d1, d2, d3⟩ := matrix_form h hord hb
  obtain ⟨n1, n2⟩ := hb.counts
  obtain ⟨fs, hfs⟩ : ∃ fs, fs = (List.range b.maps.length).map (fun n => (⟨min (b.rows.getD n 0) (b.cols.getD n 0),
    fun _ _ => 0, fun x => blk T b n x x, fun _ _ => 0⟩ : Fac R)) := ⟨_, rfl⟩
  have hfl : fs.length = qs.length := by rw [hfs, List.length_map, List.length_range, hml]
  have hfg : ∀ n < qs.length, (fs.getD n Fac.zero).k = min (b.rows.getD n 0) (b.cols.getD n 0) ∧
      ∀ x, (fs.getD n Fac.zero).s x = blk T b n x x := by
    intro n hn
    have : fs.getD n Fac.zero = ⟨min (b.rows.getD n 0) (b.cols.getD n 0), fun _ _ => 0, fun x => blk T b n x x,
        fun _ _ => 0⟩ := by
      rw [hfs, List.getD_eq_getElem _ _ (by rw [List.length_map, List.length_range, hml]; exact hn), List.getElem_map,
        List.getElem_range]
    rw [this]
    exact ⟨rfl, fun _ => rfl⟩
  obtain ⟨c, _, _, _, _, c1, _, _, _, _, _, _, _, c3, _⟩ := factors_spec h hord hb hfl
  obtain ⟨A, hA⟩ : ∃ A, A = permL o0 (eff T.legs) := ⟨_, rfl⟩
  rw [hidx, ← hA] at d2 d3 n1 n2
  obtain ⟨k1, k2, k3⟩ := cols_flip A
  rw [k1] at d2 d3
  have d4 := d3.congr (fun _ _ => rfl) (fun _ _ => rfl) k2 k3
  have hr := side_rows A
  have hcnt : ∀ q, (rowsOf A q).length = if q ∈ qs then (fs.getD (qs.idxOf q) Fac.zero).k else 0 := by
    intro q
    split_ifs with hqq
    · obtain ⟨r1, r2, r3⟩ := n1 q hqq
      rw [cols_neg] at r2
      rw [(hfg _ r3).1, r1, r2, min_self]
    · have := n2 q hqq
      rw [cols_neg, or_self] at this
      exact this
  have hbs := side_bond hq hfl
  have hm : (bondPairs fs).length = (dims A).prod :=
    le_antisymm (hbs.le hr (fun q => (hcnt q).ge)) (hr.le hbs (fun q => (hcnt q).le))
  have hfun : (fun q => if q ∈ qs then (fs.getD (qs.idxOf q) Fac.zero).k else 0) = fun q => (rowsOf A q).length := by
    funext q; exact (hcnt q).symm
  rw [hfun] at hbs
  obtain ⟨at_, a1, a2⟩ := hr.place
  obtain ⟨bl, hbl⟩ : ∃ bl : Nat → Q, bl = fun p => qs.getD ((bondPairs fs).getD p (0, 0)).1 0 := ⟨_, rfl⟩
  obtain ⟨bp, hbp⟩ : ∃ bp : Nat → Nat, bp = fun p => ((bondPairs fs).getD p (0, 0)).2 := ⟨_, rfl⟩
  rw [← hbl, ← hbp] at hbs
  have e1 : (fs.map (fun f => (List.range f.k).map f.s)).flatten.length = (bondPairs fs).length := by
    rw [List.length_flatten, List.map_map, bondPairs, List.length_flatMap]
    simp only [List.length_map, List.length_range]
    rw [show fs.length = (fs.map Fac.k).length by simp, map_range_getD]
    congr 1
    apply List.map_congr_left
    intro f _
    simp
  refine ⟨(fs.map (fun f => (List.range f.k).map f.s)).flatten, c, d, (dims A).prod,
    (List.range (bondPairs fs).length).map (fun p => at_ (bl p) (bp p)), ?_, d1, d2, ?_, ?_, ?_⟩
  · rw [diagMatrix, hord]
    simp only [bind, Except.bind]
    rw [b1]
    simp only
    rw [← hfs, c1]
  · rw [List.perm_ext_iff_of_nodup _ List.nodup_range]
    · intro i
      rw [List.mem_map, List.mem_range]
      constructor
      · rintro ⟨p, hp, rfl⟩
        exact (a1 _ _ (hbs.lt p (List.mem_range.1 hp))).1
      · intro hi
        obtain ⟨p, hp, p1, p2⟩ := hbs.surj _ _ (hr.lt i hi)
        exact ⟨p, List.mem_range.2 hp, by rw [p1, p2, a2 i hi]⟩
    · refine List.Nodup.map_on ?_ List.nodup_range
      intro p hp p' hp' e
      rw [List.mem_range] at hp hp'
      obtain ⟨_, i2, i3⟩ := a1 _ _ (hbs.lt p hp)
      obtain ⟨_, j2, j3⟩ := a1 _ _ (hbs.lt p' hp')
      exact hbs.inj p hp p' hp' (by rw [← i2, ← j2, e]) (by rw [← i3, ← j3, e])
  · rw [← map_range_getD (fs.map (fun f => (List.range f.k).map f.s)).flatten 0, e1, List.map_map]
    apply List.map_congr_left
    intro p hp
    rw [List.mem_range] at hp
    obtain ⟨i1, i2, i3⟩ := a1 _ _ (hbs.lt p hp)
    have hn := bondPairs_mem hp
    rw [hfl] at hn
    rw [singvals_getD fs hp, (hfg _ hn).2, Function.comp_apply]
    have := d4 _ i1 _ i1
    simp only at this
    rw [this, if_pos trivial, i2, i3]
    simp only [hbl, hbp]
    rw [List.getD_eq_getElem (l := qs) _ hn, List.Nodup.idxOf_getElem hq]
  · rw [c3, List.map_map]
    conv_lhs => rw [← map_range_getD (bondPairs fs) (0, 0), List.map_map]
    apply List.map_congr_left
    intro p hp
    rw [List.mem_range] at hp
    obtain ⟨i1, i2, i3⟩ := a1 _ _ (hbs.lt p hp)
    rw [Function.comp_apply, Function.comp_apply, ← hA]
    have : total A (unravel (dims A) (at_ (bl p) (bp p))) = bl p := i2
    rw [this, hbl]

/-! ## Diagonal matrix -/

/-- `compute_sparse_lookup` (blocksparse_utils.py:80-118), given the fused charges: the labels of the places whose
charge is a target, the unique charges, and the sorted labels of the targets. -/
def sparseLookup (fused targets : List Q) : List Nat × List Q × List Nat :=
  let us := npUnique fused
  let ls := (intersect us targets).2.1
  ((uniqueInverse fused).filter (· ∈ ls), us, ls.insertionSort (· ≤ ·))

/-- `np.ravel(np.diag(vals))` -/
def diagRavel [Zero R] (vals : List R) : List R :=
  (List.range vals.length).flatMap (fun i => (List.range vals.length).map (fun j => if i = j then vals.getD i 0 else 0))

/-- The values written into the block with the charge `q` (linalg.py:77-79): `tensor.data[np.nonzero(lookup == label)[0]]`
on the diagonal. -/
def diagVals [Zero R] (data : List R) (lookup : List Nat) (us : List Q) (ls : List Nat) (q : Q) : List R :=
  diagRavel (((List.range lookup.length).filter (fun i => lookup.getD i 0 = ls.getD (us.idxOf q) 0)).map
    (fun i => data.getD i 0))

/-- `diag(tensor)` of a `ChargeArray` with one axis (linalg.py:58-91), made of the legs `legs` in the order `o`.  The new
tensor gets the charge of the first leg twice and the flows of all legs. -/
def diagVector [Zero R] (argsort : List Nat → List Nat) (data : List R) (legs : List (Leg Q)) (o : List Nat) :
    Py (BST Q R) := do
  let b ← findTransposed argsort (legs ++ flipFlows legs) o.length (o ++ o.map (· + legs.length))
  let fused ← fuseCharges legs
  let lk := sparseLookup fused.charges b.qnums.charges
  let data ← writeBlocks ((List.range b.maps.length).map (fun n => (b.maps.getD n [],
    diagVals data lk.1 lk.2.1 lk.2.2 (b.qnums.charges.getD n 0)))) (List.replicate b.size 0)
  match legs with
  | [] => .error .indexError
  | l :: _ => .ok ⟨data, [l.1, l.1].zip ((legs ++ flipFlows legs).map Prod.snd), [o, o.map (· + legs.length)]⟩

theorem rowsOf_single (A : List Q) (q : Q) :
    rowsOf [A] q = ((List.range A.length).filter (fun i => A.getD i 0 = q)).map (fun i => [i]) := by
  rw [rowsOf, show dims [A] = [A.length] from rfl, grid_single, List.filter_map]
  congr 1
  apply List.filter_congr
  intro i _
  simp [total]

theorem sparseLookup_all {fused targets : List Q} (h : ∀ q, q ∈ fused → q ∈ targets) :
    sparseLookup fused targets = (uniqueInverse fused, npUnique fused, List.range (npUnique fused).length) := by
  have h1 : (intersect (npUnique fused) targets).2.1 = List.range (npUnique fused).length := by
    rw [intersect]
    simp only
    rw [show npUnique (npUnique fused) = npUnique fused from npUnique_eq (npUnique_lt _) (fun _ => Iff.rfl),
      List.filter_eq_self.2 (fun q hq => by simpa using h q (mem_npUnique.1 hq))]
    exact range_idxOf (npUnique_nodup fused)
  rw [sparseLookup]
  rw [h1, List.filter_eq_self.2]
  · rw [List.Pairwise.insertionSort_eq (r := (· ≤ ·)) List.pairwise_le_range]
  · intro x hx
    rw [uniqueInverse, List.mem_map] at hx
    obtain ⟨q, hq, rfl⟩ := hx
    simpa using List.idxOf_lt_length_iff.2 (mem_npUnique.2 hq)

theorem diagVals_eq [Zero R] (data : List R) {A : List Q} {q : Q} (hq : q ∈ A) :
    diagVals data (uniqueInverse A) (npUnique A) (List.range (npUnique A).length) q =
      (rowsOf [A] q).flatMap (fun r => (rowsOf [A] q).map (fun c => if r = c then data.getD (r.getD 0 0) 0 else 0)) := by
  have hm := mem_npUnique.2 hq
  have hl := List.idxOf_lt_length_iff.2 hm
  have h1 : (List.range (uniqueInverse A).length).filter (fun i => (uniqueInverse A).getD i 0 =
      (List.range (npUnique A).length).getD ((npUnique A).idxOf q) 0) =
      (List.range A.length).filter (fun i => A.getD i 0 = q) := by
    rw [show (uniqueInverse A).length = A.length by simp [uniqueInverse]]
    apply List.filter_congr
    intro i hi
    rw [List.mem_range] at hi
    rw [List.getD_eq_getElem (l := List.range _) _ (by simpa using hl), List.getElem_range,
      List.getD_eq_getElem (l := uniqueInverse A) _ (by simpa [uniqueInverse] using hi), List.getD_eq_getElem _ _ hi]
    simp only [uniqueInverse, List.getElem_map]
    congr 1
    rw [eq_iff_iff]
    constructor
    · intro h
      exact (List.idxOf_inj (mem_npUnique.2 (List.getElem_mem hi))).1 h
    · intro h; rw [h]
  rw [diagVals, h1, rowsOf_single]
  obtain ⟨X, hX⟩ : ∃ X, X = (List.range A.length).filter (fun i => A.getD i 0 = q) := ⟨_, rfl⟩
  have hn : X.Nodup := by rw [hX]; exact List.nodup_range.filter _
  rw [← hX, diagRavel, List.flatMap_map, List.length_map, List.flatMap_def, List.flatMap_def]
  congr 1
  apply map_range_eq
  intro i hi
  rw [List.map_map]
  apply map_range_eq
  intro j hj
  simp only [Function.comp_apply]
  rw [List.getD_eq_getElem (l := X.map _) _ (by simpa using hi), List.getElem_map]
  simp [hn.getElem_inj_iff]

/-- C70: `diag` of a vector with one leg is a valid tensor whose dense form is the diagonal matrix with the elements of
the vector. -/
theorem C70_diag_vector_partial [Zero R] {argsort : List Nat → List Nat} (ha : ArgsortOK argsort) {l : Leg Q} (hw : l.1.WF)
    {data : List R} (hd : data.length = l.1.dim) :
    ∃ T d, diagVector argsort data [l] [0] = .ok T ∧ T.Valid ∧ T.legs = [l, (l.1, !l.2)] ∧ T.order = [[0], [1]] ∧
      T.todense = .ok d ∧ d.shape = [data.length, data.length] ∧
      ∀ i < data.length, ∀ j < data.length, d.get [i, j] = if i = j then data.getD i 0 else 0 := by
  have hw1 : LegsWF [l] := by intro x hx; rw [List.mem_singleton] at hx; rw [hx]; exact hw
  obtain ⟨C, hC⟩ : ∃ C, C = (l.1.dual l.2).charges := ⟨_, rfl⟩
  obtain ⟨A, hA⟩ : ∃ A, A = eff [l] := ⟨_, rfl⟩
  have hAC : A = [C] := by rw [hA, hC]; rfl
  have hAl : A.length = 1 := by rw [hAC]; rfl
  have hCl : C.length = data.length := by rw [hC, ← Charge.dim_eq, Charge.dual_dim, hd]
  have hL : eff ([l] ++ flipFlows [l]) = A ++ A.map (fun A => A.map (fun q => -q)) := by
    rw [eff_append, eff_flip hw1, hA]
  have hww : LegsWF ([l] ++ flipFlows [l]) := by
    intro x hx
    rcases List.mem_append.1 hx with h | h
    · exact hw1 x h
    · exact flipFlows_wf hw1 x h
  obtain ⟨L, hLd⟩ : ∃ L, L = A ++ A.map (fun A => A.map (fun q => -q)) := ⟨_, rfl⟩
  have hLl : L.length = 2 := by rw [hLd]; simp [hAl]
  obtain ⟨b, qs, b1, b2, b3⟩ := findTransposed_spec ha hww (by simp) (p := 1) (by simp)
    (order := [0, 1]) (List.Perm.refl _)
  rw [hL, ← hLd] at b2 b3
  have hord : [0, 1] = List.range L.length := by rw [hLl]; rfl
  rw [hord] at b2 b3
  have hperm : permL (List.range L.length) L = L := permL_range _
  have htk : L.take 1 = A := by rw [hLd, List.take_left' hAl]
  have hdr : L.drop 1 = A.map (fun A => A.map (fun q => -q)) := by rw [hLd, List.drop_left' hAl]
  have hbm : ∀ q, blockMap L (List.range L.length) 1 q =
      (rowsOf A q).flatMap (fun r => (rowsOf A q).map (fun c => (stored L).idxOf (r ++ c))) := by
    intro q
    rw [hLd, ← hAl, blockMap_range, cols_neg]
  have hin : ∀ q, ∀ r ∈ rowsOf A q, ∀ c ∈ rowsOf A q, r ++ c ∈ stored L := by
    intro q r hr c hc
    rw [mem_rows] at hr hc
    rw [mem_stored, hLd]
    refine ⟨?_, ?_⟩
    · rw [show dims (A ++ A.map (fun A => A.map (fun q => -q))) = dims A ++ dims A by
        rw [dims, List.map_append, ← dims, ← dims, dims_neg]]
      exact inB_append hr.1 hc.1
    · rw [total_append (by rw [hr.1.length]; simp [dims]), total_neg _ _ hc.1, hr.2, hc.2, add_neg_cancel]
  have hqs : ∀ q, q ∈ qs ↔ q ∈ C := by
    intro q
    have e : rowsOf A q ≠ [] ↔ q ∈ C := by
      rw [hAC, rowsOf_single, ne_eq, List.map_eq_nil_iff, List.filter_eq_nil_iff]
      push Not
      constructor
      · rintro ⟨i, hi, h⟩
        rw [List.mem_range] at hi
        rw [List.getD_eq_getElem _ _ hi] at h
        rw [← of_decide_eq_true h]
        exact List.getElem_mem hi
      · intro h
        obtain ⟨i, hi, h⟩ := List.getElem_of_mem h
        exact ⟨i, List.mem_range.2 hi, by rw [List.getD_eq_getElem _ _ hi]; simpa using h⟩
    rw [← e]
    constructor
    · intro h
      have := ((b3 q h).2 (by omega) (by omega)).1
      rwa [hperm, htk] at this
    · intro h
      apply b2.complete q
      · rwa [hperm, htk]
      · rwa [hperm, hdr, cols_neg]
  obtain ⟨c, c1, _, c3⟩ := fuseCharges_spec hw1 (by simp)
  rw [← hA, hAC, fuseL_single] at c3
  obtain ⟨f, hf⟩ : ∃ f : Nat → R, f = fun k =>
      if ((stored L).getD k []).take A.length = ((stored L).getD k []).drop A.length then
        data.getD ((((stored L).getD k []).take A.length).getD 0 0) 0 else 0 := ⟨_, rfl⟩
  have hfv : ∀ r c, r.length = A.length → r ++ c ∈ stored L →
      f ((stored L).idxOf (r ++ c)) = if r = c then data.getD (r.getD 0 0) 0 else 0 := by
    intro r c hr h
    rw [hf]
    simp only
    rw [stored_getElem_idxOf h, List.take_left' hr, List.drop_left' hr]
  obtain ⟨data', e1, e2, e3⟩ := writeBlocks_all b2 (List.Perm.refl _) f
    (fun n => diagVals data (uniqueInverse C) (npUnique C) (List.range (npUnique C).length) (b.qnums.charges.getD n 0))
    (by
      intro n hn
      rw [b2.charges, List.getD_eq_getElem _ _ hn, diagVals_eq data ((hqs _).1 (List.getElem_mem hn)), ← hAC, hbm,
        List.map_flatMap]
      apply List.flatMap_congr
      intro r hr
      rw [List.map_map]
      apply List.map_congr_left
      intro c hc
      rw [Function.comp_apply, hfv r c _ (hin _ r hr c hc)]
      rw [mem_rows] at hr
      rw [hr.1.length]; simp [dims])
    (a := List.replicate b.size 0) (by rw [List.length_replicate, b2.size_eq (List.Perm.refl _)])
  obtain ⟨T, hT⟩ : ∃ T : BST Q R, T = ⟨data', [l] ++ flipFlows [l], consecutive 0 [1, 1]⟩ := ⟨_, rfl⟩
  obtain ⟨hv, d, d1, d2, d3⟩ := BST.consec_spec (T := T) (gs := [[l], flipFlows [l]])
    (by rw [hT]; simp) (by rw [hT]; rfl) (by rw [hT]; exact hww)
    (by
      intro g hg
      simp only [List.mem_cons, List.not_mem_nil, or_false] at hg
      rcases hg with rfl | rfl
      · simp
      · simp [flipFlows])
    (by rw [hT]; simp only; rw [hL, ← hLd, e2]) (by simp)
  have hdA : dims A = [data.length] := by rw [hAC]; simp [dims, hCl]
  have hdL : dims L = dims A ++ dims A := by
    rw [hLd, dims, List.map_append, ← dims, ← dims, dims_neg]
  rw [show [[l], flipFlows [l]].map (fun g => (g.map (fun l => l.1.dim)).prod) = [data.length, data.length] by
    simp [flipFlows, hd]] at d2
  refine ⟨T, d, ?_, hv, by rw [hT]; rfl, by rw [hT]; rfl, d1, d2, ?_⟩
  · rw [diagVector]
    simp only [bind, Except.bind]
    rw [show findTransposed argsort ([l] ++ flipFlows [l]) [0].length ([0] ++ [0].map (· + [l].length)) = .ok b from b1]
    simp only
    rw [c1]
    simp only
    rw [c3, sparseLookup_all (by intro q hq; rw [b2.charges]; exact (hqs q).2 hq)]
    simp only
    rw [e1, hT]
    rfl
  · intro i hi j hj
    have hTl : eff T.legs = L := by rw [hT]; simp only; rw [hL, hLd]
    rw [d3 [i, j] (by rw [d2]; exact .cons hi (.cons hj .nil)), hTl, d2, hdL, hdA]
    have hu : unravel ([data.length] ++ [data.length]) (ravel [data.length, data.length] [i, j]) = [i] ++ [j] :=
      unravel_ravel (.cons hi (.cons hj .nil))
    rw [hu, BST.sval, hTl]
    have hst : ∀ i < data.length, [i] ∈ rowsOf A (total A [i]) := by
      intro i hi
      rw [mem_rows, hdA]
      exact ⟨.cons hi .nil, rfl⟩
    by_cases hm : [i] ++ [j] ∈ stored L
    · rw [if_pos hm]
      have hdt : T.data = data' := by rw [hT]
      rw [hdt, e3 _ (List.idxOf_lt_length_iff.2 hm), hfv _ _ (by rw [hAl]; rfl) hm]
      simp
    · rw [if_neg hm, if_neg]
      rintro rfl
      exact hm (hin _ _ (hst i hi) _ (hst i hi))

/-- C70: `diag` of a vector whose axis is made of two legs returns a tensor with two legs whose axes mention four; it is not
a valid tensor. -/
theorem C70_diag_vector_false : ∃ (data : List Int) (legs : List (Leg Int)) (T : BST Int Int),
    LegsWF legs ∧ data.length = (legs.map (fun l => l.1.dim)).prod ∧ diagVector argsortI data legs [0, 1] = .ok T ∧
      T.legs.length = 2 ∧ T.order = [[0, 1], [2, 3]] ∧ ¬ T.Valid := by
  refine ⟨[1, 2, 3, 4], [(.raw [0, 1], false), (.raw [0, 1], false)], _, ?_, rfl, rfl, rfl, rfl, ?_⟩
  · intro l hl
    simp only [List.mem_cons, List.not_mem_nil, or_false, or_self] at hl
    rw [hl]
    trivial
  · intro h
    have := h.perm.length_eq
    revert this
    decide +kernel

/-! ## Examples -/

/-- The norm of `[[1, 0, 2], [0, -1, 0], [3, 0, 5]]`. -/
example := C69_norm (T := (⟨[1, 2, -1, 3, 5], invEx2.legs, invEx2.order⟩ : BST Int ℝ))
  ⟨invEx2_valid.wf, invEx2_valid.perm, invEx2_valid.groups, invEx2_valid.size⟩ (by decide)

/-- The diagonal of `[[1, 0, 2], [0, -1, 0], [3, 0, 5]]`, whose rows have the charges 0, 1, 0. -/
example := C70_diag_matrix (argsort := argsortI) argsortI_ok invEx2_valid (o0 := [0]) (o1 := [1]) rfl (by decide +kernel)

example : ∃ c, diagMatrix argsortI invEx2 = .ok ([1, 5, -1], c) ∧ c.charges = [0, 0, 1] := ⟨_, rfl, by decide +kernel⟩

/-- A leg with repeated charges and its flow outwards. -/
example := C70_diag_vector_partial (argsort := argsortI) argsortI_ok (l := ((.raw [2, -1, 2, 0] : Charge Int), true)) trivial
  (data := [3, 4, 0, 7]) rfl

end
end TN.Bs
