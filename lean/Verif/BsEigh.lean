import Verif.BsInv

/-!
# Eigenvalues and eigenvectors of block-sparse matrices (block_sparse/linalg.py:395-512)
-/

set_option linter.unusedSectionVars false

namespace TN.Bs

open NDArray

section
variable {Q : Type} [AddCommGroup Q] [LinearOrder Q] {R : Type}

/-! ## Model -/

/-- The loop over the blocks (linalg.py:417-423, 472-477).  `eig` stands for `np.linalg.eigh` or `np.linalg.eig`: it gets
the number of rows and columns and the elements of the block, and returns the number of eigenvalues `k`, the
eigenvalues `s` and the matrix of the eigenvectors `u`. -/
def eigBlocks [Zero R] (eig : Nat → Nat → (Nat → Nat → R) → Py (Fac R)) (T : BST Q R) (b : Blocks Q) :
    List Nat → Py (List (Fac R))
  | [] => .ok []
  | n :: ns => do
    let f ← eig (b.rows.getD n 0) (b.cols.getD n 0) (blk T b n)
    let fs ← eigBlocks eig T b ns
    .ok (f :: fs)

/-- `eigh(matrix, UPLO)` (linalg.py:395-451) and `eig(matrix)` (linalg.py:454-512), which differ in the function called
for each block: the eigenvalues with the charges on their leg, and the tensor of the eigenvectors.  Anything but two
axes raises `NotImplementedError`, a `RuntimeError`. -/
def bsEig [Zero R] (argsort : List Nat → List Nat) (eig : Nat → Nat → (Nat → Nat → R) → Py (Fac R)) (T : BST Q R) :
    Py ((List R × Charge Q) × BST Q R) :=
  match T.order with
  | [o0, o1] => do
    let b ← findTransposed argsort T.legs o0.length (o0 ++ o1)
    let fs ← eigBlocks eig T b (List.range b.maps.length)
    let c ← b.qnums.getItem (bondLabels fs)
    let v ← leftFactor T o0 b fs
    .ok (((fs.map (fun f => (List.range f.k).map f.s)).flatten, c), v)
  | _ => .error .runtimeError

/-! ## Specification -/

/-- The columns of `V` are eigenvectors of `M` with the eigenvalues `E`. -/
def EigPairs [CommRing R] (m k : Nat) (M V : Nat → Nat → R) (E : Nat → R) : Prop :=
  ∀ i < m, ∀ p < k, ∑ j ∈ Finset.range m, M i j * V j p = V i p * E p

/-- The columns of `V` are orthonormal. -/
def Orthonorm [CommRing R] [StarRing R] (m k : Nat) (V : Nat → Nat → R) : Prop :=
  ∀ p < k, ∀ q < k, ∑ i ∈ Finset.range m, star (V i p) * V i q = if p = q then 1 else 0

/-- `M` is hermitian. -/
def Herm [CommRing R] [StarRing R] (m : Nat) (M : Nat → Nat → R) : Prop :=
  ∀ i < m, ∀ j < m, star (M j i) = M i j

/-- What `np.linalg.eig` does: it raises unless the matrix is square and otherwise returns as many eigenvalues and
eigenvectors as it has rows. -/
def EigKernel [CommRing R] (eig : Nat → Nat → (Nat → Nat → R) → Py (Fac R)) : Prop :=
  ∀ m n M f, eig m n M = .ok f → m = n ∧ f.k = m ∧ EigPairs m f.k M f.u f.s

/-- What `np.linalg.eigh` does: it raises unless the matrix is square.  For a hermitian matrix it returns as many
eigenvalues and orthonormal eigenvectors as it has rows. -/
def EighKernel [CommRing R] [StarRing R] (eig : Nat → Nat → (Nat → Nat → R) → Py (Fac R)) : Prop :=
  ∀ m n M f, eig m n M = .ok f → m = n ∧ f.k = m ∧ (Herm m M → EigPairs m f.k M f.u f.s ∧ Orthonorm m f.k f.u)

/-! ## Proofs -/

theorem eigBlocks_spec [Zero R] {eig : Nat → Nat → (Nat → Nat → R) → Py (Fac R)} {T : BST Q R} {b : Blocks Q}
    {ns : List Nat} {fs : List (Fac R)} (h : eigBlocks eig T b ns = .ok fs) :
    fs.length = ns.length ∧ ∀ k < ns.length, eig (b.rows.getD (ns.getD k 0) 0) (b.cols.getD (ns.getD k 0) 0)
      (blk T b (ns.getD k 0)) = .ok (fs.getD k Fac.zero) := by
  induction ns generalizing fs with
  | nil => rw [eigBlocks] at h; cases h; simp
  | cons n ns ih =>
    rw [eigBlocks] at h
    simp only [bind, Except.bind] at h
    cases hf : eig (b.rows.getD n 0) (b.cols.getD n 0) (blk T b n) with
    | error e => rw [hf] at h; simp at h
    | ok f =>
      rw [hf] at h
      simp only at h
      cases hr : eigBlocks eig T b ns with
      | error e => rw [hr] at h; simp at h
      | ok fs' =>
        rw [hr] at h
        cases h
        obtain ⟨i1, i2⟩ := ih hr
        refine ⟨by simp [i1], ?_⟩
        intro k hk
        cases k with
        | zero => simpa using hf
        | succ k => simpa using i2 k (by simpa using hk)

theorem bondPairs_exists {fs : List (Fac R)} {n x : Nat} (hn : n < fs.length) (hx : x < (fs.map Fac.k).getD n 0) :
    ∃ p < (bondPairs fs).length, (bondPairs fs).getD p (0, 0) = (n, x) := by
  have hm : (n, x) ∈ bondPairs fs := by
    rw [bondPairs, List.mem_flatMap]
    exact ⟨n, List.mem_range.2 hn, List.mem_map.2 ⟨x, List.mem_range.2 hx, rfl⟩⟩
  obtain ⟨p, hp, e⟩ := List.getElem_of_mem hm
  exact ⟨p, hp, by rw [List.getD_eq_getElem _ _ hp, e]⟩

/-- The leg of the eigenvalues. -/
theorem side_bond [Zero R] {qs : List Q} (hq : qs.Nodup) {fs : List (Fac R)} (hfl : fs.length = qs.length) :
    Side (bondPairs fs).length (fun p => qs.getD ((bondPairs fs).getD p (0, 0)).1 0)
      (fun p => ((bondPairs fs).getD p (0, 0)).2)
      (fun q => if q ∈ qs then (fs.getD (qs.idxOf q) Fac.zero).k else 0) := by
  have hidx : ∀ n < qs.length, qs.getD n 0 ∈ qs ∧ qs.idxOf (qs.getD n 0) = n := by
    intro n hn
    rw [List.getD_eq_getElem _ _ hn]
    exact ⟨List.getElem_mem hn, List.Nodup.idxOf_getElem hq _ _⟩
  refine ⟨?_, ?_, ?_⟩
  · intro p hp
    have h1 := bondPairs_mem hp
    rw [hfl] at h1
    obtain ⟨h2, h3⟩ := hidx _ h1
    rw [if_pos h2, h3]
    exact bondPairs_snd hp
  · intro p hp p' hp' h1 h2
    have l1 := bondPairs_mem hp
    have l2 := bondPairs_mem hp'
    rw [hfl] at l1 l2
    have h3 : ((bondPairs fs).getD p (0, 0)).1 = ((bondPairs fs).getD p' (0, 0)).1 := by
      rw [← (hidx _ l1).2, ← (hidx _ l2).2, h1]
    have h4 : (bondPairs fs).getD p (0, 0) = (bondPairs fs).getD p' (0, 0) := Prod.ext h3 h2
    rw [List.getD_eq_getElem _ _ hp, List.getD_eq_getElem _ _ hp', (bondPairs_nodup fs).getElem_inj_iff] at h4
    exact h4
  · intro q x hx
    split_ifs at hx with hqq
    · have hn := List.idxOf_lt_length_iff.2 hqq
      have hn' : qs.idxOf q < fs.length := by rw [hfl]; exact hn
      obtain ⟨p, hp, e⟩ := bondPairs_exists (fs := fs) (n := qs.idxOf q) (x := x) hn' (by
        rw [List.getD_eq_getElem _ _ (by simpa using hn'), List.getElem_map]
        rwa [List.getD_eq_getElem _ _ hn'] at hx)
      refine ⟨p, hp, ?_, ?_⟩
      · rw [e, List.getD_eq_getElem _ _ hn, List.getElem_idxOf]
      · rw [e]
    · omega

theorem Side.le {m m' : Nat} {la la' : Nat → Q} {pa pa' : Nat → Nat} {cnt cnt' : Q → Nat} (h : Side m la pa cnt)
    (h' : Side m' la' pa' cnt') (hc : ∀ q, cnt q ≤ cnt' q) : m ≤ m' := by
  obtain ⟨at_, a1, _⟩ := h'.place
  have hlt := fun i hi => lt_of_lt_of_le (h.lt i hi) (hc _)
  have := Finset.card_le_card_of_injOn (s := Finset.range m) (t := Finset.range m') (fun i => at_ (la i) (pa i))
    (by
      intro i hi
      rw [Finset.mem_coe, Finset.mem_range] at hi ⊢
      exact (a1 _ _ (hlt i hi)).1)
    (by
      intro i hi j hj e
      rw [Finset.mem_coe, Finset.mem_range] at hi hj
      simp only at e
      obtain ⟨_, i2, i3⟩ := a1 _ _ (hlt i hi)
      obtain ⟨_, j2, j3⟩ := a1 _ _ (hlt j hj)
      exact h.inj i hi j hj (by rw [← i2, ← j2, e]) (by rw [← i3, ← j3, e]))
  simpa using this

/-- If `eig` returns, its result is made of the results of the blocks. -/
theorem bsEig_spec [Zero R] {argsort : List Nat → List Nat} (ha : ArgsortOK argsort)
    {eig : Nat → Nat → (Nat → Nat → R) → Py (Fac R)} {T : BST Q R} (h : T.Valid) {o0 o1 : List Nat}
    (hord : T.order = [o0, o1]) {E : List R} {c : Charge Q} {V : BST Q R} (hT : bsEig argsort eig T = .ok ((E, c), V)) :
    ∃ (b : Blocks Q) (qs : List Q) (fs : List (Fac R)) (dV : NDArray R),
      IsBlocks (eff T.legs) (o0 ++ o1) o0.length b qs ∧ qs.Nodup ∧
      fs.length = qs.length ∧
      (∀ n < qs.length, eig (b.rows.getD n 0) (b.cols.getD n 0) (blk T b n) = .ok (fs.getD n Fac.zero)) ∧
      V.Valid ∧ V.todense = .ok dV ∧ dV.shape = [(dims (permL o0 (eff T.legs))).prod, (bondPairs fs).length] ∧
      c.WF ∧ c.charges = (bondPairs fs).map (fun x => qs.getD x.1 0) ∧
      E.length = (bondPairs fs).length ∧
      (∀ p < (bondPairs fs).length, E.getD p 0 =
        (fs.getD ((bondPairs fs).getD p (0, 0)).1 Fac.zero).s ((bondPairs fs).getD p (0, 0)).2) ∧
      Form (dims (permL o0 (eff T.legs))).prod (bondPairs fs).length (fun i p => dV.get [i, p])
        (rlab (permL o0 (eff T.legs))) (rpos (permL o0 (eff T.legs)))
        (fun p => qs.getD ((bondPairs fs).getD p (0, 0)).1 0) (fun p => ((bondPairs fs).getD p (0, 0)).2)
        (fun q => (fs.getD (qs.idxOf q) Fac.zero).u) := by
  obtain ⟨b, qs, b1, hb, hml, hq⟩ := h.blocks ha hord
  rw [bsEig, hord] at hT
  simp only [bind, Except.bind] at hT
  rw [b1] at hT
  simp only at hT
  cases hf : eigBlocks eig T b (List.range b.maps.length) with
  | error e => rw [hf] at hT; simp at hT
  | ok fs =>
    rw [hf] at hT
    simp only at hT
    obtain ⟨f1, f2⟩ := eigBlocks_spec hf
    rw [List.length_range, hml] at f1
    obtain ⟨c', U, _, dU, _, c1, l1, _, hU, _, tU, _, c2, c3, sU, _, gU, _⟩ := factors_spec h hord hb f1
    rw [c1, l1] at hT
    cases hT
    obtain ⟨hperm, h0, h1, _, _⟩ := h.mat_legs hord
    have hg0 : gdim T.ldim o0 = (dims (permL o0 (eff T.legs))).prod := by rw [h0]; rfl
    refine ⟨b, qs, fs, dU, hb, hq, f1, ?_, hU, tU, by rw [sU, hg0], c2, c3, ?_, ?_, ?_⟩
    · intro n hn
      have := f2 n (by rw [List.length_range, hml]; exact hn)
      have hr : (List.range b.maps.length).getD n 0 = n := by
        rw [List.getD_eq_getElem _ _ (by rw [List.length_range, hml]; exact hn), List.getElem_range]
      rwa [hr] at this
    · rw [List.length_flatten, List.map_map, bondPairs, List.length_flatMap]
      simp only [List.length_map, List.length_range]
      rw [show fs.length = (fs.map Fac.k).length by simp, map_range_getD]
      congr 1
      apply List.map_congr_left
      intro f _
      simp
    · intro p hp
      exact singvals_getD fs hp
    · intro i hi p hp
      have hn := bondPairs_mem hp
      rw [f1] at hn
      simp only
      rw [gU i p (by rw [hg0]; exact hi) hp, ← h0]
      have he : total (permL o0 (eff T.legs)) (unravel (dims (permL o0 (eff T.legs))) i) = rlab (permL o0 (eff T.legs)) i := rfl
      rw [he]
      by_cases hz : rlab (permL o0 (eff T.legs)) i = qs.getD ((bondPairs fs).getD p (0, 0)).1 0
      · rw [if_pos hz, if_pos hz, rpos, hz]
        congr 3
        rw [List.getD_eq_getElem (l := qs) _ hn]
        exact (List.Nodup.idxOf_getElem hq _ _).symm
      · rw [if_neg hz, if_neg hz]

/-- The columns of a matrix whose index of the columns is the one of the rows with the flows reversed. -/
theorem cols_flip (A : List (List Q)) :
    dims (A.map (fun A => A.map (fun q => -q))) = dims A ∧
      (∀ i < (dims A).prod, clab (A.map (fun A => A.map (fun q => -q))) i = rlab A i) ∧
      (∀ i < (dims A).prod, cpos (A.map (fun A => A.map (fun q => -q))) i = rpos A i) := by
  have h1 : ∀ i < (dims A).prod, clab (A.map (fun A => A.map (fun q => -q))) i = rlab A i := by
    intro i hi
    rw [clab, rlab, dims_neg, total_neg _ _ (unravel_inB hi), neg_neg]
  refine ⟨dims_neg A, h1, ?_⟩
  intro i hi
  rw [cpos, rpos, h1 i hi, cols_neg, dims_neg]

theorem Form.congr [Zero R] {m n : Nat} {d : Nat → Nat → R} {la la' lb lb' : Nat → Q} {pa pa' pb pb' : Nat → Nat}
    {M : Q → Nat → Nat → R} (hd : Form m n d la pa lb pb M) (h1 : ∀ i < m, la i = la' i) (h2 : ∀ i < m, pa i = pa' i)
    (h3 : ∀ j < n, lb j = lb' j) (h4 : ∀ j < n, pb j = pb' j) : Form m n d la' pa' lb' pb' M := by
  intro i hi j hj
  rw [hd i hi j hj, h1 i hi, h2 i hi, h3 j hj, h4 j hj]

/-- The matrix, the eigenvectors and the eigenvalues are made of those of the blocks. -/
theorem bsEig_core [Zero R] {argsort : List Nat → List Nat} (ha : ArgsortOK argsort)
    {eig : Nat → Nat → (Nat → Nat → R) → Py (Fac R)} (hsq : ∀ m n M f, eig m n M = .ok f → m = n ∧ f.k = m) {T : BST Q R}
    (h : T.Valid) {o0 o1 : List Nat} (hord : T.order = [o0, o1])
    (hidx : permL o1 (eff T.legs) = (permL o0 (eff T.legs)).map (fun A => A.map (fun q => -q))) {E : List R} {c : Charge Q}
    {V : BST Q R} (hT : bsEig argsort eig T = .ok ((E, c), V)) :
    ∃ (d dV : NDArray R) (m : Nat) (lab blab : Nat → Q) (pos bpos : Nat → Nat) (cnt : Q → Nat) (M U : Q → Nat → Nat → R)
      (S : Q → Nat → R),
      T.todense = .ok d ∧ d.shape = [m, m] ∧ V.Valid ∧ V.todense = .ok dV ∧ dV.shape = [m, m] ∧
      E.length = m ∧ c.dim = m ∧ Side m lab pos cnt ∧ Side m blab bpos cnt ∧
      Form m m (fun i j => d.get [i, j]) lab pos lab pos M ∧ Form m m (fun i p => dV.get [i, p]) lab pos blab bpos U ∧
      (∀ p < m, E.getD p 0 = S (blab p) (bpos p)) ∧
      ∀ q, cnt q ≠ 0 → ∃ f, eig (cnt q) (cnt q) (M q) = .ok f ∧ f.u = U q ∧ f.s = S q := by
  obtain ⟨b, qs, fs, dV, hb, hq, hfl, hfe, hV, tV, sV, c1, c2, e1, e2, fV⟩ := bsEig_spec ha h hord hT
  obtain ⟨d, d1, d2, d3⟩ := matrix_form h hord hb
  obtain ⟨n1, n2⟩ := hb.counts
  obtain ⟨A, hA⟩ : ∃ A, A = permL o0 (eff T.legs) := ⟨_, rfl⟩
  rw [hidx, ← hA] at d2 d3 n1 n2
  rw [← hA] at sV fV
  obtain ⟨k1, k2, k3⟩ := cols_flip A
  rw [k1] at d2 d3
  have hr := side_rows A
  have hcnt : ∀ q, (rowsOf A q).length = if q ∈ qs then (fs.getD (qs.idxOf q) Fac.zero).k else 0 := by
    intro q
    split_ifs with hqq
    · obtain ⟨r1, r2, r3⟩ := n1 q hqq
      rw [← r1]
      exact ((hsq _ _ _ _ (hfe _ r3)).2).symm
    · have := n2 q hqq
      rw [cols_neg, or_self] at this
      exact this
  have hbs := side_bond hq hfl
  have hm : (bondPairs fs).length = (dims A).prod :=
    le_antisymm (hbs.le hr (fun q => (hcnt q).ge)) (hr.le hbs (fun q => (hcnt q).le))
  rw [hm] at sV e1 e2 fV hbs
  have hfun : (fun q => if q ∈ qs then (fs.getD (qs.idxOf q) Fac.zero).k else 0) = fun q => (rowsOf A q).length := by
    funext q; exact (hcnt q).symm
  rw [hfun] at hbs
  refine ⟨d, dV, (dims A).prod, rlab A, _, rpos A, _, _, fun q => blk T b (qs.idxOf q), _,
    fun q => (fs.getD (qs.idxOf q) Fac.zero).s, d1, d2, hV, tV, sV, e1, ?_, hr, hbs,
    d3.congr (fun _ _ => rfl) (fun _ _ => rfl) k2 k3, fV, ?_, ?_⟩
  · rw [← hm, show c.dim = c.charges.length from (Charge.dim_eq _), c2, List.length_map]
  · intro p hp
    have hn := bondPairs_mem (hm ▸ hp : p < (bondPairs fs).length)
    rw [hfl] at hn
    simp only
    rw [e2 p hp, List.getD_eq_getElem (l := qs) _ hn, List.Nodup.idxOf_getElem hq]
  · intro q hq0
    have hqq : q ∈ qs := by
      by_contra hc
      have := hcnt q
      rw [if_neg hc] at this
      exact hq0 this
    obtain ⟨r1, r2, r3⟩ := n1 q hqq
    rw [cols_neg] at r2
    have := hfe _ r3
    rw [r1, r2] at this
    exact ⟨_, this, rfl, rfl⟩

/-- The eigenvectors scaled by the eigenvalues. -/
theorem Form.scale [CommRing R] {m k : Nat} {V : Nat → Nat → R} {la lb : Nat → Q} {pa pb : Nat → Nat} {U : Q → Nat → Nat → R}
    (hV : Form m k V la pa lb pb U) {E : Nat → R} {S : Q → Nat → R} (hE : ∀ p < k, E p = S (lb p) (pb p)) :
    Form m k (fun i p => V i p * E p) la pa lb pb (fun q x y => U q x y * S q y) := by
  intro i hi p hp
  simp only
  rw [hV i hi p hp, hE p hp]
  by_cases h : la i = lb p
  · rw [if_pos h, if_pos h, h]
  · rw [if_neg h, if_neg h, zero_mul]

/-- C68: the index of the columns is the one of the rows with the flows reversed.  Then `eig` returns as many
eigenvalues and eigenvectors as the dense form has rows, and they are eigenvalues and eigenvectors of the dense form. -/
theorem C68_eig_partial [CommRing R] {argsort : List Nat → List Nat} (ha : ArgsortOK argsort)
    {eig : Nat → Nat → (Nat → Nat → R) → Py (Fac R)} (heig : EigKernel eig) {T : BST Q R}
    (h : T.Valid) {o0 o1 : List Nat} (hord : T.order = [o0, o1])
    (hidx : permL o1 (eff T.legs) = (permL o0 (eff T.legs)).map (fun A => A.map (fun q => -q))) {E : List R} {c : Charge Q}
    {V : BST Q R} (hT : bsEig argsort eig T = .ok ((E, c), V)) :
    ∃ (d dV : NDArray R) (m : Nat), T.todense = .ok d ∧ d.shape = [m, m] ∧ V.Valid ∧ V.todense = .ok dV ∧
      dV.shape = [m, m] ∧ E.length = m ∧ c.dim = m ∧
      EigPairs m m (fun i j => d.get [i, j]) (fun i p => dV.get [i, p]) (fun p => E.getD p 0) := by
  obtain ⟨d, dV, m, lab, blab, pos, bpos, cnt, M, U, S, d1, d2, hV, v1, v2, e1, e2, hr, hb, fd, fV, fE, hf⟩ :=
    bsEig_core ha (fun m n M f hf => ⟨(heig m n M f hf).1, (heig m n M f hf).2.1⟩) h hord hidx hT
  refine ⟨d, dV, m, d1, d2, hV, v1, v2, e1, e2, ?_⟩
  refine (fd.mul fV hr).ext (fV.scale fE) hr hb ?_
  intro q x hx y hy
  obtain ⟨f, f1, f2, f3⟩ := hf q (by omega)
  obtain ⟨_, g2, g3⟩ := heig _ _ _ _ f1
  rw [f2, f3, g2] at g3
  exact g3 x hx y hy

/-- C68: the same for `eigh` and a matrix whose dense form is hermitian.  The eigenvectors are orthonormal, and the matrix
is the product of the eigenvectors, the eigenvalues and the adjoint of the eigenvectors. -/
theorem C68_eigh_partial [CommRing R] [StarRing R] {argsort : List Nat → List Nat} (ha : ArgsortOK argsort)
    {eig : Nat → Nat → (Nat → Nat → R) → Py (Fac R)} (heig : EighKernel eig) {T : BST Q R}
    (h : T.Valid) {o0 o1 : List Nat} (hord : T.order = [o0, o1])
    (hidx : permL o1 (eff T.legs) = (permL o0 (eff T.legs)).map (fun A => A.map (fun q => -q))) {d : NDArray R} {m : Nat}
    (hd : T.todense = .ok d) (hs : d.shape = [m, m]) (hh : Herm m (fun i j => d.get [i, j])) {E : List R} {c : Charge Q}
    {V : BST Q R} (hT : bsEig argsort eig T = .ok ((E, c), V)) :
    ∃ dV : NDArray R, V.Valid ∧ V.todense = .ok dV ∧ dV.shape = [m, m] ∧ E.length = m ∧ c.dim = m ∧
      EigPairs m m (fun i j => d.get [i, j]) (fun i p => dV.get [i, p]) (fun p => E.getD p 0) ∧
      Orthonorm m m (fun i p => dV.get [i, p]) ∧
      ∀ i < m, ∀ j < m, ∑ p ∈ Finset.range m, dV.get [i, p] * E.getD p 0 * star (dV.get [j, p]) = d.get [i, j] := by
  obtain ⟨d', dV, m', lab, blab, pos, bpos, cnt, M, U, S, d1, d2, hV, v1, v2, e1, e2, hr, hb, fd, fV, fE, hf⟩ :=
    bsEig_core ha (fun m n M f hf => ⟨(heig m n M f hf).1, (heig m n M f hf).2.1⟩) h hord hidx hT
  rw [hd] at d1
  cases d1
  rw [hs] at d2
  simp only [List.cons.injEq, and_true, and_self] at d2
  subst d2
  have hM : ∀ q, Herm (cnt q) (M q) := by
    intro q x hx y hy
    exact ((fd.swap star (star_zero R)).ext_iff fd hr hr).1 hh q x hx y hy
  have hpair : EigPairs m m (fun i j => d.get [i, j]) (fun i p => dV.get [i, p]) (fun p => E.getD p 0) := by
    refine (fd.mul fV hr).ext (fV.scale fE) hr hb ?_
    intro q x hx y hy
    obtain ⟨f, f1, f2, f3⟩ := hf q (by omega)
    obtain ⟨_, g2, g3⟩ := heig _ _ _ _ f1
    have g4 := (g3 (hM q)).1
    rw [f2, f3, g2] at g4
    exact g4 x hx y hy
  have horth : Orthonorm m m (fun i p => dV.get [i, p]) := by
    refine ((fV.swap star (star_zero R)).mul fV hr).ext (form_one hb) hb hb ?_
    intro q x hx y hy
    obtain ⟨f, f1, f2, f3⟩ := hf q (by omega)
    obtain ⟨_, g2, g3⟩ := heig _ _ _ _ f1
    have g4 := (g3 (hM q)).2
    rw [f2, g2] at g4
    exact g4 x hx y hy
  refine ⟨dV, hV, v1, v2, e1, e2, hpair, horth, ?_⟩
  have h1 : (Matrix.of (fun (p i : Fin m) => star (dV.get [i, p]))) * (Matrix.of (fun (i p : Fin m) => dV.get [i, p])) = 1 := by
    ext p q
    simp only [Matrix.mul_apply, Matrix.one_apply, Matrix.of_apply]
    rw [← Finset.sum_range (fun i => star (dV.get [i, p]) * dV.get [i, q]), horth p p.2 q q.2]
    simp [Fin.ext_iff]
  have h2 : ∀ k < m, ∀ j < m, ∑ p ∈ Finset.range m, dV.get [k, p] * star (dV.get [j, p]) = if k = j then 1 else 0 := by
    intro k hk j hj
    have h1' := mul_eq_one_comm.1 h1
    have := congrFun (congrFun h1' ⟨k, hk⟩) ⟨j, hj⟩
    simp only [Matrix.mul_apply, Matrix.one_apply, Matrix.of_apply] at this
    rw [← Finset.sum_range (fun p => dV.get [k, p] * star (dV.get [j, p]))] at this
    rw [this]
    simp
  intro i hi j hj
  have h3 : ∀ p ∈ Finset.range m, dV.get [i, p] * E.getD p 0 * star (dV.get [j, p]) =
      ∑ k ∈ Finset.range m, d.get [i, k] * (dV.get [k, p] * star (dV.get [j, p])) := by
    intro p hp
    have := hpair i hi p (Finset.mem_range.1 hp)
    simp only at this
    rw [← this, Finset.sum_mul]
    apply Finset.sum_congr rfl
    intro k _
    ring
  rw [Finset.sum_congr rfl h3, Finset.sum_comm, Finset.sum_eq_single j]
  · rw [← Finset.mul_sum, h2 j hj j hj, if_pos rfl, mul_one]
  · intro k hk hkj
    rw [← Finset.mul_sum, h2 k (Finset.mem_range.1 hk) j hj, if_neg hkj, mul_zero]
  · intro hj'
    exact absurd (Finset.mem_range.2 hj) hj'

/-- C68: a tensor that is not a matrix raises `NotImplementedError`. -/
theorem C68_rejects [Zero R] (argsort : List Nat → List Nat) (eig : Nat → Nat → (Nat → Nat → R) → Py (Fac R)) {T : BST Q R}
    (h : T.ndim ≠ 2) : bsEig argsort eig T = .error .runtimeError := by
  rw [bsEig]
  split
  · rename_i o0 o1 he
    exact absurd (by rw [BST.ndim, he]; rfl) h
  · rfl

end

/-! ## Examples and a hermitian matrix with other charges in the columns -/

/-- Eigenvalues and eigenvectors of diagonal matrices; other matrices raise. -/
def eigDiag (m n : Nat) (M : Nat → Nat → Int) : Py (Fac Int) :=
  if m = n ∧ ∀ i < m, ∀ j < m, i = j ∨ M i j = 0 then
    .ok ⟨m, fun i j => if i = j then 1 else 0, fun i => M i i, fun i j => if i = j then 1 else 0⟩
  else .error .valueError

theorem eigDiag_pairs {m n : Nat} {M : Nat → Nat → Int} {f : Fac Int} (h : eigDiag m n M = .ok f) :
    m = n ∧ f.k = m ∧ EigPairs m f.k M f.u f.s ∧ Orthonorm m f.k f.u := by
  rw [eigDiag] at h
  split_ifs at h with hc
  cases h
  refine ⟨hc.1, rfl, ?_, ?_⟩
  · intro i hi p hp
    rw [Finset.sum_eq_single p]
    · simp only [if_true, mul_one]
      rcases hc.2 i hi p hp with e | e
      · subst e; simp
      · by_cases hip : i = p
        · subst hip; simp
        · simp [hip, e]
    · intro j _ hj
      simp [hj]
    · intro hp'
      exact absurd (Finset.mem_range.2 hp) hp'
  · intro p hp q hq
    rw [Finset.sum_eq_single p]
    · simp
    · intro j _ hj
      simp [hj]
    · intro hp'
      exact absurd (Finset.mem_range.2 hp) hp'

theorem eigDiag_eig : EigKernel eigDiag := fun _ _ _ _ h =>
  ⟨(eigDiag_pairs h).1, (eigDiag_pairs h).2.1, (eigDiag_pairs h).2.2.1⟩

theorem eigDiag_eigh : EighKernel eigDiag := fun _ _ _ _ h =>
  ⟨(eigDiag_pairs h).1, (eigDiag_pairs h).2.1, fun _ => (eigDiag_pairs h).2.2⟩

/-- `diag(1, -1, 5)` with the charges 0, 1, 0. -/
def eigEx : BST Int Int := ⟨[1, 0, -1, 0, 5], [(.raw [0, 1, 0], false), (.raw [0, 1, 0], true)], [[0], [1]]⟩

theorem eigEx_valid : eigEx.Valid :=
  ⟨fun l hl => by simp only [eigEx, List.mem_cons, List.not_mem_nil, or_false] at hl; rcases hl with rfl | rfl <;> trivial,
    by decide, by decide, by decide⟩

theorem eigEx_returns : ∃ E c V, bsEig argsortI eigDiag eigEx = .ok ((E, c), V) ∧ E = [1, 5, -1] := ⟨_, _, _, rfl, by decide +kernel⟩

example := C68_eig_partial (argsort := argsortI) argsortI_ok eigDiag_eig eigEx_valid (o0 := [0]) (o1 := [1]) rfl (by decide)
  eigEx_returns.choose_spec.choose_spec.choose_spec.1

example := C68_eigh_partial (argsort := argsortI) argsortI_ok eigDiag_eigh eigEx_valid (o0 := [0]) (o1 := [1]) rfl (by decide)
  (denseD_spec eigEx_valid (by decide)) (m := 3) rfl (by rw [Herm]; simp only [star_trivial]; decide +kernel)
  eigEx_returns.choose_spec.choose_spec.choose_spec.1

example := C68_rejects (R := Int) (Q := Int) argsortI eigDiag (T := ⟨[1, 2, 3], legsEx, [[2], [0], [1]]⟩) (by decide)

/-- The hermitian matrix `[[0, 1], [1, 0]]` with the charges 0, 1 in the rows and 1, 0 in the columns. -/
def eigEx2 : BST Int Int := ⟨[1, 1], [(.raw [0, 1], false), (.raw [1, 0], true)], [[0], [1]]⟩

theorem eigEx2_valid : eigEx2.Valid :=
  ⟨fun l hl => by simp only [eigEx2, List.mem_cons, List.not_mem_nil, or_false] at hl; rcases hl with rfl | rfl <;> trivial,
    by decide, by decide, by decide⟩

/-- C68: without the condition on the indices what `eigh` returns need not be eigenvalues and eigenvectors of the dense
form, although that is hermitian. -/
theorem C68_eigh_false : ∃ (T V : BST Int Int) (d dV : NDArray Int) (E : List Int) (c : Charge Int), T.Valid ∧ T.ndim = 2 ∧
    T.todense = .ok d ∧ d.shape = [2, 2] ∧ Herm 2 (fun i j => d.get [i, j]) ∧ EighKernel eigDiag ∧
    bsEig argsortI eigDiag T = .ok ((E, c), V) ∧ V.todense = .ok dV ∧ dV.shape = [2, 2] ∧ E = [1, 1] ∧
    ¬ EigPairs 2 2 (fun i j => d.get [i, j]) (fun i p => dV.get [i, p]) (fun p => E.getD p 0) := by
  refine ⟨eigEx2, _, denseD eigEx2, _, _, _, eigEx2_valid, rfl, denseD_spec eigEx2_valid (by decide), rfl, ?_, eigDiag_eigh, rfl,
    rfl, by decide +kernel, by decide +kernel, ?_⟩
  · rw [Herm]; simp only [star_trivial]; decide +kernel
  · rw [EigPairs]; decide +kernel

end TN.Bs
