import Verif.BsTensor

/-!
# Reordering the data of block-sparse tensors, addition and conjugation
-/

set_option linter.unusedSectionVars false

namespace TN.Bs

open NDArray

section
variable {Q : Type} [AddCommGroup Q] [LinearOrder Q] {R : Type}

/-- `a[locs]` for an array of positions. -/
def takeAll [Zero R] (a : List R) (locs : List Nat) : Py (List R) :=
  if ∀ k ∈ locs, k < a.length then .ok (locs.map (fun k => a.getD k 0)) else .error .indexError

/-- The loop over the blocks in `contiguous` (blocksparsetensor.py:839-842): every block of the
result is filled from the block with the same charge. -/
def fillBlocks [Zero R] (src : List R) (tr : Blocks Q) :
    List (List Nat × Q) → List R → Py (List R)
  | [], data => .ok data
  | (block, q) :: rest, data => do
    match (List.range tr.qnums.charges.length).filter (fun k => tr.qnums.charges.getD k 0 = q) with
    | [] => .error .indexError
    | ind :: _ =>
      let vals ← takeAll src (tr.maps.getD ind [])
      let data ← setAll data block vals
      fillBlocks src tr rest data

namespace BST

/-- `BlockSparseTensor.contiguous` (blocksparsetensor.py:803-860).  `permutation = none` stands for
`None`; `empty n` are the initial contents of `np.empty(n)`.  With `inplace=True` the tensor itself
gets the attributes of the result. -/
def contiguous [Zero R] (argsort : List Nat → List Nat) (empty : Nat → List R) (T : BST Q R)
    (permutation : Option (List Nat)) : Py (BST Q R) :=
  let perm := permutation.getD T.order.flatten
  if perm = List.range perm.length then .ok T
  else do
    let new := pick perm T.legs (.raw [], false)
    let p ← bestPartition (new.map (fun l => l.1.dim))
    let tr ← findTransposed argsort T.legs p perm
    let fin ← findDiagonal argsort new p
    let data ← fillBlocks T.data tr (fin.maps.zip fin.qnums.charges) (empty T.data.length)
    let newFlat := T.order.flatten.map (fun n => perm.idxOf n)
    .ok ⟨data, new, pieces newFlat (T.order.map List.length)⟩

end BST

/-! ## The loop -/

theorem setAll_fun [Zero R] {a : List R} {locs : List Nat} (f : Nat → R) (hlt : ∀ k ∈ locs, k < a.length) :
    ∃ r, setAll a locs (locs.map f) = .ok r ∧ r.length = a.length ∧
      ∀ k, r.getD k 0 = if k ∈ locs then f k else a.getD k 0 := by
  refine ⟨_, by rw [setAll, if_pos hlt, if_pos (by simp)], foldl_set_length _, ?_⟩
  intro k
  induction locs generalizing a with
  | nil => simp
  | cons x locs ih =>
    rw [List.map_cons, List.zip_cons_cons, List.foldl_cons, ih (by
      intro k hk; rw [List.length_set]; exact hlt k (List.mem_cons_of_mem _ hk))]
    by_cases hk : k ∈ locs
    · rw [if_pos hk, if_pos (List.mem_cons_of_mem _ hk)]
    · rw [if_neg hk]
      by_cases hx : k = x
      · subst hx
        have := hlt k (by simp)
        rw [if_pos (by simp)]; simp [this]
      · rw [if_neg (by simp [hk, hx])]
        simp [List.getElem?_set_ne (fun h => hx h.symm)]

theorem fillBlocks_spec [Zero R] {src : List R} {tr : Blocks Q} {bs : List (List Nat × Q)} {a : List R}
    (f : Nat → R) (hlt : ∀ b ∈ bs, ∀ k ∈ b.1, k < a.length)
    (hq : ∀ b ∈ bs, b.2 ∈ tr.qnums.charges) (hn : tr.qnums.charges.Nodup)
    (hm : ∀ b ∈ bs, takeAll src (tr.maps.getD (tr.qnums.charges.idxOf b.2) []) = .ok (b.1.map f)) :
    ∃ r, fillBlocks src tr bs a = .ok r ∧ r.length = a.length ∧
      ∀ k, r.getD k 0 = if k ∈ bs.flatMap Prod.fst then f k else a.getD k 0 := by
  induction bs generalizing a with
  | nil => exact ⟨a, rfl, rfl, by simp⟩
  | cons b bs ih =>
    obtain ⟨block, q⟩ := b
    have hq0 := hq (block, q) (by simp)
    have hfl : (List.range tr.qnums.charges.length).filter
        (fun k => decide (tr.qnums.charges.getD k 0 = q)) = [tr.qnums.charges.idxOf q] := by
      let _ : Inhabited Q := ⟨0⟩
      have h1 := filter_range_map tr.qnums.charges hn (fun x => decide (x = q)) id
      rw [List.map_id] at h1
      have h3 : tr.qnums.charges.filter (fun x => decide (x = q)) = [q] := by
        have h4 := List.filter_beq (l := tr.qnums.charges) q
        rw [List.count_eq_one_of_mem hn hq0] at h4
        simpa [beq_eq_decide] using h4
      refine Eq.trans h1 ?_
      rw [h3]; rfl
    obtain ⟨r1, s1, s2, s3⟩ := setAll_fun (a := a) (locs := block) f (hlt (block, q) (by simp))
    obtain ⟨r, e1, e2, e3⟩ := ih (a := r1) (fun b hb k hk => by rw [s2]; exact hlt b (by simp [hb]) k hk)
      (fun b hb => hq b (by simp [hb])) (fun b hb => hm b (by simp [hb]))
    refine ⟨r, ?_, e2.trans s2, ?_⟩
    · rw [fillBlocks, hfl]
      simp only
      rw [hm (block, q) (by simp)]
      simp only [bind, Except.bind]
      rw [s1]
      exact e1
    · intro k
      rw [e3, s3, List.flatMap_cons]
      by_cases h1 : k ∈ bs.flatMap Prod.fst
      · rw [if_pos h1, if_pos (List.mem_append_right _ h1)]
      · rw [if_neg h1]
        by_cases h2 : k ∈ block
        · rw [if_pos h2, if_pos (List.mem_append_left _ h2)]
        · rw [if_neg h2, if_neg]
          intro h3
          rcases List.mem_append.1 h3 with h3 | h3
          · exact h2 h3
          · exact h1 h3

/-! ## contiguous -/

/-- The multi-indices of two tensors, one a transposition of the other. -/
theorem stored_getElem_idxOf {L : List (List Q)} {o : List Nat} (h : o ∈ stored L) :
    (stored L).getD ((stored L).idxOf o) [] = o := by
  have := List.idxOf_lt_length_iff.2 h
  rw [List.getD_eq_getElem _ _ this, List.getElem_idxOf]

theorem pieces_lengths {α β : Type} (f : α → β) (gs : List (List α)) :
    pieces (gs.flatten.map f) (gs.map List.length) = gs.map (List.map f) := by
  induction gs with
  | nil => rfl
  | cons g gs ih =>
    rw [List.map_cons, pieces, List.flatten_cons, List.map_append, List.map_cons]
    rw [List.take_left' (by simp), List.drop_left' (by simp), ih]

namespace BST

variable {T : BST Q R}

/-- `contiguous` for a permutation that is not trivial. -/
theorem Valid.contiguous_data [Zero R] {argsort : List Nat → List Nat} (ha : ArgsortOK argsort)
    {empty : Nat → List R} (he : ∀ n, (empty n).length = n) (h : T.Valid) {perm : List Nat}
    (hp : perm.Perm (List.range T.legs.length)) (hnt : perm ≠ List.range T.legs.length) :
    ∃ T', T.contiguous argsort empty (some perm) = .ok T' ∧ T'.Valid ∧
      T'.legs = pick perm T.legs (.raw [], false) ∧
      T'.order = T.order.map (List.map (fun n => perm.idxOf n)) ∧
      ∀ j, j.length = T.legs.length → T'.sval j = T.sval (unperm perm j) := by
  have hpl : perm.length = T.legs.length := by simpa using hp.length_eq
  have hl2 : 2 ≤ T.legs.length := by
    by_contra hlt
    have h1 : T.legs.length = 0 ∨ T.legs.length = 1 := by omega
    rcases h1 with h1 | h1
    · rw [h1] at hp hnt; exact hnt (List.perm_nil.1 hp)
    · rw [h1] at hp hnt; exact hnt (List.perm_singleton.1 hp)
  obtain ⟨new, hnew⟩ : ∃ n, n = pick perm T.legs (Charge.raw [], false) := ⟨_, rfl⟩
  have hmem : ∀ n ∈ perm, n < T.legs.length := fun n hn => by simpa using hp.mem_iff.1 hn
  have hnl : new.length = T.legs.length := by rw [hnew]; simp [pick, hpl]
  have hnw : LegsWF new := hnew ▸ h.pick_wf hmem
  obtain ⟨L, hL⟩ : ∃ L, L = eff T.legs := ⟨_, rfl⟩
  have hLl : L.length = T.legs.length := by rw [hL]; simp [eff]
  have heff : eff new = permL perm L := by rw [hL, permL_eff _ _ hmem, hnew]; rfl
  have hoL : perm.Perm (List.range L.length) := by rwa [hLl]
  obtain ⟨p, p1, p2, p3, _⟩ := bestPartition_spec (ds := new.map (fun l => l.1.dim))
    (by rw [List.length_map, hnl]; exact hl2)
  rw [List.length_map, hnl] at p3
  have hTne : T.legs ≠ [] := by intro h0; rw [h0] at hl2; simp at hl2
  have hnne : new ≠ [] := by intro h0; rw [h0] at hnl; simp at hnl; omega
  obtain ⟨tr, qs, t1, t2, _⟩ := findTransposed_spec ha h.wf hTne (p := p) (by omega) hp
  obtain ⟨fin, qf, f1, f2, f3⟩ := findDiagonal_spec ha hnw hnne (p := p) (by omega)
  have f4 := f3 (by omega) (by omega)
  rw [← hL] at t2
  rw [heff] at f2
  obtain ⟨A, hA⟩ : ∃ A, A = (permL perm L).take p := ⟨_, rfl⟩
  obtain ⟨B, hB⟩ : ∃ B, B = (permL perm L).drop p := ⟨_, rfl⟩
  have hAe : eff (new.take p) = A := by rw [hA, ← heff]; simp [eff]
  have hBe : eff (new.drop p) = B := by rw [hB, ← heff]; simp [eff]
  rw [hAe, hBe] at f4
  have hpp : permL (List.range (permL perm L).length) (permL perm L) = permL perm L := permL_range _
  have hpll : (permL perm L).length = L.length := by simp [permL, hpl, hLl]
  obtain ⟨f, hf⟩ : ∃ f : Nat → R, f = fun k => T.sval (unperm perm ((stored (permL perm L)).getD k [])) :=
    ⟨_, rfl⟩
  have hfb : ∀ q, blockMap (permL perm L) (List.range (permL perm L).length) p q =
      (rowsOf A q).flatMap (fun r => (colsOf B q).map (fun c => (stored (permL perm L)).idxOf (r ++ c))) := by
    intro q
    have := blockMap_range A B q
    rw [show A ++ B = permL perm L by rw [hA, hB, List.take_append_drop],
      show A.length = p by rw [hA, List.length_take, hpll]; omega] at this
    exact this
  have hqn : qs.Nodup := by rw [← t2.uniq]; exact Charge.uniq_nodup t2.wf
  have hcov := f2.cover (List.Perm.refl _)
  have hzip : fin.maps.zip fin.qnums.charges = qf.map (fun q =>
      (blockMap (permL perm L) (List.range (permL perm L).length) p q, q)) := by
    rw [f2.maps, f2.charges, List.zip_map_left, List.zip_eq_zipWith]
    simp [List.zipWith_self]
  have hszn : (stored (permL perm L)).length = T.data.length := by
    rw [h.size, ← hL, ← (stored_unperm_perm hoL).length_eq, List.length_map]
  have hfm : fin.maps.flatten = (qf.map (fun q =>
      (blockMap (permL perm L) (List.range (permL perm L).length) p q, q))).flatMap Prod.fst := by
    rw [f2.maps, List.flatMap_map, List.flatMap_def]
  obtain ⟨data, e1, e2, e3⟩ := fillBlocks_spec (src := T.data) (tr := tr) (a := empty T.data.length)
    (bs := fin.maps.zip fin.qnums.charges) f
    (by
      intro b hb k hk
      rw [he, ← hszn]
      have : k ∈ fin.maps.flatten := by
        rw [hfm, ← hzip]; exact List.mem_flatMap.2 ⟨b, hb, hk⟩
      simpa using hcov.mem_iff.1 this)
    (by
      intro b hb
      rw [hzip] at hb
      obtain ⟨q, hq, rfl⟩ := List.mem_map.1 hb
      have := (f4 q).1 hq
      rw [t2.charges]
      exact t2.complete q (by rw [← hA]; exact this.1) (by rw [← hB]; exact this.2))
    (by rw [t2.charges]; exact hqn)
    (by
      intro b hb
      rw [hzip] at hb
      obtain ⟨q, hq, rfl⟩ := List.mem_map.1 hb
      have hq2 := (f4 q).1 hq
      have hqq : q ∈ qs := t2.complete q (by rw [← hA]; exact hq2.1) (by rw [← hB]; exact hq2.2)
      have hlt := List.idxOf_lt_length_iff.2 hqq
      have hmq : tr.maps.getD (tr.qnums.charges.idxOf q) [] = blockMap L perm p q := by
        rw [t2.charges, t2.maps, List.getD_eq_getElem?_getD, List.getElem?_map,
          List.getElem?_eq_getElem hlt, List.getElem_idxOf]
        rfl
      rw [hmq, takeAll, if_pos]
      · congr 1
        simp only
        rw [hfb, blockMap, ← hA, ← hB, List.map_flatMap, List.map_flatMap]
        apply List.flatMap_congr
        intro r hr
        rw [List.map_map, List.map_map]
        apply List.map_congr_left
        intro c hc
        simp only [Function.comp_apply]
        rw [hA] at hr; rw [hB] at hc
        have hms := mem_stored_block hoL (by omega) hr hc
        have hms2 := (mem_stored_unperm hoL hms.1.2).1 hms.2
        rw [hf]
        simp only
        rw [stored_getElem_idxOf hms2, sval, ← hL, if_pos hms.2]
      · intro k hk
        have : k ∈ tr.maps.flatten := by
          rw [t2.maps]; exact List.mem_flatten.2 ⟨_, List.mem_map.2 ⟨q, hqq, rfl⟩, hk⟩
        have := (t2.cover hoL).mem_iff.1 this
        rw [h.size, ← hL]
        simpa using this)
  have hdl : data.length = T.data.length := by rw [e2, he]
  have hon := hp.nodup_iff.2 List.nodup_range
  obtain ⟨T', hT'⟩ : ∃ T' : BST Q R, T' = ⟨data, new, T.order.map (List.map (fun n => perm.idxOf n))⟩ :=
    ⟨_, rfl⟩
  refine ⟨T', ?_, ?_, by rw [hT', hnew], by rw [hT'], ?_⟩
  · rw [contiguous]
    simp only [Option.getD_some]
    rw [if_neg (by rw [hpl]; exact hnt), ← hnew, p1]
    simp only [bind, Except.bind]
    rw [t1]
    simp only
    rw [f1]
    simp only
    rw [e1, hT', pieces_lengths]
  · rw [hT']
    refine ⟨hnw, ?_, ?_, ?_⟩
    · simp only
      rw [hnl, ← List.map_flatten]
      have h1 := h.perm.trans hp.symm
      have h2 := h1.map (fun n => perm.idxOf n)
      rw [range_idxOf hon, hpl] at h2
      exact h2
    · intro g hg h0
      obtain ⟨g', hg', rfl⟩ := List.mem_map.1 hg
      exact h.groups g' hg' (List.map_eq_nil_iff.1 h0)
    · simp only
      rw [hdl, heff, hszn]
  · intro j hj
    have hjL : j.length = L.length := by rw [hj, hLl]
    have hms := mem_stored_unperm (L := L) hoL hjL
    rw [sval, hT']
    simp only
    rw [heff]
    by_cases hjm : j ∈ stored (permL perm L)
    · rw [if_pos hjm, e3, if_pos, hf]
      · simp only
        rw [stored_getElem_idxOf hjm]
      · rw [hzip, ← hfm, hcov.mem_iff, List.mem_range]
        exact List.idxOf_lt_length_iff.2 hjm
    · rw [if_neg hjm, sval, ← hL, if_neg (fun h => hjm (hms.1 h))]

end BST

/-! ## Dense forms of related tensors -/

/-- Two tensors with the same axes up to a renumbering `π` of the legs, and related elements. -/
theorem BST.Valid.todense_rel [Zero R] {T T' : BST Q R} (h : T.Valid) (h' : T'.Valid) (ho : T.order ≠ [])
    (π : Nat → Nat) (hord : T'.order = T.order.map (List.map π))
    (hdim : ∀ n, n < T.legs.length → T'.ldim (π n) = T.ldim n) (F : R → R)
    (hval : ∀ σ : Nat → Nat, T'.sval ((List.range T'.legs.length).map σ) =
      F (T.sval ((List.range T.legs.length).map (fun n => σ (π n))))) :
    ∃ d d', T.todense = .ok d ∧ T'.todense = .ok d' ∧ d'.shape = d.shape ∧
      ∀ i, InB d.shape i → d'.get i = F (d.get i) := by
  have ho' : T'.order ≠ [] := by rw [hord]; simpa using ho
  obtain ⟨d, d1, d2, d3⟩ := h.todense ho
  obtain ⟨d', e1, e2, e3⟩ := h'.todense ho'
  have hmem : ∀ g ∈ T.order, ∀ n ∈ g, n < T.legs.length := fun g hg n hn =>
    h.mem_order.1 (List.mem_flatten.2 ⟨g, hg, hn⟩)
  have hsh : d'.shape = d.shape := by
    rw [e2, d2, hord, List.map_map]
    apply List.map_congr_left
    intro g hg
    rw [Function.comp_apply, gdim, gdim, List.map_map]
    congr 1
    exact List.map_congr_left (fun n hn => hdim n (hmem g hg n hn))
  refine ⟨d, d', d1, e1, hsh, ?_⟩
  intro i hi
  rw [← hsh, e2] at hi
  obtain ⟨σ, hσ, hσi⟩ := exists_gpos h'.order_nodup hi
  have hσ' : ∀ n, n < T'.legs.length → σ n < T'.ldim n := fun n hn => hσ n (h'.mem_order.2 hn)
  have hπ : ∀ n, n < T.legs.length → π n ∈ T'.order.flatten := by
    intro n hn
    rw [hord, ← List.map_flatten]
    exact List.mem_map_of_mem (h.mem_order.2 hn)
  have e4 := e3 σ hσ'
  rw [hσi, hval] at e4
  rw [e4]
  congr 1
  rw [← d3 (fun n => σ (π n)) (fun n hn => by rw [← hdim n hn]; exact hσ _ (hπ n hn))]
  congr 1
  rw [← hσi, hord, List.map_map]
  apply List.map_congr_left
  intro g hg
  rw [Function.comp_apply, gpos, gpos, List.map_map, List.map_map]
  congr 1
  exact (List.map_congr_left (fun n hn => (hdim n (hmem g hg n hn)))).symm

theorem BST.ldim_pick {T T' : BST Q R} {perm : List Nat} (hp : perm.Perm (List.range T.legs.length))
    (hl : T'.legs = pick perm T.legs (.raw [], false)) {n : Nat} (hn : n < T.legs.length) :
    T'.ldim (perm.idxOf n) = T.ldim n := by
  have hm : n ∈ perm := hp.mem_iff.2 (by simpa using hn)
  have hlt := List.idxOf_lt_length_iff.2 hm
  rw [BST.ldim, BST.ldim, hl, pick, List.map_map, List.getD_eq_getElem?_getD, List.getElem?_map,
    List.getElem?_eq_getElem hlt, List.getElem_idxOf]
  simp [hn]

/-- C26, `contiguous`: with any permutation of the legs the call returns a valid tensor with the same
dense form.  With the default permutation the legs are in the order of the axes, so that the data
is in the order of the dense tensor. -/
theorem C26_contiguous [Zero R] {argsort : List Nat → List Nat} (ha : ArgsortOK argsort)
    {empty : Nat → List R} (he : ∀ n, (empty n).length = n) {T : BST Q R} (h : T.Valid)
    (ho : T.order ≠ []) (permutation : Option (List Nat))
    (hp : ∀ perm, permutation = some perm → perm.Perm (List.range T.legs.length)) :
    ∃ T' d d', T.contiguous argsort empty permutation = .ok T' ∧ T'.Valid ∧
      T.todense = .ok d ∧ T'.todense = .ok d' ∧ d'.Same d ∧ T'.sparseShape = T.sparseShape ∧
      (permutation = none → T'.order.flatten = List.range T.legs.length ∧
        T'.legs = pick T.order.flatten T.legs (.raw [], false)) := by
  obtain ⟨perm, hperm⟩ : ∃ perm, perm = permutation.getD T.order.flatten := ⟨_, rfl⟩
  have hpp : perm.Perm (List.range T.legs.length) := by
    rcases permutation with _ | q
    · rw [hperm]; exact h.perm
    · rw [hperm]; exact hp q rfl
  have hpl : perm.length = T.legs.length := by simpa using hpp.length_eq
  have hnone : T.contiguous argsort empty permutation = T.contiguous argsort empty (some perm) := by
    rw [BST.contiguous, BST.contiguous, ← hperm]; rfl
  by_cases ht : perm = List.range T.legs.length
  · obtain ⟨d, d1, d2, d3⟩ := h.todense ho
    refine ⟨T, d, d, ?_, h, d1, d1, NDArray.Same.refl _, rfl, ?_⟩
    · rw [hnone, BST.contiguous]
      simp only [Option.getD_some]
      rw [if_pos (by rw [hpl]; exact ht)]
    · intro h0
      rw [h0, Option.getD_none] at hperm
      rw [← hperm, ht]
      exact ⟨rfl, by rw [pick, map_range_getD]⟩
  · obtain ⟨T', t1, t2, t3, t4, t5⟩ := h.contiguous_data ha he hpp ht
    have hll : T'.legs.length = T.legs.length := by rw [t3]; simp [pick, hpl]
    obtain ⟨d, d', d1, d2, d3, d4⟩ := h.todense_rel t2 ho (fun n => perm.idxOf n) t4
      (fun n hn => BST.ldim_pick hpp t3 hn) id (by
        intro σ
        rw [t5 _ (by simp [hll]), unperm, hpl, hll, id_eq]
        congr 1
        apply List.map_congr_left
        intro n hn
        have hm : n ∈ perm := hpp.mem_iff.2 hn
        have hlt := List.idxOf_lt_length_iff.2 hm
        rw [hpl] at hlt
        simp [hlt])
    refine ⟨T', d, d', hnone.trans t1, t2, d1, d2, ⟨d3, fun i hi => d4 i (d3 ▸ hi)⟩, ?_, ?_⟩
    · rw [BST.sparseShape, BST.sparseShape, t4, List.map_map]
      apply List.map_congr_left
      intro g hg
      rw [Function.comp_apply, pick, pick, List.map_map]
      apply List.map_congr_left
      intro n hn
      have hm : n ∈ perm := hpp.mem_iff.2 (by
        simpa using h.mem_order.1 (List.mem_flatten.2 ⟨g, hg, hn⟩))
      have hlt := List.idxOf_lt_length_iff.2 hm
      rw [Function.comp_apply, t3, pick, List.getD_eq_getElem?_getD, List.getElem?_map,
        List.getElem?_eq_getElem hlt, List.getElem_idxOf]
      rfl
    · intro h0
      rw [h0, Option.getD_none] at hperm
      rw [← hperm]
      refine ⟨?_, t3⟩
      have hon := hpp.nodup_iff.2 List.nodup_range
      rw [t4, ← List.map_flatten, ← hperm, range_idxOf hon, hpl]

/-! ## Elementwise operations on one tensor -/

namespace BST

/-- `__mul__`, `__rmul__`, `__neg__`, `__truediv__`, `__pow__` (blocksparsetensor.py:749-801): the data
vector is mapped. -/
def mapData (f : R → R) (T : BST Q R) : BST Q R := { T with data := T.data.map f }

/-- `conj` (blocksparsetensor.py:869-880): conjugated data, reversed flows. -/
def conj (f : R → R) (T : BST Q R) : BST Q R := ⟨T.data.map f, flipFlows T.legs, T.order⟩

end BST

theorem sval_map [Zero R] {f : R → R} (hf : f 0 = 0) {T T' : BST Q R} (hs : stored (eff T'.legs) = stored (eff T.legs))
    (hd : T'.data = T.data.map f) (o : List Nat) : T'.sval o = f (T.sval o) := by
  rw [BST.sval, BST.sval, hs, hd]
  split_ifs with h
  · by_cases hk : (stored (eff T.legs)).idxOf o < T.data.length
    · simp [hk]
    · simp [hk, hf]
  · exact hf.symm

/-- C50, one operand: mapping the data vector with a function that fixes zero maps all entries of the
dense form. -/
theorem C50_map [Zero R] {f : R → R} (hf : f 0 = 0) {T : BST Q R} (h : T.Valid) (ho : T.order ≠ []) :
    (T.mapData f).Valid ∧ ∃ d d', T.todense = .ok d ∧ (T.mapData f).todense = .ok d' ∧
      d'.shape = d.shape ∧ ∀ i, InB d.shape i → d'.get i = f (d.get i) := by
  have hv : (T.mapData f).Valid := ⟨h.wf, h.perm, h.groups, by
    rw [BST.mapData, List.length_map]; exact h.size⟩
  refine ⟨hv, h.todense_rel hv ho id ?_ (fun n _ => rfl) f ?_⟩
  · simp [BST.mapData]
  · intro σ
    exact sval_map (T := T) (T' := T.mapData f) hf rfl rfl _

/-- Reversing all flows keeps the stored positions. -/
theorem stored_flip {legs : List (Leg Q)} (h : LegsWF legs) :
    stored (eff (flipFlows legs)) = stored (eff legs) := by
  have hd : dims (eff (flipFlows legs)) = dims (eff legs) := by
    rw [eff_flip h]; simp [dims]
  rw [stored, stored, hd]
  apply List.filter_congr
  intro i hi
  rw [eff_flip h, total_neg _ _ (mem_grid.1 hi)]
  simp

/-- C50, `conj`: the dense form of the conjugated tensor is the conjugated dense form. -/
theorem C50_conj [Zero R] {f : R → R} (hf : f 0 = 0) {T : BST Q R} (h : T.Valid) (ho : T.order ≠ []) :
    (T.conj f).Valid ∧ ∃ d d', T.todense = .ok d ∧ (T.conj f).todense = .ok d' ∧
      d'.shape = d.shape ∧ ∀ i, InB d.shape i → d'.get i = f (d.get i) := by
  have hl : (T.conj f).legs.length = T.legs.length := by simp [BST.conj, flipFlows]
  have hv : (T.conj f).Valid := by
    refine ⟨?_, by rw [hl]; exact h.perm, h.groups, ?_⟩
    · intro l hl
      obtain ⟨l', hl', rfl⟩ := List.mem_map.1 hl
      exact h.wf l' hl'
    · rw [BST.conj, List.length_map, stored_flip h.wf]; exact h.size
  refine ⟨hv, h.todense_rel hv ho id ?_ ?_ f ?_⟩
  · simp [BST.conj]
  · intro n hn
    simp [BST.ldim, BST.conj, flipFlows, Function.comp_def]
  · intro σ
    rw [hl]
    exact sval_map hf (stored_flip h.wf) rfl _

/-- `__pow__` with exponent zero is not the elementwise power: entries without stored element stay
zero. -/
theorem C50_pow_false : ∃ (T : BST Int Int) (d d' : NDArray Int), T.Valid ∧ T.todense = .ok d ∧
    (T.mapData (fun x => x ^ 0)).todense = .ok d' ∧ ∃ i, InB d.shape i ∧ d'.get i ≠ d.get i ^ 0 :=
  ⟨bstEx, _, _, bstEx_valid, rfl, rfl, [0, 0], .cons (by decide) (.cons (by decide) .nil),
    by decide +kernel⟩

/-! ## Addition and subtraction -/

/-- `Index.__eq__` (index.py:54-66) -/
def indexEq (a b : List (Leg Q)) : Prop :=
  b.length = a.length ∧ a.map (fun l => (l.1.uniq, l.1.labels, l.2)) = b.map (fun l => (l.1.uniq, l.1.labels, l.2))

instance (a b : List (Leg Q)) : Decidable (indexEq a b) := inferInstanceAs (Decidable (_ ∧ _))

namespace BST

/-- `_sub_add_protection` (blocksparsetensor.py:686-706), for two tensors.  The generator over
`range(len(self.sparse_shape))` indexes the other shape, which has the same number of axes. -/
def protect (S O : BST Q R) : Py Unit := do
  let s ← S.shape
  let o ← O.shape
  if s ≠ o then .error .valueError
  else if S.legs.length ≠ O.legs.length then .error .valueError
  else if ∀ n < S.sparseShape.length, indexEq (S.sparseShape.getD n []) (O.sparseShape.getD n []) then .ok ()
  else .error .valueError

/-- `_align_storage_layout` (blocksparsetensor.py:708-726): the two tensors after the call. -/
def align [Zero R] (argsort : List Nat → List Nat) (empty : Nat → List R) (S O : BST Q R) :
    Py (BST Q R × BST Q R) :=
  let sOrd := S.order.flatten = List.range S.order.flatten.length
  let oOrd := O.order.flatten = List.range O.order.flatten.length
  if sOrd ∧ ¬ oOrd then do
    let perm ← setAll (List.replicate O.order.flatten.length 0) S.order.flatten O.order.flatten
    let O' ← O.contiguous argsort empty (some perm)
    .ok (S, O')
  else if (¬ sOrd ∧ oOrd) ∨ (¬ sOrd ∧ ¬ oOrd) then do
    let perm ← setAll (List.replicate S.order.flatten.length 0) O.order.flatten S.order.flatten
    let S' ← S.contiguous argsort empty (some perm)
    .ok (S', O)
  else .ok (S, O)

/-- `__add__` and `__sub__` (blocksparsetensor.py:728-747): the result and the two operands after the
call, `f` is the operation on numbers.  Simplification: data vectors of different lengths raise
(numpy would broadcast a vector of length one). -/
def binop [Zero R] (f : R → R → R) (argsort : List Nat → List Nat) (empty : Nat → List R) (S O : BST Q R) :
    Py (BST Q R × BST Q R × BST Q R) := do
  let _ ← S.protect O
  let (S', O') ← S.align argsort empty O
  if S'.data.length = O'.data.length then
    .ok (⟨List.zipWith f S'.data O'.data, S'.legs, S'.order⟩, S', O')
  else .error .valueError

end BST

theorem indexEq_eff {a b : List (Leg Q)} (ha : LegsWF a) (hb : LegsWF b) (h : indexEq a b) : eff a = eff b := by
  have h2 := h.2
  have : ∀ (a b : List (Leg Q)), LegsWF a → LegsWF b →
      a.map (fun l => (l.1.uniq, l.1.labels, l.2)) = b.map (fun l => (l.1.uniq, l.1.labels, l.2)) →
      eff a = eff b := by
    intro a
    induction a with
    | nil => intro b _ _ h; cases b with
      | nil => rfl
      | cons => simp at h
    | cons x a ih =>
      intro b ha hb h
      cases b with
      | nil => simp at h
      | cons y b =>
        rw [List.map_cons, List.map_cons, List.cons.injEq, Prod.mk.injEq, Prod.mk.injEq] at h
        obtain ⟨⟨h1, h2, h3⟩, h4⟩ := h
        have hx := ha x (by simp)
        have hy := hb y (by simp)
        have := ih b (fun l hl => ha l (by simp [hl])) (fun l hl => hb l (by simp [hl])) h4
        simp only [eff, List.map_cons] at this ⊢
        rw [this, Charge.dual_charges hx, Charge.dual_charges hy, Charge.charges_eq hx,
          Charge.charges_eq hy, h1, h2, h3]
  exact this a b ha hb h2

/-- The permutation built by `perm[f] = g`. -/
theorem setAll_perm {f g : List Nat} {n : Nat} (hf : f.Perm (List.range n)) (hg : g.Perm (List.range n)) :
    ∃ perm, setAll (List.replicate n 0) f g = .ok perm ∧ perm.Perm (List.range n) ∧
      g.map (fun x => perm.idxOf x) = f := by
  have hfl : f.length = n := by simpa using hf.length_eq
  have hgl : g.length = n := by simpa using hg.length_eq
  have hfn := hf.nodup_iff.2 List.nodup_range
  have hgn := hg.nodup_iff.2 List.nodup_range
  obtain ⟨perm, p1, p2, p3⟩ := setAll_spec (a := List.replicate n 0) (locs := f) (vals := g) (by omega)
    (fun k hk => by simpa using hf.mem_iff.1 hk) hfn
  rw [List.length_replicate] at p2
  have hmap : f.map (fun k => perm.getD k 0) = g := by
    apply List.ext_getElem
    · rw [List.length_map]; omega
    · intro k h1 h2
      have hk : k < f.length := by omega
      have hm := List.getElem_mem hk
      rw [List.getElem_map, p3, if_pos hm, Charge.idxOf_getElem_nodup hfn hk, List.getD_eq_getElem _ _ h2]
  have hpp : perm.Perm g := by
    have h1 := hf.map (fun k => perm.getD k 0)
    rw [hmap, ← p2, map_range_getD] at h1
    exact h1.symm
  have hpn := hpp.nodup_iff.2 hgn
  refine ⟨perm, p1, hpp.trans hg, ?_⟩
  rw [← hmap, List.map_map]
  conv_rhs => rw [← List.map_id f]
  apply List.map_congr_left
  intro k hk
  have hk' : k < perm.length := by rw [p2]; simpa using hf.mem_iff.1 hk
  rw [Function.comp_apply, List.getD_eq_getElem _ _ hk', Charge.idxOf_getElem_nodup hpn hk', id_eq]

theorem pieces_self {α : Type} (gs : List (List α)) : pieces gs.flatten (gs.map List.length) = gs := by
  have := pieces_lengths id gs
  simpa using this

/-- Sufficient for the elements of two tensors to be stored in the same order. -/
theorem aligned {S O : BST Q R} (hS : S.Valid) (hO : O.Valid) (hl : S.legs.length = O.legs.length)
    (hss : S.sparseShape.length = O.sparseShape.length)
    (he : ∀ n < S.sparseShape.length, indexEq (S.sparseShape.getD n []) (O.sparseShape.getD n []))
    (hf : S.order.flatten = O.order.flatten) :
    S.order = O.order ∧ eff S.legs = eff O.legs := by
  have hlen : S.order.map List.length = O.order.map List.length := by
    rw [BST.sparseShape, BST.sparseShape, List.length_map, List.length_map] at hss
    apply List.ext_getElem
    · simpa using hss
    · intro n h1 h2
      rw [List.length_map] at h1 h2
      have := (he n (by rw [BST.sparseShape, List.length_map]; exact h1)).1
      simp only [BST.sparseShape, List.getD_eq_getElem?_getD, List.getElem?_map,
        List.getElem?_eq_getElem h1, List.getElem?_eq_getElem h2, Option.map_some, Option.getD_some,
        pick, List.length_map] at this
      rw [List.getElem_map, List.getElem_map, this]
  have hord : S.order = O.order := by
    rw [← pieces_self S.order, ← pieces_self O.order, hf, hlen]
  refine ⟨hord, ?_⟩
  have hpe : ∀ {T : BST Q R}, T.Valid → permL T.order.flatten (eff T.legs) = (T.sparseShape.map eff).flatten := by
    intro T h
    rw [permL_eff _ _ (fun n hn => h.mem_order.1 hn), BST.sparseShape, List.map_map, List.map_flatten]
    simp only [eff, pick]
    rw [List.map_flatten, List.map_map]
    rfl
  have heq : S.sparseShape.map eff = O.sparseShape.map eff := by
    apply List.ext_getElem
    · simpa using hss
    · intro n h1 h2
      rw [List.length_map] at h1 h2
      have h3 := he n h1
      rw [List.getD_eq_getElem _ _ h1, List.getD_eq_getElem _ _ h2] at h3
      rw [List.getElem_map, List.getElem_map]
      have hw : ∀ {T : BST Q R}, T.Valid → ∀ i ∈ T.sparseShape, LegsWF i := by
        intro T h i hi
        obtain ⟨g, hg, rfl⟩ := List.mem_map.1 hi
        exact h.pick_wf (fun n hn => h.mem_order.1 (List.mem_flatten.2 ⟨g, hg, hn⟩))
      exact indexEq_eff (hw hS _ (List.getElem_mem h1)) (hw hO _ (List.getElem_mem h2)) h3
  have hperm : permL S.order.flatten (eff S.legs) = permL S.order.flatten (eff O.legs) := by
    rw [hpe hS, heq, ← hpe hO, hord]
  apply List.ext_getElem
  · simpa [eff] using hl
  · intro n h1 h2
    have h1' : n < S.legs.length := by simpa [eff] using h1
    have hm := hS.mem_order.2 h1'
    have := List.map_inj_left.1 hperm n hm
    rwa [List.getD_eq_getElem _ _ h1, List.getD_eq_getElem _ _ h2] at this

/-- What aligning two matching tensors gives. -/
theorem align_spec [Zero R] {argsort : List Nat → List Nat} (ha : ArgsortOK argsort)
    {empty : Nat → List R} (hem : ∀ n, (empty n).length = n) {S O : BST Q R} (hS : S.Valid) (hO : O.Valid)
    (hoS : S.order ≠ []) (hoO : O.order ≠ [])
    (hl : S.legs.length = O.legs.length) :
    ∃ S' O', S.align argsort empty O = .ok (S', O') ∧ S'.Valid ∧ O'.Valid ∧
      S'.order.flatten = O'.order.flatten ∧ S'.legs.length = S.legs.length ∧ O'.legs.length = O.legs.length ∧
      S'.sparseShape = S.sparseShape ∧ O'.sparseShape = O.sparseShape ∧
      ∃ s s' o o', S.todense = .ok s ∧ S'.todense = .ok s' ∧ s'.Same s ∧
        O.todense = .ok o ∧ O'.todense = .ok o' ∧ o'.Same o := by
  have hSl : S.order.flatten.length = S.legs.length := by simpa using hS.perm.length_eq
  have hOl : O.order.flatten.length = O.legs.length := by simpa using hO.perm.length_eq
  obtain ⟨s, s1, _⟩ := hS.todense hoS
  obtain ⟨o, o1, _⟩ := hO.todense hoO
  have hone : ∀ {A B : BST Q R}, A.Valid → B.Valid → A.order ≠ [] → A.legs.length = B.legs.length →
      ∃ perm A' a a', setAll (List.replicate A.order.flatten.length 0) B.order.flatten A.order.flatten = .ok perm ∧
        A.contiguous argsort empty (some perm) = .ok A' ∧ A'.Valid ∧ A'.order.flatten = B.order.flatten ∧
        A'.legs.length = A.legs.length ∧ A'.sparseShape = A.sparseShape ∧
        A.todense = .ok a ∧ A'.todense = .ok a' ∧ a'.Same a := by
    intro A B hA hB hoA hAB
    have hAl : A.order.flatten.length = A.legs.length := by simpa using hA.perm.length_eq
    obtain ⟨perm, p1, p2, p3⟩ := setAll_perm (n := A.legs.length) (f := B.order.flatten)
      (g := A.order.flatten) (by rw [hAB]; exact hB.perm) hA.perm
    obtain ⟨A', a, a', c1, c2, c3, c4, c5, c6, _⟩ := C26_contiguous ha hem hA hoA (some perm)
      (by intro q hq; cases hq; exact p2)
    have hpl : perm.length = A.legs.length := by simpa using p2.length_eq
    refine ⟨perm, A', a, a', by rw [hAl]; exact p1, c1, c2, ?_, ?_, c6, c3, c4, c5⟩
    · by_cases ht : perm = List.range A.legs.length
      · have : A' = A := by
          rw [BST.contiguous] at c1
          simp only [Option.getD_some] at c1
          rw [if_pos (by rw [hpl]; exact ht)] at c1
          exact (Except.ok.inj c1).symm
        rw [this]
        rw [← p3, ht]
        conv_lhs => rw [← List.map_id A.order.flatten]
        apply List.map_congr_left
        intro k hk
        have hk' : k < (List.range A.legs.length).length := by simpa using hA.mem_order.1 hk
        have := Charge.idxOf_getElem_nodup (l := List.range A.legs.length) List.nodup_range hk'
        rw [List.getElem_range] at this
        exact this.symm
      · obtain ⟨A'', q1, q2, q3, q4, q5⟩ := hA.contiguous_data ha hem p2 ht
        rw [c1] at q1
        cases q1
        rw [q4, ← List.map_flatten]
        exact p3
    · have h1 : A'.sparseShape.flatten.length = A.sparseShape.flatten.length := by rw [c6]
      rw [hA.sparseShape_flatten, c2.sparseShape_flatten] at h1
      have h2 : A'.order.flatten.length = A'.legs.length := by simpa using c2.perm.length_eq
      simp only [pick, List.length_map] at h1
      omega
  rw [BST.align]
  split_ifs with h1 h2
  · obtain ⟨perm, O', a, a', q1, q2, q3, q4, q5, q6, q7, q8, q9⟩ := hone hO hS hoO hl.symm
    refine ⟨S, O', ?_, hS, q3, q4.symm, rfl, q5, rfl, q6, s, s, a, a', s1, s1, NDArray.Same.refl _, q7, q8, q9⟩
    simp only [bind, Except.bind]
    rw [q1]
    simp only
    rw [q2]
  · obtain ⟨perm, S', a, a', q1, q2, q3, q4, q5, q6, q7, q8, q9⟩ := hone hS hO hoS hl
    refine ⟨S', O, ?_, q3, hO, q4, q5, rfl, q6, rfl, a, a', o, o, q7, q8, q9, o1, o1, NDArray.Same.refl _⟩
    simp only [bind, Except.bind]
    rw [q1]
    simp only
    rw [q2]
  · refine ⟨S, O, rfl, hS, hO, ?_, rfl, rfl, rfl, rfl, s, s, o, o, s1, s1, NDArray.Same.refl _, o1, o1,
      NDArray.Same.refl _⟩
    have h3 : S.order.flatten = List.range S.order.flatten.length := by
      by_contra h0
      by_cases h4 : O.order.flatten = List.range O.order.flatten.length
      · exact h2 (Or.inl ⟨h0, h4⟩)
      · exact h2 (Or.inr ⟨h0, h4⟩)
    have h4 : O.order.flatten = List.range O.order.flatten.length := by
      by_contra h0
      exact h1 ⟨h3, h0⟩
    rw [h3, h4, hSl, hOl, hl]

/-- C50, addition and subtraction: tensors with the same sparse shape are accepted whatever operations
are pending on them, the dense form of the result has the entrywise results, and both operands keep
their dense form although the storage of one of them may be rearranged. -/
theorem C50_binop [Zero R] {f : R → R → R} (hf : f 0 0 = 0) {argsort : List Nat → List Nat}
    (ha : ArgsortOK argsort) {empty : Nat → List R} (hem : ∀ n, (empty n).length = n)
    {S O : BST Q R} (hS : S.Valid) (hO : O.Valid) (hoS : S.order ≠ [])
    (hss : S.sparseShape.length = O.sparseShape.length)
    (he : ∀ n < S.sparseShape.length, indexEq (S.sparseShape.getD n []) (O.sparseShape.getD n [])) :
    ∃ T S' O' s s' o o' d, S.binop f argsort empty O = .ok (T, S', O') ∧ T.Valid ∧ S'.Valid ∧ O'.Valid ∧
      S.todense = .ok s ∧ S'.todense = .ok s' ∧ s'.Same s ∧
      O.todense = .ok o ∧ O'.todense = .ok o' ∧ o'.Same o ∧
      T.todense = .ok d ∧ d.shape = s.shape ∧ o.shape = s.shape ∧
      ∀ i, InB s.shape i → d.get i = f (s.get i) (o.get i) := by
  have hordl : S.order.length = O.order.length := by simpa [BST.sparseShape] using hss
  have hoO : O.order ≠ [] := by
    intro h0; rw [h0, List.length_nil] at hordl; exact hoS (List.length_eq_zero_iff.1 hordl)
  have hil : ∀ n, n < S.order.length → (S.sparseShape.getD n []).length = (O.sparseShape.getD n []).length :=
    fun n hn => (he n (by simpa [BST.sparseShape] using hn)).1.symm
  have hl : S.legs.length = O.legs.length := by
    have h1 : S.sparseShape.flatten.length = O.sparseShape.flatten.length := by
      rw [List.length_flatten, List.length_flatten]
      congr 1
      apply List.ext_getElem
      · simpa using hss
      · intro n h1 h2
        rw [List.length_map] at h1 h2
        have := (he n h1).1
        rw [List.getD_eq_getElem _ _ h1, List.getD_eq_getElem _ _ h2] at this
        rw [List.getElem_map, List.getElem_map, this]
    rw [hS.sparseShape_flatten, hO.sparseShape_flatten] at h1
    simp only [pick, List.length_map] at h1
    have h2 : S.order.flatten.length = S.legs.length := by simpa using hS.perm.length_eq
    have h3 : O.order.flatten.length = O.legs.length := by simpa using hO.perm.length_eq
    omega
  obtain ⟨S', O', a1, hS', hO', a2, a3, a4, a5, a6, s, s', o, o', s1, s2, s3, o1, o2, o3⟩ :=
    align_spec ha hem hS hO hoS hoO hl
  obtain ⟨b1, b2⟩ := aligned hS' hO' (by omega) (by rw [a5, a6]; exact hss) (by rw [a5, a6]; exact he) a2
  have hdl : S'.data.length = O'.data.length := by rw [hS'.size, hO'.size, b2]
  obtain ⟨T, hT⟩ : ∃ T : BST Q R, T = ⟨List.zipWith f S'.data O'.data, S'.legs, S'.order⟩ := ⟨_, rfl⟩
  have hTv : T.Valid := by
    rw [hT]
    exact ⟨hS'.wf, hS'.perm, hS'.groups, by rw [List.length_zipWith, ← hdl, Nat.min_self]; exact hS'.size⟩
  have hoS' : S'.order ≠ [] := by
    intro h0
    have := congrArg List.length a5
    simp only [BST.sparseShape, List.length_map, h0, List.length_nil] at this
    exact hoS (List.length_eq_zero_iff.1 this.symm)
  have hsv : ∀ i, T.sval i = f (S'.sval i) (O'.sval i) := by
    intro i
    rw [BST.sval, BST.sval, BST.sval, ← b2, hT]
    split_ifs with h
    · have hk := List.idxOf_lt_length_iff.2 h
      rw [← hS'.size] at hk
      have hk2 : (stored (eff S'.legs)).idxOf i < O'.data.length := by rw [← hdl]; exact hk
      simp [hk, hk2]
    · exact hf.symm
  obtain ⟨d, d1, d2, d3⟩ := hTv.todense (by rw [hT]; exact hoS')
  obtain ⟨x, x1, x2, x3⟩ := hS'.todense hoS'
  rw [s2] at x1
  cases x1
  obtain ⟨y, y1, y2, y3⟩ := hO'.todense (by rw [← b1]; exact hoS')
  rw [o2] at y1
  cases y1
  have hdims : ∀ n, S'.ldim n = O'.ldim n := by
    intro n
    rw [BST.ldim, BST.ldim, ← dims_eff, ← dims_eff, b2]
  have hld : S'.ldim = O'.ldim := funext hdims
  have hTl : T.ldim = S'.ldim := by rw [hT]; rfl
  have hTo : T.order = S'.order := by rw [hT]
  have hTlegs : T.legs = S'.legs := by rw [hT]
  have hosh : o.shape = s.shape := by rw [← o3.1, ← s3.1, x2, y2, b1, hld]
  have hdsh : d.shape = s.shape := by rw [d2, ← s3.1, x2, hTo, hTl]
  refine ⟨T, S', O', s, s', o, o', d, ?_, hTv, hS', hO', s1, s2, s3, o1, o2, o3, d1, hdsh, hosh, ?_⟩
  · rw [BST.binop]
    have hpr : S.protect O = .ok () := by
      rw [BST.protect, hS.shape_eq, hO.shape_eq]
      simp only [bind, Except.bind]
      have e1 := (hS.todense hoS)
      have e2 := (hO.todense hoO)
      obtain ⟨_, u1, u2, _⟩ := e1
      obtain ⟨_, w1, w2, _⟩ := e2
      rw [s1] at u1; rw [o1] at w1
      cases u1; cases w1
      rw [if_neg (by rw [← u2, ← w2, hosh]; simp), if_neg (by simp [hl]), if_pos he]
    rw [hpr]
    simp only [bind, Except.bind]
    rw [a1]
    simp only
    rw [if_pos hdl, hT]
  · intro i hi
    rw [← s3.1, x2] at hi
    obtain ⟨σ, hσ, hσi⟩ := exists_gpos hS'.order_nodup hi
    have hσ' : ∀ n, n < S'.legs.length → σ n < S'.ldim n := fun n hn => hσ n (hS'.mem_order.2 hn)
    have e1 := d3 σ (by rw [hTl, hTlegs]; exact hσ')
    have e2 := x3 σ hσ'
    have e3 := y3 σ (by rw [← hld, show O'.legs.length = S'.legs.length by omega]; exact hσ')
    rw [hTo, hTl, hσi, hsv, hTlegs] at e1
    rw [hσi] at e2
    rw [← b1, ← hld, hσi, show O'.legs.length = S'.legs.length by omega] at e3
    rw [e1, ← e2, ← e3, s3.2 i (by rw [x2]; exact hi), o3.2 i (by rw [o3.1, hosh, ← s3.1, x2]; exact hi)]

/-- Tensors whose sparse shapes differ are refused. -/
theorem C50_refused [Zero R] (f : R → R → R) (argsort : List Nat → List Nat) (empty : Nat → List R)
    {S O : BST Q R} (hS : S.Valid) (hO : O.Valid)
    (hne : ¬ (S.sparseShape.length = O.sparseShape.length ∧
      ∀ n < S.sparseShape.length, indexEq (S.sparseShape.getD n []) (O.sparseShape.getD n []))) :
    S.binop f argsort empty O = .error .valueError := by
  have hpr : S.protect O = .error .valueError := by
    rw [BST.protect, hS.shape_eq, hO.shape_eq]
    simp only [bind, Except.bind]
    split_ifs with h1 h2 h3
    · rfl
    · rfl
    · refine absurd ⟨?_, h3⟩ hne
      have := congrArg List.length (not_not.1 h1)
      simpa [BST.sparseShape] using this
    · rfl
  rw [BST.binop, hpr]
  rfl

/-! ## Sequences of operations -/

/-- The operations that are applied lazily, those that rearrange storage, and `conj`. -/
inductive LOp
  | transpose (perm : List Nat)
  | reshape (s : List Nat)
  | contiguous (perm : Option (List Nat))
  | conj

/-- The operation on a block-sparse tensor. -/
def LOp.sparse [Zero R] (c : R → R) (argsort : List Nat → List Nat) (empty : Nat → List R) (T : BST Q R) :
    LOp → Py (BST Q R)
  | .transpose p => T.transpose p
  | .reshape s => T.reshape s
  | .contiguous p => T.contiguous argsort empty p
  | .conj => .ok (T.conj c)

/-- The same operation on dense arrays. -/
def LOp.dense (c : R → R) (d : NDArray R) : LOp → Py (NDArray R)
  | .transpose p => d.transpose p
  | .reshape s => d.reshape s
  | .contiguous _ => .ok d
  | .conj => .ok ⟨d.shape, fun i => c (d.get i)⟩

def runSparse [Zero R] (c : R → R) (argsort : List Nat → List Nat) (empty : Nat → List R) :
    BST Q R → List LOp → Py (BST Q R)
  | T, [] => .ok T
  | T, o :: os => do runSparse c argsort empty (← o.sparse c argsort empty T) os

def runDense (c : R → R) : NDArray R → List LOp → Py (NDArray R)
  | d, [] => .ok d
  | d, o :: os => do runDense c (← o.dense c d) os

/-- The arguments of an operation make sense for a tensor with `n` axes and `l` legs; shapes are not
empty. -/
def LOp.Fine (T : BST Q R) : LOp → Prop
  | .transpose p => p.Perm (List.range T.ndim)
  | .reshape s => s ≠ []
  | .contiguous (some p) => p.Perm (List.range T.legs.length)
  | .contiguous none => True
  | .conj => True

/-- All operations of a run make sense where they are applied. -/
def RunFine [Zero R] (c : R → R) (argsort : List Nat → List Nat) (empty : Nat → List R) :
    BST Q R → List LOp → Prop
  | _, [] => True
  | T, o :: os => o.Fine T ∧ ∀ T', o.sparse c argsort empty T = .ok T' → RunFine c argsort empty T' os

theorem BST.reshape_legs [Zero R] {T T' : BST Q R} {s : List Nat} (h : T.reshape s = .ok T') : T'.legs = T.legs := by
  rw [BST.reshape] at h
  rcases hs : T.shape with e | sh
  · rw [hs] at h; cases h
  · rw [hs] at h
    simp only [bind, Except.bind] at h
    split_ifs at h
    · cases h; rfl
    · rcases hp : partitionLoop (T.order.flatten.map T.ldim) s with _ | ⟨ks, rest⟩
      · rw [hp] at h; cases h
      · rw [hp] at h
        simp only at h
        split_ifs at h
        cases h; rfl

theorem transpose_same {d e dt : NDArray R} (h : d.Same e) {p : List Nat} (ht : d.transpose p = .ok dt) :
    ∃ et, e.transpose p = .ok et ∧ dt.Same et := by
  rw [NDArray.transpose] at ht
  split_ifs at ht with hp
  have hn : e.ndim = d.ndim := by rw [NDArray.ndim, NDArray.ndim, h.1]
  refine ⟨_, by rw [NDArray.transpose, if_pos (by rw [hn]; exact hp)], ?_⟩
  cases ht
  refine ⟨by simp only [h.1], ?_⟩
  intro i hi
  simp only at hi ⊢
  rw [hn]
  apply h.2
  rw [inB_iff_getD]
  refine ⟨by simp [NDArray.ndim], ?_⟩
  intro a ha
  have hm : a ∈ p := hp.mem_iff.2 (by simpa [NDArray.ndim] using ha)
  have hlt := List.idxOf_lt_length_iff.2 hm
  have := (inB_iff_getD.1 hi).2 (p.idxOf a) (by simpa using hlt)
  simp only [List.getD_eq_getElem?_getD, List.getElem?_map, List.getElem?_eq_getElem hlt,
    List.getElem_idxOf, Option.map_some, Option.getD_some] at this
  have ha' : a < d.ndim := ha
  simpa [ha'] using this

theorem reshape_same {d e dr : NDArray R} (h : d.Same e) {s : List Nat} (hr : d.reshape s = .ok dr) :
    ∃ er, e.reshape s = .ok er ∧ dr.Same er := by
  rw [NDArray.reshape] at hr
  split_ifs at hr with hp
  refine ⟨_, by rw [NDArray.reshape, if_pos (by rw [← h.1]; exact hp)], ?_⟩
  cases hr
  refine ⟨rfl, ?_⟩
  intro i hi
  simp only at hi ⊢
  rw [← h.1]
  apply h.2
  apply unravel_inB
  rw [← hp]
  exact ravel_lt hi

/-- C26 over histories: after any sequence of transpositions, reshapes, storage rearrangements and
conjugations the dense form is the one obtained by applying the same operations to the dense array. -/
theorem C26_history_partial [Zero R] {c : R → R} (hc : c 0 = 0) {argsort : List Nat → List Nat}
    (ha : ArgsortOK argsort) {empty : Nat → List R} (hem : ∀ n, (empty n).length = n) (ops : List LOp)
    {T T' : BST Q R} (h : T.Valid) (ho : T.order ≠ []) {d e : NDArray R} (hd : T.todense = .ok d)
    (hde : d.Same e) (hfine : RunFine c argsort empty T ops) (hrun : runSparse c argsort empty T ops = .ok T') :
    T'.Valid ∧ ∃ d' e', T'.todense = .ok d' ∧ runDense c e ops = .ok e' ∧ d'.Same e' := by
  induction ops generalizing T d e with
  | nil =>
    cases hrun
    exact ⟨h, d, e, hd, rfl, hde⟩
  | cons o ops ih =>
    rw [runSparse] at hrun
    rcases hT1 : o.sparse c argsort empty T with er | T1
    · rw [hT1] at hrun; cases hrun
    rw [hT1] at hrun
    have hrun' : runSparse c argsort empty T1 ops = .ok T' := hrun
    have hf1 := hfine.1
    have hf2 := hfine.2 T1 hT1
    have key : T1.Valid ∧ T1.order ≠ [] ∧ ∃ d1 e1, T1.todense = .ok d1 ∧ o.dense c e = .ok e1 ∧ d1.Same e1 := by
      cases o with
      | transpose p =>
        obtain ⟨T2, dd, d', dt, t1, t2, t3, t4, t5, t6⟩ := C26_transpose h ho (perm := p) hf1
        rw [LOp.sparse, t1] at hT1
        cases hT1
        rw [hd] at t3
        cases t3
        obtain ⟨et, u1, u2⟩ := transpose_same hde t5
        refine ⟨t2, ?_, d', et, t4, u1, t6.trans u2⟩
        obtain ⟨T3, v1, _, _, _, v5⟩ := h.transpose (perm := p) hf1
        rw [t1] at v1
        cases v1
        rw [v5]
        intro h0
        have := (hf1 : p.Perm _).length_eq
        rw [List.map_eq_nil_iff.1 h0, List.length_range] at this
        exact ho (List.length_eq_zero_iff.1 this.symm)
      | reshape s =>
        obtain ⟨r1, dd, d', dr, r2, r3, r4, r5⟩ := C26_reshape_partial h ho (s := s) hf1 hT1
        rw [hd] at r2
        cases r2
        obtain ⟨er, u1, u2⟩ := reshape_same hde r4
        refine ⟨r1, ?_, d', er, r3, u1, r5.trans u2⟩
        intro h0
        have h1 := BST.reshape_legs hT1
        have h2 := r1.perm
        rw [h0, h1] at h2
        have := h2.length_eq
        simp at this
        exact h.legs_ne ho (List.length_eq_zero_iff.1 this.symm)
      | contiguous p =>
        obtain ⟨T2, dd, d', c1, c2, c3, c4, c5, c6, _⟩ := C26_contiguous ha hem h ho p (by
          intro q hq; subst hq; exact hf1)
        rw [LOp.sparse, c1] at hT1
        cases hT1
        rw [hd] at c3
        cases c3
        refine ⟨c2, ?_, d', e, c4, rfl, c5.trans hde⟩
        intro h0
        have := congrArg List.length c6
        simp only [BST.sparseShape, List.length_map, h0, List.length_nil] at this
        exact ho (List.length_eq_zero_iff.1 this.symm)
      | conj =>
        cases hT1
        obtain ⟨c1, dd, d', c2, c3, c4, c5⟩ := C50_conj hc h ho
        rw [hd] at c2
        cases c2
        refine ⟨c1, ho, d', _, c3, rfl, ?_, ?_⟩
        · simp only; rw [c4, hde.1]
        · intro i hi
          rw [c4] at hi
          simp only
          rw [c5 i hi, hde.2 i hi]
    obtain ⟨k1, k2, d1, e1, k3, k4, k5⟩ := key
    obtain ⟨z1, d', e', z2, z3, z4⟩ := ih k1 k2 k3 k5 hf2 hrun'
    refine ⟨z1, d', e', z2, ?_, z4⟩
    rw [runDense, k4]
    exact z3

/-! ## Concrete cases -/

example := C26_contiguous (argsort := argsortI) argsortI_ok (empty := fun n => List.replicate n (0 : Int))
  (by simp) bstEx_valid (by decide) none (by simp)

/-- Operations on the example: exchange the axes, merge them, rearrange, conjugate. -/
def opsEx : List LOp := [.transpose [1, 0], .reshape [24], .contiguous none, .conj, .reshape [8, 3]]

/-- The example after the operations. -/
theorem opsEx_fine : RunFine (fun x : Int => -x) argsortI (fun n => List.replicate n (0 : Int)) bstEx opsEx ∧
    ∃ T', runSparse (fun x : Int => -x) argsortI (fun n => List.replicate n (0 : Int)) bstEx opsEx = .ok T' := by
  refine ⟨⟨by unfold LOp.Fine; decide, fun T1 h1 => ⟨by simp [LOp.Fine], fun T2 h2 => ⟨trivial, fun T3 h3 => ⟨trivial,
    fun T4 h4 => ⟨by simp [LOp.Fine], fun T5 h5 => trivial⟩⟩⟩⟩⟩, ?_⟩
  rcases hr : runSparse (fun x : Int => -x) argsortI (fun n => List.replicate n (0 : Int)) bstEx opsEx with e | T'
  · have h0 : (runSparse (fun x : Int => -x) argsortI (fun n => List.replicate n (0 : Int)) bstEx opsEx).isOk = true := by
      decide +kernel
    rw [hr] at h0
    cases h0
  · exact ⟨T', rfl⟩

example := fun T' => C26_history_partial (T' := T') (c := fun x : Int => -x) (by decide) argsortI_ok (by simp) opsEx
  bstEx_valid (by decide) rfl (NDArray.Same.refl _) opsEx_fine.1

/-- The example tensor with its axes exchanged. -/
def bstEx2 : BST Int Int := ⟨[7, 6, 5, 4, 3, 2, 1], legsEx, [[1], [2, 0]]⟩

theorem bstEx2_valid : bstEx2.Valid := ⟨legsEx_wf, by decide, by decide, by decide⟩

/-- The example tensor with its legs stored in the order of its axes. -/
def bstEx3 : BST Int Int := ⟨[1, 2, 3, 4, 5, 6, 7], pick [2, 0, 1] legsEx (.raw [], false), [[0, 1], [2]]⟩

theorem bstEx3_valid : bstEx3.Valid :=
  ⟨bstEx_valid.pick_wf (g := [2, 0, 1]) (by decide), by decide, by decide, by decide⟩

example := C50_binop (f := fun x y : Int => x - y) (by decide) (argsort := argsortI) argsortI_ok
  (empty := fun n => List.replicate n (0 : Int)) (by simp) bstEx_valid bstEx3_valid (by decide) (by decide)
  (by decide)

example := C50_refused (fun x y : Int => x + y) argsortI (fun n => List.replicate n (0 : Int)) bstEx_valid
  bstEx2_valid (by decide)

example := C50_conj (f := fun x : Int => -x) (by decide) bstEx_valid (by decide)
example := C50_map (f := fun x : Int => 3 * x) (by decide) bstEx_valid (by decide)

end
end TN.Bs
