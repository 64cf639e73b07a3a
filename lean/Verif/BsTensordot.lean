import Verif.BsDot

/-!
# The contraction of two block-sparse tensors is the contraction of their dense forms (C25)
-/

set_option linter.unusedSectionVars false

namespace TN.Bs

open NDArray

noncomputable section

variable {Q : Type} [AddCommGroup Q] [LinearOrder Q] {R : Type}

theorem sumIdx_regroup [AddCommMonoid R] {a b : List Nat} (h : a.prod = b.prod) (F : List Nat → R) :
    sumIdx a (fun c => F (unravel b (ravel a c))) = sumIdx b F := by
  rw [← sum_range_unravel, ← sum_range_unravel, h]
  apply Finset.sum_congr rfl
  intro k hk
  rw [ravel_unravel (by rw [h]; simpa using hk)]

theorem unravel_ravel_append {a b a' b' i j : List Nat} (ha : a.prod = a'.prod) (hb : b.prod = b'.prod)
    (hi : InB a' i) (hj : InB b' j) :
    unravel (a ++ b) (ravel (a' ++ b') (i ++ j)) = unravel a (ravel a' i) ++ unravel b (ravel b' j) := by
  rw [ravel_append hi.length, ← hb, unravel_append (by rw [ha]; exact ravel_lt hi) (by rw [hb]; exact ravel_lt hj)]

theorem idxOf_range {n a : Nat} (h : a < n) : (List.range n).idxOf a = a := by
  have h1 : a < (List.range n).length := by simpa using h
  have := Charge.idxOf_getElem_nodup (List.nodup_range (n := n)) h1
  rwa [List.getElem_range] at this

theorem mergeIdx_nil {n : Nat} {i : List Nat} (h : i.length = n) : mergeIdx n [] [] i = i := by
  have hf : freeAxes n [] = List.range n := by simp [freeAxes]
  rw [mergeIdx, hf]
  subst h
  conv_rhs => rw [← map_range_getD i 0]
  apply List.map_congr_left
  intro p hp
  rw [if_neg (by simp)]
  rw [idxOf_range (by simpa using hp)]

namespace BST

theorem dims_permL (T : BST Q R) {g : List Nat} (h : ∀ n ∈ g, n < T.legs.length) :
    dims (permL g (eff T.legs)) = g.map T.ldim := by
  rw [permL_eff _ _ h, dims_eff, ← pick_dims T h, pick]

theorem axes_lt {T : BST Q R} (h : T.Valid) {axes : List Nat} (hlt : ∀ a ∈ axes, a < T.ndim) :
    ∀ n ∈ T.axisLegs axes, n < T.legs.length := by
  intro n hn
  obtain ⟨g, hg, hn⟩ := List.mem_flatten.1 hn
  obtain ⟨a, ha, rfl⟩ := List.mem_map.1 hg
  have hal : a < T.order.length := hlt a ha
  apply h.mem_order.1
  rw [List.getD_eq_getElem _ _ hal] at hn
  exact List.mem_flatten.2 ⟨_, List.getElem_mem hal, hn⟩

theorem axes_prod {T : BST Q R} {d : NDArray R} (hsh : d.shape = T.order.map (gdim T.ldim)) {axes : List Nat}
    (hlt : ∀ a ∈ axes, a < T.ndim) :
    ((T.axisLegs axes).map T.ldim).prod = (axes.map (fun p => d.shape.getD p 0)).prod := by
  rw [axisLegs, ← gdim_prod, List.map_map]
  congr 1
  exact (List.map_congr_left (fun a ha => gshape hsh (hlt a ha))).symm

/-- `T.transpose(axes).contiguous()` stores the tensor in the order of the axes. -/
theorem Valid.sorted [Zero R] {argsort : List Nat → List Nat} (ha : ArgsortOK argsort)
    {empty : Nat → List R} (he : ∀ n, (empty n).length = n) {T : BST Q R} (h : T.Valid) {perm : List Nat}
    (hp : perm.Perm (List.range T.ndim)) :
    ∃ t t', T.transpose perm = .ok t ∧ t.contiguous argsort empty none = .ok t' ∧ t'.Valid ∧
      t'.legs = pick (T.axisLegs perm) T.legs (.raw [], false) ∧
      ∀ j, j.length = T.legs.length → t'.sval j = T.sval (unperm (T.axisLegs perm) j) := by
  obtain ⟨t, t1, t2, t3, t4, t5⟩ := h.transpose hp
  have hfl : t.order.flatten = T.axisLegs perm := by rw [t5]; rfl
  have hfp : (T.axisLegs perm).Perm (List.range T.legs.length) := by
    rw [← hfl, ← t3]; exact t2.perm
  have hflen : (T.axisLegs perm).length = T.legs.length := by simpa using hfp.length_eq
  have hsv : ∀ j, t.sval j = T.sval j := by intro j; rw [BST.sval, BST.sval, t3, t4]
  by_cases htriv : T.axisLegs perm = List.range T.legs.length
  · refine ⟨t, t, t1, ?_, t2, ?_, ?_⟩
    · rw [contiguous, Option.getD_none, hfl, if_pos (by rw [hflen]; exact htriv)]
    · rw [htriv, t3, pick, map_range_getD]
    · intro j hj
      rw [hsv, htriv]
      congr 1
      rw [unperm, List.length_range]
      conv_lhs => rw [← map_range_getD j 0]
      rw [hj]
      apply List.map_congr_left
      intro a ha
      rw [idxOf_range (by simpa using ha)]
  · have hc : t.contiguous argsort empty none = t.contiguous argsort empty (some t.order.flatten) := rfl
    obtain ⟨t', c1, c2, c3, _, c5⟩ := t2.contiguous_data ha he (perm := t.order.flatten) t2.perm
      (by rw [hfl, t3]; exact htriv)
    refine ⟨t, t', t1, hc.trans c1, c2, by rw [c3, hfl, t3], ?_⟩
    intro j hj
    rw [c5 j (by rw [t3]; exact hj), hsv, hfl]

/-- The checks on the contracted legs in `tensordot`. -/
def DotChecks (T1 T2 : BST Q R) (axes1 axes2 : List Nat) : Prop :=
  let con1 := pick (T1.axisLegs axes1) T1.legs (.raw [], false)
  let con2 := pick (T2.axisLegs axes2) T2.legs (.raw [], false)
  con2.length = con1.length ∧ con1.map Prod.snd = con2.map (fun l => !l.2) ∧
    ∀ p ∈ con1.zip con2, chargeEq p.1.1 p.2.1

theorem DotChecks.opp {T1 T2 : BST Q R} (h1 : T1.Valid) (h2 : T2.Valid) {axes1 axes2 : List Nat}
    (l1 : ∀ a ∈ axes1, a < T1.ndim) (l2 : ∀ a ∈ axes2, a < T2.ndim) (h : DotChecks T1 T2 axes1 axes2) :
    permL (T2.axisLegs axes2) (eff T2.legs) =
      (permL (T1.axisLegs axes1) (eff T1.legs)).map (fun A => A.map (fun q => -q)) := by
  have m1 := axes_lt h1 l1
  have m2 := axes_lt h2 l2
  rw [permL_eff _ _ m1, permL_eff _ _ m2]
  exact eff_opposite (h1.pick_wf m1) (h2.pick_wf m2) h.1 h.2.1 h.2.2

theorem Valid.data_eq [Zero R] {T : BST Q R} (h : T.Valid) : T.data = (stored (eff T.legs)).map T.sval := by
  apply List.ext_getElem
  · rw [List.length_map, h.size]
  · intro k k1 k2
    have hk : k < (stored (eff T.legs)).length := by simpa using k2
    have hm := List.getElem_mem hk
    have hi := Charge.idxOf_getElem_nodup (stored_nodup (eff T.legs)) hk
    rw [List.getElem_map, BST.sval, if_pos hm, hi, List.getD_eq_getElem _ _ k1]

end BST

theorem dims_neg (L : List (List Q)) : dims (L.map (fun A => A.map (fun q => -q))) = dims L := by
  simp [dims, Function.comp_def]

theorem stored_neg (L : List (List Q)) : stored (L.map (fun A => A.map (fun q => -q))) = stored L := by
  rw [stored, stored, dims_neg]
  apply List.filter_congr
  intro i hi
  rw [total_neg _ _ (mem_grid.1 hi)]
  simp only [neg_eq_zero]

namespace BST

theorem free_nil {n : Nat} {axes : List Nat} (hn : axes.Nodup) (hlt : ∀ a ∈ axes, a < n) (hl : axes.length = n) :
    freeAxes n axes = [] := by
  have := (freeAxes_append_perm hn hlt).length_eq
  rw [List.length_append, List.length_range] at this
  exact List.length_eq_zero_iff.1 (by omega)

/-- The inner product. -/
theorem dot_full [NonUnitalNonAssocSemiring R] {argsort : List Nat → List Nat} (ha : ArgsortOK argsort)
    {empty : Nat → List R} (he : ∀ n, (empty n).length = n) {T1 T2 : BST Q R} (h1 : T1.Valid) (h2 : T2.Valid)
    {d1 d2 : NDArray R} (s1 : d1.shape = T1.order.map (gdim T1.ldim)) (s2 : d2.shape = T2.order.map (gdim T2.ldim))
    (g1 : ∀ σ : Nat → Nat, (∀ n, n < T1.legs.length → σ n < T1.ldim n) →
        d1.get (T1.order.map (fun g => gpos T1.ldim g σ)) = T1.sval ((List.range T1.legs.length).map σ))
    (g2 : ∀ σ : Nat → Nat, (∀ n, n < T2.legs.length → σ n < T2.ldim n) →
        d2.get (T2.order.map (fun g => gpos T2.ldim g σ)) = T2.sval ((List.range T2.legs.length).map σ))
    {axes1 axes2 : List Nat} (n1 : axes1.Nodup) (n2 : axes2.Nodup) (l1 : ∀ a ∈ axes1, a < T1.ndim)
    (l2 : ∀ a ∈ axes2, a < T2.ndim) (hl : axes1.length = axes2.length) (hne : axes1 ≠ [])
    (hc : DotChecks T1 T2 axes1 axes2) (f1 : axes1.length = T1.ndim) (f2 : axes2.length = T2.ndim) :
    ∃ v, T1.tensordot argsort empty T2 axes1 axes2 = .ok ⟨[v], [], []⟩ ∧
      (axes1.map (fun p => d1.shape.getD p 0) = axes2.map (fun p => d2.shape.getD p 0) →
        v = sumIdx (axes1.map (fun p => d1.shape.getD p 0)) fun c =>
          d1.get (mergeIdx T1.ndim axes1 c []) * d2.get (mergeIdx T2.ndim axes2 c [])) := by
  have hK := hc.opp h1 h2 l1 l2
  have m1 := axes_lt h1 l1
  have m2 := axes_lt h2 l2
  have fr1 := free_nil n1 l1 f1
  have fr2 := free_nil n2 l2 f2
  have p1 : axes1.Perm (List.range T1.ndim) := by
    have := freeAxes_append_perm n1 l1; rwa [fr1, List.nil_append] at this
  have p2 : axes2.Perm (List.range T2.ndim) := by
    have := freeAxes_append_perm n2 l2; rwa [fr2, List.nil_append] at this
  obtain ⟨t1, u1, a1, b1, c1, e1, k1⟩ := h1.sorted ha he p1
  obtain ⟨t2, u2, a2, b2, c2, e2, k2⟩ := h2.sorted ha he p2
  have q1 : eff u1.legs = permL (T1.axisLegs axes1) (eff T1.legs) := by rw [e1, permL_eff _ _ m1]; rfl
  have q2 : eff u2.legs = permL (T2.axisLegs axes2) (eff T2.legs) := by rw [e2, permL_eff _ _ m2]; rfl
  have hst : stored (eff u2.legs) = stored (eff u1.legs) := by rw [q1, q2, hK, stored_neg]
  have hdd : (T2.axisLegs axes2).map T2.ldim = (T1.axisLegs axes1).map T1.ldim := by
    rw [← dims_permL T1 m1, ← dims_permL T2 m2, hK, dims_neg]
  have hlen : u1.data.length = u2.data.length := by rw [c1.size, c2.size, hst]
  have x1 := h1.axes_perm n1 l1
  have x2 := h2.axes_perm n2 l2
  have z1 : T1.axisLegs (freeAxes T1.ndim axes1) = [] := by rw [fr1]; rfl
  have z2 : T2.axisLegs (freeAxes T2.ndim axes2) = [] := by rw [fr2]; rfl
  rw [z1, List.nil_append] at x1
  rw [z2, List.nil_append] at x2
  have hcl1 : (T1.axisLegs axes1).length = T1.legs.length := by simpa using x1.length_eq
  have hcl2 : (T2.axisLegs axes2).length = T2.legs.length := by simpa using x2.length_eq
  refine ⟨(List.zipWith (· * ·) u1.data u2.data).sum, ?_, ?_⟩
  · rw [tensordot, if_neg (by simp [hl]), if_neg (by omega), if_neg (by omega), if_neg hne,
      if_neg (by rintro ⟨a, h3, h4⟩; exact absurd (l1 a h3) (by omega)),
      if_neg (by rintro ⟨a, h3, h4⟩; exact absurd (l2 a h3) (by omega))]
    simp only
    rw [if_neg (by simpa using hc.1), if_neg (by simpa using hc.2.1), if_neg (by
      rw [not_not]; exact hc.2.2), if_pos ⟨f1, f2⟩, a1]
    simp only [bind, Except.bind]
    rw [b1]
    simp only
    rw [a2]
    simp only
    rw [b2]
    simp only
    rw [if_pos hlen]
  · intro hax
    have hz : List.zipWith (· * ·) u1.data u2.data =
        (stored (eff u1.legs)).map (fun j => u1.sval j * u2.sval j) := by
      rw [c1.data_eq, c2.data_eq, hst]
      simp [List.zipWith_map]
    rw [hz, stored, sum_filter, sum_grid, q1, dims_permL T1 m1]
    · have hpr := axes_prod s1 l1
      rw [← sumIdx_regroup hpr.symm]
      apply sumIdx_congr
      intro c hcb
      have hx := unravel_inB (s := (T1.axisLegs axes1).map T1.ldim)
        (k := ravel (axes1.map (fun p => d1.shape.getD p 0)) c) (by rw [hpr]; exact ravel_lt hcb)
      have hxl := hx.length
      rw [List.length_map] at hxl
      have y1 := (h1.dense_split s1 g1 n1 l1 (i := []) (c := c) (by rw [fr1]; exact inB_nil) hcb rfl rfl).1
      have y2 := (h2.dense_split s2 g2 n2 l2 (i := []) (c := c) (by rw [fr2]; exact inB_nil)
        (by rw [← hax]; exact hcb) rfl rfl).1
      rw [z1, List.nil_append, List.map_nil, unravel, List.nil_append] at y1
      rw [z2, List.nil_append, List.map_nil, unravel, List.nil_append, ← hax, hdd] at y2
      rw [y1, y2, k1 _ (by rw [hxl, hcl1]), k2 _ (by
        rw [hxl, ← hcl2]
        simpa using (congrArg List.length hdd).symm)]
    · intro j hj hjf
      rw [decide_eq_false_iff_not] at hjf
      rw [show u1.sval j = 0 from if_neg (fun hm => hjf (mem_stored.1 hm).2), zero_mul]

/-- The general case. -/
theorem dot_general [NonUnitalNonAssocSemiring R] {argsort : List Nat → List Nat} (ha : ArgsortOK argsort)
    {empty : Nat → List R} {T1 T2 : BST Q R} (h1 : T1.Valid) (h2 : T2.Valid)
    {d1 d2 : NDArray R} (s1 : d1.shape = T1.order.map (gdim T1.ldim)) (s2 : d2.shape = T2.order.map (gdim T2.ldim))
    (g1 : ∀ σ : Nat → Nat, (∀ n, n < T1.legs.length → σ n < T1.ldim n) →
        d1.get (T1.order.map (fun g => gpos T1.ldim g σ)) = T1.sval ((List.range T1.legs.length).map σ))
    (g2 : ∀ σ : Nat → Nat, (∀ n, n < T2.legs.length → σ n < T2.ldim n) →
        d2.get (T2.order.map (fun g => gpos T2.ldim g σ)) = T2.sval ((List.range T2.legs.length).map σ))
    {axes1 axes2 : List Nat} (n1 : axes1.Nodup) (n2 : axes2.Nodup) (l1 : ∀ a ∈ axes1, a < T1.ndim)
    (l2 : ∀ a ∈ axes2, a < T2.ndim) (hl : axes1.length = axes2.length) (hne : axes1 ≠ [])
    (hc : DotChecks T1 T2 axes1 axes2) (hf : ¬ (axes1.length = T1.ndim ∧ axes2.length = T2.ndim)) :
    ∃ T' d', T1.tensordot argsort empty T2 axes1 axes2 = .ok T' ∧ T'.Valid ∧ T'.order ≠ [] ∧ T'.todense = .ok d' ∧
      (axes1.map (fun p => d1.shape.getD p 0) = axes2.map (fun p => d2.shape.getD p 0) →
        d'.shape = (freeAxes T1.ndim axes1).map (fun p => d1.shape.getD p 0) ++
          (freeAxes T2.ndim axes2).map (fun p => d2.shape.getD p 0) ∧
        ∀ i, InB d'.shape i → d'.get i = sumIdx (axes1.map (fun p => d1.shape.getD p 0)) fun c =>
          d1.get (mergeIdx T1.ndim axes1 c (i.take (freeAxes T1.ndim axes1).length)) *
          d2.get (mergeIdx T2.ndim axes2 c (i.drop (freeAxes T1.ndim axes1).length))) := by
  have hK := hc.opp h1 h2 l1 l2
  have m1 := axes_lt h1 l1
  have m2 := axes_lt h2 l2
  have x1 := h1.axes_perm n1 l1
  have x2 := List.perm_append_comm.trans (h2.axes_perm n2 l2)
  obtain ⟨free1, hf1⟩ : ∃ f, f = freeAxes T1.ndim axes1 := ⟨_, rfl⟩
  obtain ⟨free2, hf2⟩ : ∃ f, f = freeAxes T2.ndim axes2 := ⟨_, rfl⟩
  have fl1 : ∀ a ∈ free1, a < T1.ndim := fun a h => (mem_freeAxes.1 (hf1 ▸ h)).1
  have fl2 : ∀ a ∈ free2, a < T2.ndim := fun a h => (mem_freeAxes.1 (hf2 ▸ h)).1
  have k1 := axes_lt h1 fl1
  have k2 := axes_lt h2 fl2
  have hdd : (T2.axisLegs axes2).map T2.ldim = (T1.axisLegs axes1).map T1.ldim := by
    rw [← dims_permL T1 m1, ← dims_permL T2 m2, hK, dims_neg]
  have grp : ∀ {T : BST Q R}, T.Valid → ∀ a, a < T.ndim → T.order.getD a [] ≠ [] := by
    intro T h a ha
    have hal : a < T.order.length := ha
    rw [List.getD_eq_getElem _ _ hal]
    exact h.groups _ (List.getElem_mem hal)
  have nn : ∀ {T : BST Q R}, T.Valid → ∀ {axes : List Nat}, (∀ a ∈ axes, a < T.ndim) → axes ≠ [] →
      T.axisLegs axes ≠ [] := by
    intro T h axes hlt hne h0
    obtain ⟨a, ha⟩ := List.exists_mem_of_ne_nil _ hne
    exact grp h a (hlt a ha) (List.flatten_eq_nil_iff.1 h0 _ (List.mem_map_of_mem ha))
  have hne2 : axes2 ≠ [] := by rintro rfl; exact hne (List.length_eq_zero_iff.1 hl)
  have hfne : free1 ≠ [] ∨ free2 ≠ [] := by
    by_contra h0
    push Not at h0
    have e1 := (freeAxes_append_perm n1 l1).length_eq
    have e2 := (freeAxes_append_perm n2 l2).length_eq
    rw [← hf1, h0.1] at e1
    rw [← hf2, h0.2] at e2
    exact hf ⟨by simpa using e1, by simpa using e2⟩
  rw [← hf1] at x1 ⊢
  rw [← hf2] at x2 ⊢
  obtain ⟨left, hleft⟩ : ∃ l, l = pick (T1.axisLegs free1) T1.legs (Charge.raw [], false) := ⟨_, rfl⟩
  obtain ⟨right, hright⟩ : ∃ l, l = pick (T2.axisLegs free2) T2.legs (Charge.raw [], false) := ⟨_, rfl⟩
  obtain ⟨b1, b2, bf, data, c1, c2, c3, c4, c5, c6, c7⟩ := contract_flat ha h1 h2 x1 x2 (nn h1 l1 hne) (nn h2 l2 hne2)
    (by
      intro h0
      rw [List.append_eq_nil_iff] at h0
      rcases hfne with h | h
      · exact nn h1 fl1 h h0.1
      · exact nn h2 fl2 h h0.2) hK hleft hright
  obtain ⟨gs, hgs⟩ : ∃ gs, gs = free1.map (fun a => pick (T1.order.getD a []) T1.legs (Charge.raw [], false)) ++
      free2.map (fun a => pick (T2.order.getD a []) T2.legs (Charge.raw [], false)) := ⟨_, rfl⟩
  have fl : ∀ (T : BST Q R) (f : List Nat), (f.map (fun a => pick (T.order.getD a []) T.legs
      (Charge.raw [], false))).flatten = pick (T.axisLegs f) T.legs (Charge.raw [], false) := by
    intro T f
    rw [axisLegs, pick, List.map_flatten, List.map_map]; rfl
  have hll : left.length = (free1.map (fun a => (T1.order.getD a []).length)).sum := by
    rw [hleft, pick, List.length_map, axisLegs, List.length_flatten, List.map_map]; rfl
  have hord : consecutive 0 (free1.map (fun a => (T1.order.getD a []).length)) ++
      consecutive left.length (free2.map (fun a => (T2.order.getD a []).length)) =
      consecutive 0 (gs.map List.length) := by
    have := consecutive_append 0 (free1.map (fun a => (T1.order.getD a []).length))
      (free2.map (fun a => (T2.order.getD a []).length))
    rw [Nat.zero_add, ← hll] at this
    rw [this, hgs]
    simp [pick, Function.comp_def]
  obtain ⟨T', hT'⟩ : ∃ T' : BST Q R, T' = ⟨data, left ++ right, consecutive 0 (gs.map List.length)⟩ := ⟨_, rfl⟩
  have hrun : T1.tensordot argsort empty T2 axes1 axes2 = .ok T' := by
    have e1 := (freeAxes_append_perm n1 l1).length_eq
    have e2 := (freeAxes_append_perm n2 l2).length_eq
    rw [List.length_append, List.length_range] at e1 e2
    rw [tensordot, if_neg (by simp [hl]), if_neg (by omega), if_neg (by omega), if_neg hne,
      if_neg (by rintro ⟨a, h3, h4⟩; exact absurd (l1 a h3) (by omega)),
      if_neg (by rintro ⟨a, h3, h4⟩; exact absurd (l2 a h3) (by omega))]
    simp only
    rw [if_neg (by simpa using hc.1), if_neg (by simpa using hc.2.1), if_neg (by
      rw [not_not]; exact hc.2.2), if_neg hf]
    rw [← hf1, ← hf2, ← hleft, ← hright]
    have hp2 : (pick (T2.axisLegs axes2) T2.legs (Charge.raw [], false)).length = (T2.axisLegs axes2).length := by
      simp [pick]
    rw [hp2]
    simp only [bind, Except.bind]
    rw [c1]
    simp only
    rw [c2]
    simp only
    rw [c3]
    simp only
    rw [c4, hord, hT']
  have gmem : ∀ (T : BST Q R), T.Valid → ∀ a, a < T.ndim → ∀ n ∈ T.order.getD a [], n < T.legs.length := by
    intro T h a ha n hn
    exact axes_lt h (axes := [a]) (by simpa using ha) n (by simpa [axisLegs] using hn)
  obtain ⟨hv, d', d1', d2', d3'⟩ := consec_spec (T := T') (gs := gs)
    (by rw [hT', hgs, List.flatten_append, fl, fl, hleft, hright]) (by rw [hT'])
    (by
      rw [hT']
      intro x hx
      rcases List.mem_append.1 hx with hx | hx
      · rw [hleft] at hx; exact h1.pick_wf k1 x hx
      · rw [hright] at hx; exact h2.pick_wf k2 x hx)
    (by
      intro g hg h0
      rw [hgs, List.mem_append, List.mem_map, List.mem_map] at hg
      rcases hg with ⟨a, ha, rfl⟩ | ⟨a, ha, rfl⟩
      · exact grp h1 a (fl1 a ha) (List.map_eq_nil_iff.1 h0)
      · exact grp h2 a (fl2 a ha) (List.map_eq_nil_iff.1 h0))
    (by rw [hT']; exact c5)
    (by
      rw [hgs]
      intro h0
      rw [List.append_eq_nil_iff, List.map_eq_nil_iff, List.map_eq_nil_iff] at h0
      rcases hfne with h | h
      · exact h h0.1
      · exact h h0.2)
  refine ⟨T', d', hrun, hv, ?_, d1', ?_⟩
  · rw [hT']
    intro h0
    have h3 := consecutive_length 0 (gs.map List.length)
    simp only at h0
    rw [h0, hgs] at h3
    have h4 := List.map_eq_nil_iff.1 h3.symm
    rw [List.append_eq_nil_iff, List.map_eq_nil_iff, List.map_eq_nil_iff] at h4
    rcases hfne with h | h
    · exact h h4.1
    · exact h h4.2
  intro hax
  have hsh : d'.shape = free1.map (fun p => d1.shape.getD p 0) ++ free2.map (fun p => d2.shape.getD p 0) := by
    rw [d2', hgs, List.map_append, List.map_map, List.map_map]
    congr 1
    · apply List.map_congr_left
      intro a ha
      rw [gshape s1 (fl1 a ha), Function.comp_apply, pick_dims T1 (gmem T1 h1 a (fl1 a ha))]
      rfl
    · apply List.map_congr_left
      intro a ha
      rw [gshape s2 (fl2 a ha), Function.comp_apply, pick_dims T2 (gmem T2 h2 a (fl2 a ha))]
      rfl
  refine ⟨hsh, ?_⟩
  intro i hi
  rw [d3' i hi, hsh]
  rw [hsh] at hi
  obtain ⟨i1, hi1⟩ : ∃ j, j = i.take free1.length := ⟨_, rfl⟩
  obtain ⟨i2, hi2⟩ : ∃ j, j = i.drop free1.length := ⟨_, rfl⟩
  have hi12 : i = i1 ++ i2 := by rw [hi1, hi2, List.take_append_drop]
  rw [← hi1, ← hi2]
  have hil := hi.length
  rw [List.length_append, List.length_map, List.length_map] at hil
  rw [hi12, inB_append_iff (by rw [hi1, List.length_take, List.length_map]; omega)] at hi
  have pr1 := axes_prod s1 fl1
  have pr2 := axes_prod s2 fl2
  have heL : eff T'.legs = permL (T1.axisLegs free1) (eff T1.legs) ++ permL (T2.axisLegs free2) (eff T2.legs) := by
    rw [hT']; exact c6
  have hdd' : dims (eff T'.legs) = (T1.axisLegs free1).map T1.ldim ++ (T2.axisLegs free2).map T2.ldim := by
    rw [heL, ← dims_permL T1 k1, ← dims_permL T2 k2]; simp [dims]
  rw [hdd', hi12, unravel_ravel_append pr1 pr2 hi.1 hi.2]
  have c7' := c7 (unravel ((T1.axisLegs free1).map T1.ldim) (ravel (free1.map (fun p => d1.shape.getD p 0)) i1))
    (unravel ((T2.axisLegs free2).map T2.ldim) (ravel (free2.map (fun p => d2.shape.getD p 0)) i2))
    (by rw [dims_permL T1 k1]; exact unravel_inB (by rw [pr1]; exact ravel_lt hi.1))
    (by rw [dims_permL T2 k2]; exact unravel_inB (by rw [pr2]; exact ravel_lt hi.2))
  rw [sval, hT']
  refine c7'.trans ?_
  rw [dims_permL T1 m1, ← sumIdx_regroup (axes_prod s1 l1).symm]
  apply sumIdx_congr
  intro c hcb
  have hi1' := hi.1
  have hi2' := hi.2
  rw [hf1] at hi1'
  rw [hf2] at hi2'
  have y1 := (h1.dense_split s1 g1 n1 l1 hi1' hcb rfl rfl).1
  have y2 := (h2.dense_split s2 g2 n2 l2 hi2' (by rw [← hax]; exact hcb) rfl rfl).2
  rw [← hf1] at y1
  rw [← hf2, ← hax, hdd] at y2
  rw [y1, y2]

/-- The outer product. -/
theorem dot_outer [NonUnitalNonAssocSemiring R] {argsort : List Nat → List Nat} (ha : ArgsortOK argsort)
    {T1 T2 : BST Q R} (h1 : T1.Valid) (h2 : T2.Valid) (o1 : T1.order ≠ [])
    {d1 d2 : NDArray R} (s1 : d1.shape = T1.order.map (gdim T1.ldim)) (s2 : d2.shape = T2.order.map (gdim T2.ldim))
    (g1 : ∀ σ : Nat → Nat, (∀ n, n < T1.legs.length → σ n < T1.ldim n) →
        d1.get (T1.order.map (fun g => gpos T1.ldim g σ)) = T1.sval ((List.range T1.legs.length).map σ))
    (g2 : ∀ σ : Nat → Nat, (∀ n, n < T2.legs.length → σ n < T2.ldim n) →
        d2.get (T2.order.map (fun g => gpos T2.ldim g σ)) = T2.sval ((List.range T2.legs.length).map σ)) :
    ∃ T' d', T1.outer argsort T2 = .ok T' ∧ T'.Valid ∧ T'.order ≠ [] ∧ T'.todense = .ok d' ∧
      d'.shape = d1.shape ++ d2.shape ∧
      ∀ i, InB d'.shape i → d'.get i = d1.get (i.take T1.ndim) * d2.get (i.drop T1.ndim) := by
  have hl1 : T1.legs ≠ [] := by
    intro h0
    obtain ⟨g, hg⟩ := List.exists_mem_of_ne_nil _ o1
    obtain ⟨n, hn⟩ := List.exists_mem_of_ne_nil _ (h1.groups g hg)
    have := h1.mem_order.1 (List.mem_flatten.2 ⟨g, hg, hn⟩)
    rw [h0] at this
    simp at this
  obtain ⟨data, c1, c2, c3⟩ := outer_flat ha h1 h2 (by simp [hl1])
  obtain ⟨T', hT'⟩ : ∃ T' : BST Q R, T' = ⟨data, T1.legs ++ T2.legs,
        T1.order ++ T2.order.map (List.map (· + T1.legs.length))⟩ := ⟨_, rfl⟩
  rw [← hT'] at c1
  have hlegs : T'.legs = T1.legs ++ T2.legs := by rw [hT']
  have hord : T'.order = T1.order ++ T2.order.map (List.map (· + T1.legs.length)) := by rw [hT']
  have hv : T'.Valid := by
    refine ⟨?_, ?_, ?_, by rw [hT']; exact c2⟩
    · rw [hlegs]
      intro x hx
      rcases List.mem_append.1 hx with hx | hx
      · exact h1.wf x hx
      · exact h2.wf x hx
    · rw [hord, hlegs, List.flatten_append, ← List.map_flatten, List.length_append, List.range_add]
      refine List.Perm.append h1.perm ?_
      have := h2.perm.map (· + T1.legs.length)
      simpa [Nat.add_comm] using this
    · intro g hg
      rw [hord] at hg
      rcases List.mem_append.1 hg with hg | hg
      · exact h1.groups g hg
      · obtain ⟨g', hg', rfl⟩ := List.mem_map.1 hg
        intro h0
        exact h2.groups g' hg' (List.map_eq_nil_iff.1 h0)
  have ho' : T'.order ≠ [] := by rw [hord]; simp [o1]
  obtain ⟨d', e1, e2, e3⟩ := hv.todense ho'
  have ld1 : ∀ n, n < T1.legs.length → T'.ldim n = T1.ldim n := by
    intro n hn
    rw [BST.ldim, BST.ldim, hlegs, List.map_append, List.getD_eq_getElem?_getD, List.getElem?_append_left (by simpa using hn),
      List.getD_eq_getElem?_getD]
  have ld2 : ∀ n, T'.ldim (n + T1.legs.length) = T2.ldim n := by
    intro n
    rw [BST.ldim, BST.ldim, hlegs, List.map_append, List.getD_eq_getElem?_getD, List.getElem?_append_right (by simp),
      List.getD_eq_getElem?_getD]
    simp
  have hmem1 : ∀ g ∈ T1.order, ∀ n ∈ g, n < T1.legs.length := fun g hg n hn =>
    h1.mem_order.1 (List.mem_flatten.2 ⟨g, hg, hn⟩)
  have hsh : d'.shape = d1.shape ++ d2.shape := by
    rw [e2, hord, List.map_append, s1, s2, List.map_map]
    congr 1
    · apply List.map_congr_left
      intro g hg
      rw [gdim, gdim]
      congr 1
      exact List.map_congr_left (fun n hn => ld1 n (hmem1 g hg n hn))
    · apply List.map_congr_left
      intro g hg
      rw [Function.comp_apply, gdim, gdim, List.map_map]
      congr 1
      exact List.map_congr_left (fun n hn => ld2 n)
  refine ⟨T', d', c1, hv, ho', e1, hsh, ?_⟩
  intro i hi
  rw [e2] at hi
  obtain ⟨σ, hσ, hσi⟩ := exists_gpos hv.order_nodup hi
  have hσ' : ∀ n, n < T'.legs.length → σ n < T'.ldim n := fun n hn => hσ n (hv.mem_order.2 hn)
  have v1 : ∀ n, n < T1.legs.length → σ n < T1.ldim n := by
    intro n hn
    rw [← ld1 n hn]
    exact hσ' n (by rw [hlegs, List.length_append]; omega)
  have v2 : ∀ n, n < T2.legs.length → σ (n + T1.legs.length) < T2.ldim n := by
    intro n hn
    rw [← ld2 n]
    exact hσ' _ (by rw [hlegs, List.length_append]; omega)
  have hi12 : i = T1.order.map (fun g => gpos T1.ldim g σ) ++
      T2.order.map (fun g => gpos T2.ldim g (fun n => σ (n + T1.legs.length))) := by
    rw [← hσi, hord, List.map_append, List.map_map]
    congr 1
    · apply List.map_congr_left
      intro g hg
      rw [gpos, gpos]
      congr 1
      exact List.map_congr_left (fun n hn => ld1 n (hmem1 g hg n hn))
    · apply List.map_congr_left
      intro g hg
      rw [Function.comp_apply, gpos, gpos, List.map_map, List.map_map]
      congr 1
      exact List.map_congr_left (fun n hn => ld2 n)
  have hlen : (T1.order.map (fun g => gpos T1.ldim g σ)).length = T1.ndim := by rw [List.length_map]; rfl
  rw [hi12, List.take_left' hlen, List.drop_left' hlen, g1 σ v1, g2 _ v2, ← hi12, ← hσi, e3 σ hσ']
  have hsplit : (List.range T'.legs.length).map σ = (List.range T1.legs.length).map σ ++
      (List.range T2.legs.length).map (fun n => σ (n + T1.legs.length)) := by
    rw [hlegs, List.length_append, List.range_add, List.map_append, List.map_map]
    congr 1
    apply List.map_congr_left
    intro n _
    simp [Nat.add_comm]
  rw [hsplit]
  have := c3 ((List.range T1.legs.length).map σ) ((List.range T2.legs.length).map (fun n => σ (n + T1.legs.length)))
    (T1.inB_range.2 v1) (T2.inB_range.2 v2)
  rw [← this, BST.sval, hT']

end BST

open BST

theorem checks_of_ok [NonUnitalNonAssocSemiring R] {argsort : List Nat → List Nat}
    {empty : Nat → List R} {T1 T2 : BST Q R} {axes1 axes2 : List Nat} {T' : BST Q R} (hne : axes1 ≠ [])
    (hs : T1.tensordot argsort empty T2 axes1 axes2 = .ok T') : DotChecks T1 T2 axes1 axes2 := by
  rw [BST.tensordot] at hs
  by_cases t1 : axes1.length ≠ axes2.length
  · rw [if_pos t1] at hs; cases hs
  rw [if_neg t1] at hs
  by_cases t2 : axes1.length > T1.ndim
  · rw [if_pos t2] at hs; cases hs
  rw [if_neg t2] at hs
  by_cases t3 : axes2.length > T2.ndim
  · rw [if_pos t3] at hs; cases hs
  rw [if_neg t3, if_neg hne] at hs
  by_cases t4 : ∃ a ∈ axes1, T1.ndim ≤ a
  · rw [if_pos t4] at hs; cases hs
  rw [if_neg t4] at hs
  by_cases t5 : ∃ a ∈ axes2, T2.ndim ≤ a
  · rw [if_pos t5] at hs; cases hs
  rw [if_neg t5] at hs
  simp only at hs
  by_cases t6 : (pick (T2.axisLegs axes2) T2.legs (Charge.raw [], false)).length ≠
      (pick (T1.axisLegs axes1) T1.legs (Charge.raw [], false)).length
  · rw [if_pos t6] at hs; cases hs
  rw [if_neg t6] at hs
  by_cases t7 : (pick (T1.axisLegs axes1) T1.legs (Charge.raw [], false)).map Prod.snd ≠
      (pick (T2.axisLegs axes2) T2.legs (Charge.raw [], false)).map (fun l => !l.2)
  · rw [if_pos t7] at hs; cases hs
  rw [if_neg t7] at hs
  by_cases t8 : ¬ ∀ p ∈ (pick (T1.axisLegs axes1) T1.legs (Charge.raw [], false)).zip
      (pick (T2.axisLegs axes2) T2.legs (Charge.raw [], false)), chargeEq p.1.1 p.2.1
  · rw [if_pos t8] at hs; cases hs
  exact ⟨not_not.1 t6, not_not.1 t7, not_not.1 t8⟩

/-- C25: if both contractions are accepted, the symmetric one is a valid tensor whose dense form is the
contraction of the dense forms; a full contraction is the same number. -/
theorem C25_tensordot [NonUnitalNonAssocSemiring R] {argsort : List Nat → List Nat} (ha : ArgsortOK argsort)
    {empty : Nat → List R} (he : ∀ n, (empty n).length = n) {T1 T2 : BST Q R} (h1 : T1.Valid) (h2 : T2.Valid)
    (o1 : T1.order ≠ []) (o2 : T2.order ≠ []) {axes1 axes2 : List Nat} {d1 d2 dd : NDArray R} {T' : BST Q R}
    (e1 : T1.todense = .ok d1) (e2 : T2.todense = .ok d2)
    (hd : d1.tensordot d2 axes1 axes2 = .ok dd)
    (hs : T1.tensordot argsort empty T2 axes1 axes2 = .ok T') :
    T'.Valid ∧ (T'.order ≠ [] → ∃ d', T'.todense = .ok d' ∧ d'.Same dd) ∧
      (T'.order = [] → dd.shape = [] ∧ T'.data = [dd.get []]) := by
  obtain ⟨d1', w1, s1, g1⟩ := h1.todense o1
  obtain ⟨d2', w2, s2, g2⟩ := h2.todense o2
  obtain rfl : d1' = d1 := Except.ok.inj (w1.symm.trans e1)
  obtain rfl : d2' = d2 := Except.ok.inj (w2.symm.trans e2)
  have r1 : d1'.ndim = T1.ndim := by rw [NDArray.ndim, s1, List.length_map]; rfl
  have r2 : d2'.ndim = T2.ndim := by rw [NDArray.ndim, s2, List.length_map]; rfl
  rw [NDArray.tensordot] at hd
  split_ifs at hd with hcond
  obtain ⟨hl, n1, n2, l1, l2, hax⟩ := hcond
  rw [r1] at l1
  rw [r2] at l2
  have hd := Except.ok.inj hd
  simp only [r1, r2] at hd
  by_cases hne : axes1 = []
  · subst hne
    obtain rfl : axes2 = [] := List.length_eq_zero_iff.1 hl.symm
    obtain ⟨T'', d', a1, a2, a3, a4, a5, a6⟩ := dot_outer ha h1 h2 o1 s1 s2 g1 g2
    rw [BST.tensordot, if_neg (by simp), if_neg (by simp), if_neg (by simp), if_pos rfl, a1] at hs
    obtain rfl := Except.ok.inj hs
    refine ⟨a2, fun _ => ⟨d', a4, ?_⟩, fun h0 => absurd h0 a3⟩
    have fr : ∀ n, freeAxes n [] = List.range n := fun n => by simp [freeAxes]
    have hshape : ∀ d : NDArray R, (List.range d.ndim).map (fun p => d.shape.getD p 0) = d.shape :=
      fun d => map_range_getD _ _
    rw [← hd, fr, fr]
    refine ⟨?_, ?_⟩
    · rw [a5]
      simp only
      rw [← r1, ← r2, hshape, hshape]
    · intro i hi
      rw [a6 i hi]
      simp only [List.map_nil, sumIdx, List.length_range]
      rw [a5] at hi
      have hil := hi.length
      rw [List.length_append] at hil
      have q1 : d1'.shape.length = T1.ndim := r1
      have q2 : d2'.shape.length = T2.ndim := r2
      rw [mergeIdx_nil (by rw [List.length_take]; omega), mergeIdx_nil (by rw [List.length_drop]; omega)]
  · have hchk : DotChecks T1 T2 axes1 axes2 := checks_of_ok hne hs
    by_cases hf : axes1.length = T1.ndim ∧ axes2.length = T2.ndim
    · obtain ⟨v, a1, a2⟩ := dot_full ha he h1 h2 s1 s2 g1 g2 n1 n2 l1 l2 hl hne hchk hf.1 hf.2
      rw [a1] at hs
      obtain rfl := Except.ok.inj hs
      have fr1 := free_nil n1 l1 hf.1
      have fr2 := free_nil n2 l2 hf.2
      refine ⟨⟨by intro x hx; simp at hx, by simp, by simp, ?_⟩, fun h0 => absurd rfl h0, fun _ => ?_⟩
      · simp [eff, stored, dims, grid, total]
      · rw [← hd, fr1, fr2, a2 hax]
        simp
    · obtain ⟨T'', d', a1, a2, a3, a4, a5⟩ := dot_general ha (empty := empty) h1 h2 s1 s2 g1 g2 n1 n2 l1 l2 hl hne hchk hf
      rw [a1] at hs
      obtain rfl := Except.ok.inj hs
      refine ⟨a2, fun _ => ⟨d', a4, ?_⟩, fun h0 => absurd h0 a3⟩
      rw [← hd]
      exact a5 hax

/-- Two legs which can be contracted: opposite flows, the same charges in the same order. -/
def Opposite (a b : Leg Q) : Prop := a.2 = !b.2 ∧ chargeEq a.1 b.1

/-- The axes can be contracted pairwise: each axis consists of as many legs as its partner, and the
legs can be contracted pairwise. -/
def Matching (T1 T2 : BST Q R) (axes1 axes2 : List Nat) : Prop :=
  List.Forall₂ (fun a b => List.Forall₂ Opposite (pick (T1.order.getD a []) T1.legs (.raw [], false))
    (pick (T2.order.getD b []) T2.legs (.raw [], false))) axes1 axes2

theorem forall₂_flatten {α β : Type} {r : α → β → Prop} {a : List (List α)} {b : List (List β)}
    (h : List.Forall₂ (List.Forall₂ r) a b) : List.Forall₂ r a.flatten b.flatten := by
  induction h with
  | nil => exact .nil
  | cons h _ ih => rw [List.flatten_cons, List.flatten_cons]; exact List.rel_append h ih

theorem checks_of_opposite {a b : List (Leg Q)} (h : List.Forall₂ Opposite a b) :
    b.length = a.length ∧ a.map Prod.snd = b.map (fun l => !l.2) ∧ ∀ p ∈ a.zip b, chargeEq p.1.1 p.2.1 := by
  induction h with
  | nil => simp
  | cons h _ ih =>
    obtain ⟨i1, i2, i3⟩ := ih
    refine ⟨by simp [i1], by simp [i2, h.1], ?_⟩
    intro p hp
    rw [List.zip_cons_cons, List.mem_cons] at hp
    rcases hp with rfl | hp
    · exact h.2
    · exact i3 p hp

theorem opposite_dims {a b : List (Leg Q)} (h : List.Forall₂ Opposite a b) :
    a.map (fun l => l.1.dim) = b.map (fun l => l.1.dim) := by
  induction h with
  | nil => rfl
  | cons h _ ih => rw [List.map_cons, List.map_cons, ih, h.2.1]

/-- C25: axes which match are accepted, by the symmetric and by the dense contraction. -/
theorem C25_accepts [NonUnitalNonAssocSemiring R] {argsort : List Nat → List Nat} (ha : ArgsortOK argsort)
    {empty : Nat → List R} (he : ∀ n, (empty n).length = n) {T1 T2 : BST Q R} (h1 : T1.Valid) (h2 : T2.Valid)
    (o1 : T1.order ≠ []) (o2 : T2.order ≠ []) {axes1 axes2 : List Nat} (n1 : axes1.Nodup) (n2 : axes2.Nodup)
    (l1 : ∀ a ∈ axes1, a < T1.ndim) (l2 : ∀ a ∈ axes2, a < T2.ndim) (hm : Matching T1 T2 axes1 axes2) :
    ∃ T' d1 d2 dd, T1.todense = .ok d1 ∧ T2.todense = .ok d2 ∧ d1.tensordot d2 axes1 axes2 = .ok dd ∧
      T1.tensordot argsort empty T2 axes1 axes2 = .ok T' := by
  obtain ⟨d1, w1, s1, g1⟩ := h1.todense o1
  obtain ⟨d2, w2, s2, g2⟩ := h2.todense o2
  have r1 : d1.ndim = T1.ndim := by rw [NDArray.ndim, s1, List.length_map]; rfl
  have r2 : d2.ndim = T2.ndim := by rw [NDArray.ndim, s2, List.length_map]; rfl
  have hl : axes1.length = axes2.length := hm.length_eq
  have gmem : ∀ (T : BST Q R), T.Valid → ∀ a, a < T.ndim → ∀ n ∈ T.order.getD a [], n < T.legs.length := by
    intro T h a ha n hn
    exact axes_lt h (axes := [a]) (by simpa using ha) n (by simpa [axisLegs] using hn)
  have hax : axes1.map (fun p => d1.shape.getD p 0) = axes2.map (fun p => d2.shape.getD p 0) := by
    clear n1 n2 hl
    induction hm with
    | nil => rfl
    | @cons a b as bs h _ ih =>
      rw [List.map_cons, List.map_cons, ih (fun x hx => l1 x (by simp [hx])) (fun x hx => l2 x (by simp [hx]))]
      congr 1
      have la := l1 a (by simp)
      have lb := l2 b (by simp)
      rw [gshape s1 la, gshape s2 lb, gdim, gdim, ← pick_dims T1 (gmem T1 h1 a la),
        ← pick_dims T2 (gmem T2 h2 b lb)]
      congr 1
      exact opposite_dims h
  have hchk : DotChecks T1 T2 axes1 axes2 := by
    have fl : ∀ (T : BST Q R) (f : List Nat), pick (T.axisLegs f) T.legs (Charge.raw [], false) =
        (f.map (fun a => pick (T.order.getD a []) T.legs (Charge.raw [], false))).flatten := by
      intro T f
      rw [axisLegs, pick, List.map_flatten, List.map_map]; rfl
    rw [DotChecks, fl, fl]
    apply checks_of_opposite
    apply forall₂_flatten
    rw [List.forall₂_map_left_iff, List.forall₂_map_right_iff]
    exact hm
  have hdense : ∃ dd, d1.tensordot d2 axes1 axes2 = .ok dd := by
    rw [NDArray.tensordot, if_pos ⟨hl, n1, n2, by rwa [r1], by rwa [r2], hax⟩]
    exact ⟨_, rfl⟩
  obtain ⟨dd, hdd⟩ := hdense
  by_cases hne : axes1 = []
  · subst hne
    obtain rfl : axes2 = [] := List.length_eq_zero_iff.1 hl.symm
    obtain ⟨T', d', a1, _⟩ := dot_outer ha h1 h2 o1 s1 s2 g1 g2
    exact ⟨T', d1, d2, dd, w1, w2, hdd, by
      rw [BST.tensordot, if_neg (by simp), if_neg (by simp), if_neg (by simp), if_pos rfl, a1]⟩
  · by_cases hf : axes1.length = T1.ndim ∧ axes2.length = T2.ndim
    · obtain ⟨v, a1, _⟩ := dot_full ha he h1 h2 s1 s2 g1 g2 n1 n2 l1 l2 hl hne hchk hf.1 hf.2
      exact ⟨_, d1, d2, dd, w1, w2, hdd, a1⟩
    · obtain ⟨T', d', a1, _⟩ := dot_general ha (empty := empty) h1 h2 s1 s2 g1 g2 n1 n2 l1 l2 hl hne hchk hf
      exact ⟨_, d1, d2, dd, w1, w2, hdd, a1⟩

/-- C25, the number form of `axes`: the last `k` axes of the first with the first `k` of the second. -/
theorem C25_axes [NonUnitalNonAssocSemiring R] {argsort : List Nat → List Nat} (ha : ArgsortOK argsort)
    {empty : Nat → List R} (he : ∀ n, (empty n).length = n) {T1 T2 : BST Q R} (h1 : T1.Valid) (h2 : T2.Valid)
    (o1 : T1.order ≠ []) (o2 : T2.order ≠ []) {k : Nat} {d1 d2 dd : NDArray R} {T' : BST Q R}
    (e1 : T1.todense = .ok d1) (e2 : T2.todense = .ok d2)
    (hd : d1.tensordot d2 (List.range' (d1.ndim - k) k) (List.range k) = .ok dd)
    (hs : T1.tensordotAxes argsort empty T2 (.int k) = .ok T') :
    k ≤ T1.ndim ∧ T'.Valid ∧ (T'.order ≠ [] → ∃ d', T'.todense = .ok d' ∧ d'.Same dd) ∧
      (T'.order = [] → dd.shape = [] ∧ T'.data = [dd.get []]) := by
  obtain ⟨d1', w1, s1, g1⟩ := h1.todense o1
  obtain rfl : d1' = d1 := Except.ok.inj (w1.symm.trans e1)
  have r1 : d1'.ndim = T1.ndim := by rw [NDArray.ndim, s1, List.length_map]; rfl
  rw [BST.tensordotAxes] at hs
  split_ifs at hs with hk
  rw [r1] at hd
  exact ⟨by omega, C25_tensordot ha he h1 h2 o1 o2 e1 e2 hd hs⟩

/-! ## Cases -/

/-- A partner of the example tensor: legs with opposite flow, in another order. -/
def bstEx4 : BST Int Int :=
  ⟨[1, -2, 3, -4, 5, -6, 7], flipFlows legsEx, [[1], [2, 0]]⟩

theorem bstEx4_valid : bstEx4.Valid := ⟨by
  intro l hl
  obtain ⟨l', hl', rfl⟩ := List.mem_map.1 hl
  exact legsEx_wf l' hl', by decide, by decide, by decide⟩

instance (a b : Leg Q) : Decidable (Opposite a b) := by unfold Opposite; infer_instance

/-- Deciding a relation between two lists. -/
def decForall {α β : Type} (r : α → β → Prop) (hr : ∀ a b, Decidable (r a b)) :
    ∀ (a : List α) (b : List β), Decidable (List.Forall₂ r a b)
  | [], [] => .isTrue .nil
  | [], _ :: _ => .isFalse (by rintro ⟨⟩)
  | _ :: _, [] => .isFalse (by rintro ⟨⟩)
  | x :: a, y :: b =>
    have := hr x y
    have := decForall r hr a b
    decidable_of_iff (r x y ∧ List.Forall₂ r a b) List.forall₂_cons.symm

instance (T1 T2 : BST Q R) (a b : List Nat) : Decidable (Matching T1 T2 a b) := by
  unfold Matching
  exact decForall _ (fun _ _ => decForall _ (fun _ _ => inferInstance) _ _) _ _

/-- The fused axis of the first with that of the second; the free axes remain. -/
example := C25_accepts (argsort := argsortI) argsortI_ok (empty := fun n => List.replicate n (0 : Int)) (by simp)
  bstEx_valid bstEx4_valid (by decide) (by decide) (axes1 := [0]) (axes2 := [1]) (by decide) (by decide) (by decide)
  (by decide) (by decide)

/-- All axes. -/
example := C25_accepts (argsort := argsortI) argsortI_ok (empty := fun n => List.replicate n (0 : Int)) (by simp)
  bstEx_valid bstEx4_valid (by decide) (by decide) (axes1 := [0, 1]) (axes2 := [1, 0]) (by decide) (by decide)
  (by decide) (by decide) (by decide)

/-- No axes. -/
example := C25_accepts (argsort := argsortI) argsortI_ok (empty := fun n => List.replicate n (0 : Int)) (by simp)
  bstEx_valid bstEx4_valid (by decide) (by decide) (axes1 := []) (axes2 := []) (by decide) (by decide)
  (by decide) (by decide) (by decide)

/-- C25, what fails: only the flattened lists of legs are compared, so that axes of different sizes are
contracted which the dense contraction refuses. -/
theorem C25_grouping_false : ∃ (T1 T2 : BST Int Int) (d1 d2 : NDArray Int) (T' : BST Int Int), T1.Valid ∧ T2.Valid ∧
    T1.todense = .ok d1 ∧ T2.todense = .ok d2 ∧ d1.tensordot d2 [0, 1] [0, 1] = .error .valueError ∧
    T1.tensordot argsortI (fun n => List.replicate n 0) T2 [0, 1] [0, 1] = .ok T' := by
  obtain ⟨T1, hT1⟩ : ∃ T : BST Int Int, T = ⟨[5], [(.raw [0], false), (.raw [0, 1], false), (.raw [0], false)],
    [[0], [1, 2]]⟩ := ⟨_, rfl⟩
  obtain ⟨T2, hT2⟩ : ∃ T : BST Int Int, T = ⟨[7], [(.raw [0], true), (.raw [0, 1], true), (.raw [0], true)],
    [[0, 1], [2]]⟩ := ⟨_, rfl⟩
  have v1 : T1.Valid := by
    subst hT1
    exact ⟨by intro l hl; simp at hl; rcases hl with rfl | rfl | rfl <;> trivial, by decide, by decide, by decide⟩
  have v2 : T2.Valid := by
    subst hT2
    exact ⟨by intro l hl; simp at hl; rcases hl with rfl | rfl | rfl <;> trivial, by decide, by decide, by decide⟩
  obtain ⟨d1, w1, s1, g1⟩ := v1.todense (by subst hT1; decide)
  obtain ⟨d2, w2, s2, g2⟩ := v2.todense (by subst hT2; decide)
  obtain ⟨v, a1, _⟩ := dot_full argsortI_ok (empty := fun n => List.replicate n (0 : Int)) (by simp) v1 v2 s1 s2 g1 g2
    (axes1 := [0, 1]) (axes2 := [0, 1]) (by decide) (by decide) (by subst hT1; decide) (by subst hT2; decide) rfl
    (by decide) (by subst hT1; subst hT2; exact ⟨by decide, by decide, by decide⟩) (by subst hT1; decide)
    (by subst hT2; decide)
  refine ⟨T1, T2, d1, d2, _, v1, v2, w1, w2, ?_, a1⟩
  rw [NDArray.tensordot, if_neg]
  rintro ⟨_, _, _, _, _, h⟩
  rw [s1, s2, hT1, hT2] at h
  revert h
  decide

/-- C25, what fails: the outer product of two tensors without axes, such as the results of full
contractions, raises an error. -/
theorem C25_scalar_false {argsort : List Nat → List Nat} (T1 T2 : BST Int Int) (h1 : T1.legs = []) (h2 : T2.legs = []) :
    T1.outer argsort T2 = .error .indexError := by
  rw [BST.outer, h1, h2]
  rfl

end
end TN.Bs
