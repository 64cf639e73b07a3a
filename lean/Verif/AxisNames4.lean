import Verif.AxisNames3

/-!
# Names in `flatten_edges` and `split_edge`
-/

namespace TN.Graph

open TN

set_option linter.unusedSectionVars false

variable {R α β : Type}

theorem map_range_getD (l : List String) (k : Nat) (hk : k ≤ l.length) :
    (List.range k).map (fun i => l.getD i "") = l.take k := by
  apply List.ext_getElem
  · simp [hk]
  · intro i h1 h2
    simp at h1
    simp [List.getD, List.getElem?_eq_getElem (show i < l.length by omega)]

theorem trimNames_ok {h : Heap R} {nm : AxTab} {n : NId} {old new : List String} {k all : Nat} (hk : k ≤ old.length)
    (hold : old = [] → defaultNames all = new) (hd : (h.node n).tensor.ndim = k + new.length) :
    trimNames n old k new all (h, nm) = (.ok (), (h, Function.update nm n (old.take k ++ new))) := by
  unfold trimNames
  by_cases ho : old = []
  · rw [if_pos ho, hold ho]
    subst ho
    have hk0 : k = 0 := by simpa using hk
    rw [setNames_ok (by rw [hd]; omega)]
    simp
  · rw [if_neg ho, pick_ok _ (fun i hi => lt_of_lt_of_le (List.mem_range.1 hi) hk), map_range_getD _ _ hk]
    exact setNames_ok (by rw [List.length_append, List.length_take, hd]; omega)

/-- The part of a round of `flatten_edges` after `reorder_axes`. -/
def flattenTail (n : NId) (k : Nat) : M R EId := do
  let t ← nodeTensor n
  let t' ← M.lift (t.reshape (t.shape.take k ++ [(t.shape.drop k).prod]))
  setTensor n t'
  let e ← newDangling n k
  let es' ← nodeEdges n
  setEdges n (es'.take k ++ [e])
  pure e

theorem reshape_ndim {t t' : NDArray R} {s : List Nat} (h : t.reshape s = .ok t') : t'.ndim = s.length := by
  unfold NDArray.reshape at h
  split_ifs at h
  cases h
  rfl

theorem flattenTail_error {h h2 : Heap R} {n : NId} {k : Nat} {x : PyErr}
    (hr : flattenTail n k h = (.error x, h2)) : h2 = h := by
  unfold flattenTail at hr
  rw [M.bind_ok (nodeTensor_eq n), M.bind_apply, M.lift_apply] at hr
  rcases ht : (h.node n).tensor.reshape ((h.node n).tensor.shape.take k ++
    [((h.node n).tensor.shape.drop k).prod]) with e | t'
  · rw [ht] at hr
    exact (Prod.mk.inj hr).2.symm
  · rw [ht] at hr
    cases (Prod.mk.inj hr).1

theorem flattenTail_ok {h h2 : Heap R} {n : NId} {k : Nat} {e : EId}
    (hr : flattenTail n k h = (.ok e, h2)) :
    (h2.node n).edges = (h.node n).edges.take k ++ [e] ∧ (h2.node n).tensor.ndim = min k (h.node n).tensor.ndim + 1 ∧
      ∀ m, m ≠ n → h2.node m = h.node m := by
  unfold flattenTail at hr
  rw [M.bind_ok (nodeTensor_eq n), M.bind_apply, M.lift_apply] at hr
  rcases ht : (h.node n).tensor.reshape ((h.node n).tensor.shape.take k ++
    [((h.node n).tensor.shape.drop k).prod]) with x | t'
  · rw [ht] at hr
    cases (Prod.mk.inj hr).1
  · rw [ht] at hr
    simp only at hr
    have hd := reshape_ndim ht
    obtain ⟨h3, h4⟩ := Prod.mk.inj hr
    have he : h.ne = e := Except.ok.inj h3
    subst h4
    refine ⟨?_, ?_, fun m hm => ?_⟩
    · rw [← he]
      simp
    · simpa [NDArray.ndim] using hd
    · simp [hm]

/-- A round of `flatten_edges` at a node with enough names: the first names of the old list stay. -/
theorem flattenAtN_run {h h2 : Heap R} {n : NId} {E : List EId} (hE : E ≠ []) {e : EId}
    (hr : flattenAt E n h = (.ok e, h2)) {nm : AxTab} (hl : (h.node n).edges.length ≤ (nm n).length) :
    flattenAtN E n (h, nm) = (.ok e, (h2, Function.update nm n ((nm n).take (h2.node n).edges.length))) ∧
      (h2.node n).edges.length + E.length = (h.node n).edges.length + 1 ∧ (∀ m, m ≠ n → h2.node m = h.node m) := by
  unfold flattenAt at hr
  rw [M.bind_ok (nodeEdges_eq n)] at hr
  by_cases c : ∃ e ∈ E, e ∉ (h.node n).edges
  · rw [if_pos c] at hr; cases hr
  rw [if_neg c] at hr
  set permBack := E.map (fun e => (h.node n).edges.idxOf e) with hpb
  set permFront := otherAxes (h.node n).edges.length permBack with hpf
  rw [M.bind_apply] at hr
  rcases hro : reorderAxes n (permFront ++ permBack) h with ⟨x | u, h1⟩
  · rw [hro] at hr; cases hr
  rw [hro] at hr
  simp only at hr
  change flattenTail n permFront.length h1 = _ at hr
  obtain ⟨hp, hd⟩ := reorderAxes_inv hro
  obtain ⟨hel, hoth⟩ := reorderAxes_inv' hro
  obtain ⟨t1, t2, t3⟩ := flattenTail_ok hr
  have hpl := hp.length_eq
  rw [List.length_append, List.length_range] at hpl
  have hbl : permBack.length = E.length := by rw [hpb, List.length_map]
  have hpos : 0 < E.length := List.length_pos_iff.2 hE
  rw [List.length_append] at hd hel
  have hlen : (h2.node n).edges.length = permFront.length + 1 := by
    rw [t1, List.length_append, List.length_take, hel]
    simp
  refine ⟨?_, by omega, fun m hm => by rw [t3 m hm, hoth m hm]⟩
  unfold flattenAtN
  rw [NM.bind_ok (x := NM.names n) (a := nm n) (s' := (h, nm)) rfl, NM.bind_ok (NM.lift_ok (nodeEdges_eq n) nm), if_neg c]
  rw [← hpb, ← hpf, NM.bind_ok (reorderAxesN_run hro hl)]
  change ((NM.lift (flattenTail n permFront.length) >>= _ : NM R EId)) _ = _
  rw [NM.bind_ok (NM.lift_ok hr _), NM.bind_ok (NM.lift_ok (nodeEdges_eq n) _), NM.bind_ok (trimNames_ok (by omega)
    (fun ho => by rw [ho] at hl; simp only [List.length_nil, Nat.le_zero] at hl; omega)
    (by rw [t2, hd, hlen]; simp)), Function.update_idem, List.append_nil]
  rfl

theorem flattenAt_noGrow_of_error {h h2 : Heap R} {n : NId} {E : List EId} {x : PyErr}
    (hr : flattenAt E n h = (.error x, h2)) {nm : AxTab} (hn : Named (h, nm)) :
    ∃ nm', flattenAtN E n (h, nm) = (.error x, (h2, nm')) ∧ Named (h2, nm') := by
  unfold flattenAt at hr
  unfold flattenAtN
  rw [M.bind_ok (nodeEdges_eq n)] at hr
  rw [NM.bind_ok (x := NM.names n) (a := nm n) (s' := (h, nm)) rfl, NM.bind_ok (NM.lift_ok (nodeEdges_eq n) nm)]
  by_cases c : ∃ e ∈ E, e ∉ (h.node n).edges
  · rw [if_pos c] at hr ⊢
    have h3 := Prod.mk.inj hr
    have h4 : PyErr.valueError = x := Except.error.inj h3.1
    have h5 : h = h2 := h3.2
    subst h4 h5
    exact ⟨nm, rfl, hn⟩
  rw [if_neg c] at hr ⊢
  set permBack := E.map (fun e => (h.node n).edges.idxOf e) with hpb
  set permFront := otherAxes (h.node n).edges.length permBack with hpf
  have hs := Sim.reorderAxes (R := R) n (permFront ++ permBack) h nm hn
  rw [M.bind_apply] at hr
  rcases hro : reorderAxes n (permFront ++ permBack) h with ⟨y | u, h1⟩
  · rw [hro] at hr
    have h3 := Prod.mk.inj hr
    have h4 : y = x := Except.error.inj h3.1
    have h5 : h1 = h2 := h3.2
    subst h4 h5
    obtain ⟨s1, s2, s3⟩ := hs
    rcases hy : reorderAxesN n (permFront ++ permBack) (h, nm) with ⟨r, h', nm'⟩
    rw [hy, hro] at s1 s2
    rw [hy] at s3
    simp only at s1 s2
    subst s1 s2
    exact ⟨nm', NM.bind_error hy, s3⟩
  · rw [hro] at hr
    simp only at hr
    change flattenTail n permFront.length h1 = _ at hr
    have h5 := flattenTail_error hr
    subst h5
    obtain ⟨s1, s2, s3⟩ := hs
    rcases hy : reorderAxesN n (permFront ++ permBack) (h, nm) with ⟨r, h', nm'⟩
    rw [hy, hro] at s1 s2
    rw [hy] at s3
    simp only at s1 s2
    subst s1 s2
    refine ⟨nm', ?_, s3⟩
    rw [NM.bind_ok hy]
    refine NM.bind_error ?_
    change NM.lift (flattenTail n permFront.length) _ = _
    rw [NM.lift, hr]

theorem Sim.flattenAt {E : List EId} (hE : E ≠ []) (n : NId) : Sim (flattenAt E n : M R EId) (flattenAtN E n) := by
  intro h nm hn
  rcases hr : Graph.flattenAt E n h with ⟨x | e, h2⟩
  · obtain ⟨nm', k1, k2⟩ := flattenAt_noGrow_of_error hr hn
    exact ⟨by rw [k1, hr], by rw [k1, hr], by rw [k1]; exact k2⟩
  · obtain ⟨k1, k2, k3⟩ := flattenAtN_run hE hr (hn n)
    refine ⟨by rw [k1, hr], by rw [k1, hr], ?_⟩
    rw [k1]
    intro m
    change (h2.node m).edges.length ≤ (Function.update nm n _ m).length
    by_cases hm : m = n
    · subst hm
      rw [Function.update_self, List.length_take]
      have := List.length_pos_iff.2 hE
      have h3 : (h.node m).edges.length ≤ (nm m).length := hn m
      change _ ≤ min _ (nm m).length
      omega
    · rw [Function.update_of_ne hm, k3 m hm]
      exact hn m

/-- The part of a round of `split_edge` after `reorder_axes`. -/
def splitTail (n : NId) (k : Nat) (shape : List Nat) : M R (List EId) := do
  let t ← nodeTensor n
  let t' ← M.lift (t.reshape (t.shape.take k ++ shape))
  setTensor n t'
  let es' ← nodeEdges n
  setEdges n (es'.take k)
  M.mapEach (List.range shape.length) fun idx => do
    let f ← newDangling n (k + idx)
    let es'' ← nodeEdges n
    setEdges n (es'' ++ [f])
    pure f

theorem splitLoop_run (n : NId) (k : Nat) : ∀ (l : List Nat) (h : Heap R), ∃ fs h2,
    M.mapEach l (fun idx => do
      let f ← newDangling n (k + idx)
      let es'' ← nodeEdges n
      setEdges n (es'' ++ [f])
      pure f) h = (.ok fs, h2) ∧ fs.length = l.length ∧ (h2.node n).edges = (h.node n).edges ++ fs ∧
      (h2.node n).tensor = (h.node n).tensor ∧ ∀ m, m ≠ n → h2.node m = h.node m
  | [], h => ⟨[], h, rfl, rfl, by simp, rfl, fun _ _ => rfl⟩
  | i :: l, h => by
    obtain ⟨h1, hh1⟩ : ∃ h1 : Heap R, (do
      let f ← newDangling n (k + i)
      let es'' ← nodeEdges n
      setEdges n (es'' ++ [f])
      pure f : M R EId) h = (.ok h.ne, h1) := ⟨_, rfl⟩
    have hn1 : h1.node = Function.update h.node n ⟨(h.node n).tensor, (h.node n).edges ++ [h.ne]⟩ := by
      have := (Prod.mk.inj hh1).2
      rw [← this]; rfl
    obtain ⟨fs, h2, k1, k2, k3, k4, k5⟩ := splitLoop_run n k l h1
    refine ⟨h.ne :: fs, h2, ?_, by simp [k2], ?_, ?_, fun m hm => ?_⟩
    · rw [M.mapEach_cons, M.bind_ok hh1, M.bind_ok k1]; rfl
    · rw [k3, hn1, Function.update_self]; simp
    · rw [k4, hn1, Function.update_self]
    · rw [k5 m hm, hn1, Function.update_of_ne hm]

theorem splitTail_error {h h2 : Heap R} {n : NId} {k : Nat} {shape : List Nat} {x : PyErr}
    (hr : splitTail n k shape h = (.error x, h2)) : h2 = h := by
  unfold splitTail at hr
  rw [M.bind_ok (nodeTensor_eq n), M.bind_apply, M.lift_apply] at hr
  rcases ht : (h.node n).tensor.reshape ((h.node n).tensor.shape.take k ++ shape) with e | t'
  · rw [ht] at hr
    exact (Prod.mk.inj hr).2.symm
  · rw [ht] at hr
    simp only at hr
    obtain ⟨h1, hh1⟩ : ∃ h1 : Heap R, h1 = (h.setNode n ⟨t', (h.node n).edges⟩).setNode n
      ⟨((h.setNode n ⟨t', (h.node n).edges⟩).node n).tensor,
        ((h.setNode n ⟨t', (h.node n).edges⟩).node n).edges.take k⟩ := ⟨_, rfl⟩
    obtain ⟨fs, h3, k1, _⟩ := splitLoop_run (R := R) n k (List.range shape.length) h1
    rw [M.bind_ok (x := setTensor n t') (a := ()) (h' := h.setNode n ⟨t', (h.node n).edges⟩) rfl,
      M.bind_ok (nodeEdges_eq n), M.bind_ok (x := setEdges n _) (a := ()) (h' := h1) (by rw [hh1]; rfl), k1] at hr
    cases (Prod.mk.inj hr).1

theorem splitTail_ok {h h2 : Heap R} {n : NId} {k : Nat} {shape : List Nat} {fs : List EId}
    (hr : splitTail n k shape h = (.ok fs, h2)) :
    (h2.node n).edges = (h.node n).edges.take k ++ fs ∧ fs.length = shape.length ∧
      (h2.node n).tensor.ndim = min k (h.node n).tensor.ndim + shape.length ∧
      ∀ m, m ≠ n → h2.node m = h.node m := by
  unfold splitTail at hr
  rw [M.bind_ok (nodeTensor_eq n), M.bind_apply, M.lift_apply] at hr
  rcases ht : (h.node n).tensor.reshape ((h.node n).tensor.shape.take k ++ shape) with e | t'
  · rw [ht] at hr
    cases (Prod.mk.inj hr).1
  · rw [ht] at hr
    simp only at hr
    have hd := reshape_ndim ht
    obtain ⟨h1, hh1⟩ : ∃ h1 : Heap R, h1 = (h.setNode n ⟨t', (h.node n).edges⟩).setNode n
      ⟨((h.setNode n ⟨t', (h.node n).edges⟩).node n).tensor,
        ((h.setNode n ⟨t', (h.node n).edges⟩).node n).edges.take k⟩ := ⟨_, rfl⟩
    obtain ⟨fs', h3, k1, k2, k3, k4, k5⟩ := splitLoop_run (R := R) n k (List.range shape.length) h1
    rw [M.bind_ok (x := setTensor n t') (a := ()) (h' := h.setNode n ⟨t', (h.node n).edges⟩) rfl,
      M.bind_ok (nodeEdges_eq n), M.bind_ok (x := setEdges n _) (a := ()) (h' := h1) (by rw [hh1]; rfl), k1] at hr
    obtain ⟨r1, r2⟩ := Prod.mk.inj hr
    have r1' : fs' = fs := Except.ok.inj r1
    subst r1' r2
    refine ⟨?_, by simpa using k2, ?_, fun m hm => ?_⟩
    · rw [k3, hh1]; simp
    · rw [k4, hh1]; simpa [NDArray.ndim] using hd
    · rw [k5 m hm, hh1]; simp [hm]

/-- The names of the new axes that `split_edge` uses when none are given. -/
def splitDefault (k j : Nat) : List String := (List.range j).map (fun i => toString (k + i))

/-- A round of `split_edge` at a node with enough names. -/
theorem splitAtN_run {h h2 : Heap R} {n : NId} {f : EId} {shape : List Nat} {fs : List EId}
    (hr : splitAt f shape n h = (.ok fs, h2)) {new : Option (List String)} (hnew : ∀ l, new = some l → l.length = shape.length)
    {nm : AxTab} (hl : (h.node n).edges.length ≤ (nm n).length) :
    splitAtN f shape new n (h, nm) = (.ok fs, (h2, Function.update nm n ((nm n).take ((h.node n).edges.length - 1) ++
        new.getD (splitDefault ((h.node n).edges.length - 1) shape.length)))) ∧
      (h2.node n).edges.length + 1 = (h.node n).edges.length + shape.length ∧ (∀ m, m ≠ n → h2.node m = h.node m) := by
  unfold splitAt at hr
  rw [M.bind_ok (nodeEdges_eq n)] at hr
  by_cases c : f ∉ (h.node n).edges
  · rw [if_pos c] at hr; cases hr
  rw [if_neg c] at hr
  set permBack := [(h.node n).edges.idxOf f] with hpb
  set permFront := otherAxes (h.node n).edges.length permBack with hpf
  rw [M.bind_apply] at hr
  rcases hro : reorderAxes n (permFront ++ permBack) h with ⟨x | u, h1⟩
  · rw [hro] at hr; cases hr
  rw [hro] at hr
  simp only at hr
  change splitTail n permFront.length shape h1 = _ at hr
  obtain ⟨hp, hd⟩ := reorderAxes_inv hro
  obtain ⟨hel, hoth⟩ := reorderAxes_inv' hro
  obtain ⟨t1, t0, t2, t3⟩ := splitTail_ok hr
  have hpl := hp.length_eq
  rw [List.length_append, List.length_range] at hpl
  have hbl : permBack.length = 1 := rfl
  rw [List.length_append] at hd hel
  have hk : permFront.length = (h.node n).edges.length - 1 := by omega
  have hlen : (h2.node n).edges.length = permFront.length + shape.length := by
    rw [t1, List.length_append, List.length_take, hel, t0]
    omega
  refine ⟨?_, by omega, fun m hm => by rw [t3 m hm, hoth m hm]⟩
  unfold splitAtN
  rw [NM.bind_ok (x := NM.names n) (a := nm n) (s' := (h, nm)) rfl, NM.bind_ok (NM.lift_ok (nodeEdges_eq n) nm), if_neg c]
  rw [← hpb, ← hpf, NM.bind_ok (reorderAxesN_run hro hl)]
  change ((NM.lift (splitTail n permFront.length shape) >>= _ : NM R (List EId))) _ = _
  rw [NM.bind_ok (NM.lift_ok hr _), NM.bind_ok (NM.lift_ok (nodeEdges_eq n) _), hlen, Nat.add_sub_cancel_left]
  have hnl : (new.getD ((List.range shape.length).map (fun i => toString (permFront.length + i)))).length = shape.length := by
    cases new with
    | none => simp
    | some l => simpa using hnew l rfl
  rw [NM.bind_ok (trimNames_ok (by omega)
    (fun ho => by rw [ho] at hl; simp only [List.length_nil, Nat.le_zero] at hl; omega)
    (by rw [t2, hd, hnl]; omega)), Function.update_idem, ← hk]
  rfl

theorem splitAt_noGrow_of_error {h h2 : Heap R} {n : NId} {f : EId} {shape : List Nat} {new : Option (List String)} {x : PyErr}
    (hr : splitAt f shape n h = (.error x, h2)) {nm : AxTab} (hn : Named (h, nm)) :
    ∃ nm', splitAtN f shape new n (h, nm) = (.error x, (h2, nm')) ∧ Named (h2, nm') := by
  unfold splitAt at hr
  unfold splitAtN
  rw [M.bind_ok (nodeEdges_eq n)] at hr
  rw [NM.bind_ok (x := NM.names n) (a := nm n) (s' := (h, nm)) rfl, NM.bind_ok (NM.lift_ok (nodeEdges_eq n) nm)]
  by_cases c : f ∉ (h.node n).edges
  · rw [if_pos c] at hr ⊢
    have h3 := Prod.mk.inj hr
    have h4 : PyErr.valueError = x := Except.error.inj h3.1
    have h5 : h = h2 := h3.2
    subst h4 h5
    exact ⟨nm, rfl, hn⟩
  rw [if_neg c] at hr ⊢
  set permBack := [(h.node n).edges.idxOf f] with hpb
  set permFront := otherAxes (h.node n).edges.length permBack with hpf
  have hs := Sim.reorderAxes (R := R) n (permFront ++ permBack) h nm hn
  rw [M.bind_apply] at hr
  rcases hro : reorderAxes n (permFront ++ permBack) h with ⟨y | u, h1⟩
  · rw [hro] at hr
    have h3 := Prod.mk.inj hr
    have h4 : y = x := Except.error.inj h3.1
    have h5 : h1 = h2 := h3.2
    subst h4 h5
    obtain ⟨s1, s2, s3⟩ := hs
    rcases hy : reorderAxesN n (permFront ++ permBack) (h, nm) with ⟨r, h', nm'⟩
    rw [hy, hro] at s1 s2
    rw [hy] at s3
    simp only at s1 s2
    subst s1 s2
    exact ⟨nm', NM.bind_error hy, s3⟩
  · rw [hro] at hr
    simp only at hr
    change splitTail n permFront.length shape h1 = _ at hr
    have h5 := splitTail_error hr
    subst h5
    obtain ⟨s1, s2, s3⟩ := hs
    rcases hy : reorderAxesN n (permFront ++ permBack) (h, nm) with ⟨r, h', nm'⟩
    rw [hy, hro] at s1 s2
    rw [hy] at s3
    simp only at s1 s2
    subst s1 s2
    refine ⟨nm', ?_, s3⟩
    rw [NM.bind_ok hy]
    refine NM.bind_error ?_
    change NM.lift (splitTail n permFront.length shape) _ = _
    rw [NM.lift, hr]

theorem Sim.splitAt (f : EId) (shape : List Nat) {new : Option (List String)}
    (hnew : ∀ l, new = some l → l.length = shape.length) (n : NId) :
    Sim (splitAt f shape n : M R (List EId)) (splitAtN f shape new n) := by
  intro h nm hn
  rcases hr : Graph.splitAt f shape n h with ⟨x | e, h2⟩
  · obtain ⟨nm', k1, k2⟩ := splitAt_noGrow_of_error (new := new) hr hn
    exact ⟨by rw [k1, hr], by rw [k1, hr], by rw [k1]; exact k2⟩
  · obtain ⟨k1, k2, k3⟩ := splitAtN_run hr hnew (hn n)
    refine ⟨by rw [k1, hr], by rw [k1, hr], ?_⟩
    rw [k1]
    intro m
    change (h2.node m).edges.length ≤ (Function.update nm n _ m).length
    by_cases hm : m = n
    · subst hm
      have hnl : (new.getD (splitDefault ((h.node m).edges.length - 1) shape.length)).length = shape.length := by
        cases new with
        | none => simp [splitDefault]
        | some l => simpa using hnew l rfl
      rw [Function.update_self, List.length_append, List.length_take, hnl]
      have h3 : (h.node m).edges.length ≤ (nm m).length := hn m
      change _ ≤ min _ (nm m).length + _
      omega
    · rw [Function.update_of_ne hm, k3 m hm]
      exact hn m

end TN.Graph
