import Verif.GraphTrace

/-!
# Reordering axes

`reorder_axes` and `reorder_edges` on consistent graphs.
-/

namespace TN.Graph

open TN

variable {R : Type}

/-- `h'` is `h` with the axes of node `n` reordered so that the edges are `es`. -/
structure Reordered [CommSemiring R] (h h' : Heap R) (n : NId) (es : List EId) : Prop where
  wf : WF h'
  nn : h'.nn = h.nn
  ne : h'.ne = h.ne
  other : ∀ m, m ≠ n → h'.node m = h.node m
  edges : (h'.node n).edges = es
  dangling : ∀ e, InUse h e → (h'.edge e).dangling = (h.edge e).dangling
  inUse : ∀ e, InUse h' e ↔ InUse h e
  record : ∀ e, ¬ InUse h e → h'.edge e = h.edge e
  dim : ∀ e, InUse h e → edim h' e = edim h e
  perm : es.Perm (h.node n).edges
  /-- the entry at given positions of the edges is unchanged -/
  entry : ∀ σ : EId → Nat, val (h'.node n).tensor es σ = val (h.node n).tensor (h.node n).edges σ
  /-- no network changes its value -/
  value : ∀ ns : List NId, (∀ m ∈ ns, m < h.nn) → ∀ σ : EId → Nat,
    netVal (netOf h' ns) σ = netVal (netOf h ns) σ

/-- The moves of `reorder_axes`. -/
def reorderMoves (n : NId) (es : List EId) (perm : List Nat) : List (EId × Slot × Slot) :=
  perm.zipIdx.map fun p => (es.getD p.1 default, (n, p.1), (n, p.2))

theorem reorderMoves_olds (n : NId) (es : List EId) (perm : List Nat) :
    (reorderMoves n es perm).map (fun u => u.2.1) = perm.map (fun p => (n, p)) := by
  rw [reorderMoves, List.map_map]
  have : ((fun u : EId × Slot × Slot => u.2.1) ∘ fun p : Nat × Nat =>
      (es.getD p.1 default, (n, p.1), (n, p.2))) = (fun p => (n, p)) ∘ Prod.fst := rfl
  rw [this, ← List.map_map, List.zipIdx_map_fst]

/-- The axis map of `reorder_axes`. -/
def reorderMap (n : NId) (perm : List Nat) (s : Slot) : Slot :=
  if s.1 = n then (n, perm.idxOf s.2) else s

theorem getD_of_at {h : Heap R} {n : NId} {k : Nat} {e : EId} (hs : At h (n, k) e) :
    (h.node n).edges.getD k default = e := by
  rw [List.getD_eq_getElem?_getD, hs.2]; rfl

theorem at_of_lt {h : Heap R} {n : NId} (hn : n < h.nn) {k : Nat}
    (hk : k < (h.node n).edges.length) : At h (n, k) ((h.node n).edges.getD k default) :=
  ⟨hn, by rw [List.getD_eq_getElem _ _ hk, List.getElem?_eq_getElem hk]⟩

theorem reorder_core [CommSemiring R] {h : Heap R} (w : WF h) {n : NId} (hn : n < h.nn)
    {perm : List Nat} (hp : perm.Perm (List.range (h.node n).edges.length)) {x : Heap R}
    (hx1 : ∀ m, (x.node m).edges = (h.node m).edges) (hx2 : x.edge = h.edge) (hx3 : x.nn = h.nn)
    (hx4 : x.ne = h.ne) :
    ∃ t', (h.node n).tensor.transpose perm = .ok t' ∧
      ∃ x2, updAll (reorderMoves n (h.node n).edges perm) x = (.ok (), x2) ∧ x2.node = x.node ∧
        x2.nn = h.nn ∧ x2.ne = h.ne ∧
        ∀ h' : Heap R, h'.node = Function.update h.node n
            ⟨t', perm.map (fun p => (h.node n).edges.getD p default)⟩ →
          h'.edge = x2.edge → h'.nn = h.nn → h'.ne = h.ne →
          Reordered h h' n (perm.map (fun p => (h.node n).edges.getD p default)) := by
  obtain ⟨t', t1, t2, t3⟩ := transpose_val (w.shaped hn) hp
  have hat : ∀ s e, At x s e ↔ At h s e := by
    intro s e; simp only [At, hx1, hx3]
  have hinuse : ∀ e, InUse x e ↔ InUse h e := by
    intro e; simp only [InUse, hat]
  have hlink : Linked x := by
    intro e hu
    rw [hx2]
    obtain ⟨a, b, c⟩ := w.linked e ((hinuse e).1 hu)
    exact ⟨a, b, fun s => (c s).trans (hat s e).symm⟩
  have hpn : perm.Nodup := hp.nodup_iff.2 List.nodup_range
  have hmem : ∀ p, p ∈ perm ↔ p < (h.node n).edges.length := by
    intro p; rw [hp.mem_iff, List.mem_range]
  have hplen : perm.length = (h.node n).edges.length := by rw [hp.length_eq]; simp
  obtain ⟨x2, u1, u2, u3, u4, u5, u6⟩ := moveSlots' hlink
    (U := reorderMoves n (h.node n).edges perm) (φ := reorderMap n perm)
    (by
      rw [reorderMoves_olds]
      exact hpn.map (fun a b hab => (Prod.mk.inj hab).2))
    (by
      intro u hu
      obtain ⟨p, hp', rfl⟩ := List.mem_map.1 hu
      rw [hat]
      exact at_of_lt hn ((hmem _).1 (List.fst_mem_of_mem_zipIdx hp')))
    (by
      intro u hu
      obtain ⟨⟨p, i⟩, hp', rfl⟩ := List.mem_map.1 hu
      simp only [reorderMap, if_true]
      have h1 := List.mem_zipIdx_iff_getElem?.1 hp'
      obtain ⟨h2, h3⟩ := List.getElem?_eq_some_iff.1 h1
      simp only at h3 h2
      subst h3
      rw [hpn.idxOf_getElem])
    (by
      intro s e hs hns
      rw [reorderMoves_olds] at hns
      unfold reorderMap
      rw [if_neg]
      intro h1
      apply hns
      refine List.mem_map.2 ⟨s.2, ?_, Prod.ext h1.symm rfl⟩
      have h2 := ((hat s e).1 hs).lt_len
      rw [h1] at h2
      exact (hmem _).2 h2)
  refine ⟨t', t1, x2, u1, u2, u3.trans hx3, u4.trans hx4, fun h' e1 e2 e3 e4 => ?_⟩
  have hnode : h'.node n = ⟨t', perm.map (fun p => (h.node n).edges.getD p default)⟩ := by
    rw [e1, Function.update_self]
  have hother : ∀ m, m ≠ n → h'.node m = h.node m := by
    intro m hm; rw [e1, Function.update_of_ne hm]
  have hedges : ∀ e, InUse h e → (h'.edge e).Good ∧
      (h'.edge e).dangling = (h.edge e).dangling ∧
      (h'.edge e).ends = (h.edge e).ends.map (reorderMap n perm) := by
    intro e hu
    have := u6 e ((hinuse e).2 hu)
    rw [hx2] at this
    rw [e2]
    exact this
  have hdimn : ∀ k, k < (h.node n).edges.length → dimAt h' (n, perm.idxOf k) = dimAt h (n, k) := by
    intro k hk
    simp only [dimAt, Heap.shape, hnode]
    rw [t2]
    have hi : perm.idxOf k < perm.length := List.idxOf_lt_length_of_mem ((hmem k).2 hk)
    rw [List.getD_eq_getElem _ _ (by simpa using hi)]
    simp only [List.getElem_map, List.getElem_idxOf]
    rw [w.edim_eq (at_of_lt hn hk)]
    rfl
  have sur : Surgery h h' (reorderMap n perm) (fun _ => False) := by
    refine ⟨?_, e4.ge, ?_, ?_, ?_⟩
    · intro m hm
      by_cases h1 : m = n
      · subst h1
        rw [hnode]; exact t2.ndim.symm
      · rw [hother m h1]; exact w.len m (e3 ▸ hm)
    · intro s e hs _
      obtain ⟨g1, _, g3⟩ := hedges e hs.inUse
      refine ⟨?_, ?_, g1, g3⟩
      · unfold reorderMap
        by_cases h1 : s.1 = n
        · rw [if_pos h1]
          obtain ⟨m, k⟩ := s
          simp only at h1
          subst h1
          refine ⟨by rw [e3]; exact hn, ?_⟩
          simp only [hnode]
          have hk := hs.lt_len
          simp only at hk
          have hi : perm.idxOf k < perm.length := List.idxOf_lt_length_of_mem ((hmem k).2 hk)
          rw [List.getElem?_map, List.getElem?_eq_getElem hi, List.getElem_idxOf]
          simp only [Option.map_some]
          rw [getD_of_at hs]
        · rw [if_neg h1]
          exact ⟨by rw [e3]; exact hs.1, by rw [hother _ h1]; exact hs.2⟩
      · unfold reorderMap
        by_cases h1 : s.1 = n
        · rw [if_pos h1]
          obtain ⟨m, k⟩ := s
          simp only at h1
          subst h1
          exact hdimn k hs.lt_len
        · rw [if_neg h1]
          simp only [dimAt, Heap.shape, hother _ h1]
    · intro s s' e hs hs' _ hφ
      unfold reorderMap at hφ
      by_cases h1 : s.1 = n
      · by_cases h2 : s'.1 = n
        · rw [if_pos h1, if_pos h2] at hφ
          have hk := hs.lt_len
          rw [h1] at hk
          have := (List.idxOf_inj ((hmem s.2).2 hk)).1 (Prod.mk.inj hφ).2
          exact Prod.ext (h1.trans h2.symm) this
        · rw [if_pos h1, if_neg h2] at hφ
          exact absurd (congrArg Prod.fst hφ).symm h2
      · by_cases h2 : s'.1 = n
        · rw [if_neg h1, if_pos h2] at hφ
          exact absurd (congrArg Prod.fst hφ) h1
        · rwa [if_neg h1, if_neg h2] at hφ
    · intro s e hs
      left
      by_cases h1 : s.1 = n
      · obtain ⟨m, i⟩ := s
        simp only at h1
        subst h1
        have h2 := hs.2
        simp only [hnode] at h2
        rw [List.getElem?_map] at h2
        obtain ⟨k, h3, h4⟩ := Option.map_eq_some_iff.1 h2
        obtain ⟨h5, h6⟩ := List.getElem?_eq_some_iff.1 h3
        have hk : k < (h.node m).edges.length := (hmem k).1 (h6 ▸ List.getElem_mem h5)
        refine ⟨(m, k), by rw [← h4]; exact at_of_lt hn hk, id, ?_⟩
        simp only [reorderMap, if_true]
        rw [← h6, hpn.idxOf_getElem]
      · refine ⟨s, ⟨by rw [← e3]; exact hs.1, by rw [← hother _ h1]; exact hs.2⟩, id, ?_⟩
        unfold reorderMap
        rw [if_neg h1]
  have hperm : (perm.map (fun p => (h.node n).edges.getD p default)).Perm (h.node n).edges := by
    have h1 := hp.map (fun p => (h.node n).edges.getD p default)
    have h2 := filter_range_getD (h.node n).edges (fun _ => true) (fun _ => true)
      (fun _ _ => rfl)
    simp only [List.filter_true] at h2
    rwa [h2] at h1
  have w' := sur.wf w
  have huse : ∀ e, InUse h' e ↔ InUse h e := by
    intro e
    constructor
    · rintro ⟨s, hs⟩
      by_cases h1 : s.1 = n
      · have h2 := hs.mem
        rw [h1, hnode] at h2
        exact inUse_of_mem hn (hperm.mem_iff.1 h2)
      · exact ⟨s, by rw [← e3]; exact hs.1, by rw [← hother _ h1]; exact hs.2⟩
    · rintro ⟨s, hs⟩
      exact ⟨_, (sur.live s e hs id).1⟩
  refine ⟨w', e3, e4, hother, by rw [hnode], fun e hu => (hedges e hu).2.1, huse, fun e hu => by
    rw [e2, u5 e (fun h1 => hu ((hinuse e).1 h1)), hx2], ?_, hperm, ?_, ?_⟩
  · rintro e ⟨s, hs⟩
    obtain ⟨h1, h2, _⟩ := sur.live s e hs id
    rw [w'.edim_eq h1, w.edim_eq hs, h2]
  · intro σ; rw [hnode]; exact t3 σ
  · intro ns hns σ
    have hc := w.consistent hns
    refine netVal_forall₂ (dim := edim h) ?_ ?_ hc σ
    · simp only [netOf]
      rw [List.forall₂_map_left_iff, List.forall₂_map_right_iff]
      refine List.forall₂_same.2 fun m _ => ?_
      by_cases h1 : m = n
      · subst h1; rw [hnode]; exact ⟨hperm, t3⟩
      · rw [hother m h1]; exact ⟨List.Perm.refl _, fun _ => rfl⟩
    · intro p hp'
      obtain ⟨m, hm, rfl⟩ := List.mem_map.1 hp'
      by_cases h1 : m = n
      · subst h1; rw [hnode]; exact t2
      · rw [hother m h1]; exact w.shaped (hns m hm)

/-- `mapEach` with a body that updates an axis and returns a value. -/
theorem mapEach_upd {α β : Type} {l : List α} {body : α → M R β} {u : α → EId × Slot × Slot}
    {g : α → β} (hb : ∀ a ∈ l, body a = do
      updateAxis (u a).1 (u a).2.1.2 (u a).2.1.1 (u a).2.2.2 (u a).2.2.1
      pure (g a)) {h h' : Heap R} (hu : updAll (l.map u) h = (.ok (), h')) :
    M.mapEach l body h = (.ok (l.map g), h') := by
  induction l generalizing h with
  | nil =>
    have : h = h' := (Prod.mk.inj hu).2
    rw [this]; rfl
  | cons a l ih =>
    rw [List.map_cons, updAll, M.forEach_cons, M.bind_apply] at hu
    rw [M.mapEach_cons, hb a (by simp)]
    rcases hx : updateAxis (u a).1 (u a).2.1.2 (u a).2.1.1 (u a).2.2.2 (u a).2.2.1 h with
      ⟨_ | v, h1⟩
    · rw [hx] at hu; simp at hu
    · rw [hx] at hu
      simp only at hu
      rw [M.bind_ok (a := g a) (h' := h1) (by rw [M.bind_ok hx]; rfl),
        M.bind_ok (ih (fun b hb' => hb b (by simp [hb'])) hu)]
      rfl

/-- `reorder_axes` with a permutation. -/
theorem reorderAxes_ok [CommSemiring R] {h : Heap R} (w : WF h) {n : NId} (hn : n < h.nn)
    {perm : List Nat} (hp : perm.Perm (List.range (h.node n).edges.length)) :
    ∃ h', reorderAxes n perm h = (.ok (), h') ∧
      Reordered h h' n (perm.map (fun p => (h.node n).edges.getD p default)) := by
  obtain ⟨t0, t1, x2, u1, u2, u3, u4, u5⟩ := reorder_core w hn hp
    (x := h.setNode n ⟨(h.node n).tensor, (h.node n).edges⟩)
    (by intro m; by_cases h1 : m = n <;> simp [h1]) rfl rfl rfl
  obtain ⟨t', t1', x2, u1, u2, u3, u4, u5⟩ := reorder_core w hn hp
    (x := h.setNode n ⟨t0, (h.node n).edges⟩)
    (by intro m; by_cases h1 : m = n <;> simp [h1]) rfl rfl rfl
  obtain rfl : t0 = t' := by rw [t1] at t1'; exact Except.ok.inj t1'
  refine ⟨x2.setNode n { x2.node n with
    edges := perm.map (fun p => (h.node n).edges.getD p default) }, ?_, u5 _ ?_ rfl u3 u4⟩
  · unfold reorderAxes
    rw [M.bind_ok (nodeEdges_eq n), if_neg (by
      rw [not_not]
      ext p
      rw [List.mem_toFinset, hp.mem_iff, List.mem_range, Finset.mem_range])]
    rw [M.bind_ok (nodeTensor_eq n), M.bind_ok (a := t0) (h' := h) (by rw [M.lift_apply, t1]),
      M.bind_ok (a := ()) (h' := h.setNode n ⟨t0, (h.node n).edges⟩) (by rfl)]
    have hm := mapEach_upd (R := R) (l := perm.zipIdx)
      (u := fun p : Nat × Nat => ((h.node n).edges.getD p.1 default, (n, p.1), (n, p.2)))
      (g := fun p : Nat × Nat => (h.node n).edges.getD p.1 default)
      (body := fun p : Nat × Nat => match (h.node n).edges[p.1]? with
        | none => M.throw .indexError
        | some e => do
          updateAxis e p.1 n p.2 n
          pure e)
      (by
        intro p hp'
        have hlt : p.1 < (h.node n).edges.length := by
          have := hp.mem_iff.1 (List.fst_mem_of_mem_zipIdx hp')
          simpa using this
        rw [List.getElem?_eq_getElem hlt, List.getD_eq_getElem _ _ hlt])
      u1
    refine (M.bind_ok hm).trans ?_
    have : perm.zipIdx.map (fun p : Nat × Nat => (h.node n).edges.getD p.1 default) =
        perm.map (fun p => (h.node n).edges.getD p default) := by
      have h1 : (fun p : Nat × Nat => (h.node n).edges.getD p.1 default) =
        (fun p => (h.node n).edges.getD p default) ∘ Prod.fst := rfl
      rw [h1, ← List.map_map, List.zipIdx_map_fst]
    rw [this]
    rfl
  · rw [Heap.setNode_node, u2, Heap.setNode_node, Function.update_idem, Function.update_self]

/-- `reorder_axes` with anything but a permutation raises and changes nothing. -/
theorem reorderAxes_err {h : Heap R} (w : WF h) {n : NId} (hn : n < h.nn)
    {perm : List Nat} (hp : ¬ perm.Perm (List.range (h.node n).edges.length)) :
    reorderAxes n perm h = (.error .valueError, h) := by
  unfold reorderAxes
  rw [M.bind_ok (nodeEdges_eq n)]
  by_cases h1 : perm.toFinset = Finset.range (h.node n).edges.length
  · rw [if_neg (by simpa using h1), M.bind_ok (nodeTensor_eq n)]
    refine M.bind_error ?_
    rw [M.lift_apply, NDArray.transpose, if_neg]
    rwa [← w.len n hn]
  · rw [if_pos (by simpa using h1)]; rfl

/-- `reorder_edges` with an admissible order: the edges of the node in any order, none a
trace edge. -/
theorem reorderEdges_ok [CommSemiring R] {h : Heap R} (w : WF h) {n : NId} (hn : n < h.nn)
    {order : List EId} (hp : order.Perm (h.node n).edges)
    (htr : ∀ e ∈ order, ¬ Between h n n e) :
    ∃ h', reorderEdges n order h = (.ok (), h') ∧ Reordered h h' n order := by
  have hmem : ∀ e, e ∈ order ↔ e ∈ (h.node n).edges := fun e => hp.mem_iff
  have huse : ∀ e ∈ order, InUse h e := fun e he => inUse_of_mem hn ((hmem e).1 he)
  -- every edge occurs once, since there are no trace edges
  have hcount : ∀ e ∈ order, (h.node n).edges.count e = 1 := by
    intro e he
    have hu := huse e he
    rw [w.count hu hn]
    have h1 := at_of_mem hn ((hmem e).1 he)
    have h2 := (w.mem_ends hu).2 h1
    rcases w.good hu with ⟨m, a, hr⟩ | ⟨m, a, m', b, hr⟩
    · rw [hr] at h2 ⊢
      simp only [ends_dang, Multiset.mem_singleton, Prod.mk.injEq] at h2
      simp only [ends_dang, ← Multiset.cons_zero]
      rw [Multiset.countP_cons_of_pos _ (by exact h2.1.symm)]
      simp
    · have h3 := htr e he
      rw [hr] at h2 ⊢
      have h4 : ¬ (m = n ∧ m' = n) := by
        rintro ⟨rfl, rfl⟩
        exact h3 ⟨a, b, .inl hr⟩
      simp only [ends_conn, Multiset.insert_eq_cons, Multiset.mem_cons, Multiset.mem_singleton,
        Prod.mk.injEq] at h2
      simp only [ends_conn, Multiset.insert_eq_cons]
      rw [← Multiset.cons_zero, Multiset.countP_cons, Multiset.countP_cons, Multiset.countP_zero]
      rcases h2 with ⟨h2, _⟩ | ⟨h2, _⟩
      · have : m' ≠ n := fun h => h4 ⟨h2.symm, h⟩
        simp [h2.symm, this]
      · have : m ≠ n := fun h => h4 ⟨h, h2.symm⟩
        simp [h2.symm, this]
  have hnd : order.Nodup := by
    rw [List.nodup_iff_count_le_one]
    intro e
    by_cases he : e ∈ order
    · rw [hp.count_eq, hcount e he]
    · rw [List.count_eq_zero.2 he]; omega
  have hnd' : (h.node n).edges.Nodup := hp.nodup_iff.1 hnd
  obtain ⟨perm, hpm⟩ : ∃ perm, perm = order.map (h.node n).edges.idxOf := ⟨_, rfl⟩
  have hperm : perm.Perm (List.range (h.node n).edges.length) := by
    have h1 := hp.map (h.node n).edges.idxOf
    have h2 : (h.node n).edges.map (h.node n).edges.idxOf =
        List.range (h.node n).edges.length := by
      apply List.ext_getElem (by simp)
      intro i h1 h2
      simp only [List.getElem_map, List.getElem_range]
      rw [hnd'.idxOf_getElem]
    rw [h2] at h1
    rwa [hpm]
  have hback : perm.map (fun p => (h.node n).edges.getD p default) = order := by
    rw [hpm]
    exact map_idxOf_getD hcount
  obtain ⟨t', t1, x2, u1, u2, u3, u4, u5⟩ := reorder_core w hn hperm (x := h)
    (fun _ => rfl) rfl rfl rfl
  rw [hback] at u5
  refine ⟨(x2.setNode n { x2.node n with edges := order }).setNode n
    ⟨t', order⟩, ?_, u5 _ ?_ rfl u3 u4⟩
  · unfold reorderEdges
    rw [M.bind_ok (nodeEdges_eq n), if_neg (by
      rintro ⟨e, h1, h2⟩; exact h2 ((hmem e).1 h1)), if_neg (by
      rintro ⟨e, h1, h2⟩; exact h2 ((hmem e).2 h1))]
    rw [M.bind_ok (a := ()) (h' := h)]
    · have hm := mapEach_upd (R := R) (l := order.zipIdx)
        (u := fun p : EId × Nat => (p.1, (n, (h.node n).edges.idxOf p.1), (n, p.2)))
        (g := fun p : EId × Nat => (h.node n).edges.idxOf p.1)
        (body := fun p : EId × Nat => do
          updateAxis p.1 ((h.node n).edges.idxOf p.1) n p.2 n
          pure ((h.node n).edges.idxOf p.1))
        (fun _ _ => rfl) (h := h) (h' := x2) (by
          have : order.zipIdx.map (fun p : EId × Nat =>
              (p.1, (n, (h.node n).edges.idxOf p.1), (n, p.2))) =
              reorderMoves n (h.node n).edges perm := by
            rw [reorderMoves, hpm, List.zipIdx_map, List.map_map]
            refine List.map_congr_left fun p hp' => ?_
            have hm := (hmem _).1 (List.fst_mem_of_mem_zipIdx hp')
            simp only [Function.comp, Prod.map]
            rw [getD_idxOf hm]
            rfl
          rw [this]
          exact u1)
      have hg : order.zipIdx.map (fun p : EId × Nat => (h.node n).edges.idxOf p.1) = perm := by
        have h1 : (fun p : EId × Nat => (h.node n).edges.idxOf p.1) =
          (h.node n).edges.idxOf ∘ Prod.fst := rfl
        rw [h1, ← List.map_map, List.zipIdx_map_fst, hpm]
      rw [hg] at hm
      rw [M.bind_ok hm, M.bind_ok (a := ()) (h' := x2.setNode n { x2.node n with edges := order })
        (by rfl), M.bind_ok (nodeTensor_eq n)]
      have ht : ((x2.setNode n { x2.node n with edges := order }).node n).tensor =
          (h.node n).tensor := by
        rw [Heap.setNode_node, Function.update_self, u2]
      rw [ht, M.bind_ok (a := t') (by rw [M.lift_apply, t1])]
      simp [setTensor]
    · refine forEach_skip fun e he => ?_
      have hg := w.good (huse e he)
      obtain ⟨m, k1, k2⟩ := good_node1 hg
      rw [M.bind_ok k1, M.bind_ok (good_node2 hg), if_neg]
      · rfl
      · intro h1
        rcases hg with ⟨m', a, hr⟩ | ⟨m', a, m'', b, hr⟩
        · rw [hr] at h1; simp at h1
        · rw [hr] at h1 k2
          simp only [Option.some.injEq] at h1 k2
          subst h1 k2
          have h2 := at_of_mem hn ((hmem e).1 he)
          have h3 := (w.mem_ends (huse e he)).2 h2
          rw [hr] at h3
          simp only [ends_conn, Multiset.insert_eq_cons, Multiset.mem_cons,
            Multiset.mem_singleton, Prod.mk.injEq] at h3
          have : m' = n := by rcases h3 with h | h <;> exact h.1.symm
          subst this
          exact htr e he ⟨a, b, .inl hr⟩
  · rw [Heap.setNode_node, Heap.setNode_node, Function.update_idem, u2]

/-- `reorder_edges` with an order that is not a permutation of the edges, without repeated
edges, or with a trace edge raises and changes nothing. -/
theorem reorderEdges_err [CommSemiring R] {h : Heap R} (w : WF h) {n : NId} (hn : n < h.nn)
    {order : List EId} (hnd : order.Nodup)
    (hbad : ¬ (order.Perm (h.node n).edges ∧ ∀ e ∈ order, ¬ Between h n n e)) :
    reorderEdges n order h = (.error .valueError, h) := by
  unfold reorderEdges
  rw [M.bind_ok (nodeEdges_eq n)]
  by_cases h1 : ∃ e ∈ order, e ∉ (h.node n).edges
  · rw [if_pos h1]; rfl
  rw [if_neg h1]
  by_cases h2 : ∃ e ∈ (h.node n).edges, e ∉ order
  · rw [if_pos h2]; rfl
  rw [if_neg h2]
  have hmem : ∀ e, e ∈ order ↔ e ∈ (h.node n).edges := by
    intro e
    simp only [not_exists, not_and, not_not] at h1 h2
    exact ⟨h1 e, h2 e⟩
  -- the loop meets a trace edge
  have huse : ∀ e ∈ order, InUse h e := fun e he => inUse_of_mem hn ((hmem e).1 he)
  have htrace : ∃ e ∈ order, Between h n n e := by
    by_contra hno
    simp only [not_exists, not_and] at hno
    apply hbad
    refine ⟨?_, hno⟩
    rw [List.perm_ext_iff_of_nodup hnd]
    · exact hmem
    · rw [List.nodup_iff_count_le_one]
      intro e
      by_cases he : e ∈ (h.node n).edges
      · have hu := inUse_of_mem hn he
        rw [w.count hu hn]
        rcases w.good hu with ⟨m, a, hr⟩ | ⟨m, a, m', b, hr⟩
        · rw [hr]
          exact (Multiset.countP_le_card _ _).trans (by simp)
        · rw [hr]
          have h4 : ¬ (m = n ∧ m' = n) := by
            rintro ⟨rfl, rfl⟩
            exact hno e ((hmem e).2 he) ⟨a, b, .inl hr⟩
          simp only [ends_conn, Multiset.insert_eq_cons]
          rw [← Multiset.cons_zero, Multiset.countP_cons, Multiset.countP_cons,
            Multiset.countP_zero]
          split_ifs <;> simp_all
      · rw [List.count_eq_zero.2 he]; omega
  have hloop : ∀ l : List EId, (∀ e ∈ l, InUse h e) → (∃ e ∈ l, Between h n n e) →
      M.forEach l (fun e => do
        let a ← node1 e
        let b ← node2 e
        if some a = b then M.throw .valueError else pure ()) h = (.error .valueError, h) := by
    intro l hl hex
    induction l with
    | nil => simp at hex
    | cons e l ih =>
      rw [M.forEach_cons]
      have hg := w.good (hl e (by simp))
      obtain ⟨m, k1, k2⟩ := good_node1 hg
      by_cases ht : some m = (h.edge e).node2
      · refine M.bind_error ?_
        rw [M.bind_ok k1, M.bind_ok (good_node2 hg), if_pos ht]
        rfl
      · rw [M.bind_ok (a := ()) (h' := h)]
        · refine ih (fun e' he' => hl e' (by simp [he'])) ?_
          obtain ⟨e', he', hb⟩ := hex
          rcases List.mem_cons.1 he' with rfl | he'
          · exfalso
            apply ht
            obtain ⟨a, b, hr | hr⟩ := hb <;> rw [hr] at k2 ⊢ <;> exact k2.symm
          · exact ⟨e', he', hb⟩
        · rw [M.bind_ok k1, M.bind_ok (good_node2 hg), if_neg ht]
          rfl
  exact M.bind_error (hloop order huse htrace)

end TN.Graph
