import Verif.GraphSplit

/-!
# Splitting an edge between two nodes, and a trace edge
-/

namespace TN.Graph

open TN

variable {R : Type}

theorem dimension_dang {h : Heap R} {n : NId} {a : Nat} {e : EId} (hr : h.edge e = .dang n a)
    (ha : a < (h.node n).tensor.ndim) :
    dimension e h = (.ok ((h.node n).tensor.shape.getD a 0), h) := by
  unfold dimension
  rw [M.bind_ok (node1_dang hr), M.bind_ok (axis1_dang hr), get_bind]
  have hlt : a < (h.shape n).length := ha
  rw [List.getElem?_eq_getElem hlt, List.getD_eq_getElem _ _ ha]
  rfl

/-- The run of `connect` on two new dangling edges. -/
theorem connect_run {h : Heap R} {n1 n2 : NId} {a1 a2 : Nat} {e1 e2 : EId}
    (hr1 : h.edge e1 = .dang n1 a1) (hr2 : h.edge e2 = .dang n2 a2) (hne : e1 ≠ e2)
    (hd1 : a1 < (h.node n1).tensor.ndim) (hl1 : a1 < (h.node n1).edges.length)
    (hd2 : a2 < (h.node n2).tensor.ndim) (hl2 : a2 < (h.node n2).edges.length)
    (hdim : (h.node n1).tensor.shape.getD a1 0 = (h.node n2).tensor.shape.getD a2 0) :
    connect e1 e2 h = (.ok h.ne, ⟨Function.update
      (Function.update h.node n1 { h.node n1 with edges := (h.node n1).edges.set a1 h.ne }) n2
      { Function.update h.node n1 { h.node n1 with edges := (h.node n1).edges.set a1 h.ne } n2 with
        edges := (Function.update h.node n1
          { h.node n1 with edges := (h.node n1).edges.set a1 h.ne } n2).edges.set a2 h.ne },
      Function.update h.edge h.ne (.conn n1 a1 n2 a2), h.nn, h.ne + 1⟩) := by
  unfold connect
  rw [M.bind_ok (a := ()) (h' := h) (forEach_skip (by
    intro e he
    rw [M.bind_ok isDangling_eq]
    have : (h.edge e).dangling = true := by
      simp only [List.mem_cons, List.not_mem_nil, or_false] at he
      rcases he with rfl | rfl
      · rw [hr1]
      · rw [hr2]
    rw [this]; rfl))]
  rw [if_neg hne, M.bind_ok (dimension_dang hr1 hd1), M.bind_ok (dimension_dang hr2 hd2),
    if_neg (by rw [hdim]; simp), M.bind_ok (node1_dang hr1), M.bind_ok (node1_dang hr2),
    M.bind_ok (axis1_dang hr1), M.bind_ok (axis1_dang hr2)]
  have hnew : newConnected n1 a1 n2 a2 h = (.ok h.ne, { h with
    edge := Function.update h.edge h.ne (.conn n1 a1 n2 a2)
    ne := h.ne + 1 }) := rfl
  rw [M.bind_ok hnew, M.bind_ok (addEdge_ok (h := { h with
    edge := Function.update h.edge h.ne (.conn n1 a1 n2 a2)
    ne := h.ne + 1 }) hd1 hl1 (.inl rfl))]
  rw [M.bind_ok (addEdge_ok (ov := true) ?_ ?_ (.inl rfl))]
  · rfl
  · simp only [Heap.setNode_node]
    by_cases h1 : n2 = n1
    · subst h1
      rw [Function.update_self]; exact hd2
    · rw [Function.update_of_ne h1]; exact hd2
  · simp only [Heap.setNode_node]
    by_cases h1 : n2 = n1
    · subst h1
      rw [Function.update_self, List.length_set]; exact hl2
    · rw [Function.update_of_ne h1]; exact hl2

theorem set_mid {F A B : List EId} {b c : EId} {i : Nat} (hi : i = F.length + A.length) :
    (F ++ (A ++ (b :: B))).set i c = F ++ (A ++ [c] ++ B) := by
  subst hi
  rw [List.set_append_right _ _ (by omega), List.set_append_right _ _ (by omega)]
  simp

theorem range_split {b j k : Nat} (h : j < k) :
    ((List.range k).map (b + ·)).drop j = (b + j) :: ((List.range k).map (b + ·)).drop (j + 1) := by
  rw [List.drop_eq_getElem_cons (by simpa using h)]
  simp

/-- The loop of `split_edge` that connects the new dangling edges of two nodes. -/
theorem connectLoop {m1 m2 : NId} (hm : m1 ≠ m2) {g : Heap R} {N : Nat} {shape D1 D2 : List Nat}
    {t1 t2 : NDArray R} {F1 F2 : List EId} (hg1 : g.node m1 = ⟨t1, F1 ++
      (List.range shape.length).map (N + ·)⟩)
    (hg2 : g.node m2 = ⟨t2, F2 ++ (List.range shape.length).map (N + shape.length + ·)⟩)
    (hs1 : t1.shape = D1 ++ shape) (hs2 : t2.shape = D2 ++ shape) (hD1 : D1.length = F1.length)
    (hD2 : D2.length = F2.length) (hne : g.ne = N + 2 * shape.length)
    (he1 : ∀ i < shape.length, g.edge (N + i) = .dang m1 (F1.length + i))
    (he2 : ∀ i < shape.length, g.edge (N + shape.length + i) = .dang m2 (F2.length + i)) :
    ∀ j ≤ shape.length, ∃ g', M.mapEach (((List.range shape.length).map fun i =>
        (N + i, N + shape.length + i)).take j) (fun q => connect q.1 q.2) g =
        (.ok ((List.range j).map (N + 2 * shape.length + ·)), g') ∧
      g'.node m1 = ⟨t1, F1 ++ ((List.range j).map (N + 2 * shape.length + ·) ++
        ((List.range shape.length).map (N + ·)).drop j)⟩ ∧
      g'.node m2 = ⟨t2, F2 ++ ((List.range j).map (N + 2 * shape.length + ·) ++
        ((List.range shape.length).map (N + shape.length + ·)).drop j)⟩ ∧
      (∀ n, n ≠ m1 → n ≠ m2 → g'.node n = g.node n) ∧ g'.nn = g.nn ∧
      g'.ne = N + 2 * shape.length + j ∧ (∀ f < N + 2 * shape.length, g'.edge f = g.edge f) ∧
      ∀ i < j, g'.edge (N + 2 * shape.length + i) = .conn m1 (F1.length + i) m2 (F2.length + i) := by
  intro j
  induction j with
  | zero =>
    intro _
    refine ⟨g, by simp [M.mapEach_nil], ?_, ?_, fun _ _ _ => rfl, rfl, by rw [hne]; omega,
      fun _ _ => rfl, fun i hi => by omega⟩
    · simpa using hg1
    · simpa using hg2
  | succ j ih =>
    intro hj
    obtain ⟨g', r1, r2, r3, r4, r5, r6, r7, r8⟩ := ih (by omega)
    obtain ⟨k, hk⟩ : ∃ k, k = shape.length := ⟨_, rfl⟩
    rw [range_split (by omega)] at r2 r3
    have hd1 : (g'.node m1).tensor.shape = D1 ++ shape := by rw [r2]; exact hs1
    have hd2 : (g'.node m2).tensor.shape = D2 ++ shape := by rw [r3]; exact hs2
    have run := connect_run (h := g') (n1 := m1) (n2 := m2) (a1 := F1.length + j)
      (a2 := F2.length + j) (e1 := N + j) (e2 := N + shape.length + j)
      (by rw [r7 _ (by omega), he1 j (by omega)]) (by rw [r7 _ (by omega), he2 j (by omega)])
      (by omega)
      (by rw [NDArray.ndim, hd1, List.length_append]; omega)
      (by rw [r2]; simp only [List.length_append, List.length_map, List.length_range,
        List.length_cons]; omega)
      (by rw [NDArray.ndim, hd2, List.length_append]; omega)
      (by rw [r3]; simp only [List.length_append, List.length_map, List.length_range,
        List.length_cons]; omega)
      (by
        rw [hd1, hd2, List.getD_append_right _ _ _ _ (by omega),
          List.getD_append_right _ _ _ _ (by omega)]
        congr 1; omega)
    rw [Function.update_of_ne hm.symm] at run
    rcases hrun : connect (N + j) (N + shape.length + j) g' with ⟨res, g2⟩
    rw [hrun] at run
    obtain ⟨e1, e2⟩ := Prod.mk.inj run
    refine ⟨g2, ?_, ?_, ?_, ?_, ?_, ?_, ?_, ?_⟩
    · rw [List.take_succ_eq_append_getElem (by simpa using hj), List.range_succ, List.map_append]
      have hget : ((List.range shape.length).map fun i => (N + i, N + shape.length + i))[j]'(by
        simpa using hj) = (N + j, N + shape.length + j) := by simp
      rw [hget]
      refine mapEach_concat _ _ _ r1 ?_
      beta_reduce
      rw [← r6, ← e1]
      exact hrun
    · rw [e2]; simp only
      rw [Function.update_of_ne hm, Function.update_self, r2]
      simp only
      rw [set_mid (by simp), List.range_succ, List.map_append, r6]
      simp
    · rw [e2]; simp only
      rw [Function.update_self, r3]
      simp only
      rw [set_mid (by simp), List.range_succ, List.map_append, r6]
      simp
    · intro n h1 h2
      rw [e2]; simp only
      rw [Function.update_of_ne h2, Function.update_of_ne h1, r4 n h1 h2]
    · rw [e2]; exact r5
    · rw [e2]; simp only
      rw [r6]; omega
    · intro f hf
      rw [e2]; simp only
      rw [Function.update_of_ne (by omega), r7 f hf]
    · intro i hi
      rw [e2]; simp only
      by_cases hij : i = j
      · rw [hij, ← r6, Function.update_self]
      · rw [Function.update_of_ne (by omega), r8 i (by omega)]

theorem disable_run (e : EId) (h : Heap R) : disable e h = (.ok (), disableHeap h [e]) := by
  have := disableAll h [e]
  rw [← this, M.forEach_cons, M.bind_apply]
  rcases disable e h with ⟨_ | _, _⟩ <;> rfl

/-- Splitting an edge between two nodes. -/
theorem splitPair_run [CommSemiring R] {h : Heap R} (w : WF h) {m1 m2 : NId} {e : EId}
    (hm : m1 ≠ m2) (hm1 : m1 < h.nn) (hm2 : m2 < h.nn) (heu : InUse h e)
    (hS : Between h m1 m2 e) {shape : List Nat} (hprod : shape.prod = edim h e) :
    ∃ h', (do
        let f1 ← splitAt e shape m1
        let f2 ← splitAt e shape m2
        disable e
        M.mapEach (f1.zip f2) fun q => connect q.1 q.2) h =
        (.ok ((List.range shape.length).map (h.ne + 2 * shape.length + ·)), h') ∧
      Split h h' e shape ((List.range shape.length).map (h.ne + 2 * shape.length + ·)) := by
  have hltm : ∀ n < h.nn, ∀ e ∈ (h.node n).edges, e < h.ne := fun n hn e he =>
    w.lt (inUse_of_mem hn he)
  have hlte : e < h.ne := w.lt heu
  have c1 : (h.node m1).edges.count e = 1 := hS.count_one w heu hm hm1
  have c2 : (h.node m2).edges.count e = 1 := hS.symm.count_one w heu hm.symm hm2
  obtain ⟨p1, q1⟩ := back_perm (E := [e]) (by simp) (es := (h.node m1).edges) (by simpa using c1)
  obtain ⟨p2, q2⟩ := back_perm (E := [e]) (by simp) (es := (h.node m2).edges) (by simpa using c2)
  have hfe : ∀ n, (h.node n).edges.filter (fun f => f ∉ [e]) =
      (h.node n).edges.filter (fun f => f ≠ e) := by
    intro n
    refine List.filter_congr fun f _ => ?_
    simp
  obtain ⟨t1, ht1, x1, hx1, hx1n, hx1nn, hx1ne, hR1⟩ := reorder_core w hm1 p1 (x := h)
    (fun _ => rfl) rfl rfl rfl
  rw [hfe] at q1 q2
  rw [q1] at hR1
  obtain ⟨F1, hF1⟩ : ∃ F, F = (h.node m1).edges.filter (fun f => f ≠ e) := ⟨_, rfl⟩
  obtain ⟨F2, hF2⟩ : ∃ F, F = (h.node m2).edges.filter (fun f => f ≠ e) := ⟨_, rfl⟩
  rw [← hF1] at hR1 q1
  obtain ⟨ha, hha⟩ : ∃ ha : Heap R, ha = ⟨Function.update h.node m1 ⟨t1, F1 ++ [e]⟩, x1.edge,
    h.nn, h.ne⟩ := ⟨_, rfl⟩
  have r1 : Reordered h ha m1 (F1 ++ [e]) := by
    apply hR1 <;> rw [hha]
  have han2 : ha.node m2 = h.node m2 := by
    rw [hha]; simp only; rw [Function.update_of_ne hm.symm]
  obtain ⟨t2, ht2, x2, hx2, hx2n, hx2nn, hx2ne, hR2⟩ := reorder_core r1.wf (n := m2)
    (by rw [r1.nn]; exact hm2)
    (perm := otherAxes (h.node m2).edges.length ([e].map (h.node m2).edges.idxOf) ++
      [e].map (h.node m2).edges.idxOf) (by rw [han2]; exact p2) (x := ha)
    (fun _ => rfl) rfl rfl rfl
  rw [han2, q2, ← hF2] at hR2
  rw [han2] at ht2 hx2
  rw [← hF2] at q2
  obtain ⟨hc, hhc⟩ : ∃ hc : Heap R, hc = ⟨Function.update ha.node m2 ⟨t2, F2 ++ [e]⟩, x2.edge,
    ha.nn, ha.ne⟩ := ⟨_, rfl⟩
  have r2 : Reordered ha hc m2 (F2 ++ [e]) := by
    apply hR2 <;> rw [hhc]
  have r : Rearr h hc := r1.rearr.trans r2.rearr
  obtain ⟨k, hk⟩ : ∃ k, k = shape.length := ⟨_, rfl⟩
  -- the actual run
  obtain ⟨u1, hu1, hu1s, hu1v⟩ := splitAt_run c1 (w.shaped hm1) hprod ht1 hx1
  rw [← hF1] at hu1 hu1s hu1v
  rw [← hk] at hu1
  obtain ⟨hb, hhb⟩ : ∃ hb : Heap R, hb = ⟨Function.update h.node m1
    ⟨u1, F1 ++ (List.range k).map (h.ne + ·)⟩,
    fun f => if h.ne ≤ f ∧ f < h.ne + k then .dang m1 (F1.length + (f - h.ne))
      else x1.edge f, h.nn, h.ne + k⟩ := ⟨_, rfl⟩
  rw [← hhb] at hu1
  have hbn2 : hb.node m2 = h.node m2 := by
    rw [hhb]; simp only; rw [Function.update_of_ne hm.symm]
  have hbe : ∀ f, f < h.ne → hb.edge f = ha.edge f := by
    intro f he
    rw [hhb, hha]; simp only; rw [if_neg (by omega)]
  have hmv : ∀ f, f ∈ (reorderMoves m2 (h.node m2).edges
      (otherAxes (h.node m2).edges.length ([e].map (h.node m2).edges.idxOf) ++
        [e].map (h.node m2).edges.idxOf)).map Prod.fst ↔ f ∈ (h.node m2).edges :=
    reorderMoves_fst m2 p2
  obtain ⟨fr, fr'⟩ := updAll_frame (b := hb) hx2 (by
    intro u hu
    refine hbe _ (hltm m2 hm2 _ ?_)
    rw [← hmv]; exact List.mem_map_of_mem hu)
  obtain ⟨u2, hu2, hu2s, hu2v⟩ := splitAt_run (h := hb) (n := m2) (dim := edim h) (t' := t2)
    (e := e) (shape := shape) (by rw [hbn2]; exact c2)
    (by rw [hbn2]; exact w.shaped hm2) hprod (by rw [hbn2]; exact ht2) (by rw [hbn2]; exact fr)
  rw [hbn2, ← hF2] at hu2 hu2s hu2v
  have hbne : hb.ne = h.ne + k := by rw [hhb]
  have hbnn : hb.nn = h.nn := by rw [hhb]
  rw [hbne, hbnn, ← hk] at hu2
  obtain ⟨hd, hhd⟩ : ∃ hd, splitAt e shape m2 hb = (.ok ((List.range k).map (h.ne + k + ·)), hd) ∧
      hd.node = Function.update hb.node m2 ⟨u2, F2 ++ (List.range k).map (h.ne + k + ·)⟩ ∧
      hd.nn = h.nn ∧
      hd.ne = h.ne + k + k ∧ (∀ f < h.ne, hd.edge f = hc.edge f) ∧
      (∀ i < k, hd.edge (h.ne + i) = .dang m1 (F1.length + i)) ∧
      (∀ i < k, hd.edge (h.ne + k + i) = .dang m2 (F2.length + i)) := by
    refine ⟨_, hu2, rfl, rfl, rfl, ?_, ?_, ?_⟩
    · intro f hf
      simp only
      rw [if_neg (by omega)]
      by_cases h3 : f ∈ (reorderMoves m2 (h.node m2).edges
        (otherAxes (h.node m2).edges.length ([e].map (h.node m2).edges.idxOf) ++
          [e].map (h.node m2).edges.idxOf)).map Prod.fst
      · rw [if_pos h3, hhc]
      · rw [if_neg h3, hbe f (by omega), ← fr' f h3, hhc]
    · intro i hi
      simp only
      rw [if_neg (by omega), if_neg, hhb]
      · simp only; rw [if_pos (by omega), Nat.add_sub_cancel_left]
      · rw [hmv]
        intro h3
        have := hltm m2 hm2 _ h3
        omega
    · intro i hi
      simp only
      rw [if_pos (by omega), Nat.add_sub_cancel_left]
  obtain ⟨hd1, hdn, hdnn, hdne, hde, hde1, hde2⟩ := hhd
  obtain ⟨hq, hhq⟩ : ∃ hq, hq = disableHeap hd [e] := ⟨_, rfl⟩
  have hqn : ∀ n, hq.node n = if n = m2 then ⟨u2, F2 ++ (List.range k).map (h.ne + k + ·)⟩ else
      if n = m1 then ⟨u1, F1 ++ (List.range k).map (h.ne + ·)⟩ else h.node n := by
    intro n
    rw [hhq]; simp only [disableHeap]
    rw [hdn, Function.update_apply, hhb]
    simp only
    rw [Function.update_apply]
  have hcn : ∀ n, hc.node n = if n = m2 then ⟨t2, F2 ++ [e]⟩ else
      if n = m1 then ⟨t1, F1 ++ [e]⟩ else h.node n := by
    intro n
    rw [hhc]; simp only
    rw [Function.update_apply, hha]
    simp only
    rw [Function.update_apply]
  have hqe : ∀ f, f ≠ e → hq.edge f = hd.edge f := by
    intro f h2
    rw [hhq]; simp only [disableHeap]; rw [if_neg (by simpa using h2)]
  have hqd : (hq.edge e).disabled = true := by
    rw [hhq]; simp only [disableHeap]; rw [if_pos (by simp)]
  have hqnn : hq.nn = h.nn := by rw [hhq]; exact hdnn
  have hqne : hq.ne = h.ne + k + k := by rw [hhq]; exact hdne
  -- connecting the new edges
  obtain ⟨h', l1, l2, l3, l4, l5, l6, l7, l8⟩ := connectLoop hm (g := hq) (N := h.ne)
    (shape := shape) (t1 := u1) (t2 := u2) (F1 := F1) (F2 := F2)
    (by rw [hqn, if_neg hm, if_pos rfl, ← hk]) (by rw [hqn, if_pos rfl, ← hk])
    hu1s hu2s (by simp) (by simp) (by rw [hqne]; omega)
    (fun i hi => by rw [hqe _ (by omega)]; exact hde1 i (by omega))
    (fun i hi => by rw [hqe _ (by omega), ← hk]; exact hde2 i (by omega)) shape.length le_rfl
  rw [← hk, List.drop_eq_nil_of_le (by simp), List.append_nil] at l2 l3
  rw [← hk] at l1 l6 l7 l8
  rw [← hk]
  obtain ⟨news, hnews⟩ : ∃ news, news = (List.range k).map (h.ne + 2 * k + ·) := ⟨_, rfl⟩
  rw [← hnews] at l1 l2 l3 ⊢
  refine ⟨h', ?_, ?_⟩
  · rw [M.bind_ok hu1, M.bind_ok hd1, M.bind_ok (disable_run e hd), ← hhq]
    rw [List.take_of_length_le (by simp)] at l1
    rw [← l1]
    congr 1
    rw [List.zip_map', ]
  have hexp : expand e news [e] = news := expand_single
  have hFm : ∀ n, ∀ f ∈ (h.node n).edges.filter (fun f => f ≠ e),
      f ∈ (h.node n).edges ∧ f ≠ e := by
    intro n f hf; rw [List.mem_filter] at hf; simpa using hf
  have hnn : h'.nn = h.nn := by rw [l5, hqnn]
  have hn1 : ∀ n, n = m1 ∨ n = m2 → n < h.nn := by rintro n (rfl | rfl) <;> assumption
  have hT : ∀ n, n ∈ [m1, m2] ↔ n = m1 ∨ n = m2 := by simp
  have at1 : ∀ i < k, At h' (m1, F1.length + i) (h.ne + 2 * k + i) := by
    intro i hi
    refine ⟨by rw [hnn]; exact hm1, ?_⟩
    simp only
    rw [l2]
    simp only
    rw [List.getElem?_append_right (by omega), Nat.add_sub_cancel_left, hnews]
    simp [hi]
  have at2 : ∀ i < k, At h' (m2, F2.length + i) (h.ne + 2 * k + i) := by
    intro i hi
    refine ⟨by rw [hnn]; exact hm2, ?_⟩
    simp only
    rw [l3]
    simp only
    rw [List.getElem?_append_right (by omega), Nat.add_sub_cancel_left, hnews]
    simp [hi]
  have hdimi : ∀ i < k, dimAt h' (m1, F1.length + i) = dimAt h' (m2, F2.length + i) := by
    intro i hi
    simp only [dimAt, Heap.shape]
    rw [l2, l3]
    simp only
    rw [hu1s, hu2s, List.getD_append_right _ _ _ _ (by simp),
      List.getD_append_right _ _ _ _ (by simp)]
    simp
  refine split_finish w r (T := [m1, m2]) (F := fun n => if n = m1 then F1 else F2)
    (X := fun _ => [e]) hnn (by rw [l6]; omega) heu hprod (by simp)
    ?_ ?_ ?_ ?_ ?_ ?_ ?_ ?_ ?_ ?_ ?_ ?_ ?_ ?_ ?_
  · intro n hn
    rw [hT] at hn
    refine ⟨hn1 n hn, ?_⟩
    rw [hcn]
    rcases hn with rfl | rfl
    · rw [if_neg hm, if_pos rfl, if_pos rfl]
    · rw [if_pos rfl, if_neg hm.symm]
  · intro n _; simp
  · intro n hn
    rw [hT] at hn
    rcases hn with rfl | rfl
    · rw [if_pos rfl]; exact hF1
    · rw [if_neg hm.symm]; exact hF2
  · intro n hn hnT hme
    exact hnT (hS.at_mem w (at_of_mem hn hme))
  · intro n hnT
    rw [hT, not_or] at hnT
    refine ⟨?_, by rw [hcn, if_neg hnT.2, if_neg hnT.1]⟩
    rw [l4 n hnT.1 hnT.2, hqn, if_neg hnT.2, if_neg hnT.1]
  · intro n hn
    rw [hT] at hn
    rw [hexp]
    rcases hn with rfl | rfl
    · rw [l2, if_pos rfl]
    · rw [l3, if_neg hm.symm]
  · intro n hn
    rw [hT] at hn
    rcases hn with rfl | rfl
    · rw [l2, if_pos rfl]; simp only; rw [hu1s]; simp
    · rw [l3, if_neg hm.symm]; simp only; rw [hu2s]; simp
  · rw [hnews, hk]; simp
  · intro n hn i f hf
    rw [hexp, hnews] at hf
    obtain ⟨h1, rfl⟩ := range_map_get hf
    have hne12 : ((m1, F1.length + i) : Slot) ≠ (m2, F2.length + i) := fun h2 =>
      hm (Prod.mk.inj h2).1
    rw [hT] at hn
    rcases hn with rfl | rfl
    · rw [if_pos rfl]
      exact edgeOK_conn (at1 i h1) (at2 i h1) hne12 (hdimi i h1) (by rw [l6]; omega) (l8 i h1)
        (.inl rfl)
    · rw [if_neg hm.symm]
      exact edgeOK_conn (at1 i h1) (at2 i h1) hne12 (hdimi i h1) (by rw [l6]; omega) (l8 i h1)
        (.inr rfl)
  · intro f h1 h2
    rw [l7 f (by omega), hqe f h2, hde f h1]
  · rw [l7 e (by omega)]; exact hqd
  · rw [hnews]; exact range_map_nodup _ _
  · intro f hf
    rw [hnews, range_map_mem] at hf
    omega
  · intro f hf
    rw [hnews, range_map_mem] at hf
    have h1 := l8 (f - (h.ne + 2 * k)) (by omega)
    rw [Nat.add_sub_cancel' hf.1] at h1
    rw [h1, hS.not_dangling]
  · intro n hn hdims hold τ hτ
    rw [hT] at hn
    rw [hexp] at hτ ⊢
    rcases hn with rfl | rfl
    · rw [if_pos rfl] at hτ ⊢
      rw [hcn, if_neg hm, if_pos rfl, l2]
      exact hu1v news (edim h') τ hdims hold hτ
    · rw [if_neg hm.symm] at hτ ⊢
      rw [hcn, if_pos rfl, l3]
      exact hu2v news (edim h') τ hdims hold hτ

theorem set_A {F A B G : List EId} {b c : EId} {i : Nat} (hi : i = F.length + A.length) :
    (F ++ (A ++ (b :: B) ++ G)).set i c = F ++ (A ++ (c :: B) ++ G) := by
  subst hi
  rw [List.set_append_right _ _ (by omega), Nat.add_sub_cancel_left,
    List.set_append_left _ _ (by simp), List.set_append_right _ _ (by omega)]
  simp

theorem set_B {F A B B' : List EId} {b b' c : EId} {i : Nat}
    (hi : i = F.length + (A.length + 1 + B.length) + A.length) :
    (F ++ (A ++ (b :: B) ++ (A ++ (b' :: B')))).set i c =
      F ++ (A ++ (b :: B) ++ (A ++ (c :: B'))) := by
  subst hi
  rw [List.set_append_right _ _ (by omega), List.set_append_right _ _ (by
    simp only [List.length_append, List.length_cons]; omega), List.set_append_right _ _ (by
    simp only [List.length_append, List.length_cons]; omega)]
  congr 3
  rw [show F.length + (A.length + 1 + B.length) + A.length - F.length -
    (A ++ b :: B).length - A.length = 0 by
      simp only [List.length_append, List.length_cons]; omega]
  rfl

/-- The loop of `_split_trace_edge`. -/
theorem traceLoop {m : NId} {g : Heap R} {shape D : List Nat}
    {t : NDArray R} {F : List EId} (hg : g.node m = ⟨t, F ++ List.replicate (2 * shape.length) 0⟩)
    (hs : t.shape = D ++ shape ++ shape) (hD : D.length = F.length) :
    ∀ j ≤ shape.length, ∃ g', M.mapEach (List.range j) (fun idx => do
        let e1 ← newDangling m (F.length + idx)
        let e2 ← newDangling m (F.length + shape.length + idx)
        let es'' ← nodeEdges m
        setEdges m ((es''.set (F.length + idx) e1).set (F.length + shape.length + idx) e2)
        connect e1 e2) g = (.ok ((List.range j).map (fun i => g.ne + 3 * i + 2)), g') ∧
      g'.node m = ⟨t, F ++ ((List.range j).map (fun i => g.ne + 3 * i + 2) ++
        List.replicate (shape.length - j) 0 ++ ((List.range j).map (fun i => g.ne + 3 * i + 2) ++
        List.replicate (shape.length - j) 0))⟩ ∧
      (∀ n, n ≠ m → g'.node n = g.node n) ∧ g'.nn = g.nn ∧
      g'.ne = g.ne + 3 * j ∧ (∀ f < g.ne, g'.edge f = g.edge f) ∧
      ∀ i < j, g'.edge (g.ne + 3 * i + 2) =
        .conn m (F.length + i) m (F.length + shape.length + i) := by
  intro j
  induction j with
  | zero =>
    intro _
    refine ⟨g, by simp [M.mapEach_nil], ?_, fun _ _ => rfl, rfl, by omega,
      fun _ _ => rfl, fun i hi => by omega⟩
    rw [hg]
    simp [two_mul]
  | succ j ih =>
    intro hj
    obtain ⟨g', r1, r2, r3, r4, r5, r6, r7⟩ := ih (by omega)
    obtain ⟨k, hk⟩ : ∃ k, k = shape.length := ⟨_, rfl⟩
    obtain ⟨C, hC⟩ : ∃ C, C = (List.range j).map (fun i => g.ne + 3 * i + 2) := ⟨_, rfl⟩
    have hCl : C.length = j := by rw [hC]; simp
    have hrep : List.replicate (shape.length - j) (0 : EId) =
      0 :: List.replicate (shape.length - (j + 1)) 0 := by
      rw [show shape.length - j = (shape.length - (j + 1)) + 1 by omega, List.replicate_succ]
    rw [← hC] at r1 r2
    rw [hrep] at r2
    obtain ⟨B, hB⟩ : ∃ B, B = List.replicate (shape.length - (j + 1)) (0 : EId) := ⟨_, rfl⟩
    have hBl : B.length = shape.length - (j + 1) := by rw [hB]; simp
    rw [← hB] at r2
    have hnd : ∀ (a : Nat) (x : Heap R), newDangling m a x = (.ok x.ne, { x with
      edge := Function.update x.edge x.ne (.dang m a)
      ne := x.ne + 1 }) := fun _ _ => rfl
    have hse : ∀ (x : Heap R) (l l' : List EId), x.node m = ⟨t, l'⟩ →
        setEdges m l x = (.ok (), x.setNode m ⟨t, l⟩) := by
      intro x l l' hk; simp only [setEdges, M.modify, hk]
    obtain ⟨x, hx⟩ : ∃ x : Heap R, x = ⟨Function.update g'.node m
      ⟨t, F ++ (C ++ (g'.ne :: B) ++ (C ++ ((g'.ne + 1) :: B)))⟩,
      Function.update (Function.update g'.edge g'.ne (.dang m (F.length + j))) (g'.ne + 1)
        (.dang m (F.length + shape.length + j)), g'.nn, g'.ne + 2⟩ := ⟨_, rfl⟩
    have hxn : x.node m = ⟨t, F ++ (C ++ (g'.ne :: B) ++ (C ++ ((g'.ne + 1) :: B)))⟩ := by
      rw [hx]; simp
    have hbody : (do
        let e1 ← newDangling m (F.length + j)
        let e2 ← newDangling m (F.length + shape.length + j)
        let es'' ← nodeEdges m
        setEdges m ((es''.set (F.length + j) e1).set (F.length + shape.length + j) e2)
        connect e1 e2) g' = connect g'.ne (g'.ne + 1) x := by
      rw [M.bind_ok (hnd _ _), M.bind_ok (hnd _ _), M.bind_ok (nodeEdges_eq m)]
      simp only
      rw [r2]
      simp only
      rw [set_A (by omega), set_B (by omega)]
      rw [M.bind_ok (hse (⟨g'.node, Function.update (Function.update g'.edge g'.ne
        (.dang m (F.length + j))) (g'.ne + 1) (.dang m (F.length + shape.length + j)), g'.nn,
        g'.ne + 1 + 1⟩ : Heap R) _ _ r2)]
      rw [hx]
      rfl
    have run := connect_run (h := x) (n1 := m) (n2 := m) (a1 := F.length + j)
      (a2 := F.length + shape.length + j) (e1 := g'.ne) (e2 := g'.ne + 1)
      (by rw [hx]; simp only; rw [Function.update_of_ne (by omega), Function.update_self])
      (by rw [hx]; simp only; rw [Function.update_self])
      (by omega)
      (by rw [hxn, NDArray.ndim]; simp only; rw [hs]; simp only [List.length_append]; omega)
      (by rw [hxn]; simp only [List.length_append, List.length_cons]; omega)
      (by rw [hxn, NDArray.ndim]; simp only; rw [hs]; simp only [List.length_append]; omega)
      (by rw [hxn]; simp only [List.length_append, List.length_cons]; omega)
      (by
        rw [hxn]; simp only
        have e1 : (D ++ (shape ++ shape)).getD (F.length + j) 0 = shape.getD j 0 := by
          rw [List.getD_append_right _ _ _ _ (by omega), List.getD_append _ _ _ _ (by omega)]
          congr 1; omega
        have e2 : (D ++ (shape ++ shape)).getD (F.length + shape.length + j) 0 =
            shape.getD j 0 := by
          rw [List.getD_append_right _ _ _ _ (by omega),
            List.getD_append_right _ _ _ _ (by omega)]
          congr 1; omega
        rw [hs, List.append_assoc, e1, e2])
    rw [Function.update_idem, Function.update_self, hxn] at run
    simp only at run
    rw [set_A (by omega), set_B (by omega)] at run
    have hxne : x.ne = g.ne + 3 * j + 2 := by rw [hx]; simp only; omega
    rcases hrun : connect g'.ne (g'.ne + 1) x with ⟨res, g2⟩
    rw [hrun] at run
    obtain ⟨e1, e2⟩ := Prod.mk.inj run
    refine ⟨g2, ?_, ?_, ?_, ?_, ?_, ?_, ?_⟩
    · rw [List.range_succ, List.map_append]
      refine mapEach_concat _ _ _ (by rw [← hC]; exact r1) ?_
      beta_reduce
      rw [← hxne, ← e1]
      exact hbody.trans hrun
    · rw [e2]; simp only
      rw [Function.update_self, List.range_succ, List.map_append, ← hC, ← hB, hxne]
      simp
    · intro n h1
      rw [e2]; simp only
      rw [Function.update_of_ne h1, hx]
      simp only
      rw [Function.update_of_ne h1, r3 n h1]
    · rw [e2, hx]; exact r4
    · rw [e2]; simp only
      rw [hxne]; omega
    · intro f hf
      rw [e2, hx]; simp only
      rw [Function.update_of_ne (by omega), Function.update_of_ne (by omega),
        Function.update_of_ne (by omega), r6 f hf]
    · intro i hi
      rw [e2]; simp only
      by_cases hij : i = j
      · rw [hij, ← hxne, Function.update_self]
      · rw [Function.update_of_ne (by omega), hx]; simp only
        rw [Function.update_of_ne (by omega), Function.update_of_ne (by omega), r7 i (by omega)]

end TN.Graph
