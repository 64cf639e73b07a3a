import Verif.GraphMerge

/-!
# Contractions

`_remove_edges`, `contract` and `outer_product` on consistent graphs.
-/

namespace TN.Graph

open TN

variable {R : Type}

/-- `e` is a live edge between `n1` and `n2`. -/
def Between (h : Heap R) (n1 n2 : NId) (e : EId) : Prop :=
  ∃ a b, h.edge e = .conn n1 a n2 b ∨ h.edge e = .conn n2 b n1 a

theorem Between.symm {h : Heap R} {n1 n2 : NId} {e : EId} (hb : Between h n1 n2 e) :
    Between h n2 n1 e := by
  obtain ⟨a, b, h1 | h1⟩ := hb
  · exact ⟨b, a, .inr h1⟩
  · exact ⟨b, a, .inl h1⟩

theorem Between.not_dangling {h : Heap R} {n1 n2 : NId} {e : EId} (hb : Between h n1 n2 e) :
    (h.edge e).dangling = false := by
  obtain ⟨a, b, h1 | h1⟩ := hb <;> rw [h1]

theorem Between.ends {h : Heap R} {n1 n2 : NId} {e : EId} (hb : Between h n1 n2 e) :
    ∃ a b, (h.edge e).ends = {(n1, a), (n2, b)} := by
  obtain ⟨a, b, h1 | h1⟩ := hb
  · exact ⟨a, b, by rw [h1]; rfl⟩
  · refine ⟨a, b, ?_⟩
    rw [h1]
    simp only [ends_conn, Multiset.insert_eq_cons]
    exact Multiset.pair_comm _ _

theorem Between.at_mem {h : Heap R} (w : WF h) {n1 n2 : NId} {e : EId} (hb : Between h n1 n2 e)
    {s : Slot} (hs : At h s e) : s.1 ∈ [n1, n2] := by
  obtain ⟨a, b, h1⟩ := hb.ends
  have := (w.mem_ends hs.inUse).2 hs
  rw [h1] at this
  simp only [Multiset.insert_eq_cons, Multiset.mem_cons, Multiset.mem_singleton] at this
  rcases this with h | h <;> simp [h]

theorem Between.count_one {h : Heap R} (w : WF h) {n1 n2 : NId} {e : EId}
    (hb : Between h n1 n2 e) (hu : InUse h e) (hne : n1 ≠ n2) (hn : n1 < h.nn) :
    (h.node n1).edges.count e = 1 := by
  rw [w.count hu hn]
  obtain ⟨a, b, h1⟩ := hb.ends
  rw [h1, Multiset.countP_eq_card_filter]
  simp only [Multiset.insert_eq_cons]
  rw [Multiset.filter_cons_of_pos (p := fun s : Slot => s.1 = n1) _ rfl,
    Multiset.filter_singleton, if_neg (fun h => hne h.symm)]
  rfl

theorem ndim_eq {dim : EId → Nat} {t : NDArray R} {es : List EId} (h : Shaped dim t es) :
    t.ndim = es.length := h.ndim

/-- The two loops of `_remove_edges` and `outer_product` over the edges of the two nodes. -/
theorem movesOf_pair (h : Heap R) (n1 n2 new : NId) (S : List EId) :
    movesOf (srcOf h [n1, n2] S) new =
      (((h.node n1).edges.zipIdx.filter (fun p => p.1 ∉ S)).zipIdx.map
        fun p => (p.1.1, (n1, p.1.2), (new, p.2))) ++
      ((((h.node n2).edges.zipIdx.filter (fun p => p.1 ∉ S)).zipIdx
        ((h.node n1).edges.filter (fun e => e ∉ S)).length).map
          fun p => (p.1.1, (n2, p.1.2), (new, p.2))) := by
  have hl : ((h.node n1).edges.filter (fun e => e ∉ S)).length =
      ((h.node n1).edges.zipIdx.filter (fun p => p.1 ∉ S)).length := by
    have := srcOf_edges (h := h) (N := [n1]) (S := S)
    have h2 := congrArg List.length this
    simp only [srcOf, List.flatMap_cons, List.flatMap_nil, List.append_nil, List.length_map] at h2
    exact h2.symm
  rw [hl]
  simp only [movesOf, srcOf, List.flatMap_cons, List.flatMap_nil, List.append_nil,
    List.zipIdx_append, List.map_append, List.zipIdx_map, List.map_map, List.length_map,
    Nat.zero_add]
  rfl

theorem freshEdges_len {h : Heap R} {n : NId}
    (hl : (h.node n).edges.length = (h.node n).tensor.ndim) :
    freshEdges n h = (.ok (), freshHeap h n) := freshEdges_eq hl.symm

/-- `_remove_edges` after a new node was made. -/
theorem removeEdges_run [CommSemiring R] {h : Heap R} (w : WF h) {n1 n2 : NId} {S : List EId}
    {t : NDArray R} (hne : n1 ≠ n2) (hn1 : n1 < h.nn) (hn2 : n2 < h.nn) (hSn : S.Nodup)
    (hS : ∀ e ∈ S, InUse h e ∧ Between h n1 n2 e)
    (hsh : Shaped (edim h) t (([n1, n2].flatMap (fun n => (h.node n).edges)).filter
      (fun e => e ∉ S)))
    (hval : ∀ τ : EId → Nat,
      val t (([n1, n2].flatMap (fun n => (h.node n).edges)).filter (fun e => e ∉ S)) τ =
        sumOver (edim h) S (prodVal (netOf h [n1, n2])) τ) :
    ∃ h', removeEdges S n1 n2 h.nn (addNode h t) = (.ok (), h') ∧
      Merged h h' [n1, n2] h.nn S := by
  have hN : [n1, n2].Nodup := by simp [hne]
  have hNlt : ∀ n ∈ [n1, n2], n < h.nn := by
    intro n hn
    simp only [List.mem_cons, List.not_mem_nil, or_false] at hn
    rcases hn with rfl | rfl <;> assumption
  have w1 := addNode_wf w t
  have hNlt1 : ∀ n ∈ [n1, n2], n < (addNode h t).nn :=
    fun n hn => Nat.lt_succ_of_lt (hNlt n hn)
  have hnew1 : n1 ≠ h.nn := hn1.ne
  have hnew2 : n2 ≠ h.nn := hn2.ne
  have en1 : (addNode h t).node n1 = h.node n1 := addNode_node_old hn1
  have en2 : (addNode h t).node n2 = h.node n2 := addNode_node_old hn2
  have hSe : ∀ e ∈ S, (addNode h t).edge e = h.edge e :=
    fun e he => addNode_edge_old (w.lt (hS e he).1)
  have hfilter : (([n1, n2].flatMap (fun n => (h.node n).edges)).filter (fun e => e ∉ S)) =
      (h.node n1).edges.filter (fun e => e ∉ S) ++
      (h.node n2).edges.filter (fun e => e ∉ S) := by
    simp
  obtain ⟨h2, u1, u2, u3, u4, u5, u6⟩ := moveTo_new (S := S) (new := h.nn) w1 hN hNlt1
  rw [movesOf_pair, updAll, M.forEach_append] at u1
  -- the heap after the edges were added to the new node
  have hadd := addAll (h := h2) (n := h.nn)
    (es := ([n1, n2].flatMap (fun n => (h.node n).edges)).filter (fun e => e ∉ S)) (ov := false)
    (by rw [u2, addNode_node_new]; simp only [List.length_map, List.length_range]; exact hsh.ndim)
    (by rw [u2, addNode_node_new]; exact hsh.ndim)
    (by
      right
      intro e he
      rw [u2] at he
      obtain ⟨k, hk, hke⟩ := List.mem_iff_getElem.1 he
      have hat : At (addNode h t) (h.nn, k) e :=
        ⟨Nat.lt_succ_self _, by rw [List.getElem?_eq_some_iff]; exact ⟨hk, hke⟩⟩
      rw [(u6 e hat.inUse).2.1]
      obtain ⟨hk', rfl⟩ := addNode_at_new.1 hat
      rw [addNode_edge_new hk'])
  have hf1 := freshEdges_len (h := h2.setNode h.nn { h2.node h.nn with
      edges := ([n1, n2].flatMap (fun n => (h.node n).edges)).filter (fun e => e ∉ S) }) (n := n1)
    (by
      rw [Heap.setNode_node, Function.update_of_ne hnew1, u2, en1]
      exact w.len n1 hn1)
  have F1 := freshHeap_freshened (h2.setNode h.nn { h2.node h.nn with
      edges := ([n1, n2].flatMap (fun n => (h.node n).edges)).filter (fun e => e ∉ S) }) n1
  have hf2 := freshEdges_len (h := freshHeap (h2.setNode h.nn { h2.node h.nn with
      edges := ([n1, n2].flatMap (fun n => (h.node n).edges)).filter (fun e => e ∉ S) }) n1)
      (n := n2) (by
      rw [F1.other n2 (by simpa using hne.symm), Heap.setNode_node, Function.update_of_ne hnew2,
        u2, en2]
      exact w.len n2 hn2)
  have F2 := freshHeap_freshened (freshHeap (h2.setNode h.nn { h2.node h.nn with
      edges := ([n1, n2].flatMap (fun n => (h.node n).edges)).filter (fun e => e ∉ S) }) n1) n2
  refine ⟨_, ?_, merged_of w hN hNlt hSn ?_ hsh (fun τ _ => hval τ) u2 u3 u4 u6 u5 (F1.trans F2)⟩
  · unfold removeEdges
    rw [if_neg hne]
    rw [M.bind_ok (a := (h.node n1).edges) (h' := addNode h t) (by
        simp only [nodeEdges, get_bind, M.pure_apply, en1]),
      M.bind_ok (a := (h.node n2).edges) (h' := addNode h t) (by
        simp only [nodeEdges, get_bind, M.pure_apply, en2])]
    rw [M.bind_ok (a := ()) (h' := addNode h t)]
    · rw [en1, en2] at u1
      rw [M.bind_apply] at u1
      rw [forEach_map] at u1
      rcases hx : M.forEach ((List.filter (fun p => decide (p.1 ∉ S))
          (h.node n1).edges.zipIdx).zipIdx) (fun a => updateAxis a.1.1 a.1.2 n1 a.2 h.nn)
          (addNode h t) with ⟨_ | u, h'⟩
      · rw [hx] at u1; simp at u1
      · rw [hx] at u1
        simp only at u1
        rw [forEach_map] at u1
        dsimp only at u1
        rw [M.bind_ok hx, M.bind_ok u1, M.bind_ok (by rw [← hfilter]; exact hadd),
          M.bind_ok hf1, M.bind_ok hf2]
        exact disableAll _ _
    · refine forEach_skip fun e he => ?_
      obtain ⟨a, b, h1 | h1⟩ := (hS e he).2
      · have hr : (addNode h t).edge e = .conn n1 a n2 b := (hSe e he).trans h1
        rw [M.bind_ok (a := false) (h' := addNode h t) (by rw [isDangling_eq, hr])]
        simp only [Bool.false_eq_true, if_false]
        rw [M.bind_ok (node1_conn hr), M.bind_ok (node2_conn hr)]
        simp
      · have hr : (addNode h t).edge e = .conn n2 b n1 a := (hSe e he).trans h1
        rw [M.bind_ok (a := false) (h' := addNode h t) (by rw [isDangling_eq, hr])]
        simp only [Bool.false_eq_true, if_false]
        rw [M.bind_ok (node1_conn hr), M.bind_ok (node2_conn hr)]
        simp
  · intro e he
    obtain ⟨hu, hb⟩ := hS e he
    exact ⟨hu, hb.not_dangling, fun s hs => hb.at_mem w hs⟩

/-- The tensor of the new node: `tensordot` over the shared edges. -/
theorem tensordot_pair [CommSemiring R] {h : Heap R} (w : WF h) {n1 n2 : NId} {S C : List EId}
    (hne : n1 ≠ n2) (hn1 : n1 < h.nn) (hn2 : n2 < h.nn) (hSn : S.Nodup) (hC : C.Perm S)
    (hS : ∀ e ∈ S, InUse h e ∧ Between h n1 n2 e) :
    ∃ t, (h.node n1).tensor.tensordot (h.node n2).tensor (C.map (h.node n1).edges.idxOf)
        (C.map (h.node n2).edges.idxOf) = .ok t ∧
      Shaped (edim h) t (([n1, n2].flatMap (fun n => (h.node n).edges)).filter (fun e => e ∉ S)) ∧
      ∀ τ : EId → Nat,
        val t (([n1, n2].flatMap (fun n => (h.node n).edges)).filter (fun e => e ∉ S)) τ =
          sumOver (edim h) S (prodVal (netOf h [n1, n2])) τ := by
  obtain ⟨t, h1, h2, h3⟩ := tensordot_val (w.shaped hn1) (w.shaped hn2) (C := C)
    (hC.nodup_iff.2 hSn)
    (fun e he => (hS e (hC.mem_iff.1 he)).2.count_one w (hS e (hC.mem_iff.1 he)).1 hne hn1)
    (fun e he => (hS e (hC.mem_iff.1 he)).2.symm.count_one w (hS e (hC.mem_iff.1 he)).1
      hne.symm hn2)
  have hf : ∀ l : List EId, l.filter (fun e => e ∉ C) = l.filter (fun e => e ∉ S) := by
    intro l
    refine List.filter_congr fun e _ => ?_
    simp [hC.mem_iff]
  have hfm : ([n1, n2].flatMap (fun n => (h.node n).edges)).filter (fun e => e ∉ S) =
      (h.node n1).edges.filter (fun e => e ∉ C) ++ (h.node n2).edges.filter (fun e => e ∉ C) := by
    rw [hf, hf]; simp
  rw [hfm]
  refine ⟨t, h1, h2, fun τ => ?_⟩
  rw [h3, sumOver_perm hC]
  refine sumOver_congr fun τ _ _ => ?_
  simp [prodVal, netOf]

/-! ### `contract` -/

theorem idxOf_of_at {h : Heap R} {n : NId} {k : Nat} {e : EId}
    (hc : (h.node n).edges.count e = 1) (hat : At h (n, k) e) :
    (h.node n).edges.idxOf e = k := by
  have hk := hat.lt_len
  have := hat.2
  rw [List.getElem?_eq_getElem hk] at this
  have h2 : (h.node n).edges[k] = e := Option.some.inj this
  exact idxOf_eq_of_count_one hc hk h2

/-- `contract` of an edge between two nodes. -/
theorem contract_pair [CommSemiring R] {h : Heap R} (w : WF h) {e : EId} (hu : InUse h e)
    {n1 a n2 b : Nat} (hr : h.edge e = .conn n1 a n2 b) (hne : n1 ≠ n2) :
    ∃ h', contract e h = (.ok h.nn, h') ∧ Merged h h' [n1, n2] h.nn [e] := by
  have hat1 : At h (n1, a) e := (w.mem_ends hu).1 (by rw [hr]; simp)
  have hat2 : At h (n2, b) e := (w.mem_ends hu).1 (by rw [hr]; simp)
  have hb : Between h n1 n2 e := ⟨a, b, .inl hr⟩
  have hS : ∀ e' ∈ [e], InUse h e' ∧ Between h n1 n2 e' := by
    intro e' he'; rw [List.mem_singleton.1 he']; exact ⟨hu, hb⟩
  obtain ⟨t, h1, h2, h3⟩ := tensordot_pair w hne hat1.1 hat2.1 (S := [e]) (C := [e])
    (by simp) (List.Perm.refl _) hS
  obtain ⟨h', k1, k2⟩ := removeEdges_run w hne hat1.1 hat2.1 (by simp) hS h2 h3
  refine ⟨h', ?_, k2⟩
  simp only [List.map_cons, List.map_nil] at h1
  rw [idxOf_of_at (hb.count_one w hu hne hat1.1) hat1,
    idxOf_of_at (hb.symm.count_one w hu hne.symm hat2.1) hat2] at h1
  unfold contract
  rw [M.bind_ok (a := false) (h' := h) (by rw [isDangling_eq, hr])]
  simp only [Bool.false_eq_true, if_false]
  rw [M.bind_ok (node1_conn hr), M.bind_ok (node2_conn hr)]
  dsimp only
  rw [if_neg hne, M.bind_ok (axis1_conn hr), M.bind_ok (axis2_conn hr)]
  dsimp only
  rw [M.bind_ok (nodeTensor_eq n1),
    M.bind_ok (nodeTensor_eq n2),
    M.bind_ok (a := t) (h' := h) (by rw [M.lift_apply, h1]), M.bind_ok (newNode_eq h t),
    M.bind_ok k1]
  rfl

/-! ### `outer_product` -/

theorem outerProduct_run [CommSemiring R] {h : Heap R} (w : WF h) {n1 n2 : NId}
    (hne : n1 ≠ n2) (hn1 : n1 < h.nn) (hn2 : n2 < h.nn) :
    ∃ h', outerProduct n1 n2 h = (.ok h.nn, h') ∧ Merged h h' [n1, n2] h.nn [] := by
  obtain ⟨t, ht⟩ : ∃ t, t = (h.node n1).tensor.outerProduct (h.node n2).tensor := ⟨_, rfl⟩
  obtain ⟨o1, o2⟩ := outerProduct_val (w.shaped hn1) (w.shaped hn2)
  rw [← ht] at o1 o2
  have hN : [n1, n2].Nodup := by simp [hne]
  have hNlt : ∀ n ∈ [n1, n2], n < h.nn := by
    intro n hn
    simp only [List.mem_cons, List.not_mem_nil, or_false] at hn
    rcases hn with rfl | rfl <;> assumption
  have w1 := addNode_wf w t
  have hNlt1 : ∀ n ∈ [n1, n2], n < (addNode h t).nn :=
    fun n hn => Nat.lt_succ_of_lt (hNlt n hn)
  have hnew1 : n1 ≠ h.nn := hn1.ne
  have hnew2 : n2 ≠ h.nn := hn2.ne
  have en1 : (addNode h t).node n1 = h.node n1 := addNode_node_old hn1
  have en2 : (addNode h t).node n2 = h.node n2 := addNode_node_old hn2
  have hfilter : (([n1, n2].flatMap (fun n => (h.node n).edges)).filter
      (fun e => e ∉ ([] : List EId))) = (h.node n1).edges ++ (h.node n2).edges := by
    simp
  obtain ⟨h2, u1, u2, u3, u4, u5, u6⟩ := moveTo_new (S := []) (new := h.nn) w1 hN hNlt1
  rw [movesOf_pair, updAll, M.forEach_append, en1, en2] at u1
  have hadd := addAll (h := h2) (n := h.nn)
    (es := ([n1, n2].flatMap (fun n => (h.node n).edges)).filter (fun e => e ∉ ([] : List EId)))
    (ov := true)
    (by
      rw [u2, addNode_node_new, hfilter]
      simp only [List.length_map, List.length_range]; exact o1.ndim)
    (by rw [u2, addNode_node_new, hfilter]; exact o1.ndim)
    (.inl rfl)
  have hf1 := freshEdges_len (h := h2.setNode h.nn { h2.node h.nn with
      edges := ([n1, n2].flatMap (fun n => (h.node n).edges)).filter
        (fun e => e ∉ ([] : List EId)) }) (n := n1)
    (by
      rw [Heap.setNode_node, Function.update_of_ne hnew1, u2, en1]
      exact w.len n1 hn1)
  have F1 := freshHeap_freshened (h2.setNode h.nn { h2.node h.nn with
      edges := ([n1, n2].flatMap (fun n => (h.node n).edges)).filter
        (fun e => e ∉ ([] : List EId)) }) n1
  have hf2 := freshEdges_len (h := freshHeap (h2.setNode h.nn { h2.node h.nn with
      edges := ([n1, n2].flatMap (fun n => (h.node n).edges)).filter
        (fun e => e ∉ ([] : List EId)) }) n1)
      (n := n2) (by
      rw [F1.other n2 (by simpa using hne.symm), Heap.setNode_node, Function.update_of_ne hnew2,
        u2, en2]
      exact w.len n2 hn2)
  have F2 := freshHeap_freshened (freshHeap (h2.setNode h.nn { h2.node h.nn with
      edges := ([n1, n2].flatMap (fun n => (h.node n).edges)).filter
        (fun e => e ∉ ([] : List EId)) }) n1) n2
  refine ⟨_, ?_, merged_of w hN hNlt List.nodup_nil (by simp) (by rw [hfilter]; exact o1)
    (fun τ _ => ?_) u2 u3 u4 u6 u5 (F1.trans F2)⟩
  · unfold outerProduct
    rw [M.bind_ok (nodeTensor_eq n1),
      M.bind_ok (nodeTensor_eq n2), ← ht,
      M.bind_ok (newNode_eq h t)]
    dsimp only
    rw [M.bind_ok (a := (h.node n1).edges) (h' := addNode h t) (by
        simp only [nodeEdges, get_bind, M.pure_apply, en1])]
    rw [M.bind_apply] at u1
    rw [forEach_map] at u1
    have z1 : ∀ (l : List EId) (g : (EId × Nat) × Nat → M R Unit) (k : Nat) (x : Heap R),
        (∀ p : (EId × Nat) × Nat, True) →
        M.forEach ((List.filter (fun p => decide (p.1 ∉ ([] : List EId))) l.zipIdx).zipIdx k) g x =
          M.forEach l.zipIdx (fun p => g (p, p.2 + k)) x := by
      intro l g k x _
      have e1 : List.filter (fun p => decide (p.1 ∉ ([] : List EId))) l.zipIdx = l.zipIdx := by
        simp
      have e2 : l.zipIdx.zipIdx k = l.zipIdx.map (fun p => (p, p.2 + k)) := by
        apply List.ext_getElem (by simp)
        intro i h1 h2
        simp [Nat.add_comm]
      rw [e1, e2, forEach_map]
    rw [z1 _ _ _ _ (fun _ => trivial)] at u1
    simp only [Nat.add_zero] at u1
    rw [M.bind_apply]
    rcases hx : M.forEach (h.node n1).edges.zipIdx
        (fun p => updateAxis p.1 p.2 n1 p.2 h.nn) (addNode h t) with ⟨_ | u, h'⟩
    · rw [hx] at u1; simp at u1
    · rw [hx] at u1
      simp only at u1
      dsimp only
      have hnode : h'.node n2 = h.node n2 := by
        have k1 := (updAll_spec (h := addNode h t) ((h.node n1).edges.zipIdx.map
          (fun p => (p.1, (n1, p.2), (h.nn, p.2)))) (by
            intro u hu
            obtain ⟨p, hp, rfl⟩ := List.mem_map.1 hu
            have : At (addNode h t) (n1, p.2) p.1 := ⟨hNlt1 n1 (by simp), by
              rw [en1]; exact List.mem_zipIdx_iff_getElem?.1 hp⟩
            exact w1.good this.inUse) ?_)
        · obtain ⟨h'', k1, k2, _⟩ := k1
          rw [updAll, forEach_map] at k1
          rw [hx] at k1
          have : h' = h'' := (Prod.mk.inj k1).2
          rw [this, k2, en2]
        · intro e
          by_cases hue : InUse (addNode h t) e
          · have := w1.ends_filter hue (hNlt1 n1 (by simp))
            have h9 : olds ((h.node n1).edges.zipIdx.map
                (fun p => (p.1, (n1, p.2), (h.nn, p.2)))) e =
                (((addNode h t).edge e).ends.filter (fun s => s.1 = n1)) := by
              rw [← this, olds, en1, List.filter_map, List.map_map]
              rfl
            rw [h9]
            exact Multiset.filter_le _ _
          · have : olds ((h.node n1).edges.zipIdx.map
                (fun p => (p.1, (n1, p.2), (h.nn, p.2)))) e = 0 := by
              rw [olds, List.filter_eq_nil_iff.2]
              · rfl
              · intro u hu
                obtain ⟨p, hp, rfl⟩ := List.mem_map.1 hu
                simp only [decide_eq_true_eq]
                rintro rfl
                exact hue ⟨(n1, p.2), hNlt1 n1 (by simp), by
                  rw [en1]; exact List.mem_zipIdx_iff_getElem?.1 hp⟩
            rw [this]; exact Multiset.zero_le _
      rw [M.bind_ok (a := (h.node n2).edges) (h' := h') (by
        simp only [nodeEdges, get_bind, M.pure_apply, hnode])]
      rw [forEach_map, z1 _ _ _ _ (fun _ => trivial)] at u1
      have hl : (List.filter (fun e => decide (e ∉ ([] : List EId))) (h.node n1).edges).length =
          (h.node n1).tensor.ndim := by
        simp [w.len n1 hn1]
      rw [hl] at u1
      rw [M.bind_ok u1, M.bind_ok (by rw [← hfilter]; exact hadd), M.bind_ok hf1, M.bind_ok hf2]
      simp [disableHeap]
  · rw [hfilter, o2]
    simp [prodVal, netOf, sumOver]

end TN.Graph
