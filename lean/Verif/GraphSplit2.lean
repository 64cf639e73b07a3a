import Verif.GraphSplit1

/-!
# Splitting a trace edge, and `split_edge` as a whole
-/

namespace TN.Graph

open TN

variable {R : Type}

/-- Splitting a trace edge. -/
theorem splitTrace_run [CommSemiring R] {h : Heap R} (w : WF h) {m : NId} {e : EId} {a b : Nat}
    (hm : m < h.nn) (heu : InUse h e) (hr : h.edge e = .conn m a m b) {shape : List Nat}
    (hprod : shape.prod = edim h e) :
    ∃ h', splitTraceEdge e shape h =
        (.ok ((List.range shape.length).map (fun i => h.ne + 3 * i + 2)), h') ∧
      Split h h' e shape ((List.range shape.length).map (fun i => h.ne + 3 * i + 2)) := by
  have hlte : e < h.ne := w.lt heu
  obtain ⟨es, hes⟩ : ∃ es, es = (h.node m).edges := ⟨_, rfl⟩
  have hesE : ∀ p, es[p]? = some e ↔ p = a ∨ p = b := by
    intro p
    have h1 := at_conn w heu hr (s := (m, p))
    simp only [At, Prod.mk.injEq, true_and, ← hes] at h1
    rw [← h1]
    exact ⟨fun h2 => ⟨hm, h2⟩, fun h2 => h2.2⟩
  have hab : a ≠ b := by
    intro h1
    have h2 := w.nodup heu
    rw [hr, h1] at h2
    simp at h2
  obtain ⟨lo, hlo⟩ : ∃ lo, lo = min a b := ⟨_, rfl⟩
  obtain ⟨hi, hhi⟩ : ∃ hi, hi = max a b := ⟨_, rfl⟩
  have hor : ∀ p, (p = a ∨ p = b) ↔ (p = lo ∨ p = hi) := by
    intro p; omega
  have hesL : es[lo]? = some e := (hesE _).2 ((hor _).2 (.inl rfl))
  have hesH : es[hi]? = some e := (hesE _).2 ((hor _).2 (.inr rfl))
  have gD : ∀ p f, es[p]? = some f → es.getD p default = f := fun p f hp => by
    rw [List.getD_eq_getElem?_getD, hp]; rfl
  have hbm : ∀ p < es.length, p ∈ [lo, hi] ↔ es.getD p default ∈ [e] := by
    intro p hp
    have h1 : es[p]? = some (es.getD p default) := by
      rw [List.getD_eq_getElem?_getD, List.getElem?_eq_getElem hp]; rfl
    have h2 := hesE p
    rw [h1, hor, Option.some.injEq] at h2
    simp only [List.mem_cons, List.not_mem_nil, or_false]
    exact h2.symm
  have p1 := other_perm (r := es.length) (back := [lo, hi]) (by
    simp only [List.nodup_cons, List.mem_singleton, List.not_mem_nil, not_false_eq_true,
      List.nodup_nil, and_true]; omega) (by
    intro p hp
    simp only [List.mem_cons, List.not_mem_nil, or_false] at hp
    rcases hp with rfl | rfl
    · exact (List.getElem?_eq_some_iff.1 hesL).1
    · exact (List.getElem?_eq_some_iff.1 hesH).1)
  obtain ⟨F, hF⟩ : ∃ F, F = es.filter (fun f => f ≠ e) := ⟨_, rfl⟩
  have q0 : (otherAxes es.length [lo, hi]).map (fun p => es.getD p default) = F := by
    rw [other_map hbm, hF]
    refine List.filter_congr fun f _ => ?_
    simp
  have q1 : (otherAxes es.length [lo, hi] ++ [lo, hi]).map (fun p => es.getD p default) =
      F ++ [e, e] := by
    rw [List.map_append, q0, List.map_cons, List.map_cons, List.map_nil, gD _ _ hesL, gD _ _ hesH]
  have hFlen : (otherAxes es.length [lo, hi]).length = F.length := by
    rw [← q0, List.length_map]
  obtain ⟨t1, ht1, x1, hx1, hx1n, hx1nn, hx1ne, hR1⟩ := reorder_core w hm
    (perm := otherAxes es.length [lo, hi] ++ [lo, hi]) (by rw [← hes]; exact p1) (x := h)
    (fun _ => rfl) rfl rfl rfl
  rw [← hes] at hR1 hx1
  rw [q1] at hR1
  obtain ⟨hc, hhc⟩ : ∃ hc : Heap R, hc = ⟨Function.update h.node m ⟨t1, F ++ [e, e]⟩, x1.edge,
    h.nn, h.ne⟩ := ⟨_, rfl⟩
  have r1 : Reordered h hc m (F ++ [e, e]) := by
    apply hR1 <;> rw [hhc]
  have r := r1.rearr
  have hFm : ∀ f ∈ F, f ∈ (h.node m).edges ∧ f ≠ e := by
    intro f hf; rw [hF, List.mem_filter, hes] at hf; simpa using hf
  have heF : e ∉ F := fun h1 => (hFm e h1).2 rfl
  -- the tensor
  have hts : Shaped (edim h) t1 (F ++ [e, e]) := by
    obtain ⟨s1, s2, s3, s4⟩ := transpose_val (w.shaped hm)
      (perm := otherAxes es.length [lo, hi] ++ [lo, hi]) (by rw [← hes]; exact p1)
    rw [ht1] at s2
    obtain rfl := Except.ok.inj s2
    rw [← hes, q1] at s3
    exact s3
  have key : ∀ (E : List EId) (dimf : EId → Nat), E.map dimf = shape →
      (∀ l ∈ (h.node m).edges, l ≠ e → dimf l = edim h l) →
      ∃ t'', t1.reshape (F.map (edim h) ++ shape ++ shape) = .ok t'' ∧
        t''.shape = F.map (edim h) ++ shape ++ shape ∧
        ∀ τ : EId → Nat, (∀ l ∈ F ++ (E ++ E), τ l < dimf l) →
          val t1 (F ++ [e, e]) (Function.update τ e (gpos dimf E τ)) = val t'' (F ++ (E ++ E)) τ := by
    intro E dimf hE hd
    have hexp : expand e E (F ++ [e, e]) = F ++ (E ++ E) := by
      rw [expand_append, expand_of_not_mem heF, show [e, e] = [e] ++ [e] from rfl, expand_append,
        expand_single]
    obtain ⟨t'', r1, r2, r3⟩ := reshape_fine (t := t1) (ls := F ++ [e, e]) (c := e) (E := E)
      (dim := dimf) (dim' := edim h) hts (by rw [← hprod, ← hE]; rfl)
      (by
        intro l hl hlc
        rcases List.mem_append.1 hl with hl | hl
        · exact (hd l (hFm l hl).1 hlc).symm
        · simp only [List.mem_cons, List.not_mem_nil, or_false, or_self] at hl
          exact absurd hl hlc)
    have hmap : (F ++ (E ++ E)).map dimf = F.map (edim h) ++ shape ++ shape := by
      rw [List.map_append, List.map_append, hE, List.append_assoc]
      congr 1
      exact List.map_congr_left fun l hl => hd l (hFm l hl).1 (hFm l hl).2
    rw [hexp] at r1 r2 r3
    rw [Shaped, hmap] at r2
    rw [hmap] at r1
    exact ⟨t'', r1, r2, r3⟩
  obtain ⟨u, v1, v2, _⟩ := key ((List.range shape.length).map (h.ne + ·))
    (fun l => if l < h.ne then edim h l else shape.getD (l - h.ne) 0)
    (by
      rw [List.map_map]
      apply List.ext_getElem (by simp)
      intro i i1 i2
      simp only [List.getElem_map, List.getElem_range, Function.comp]
      rw [if_neg (by omega), Nat.add_sub_cancel_left, List.getD_eq_getElem _ _ i2])
    (fun l hl _ => if_pos (w.lt (inUse_of_mem hm hl)))
  -- the run
  obtain ⟨g, hg⟩ : ∃ g : Heap R, g = ⟨Function.update h.node m
    ⟨u, F ++ List.replicate (2 * shape.length) 0⟩, x1.edge, h.nn, h.ne⟩ := ⟨_, rfl⟩
  obtain ⟨g', l1, l2, l3, l4, l5, l6, l7⟩ := traceLoop (m := m) (g := g) (shape := shape)
    (D := F.map (edim h)) (t := u) (F := F) (by rw [hg]; simp) v2 (by simp) shape.length le_rfl
  have hgne : g.ne = h.ne := by rw [hg]
  rw [hgne] at l1 l2 l5 l6 l7
  rw [Nat.sub_self, List.replicate_zero, List.append_nil] at l2
  obtain ⟨k, hk⟩ : ∃ k, k = shape.length := ⟨_, rfl⟩
  obtain ⟨news, hnews⟩ : ∃ news, news = (List.range shape.length).map
    (fun i => h.ne + 3 * i + 2) := ⟨_, rfl⟩
  rw [← hnews] at l1 l2 ⊢
  obtain ⟨h', hh'⟩ : ∃ h', h' = disableHeap g' [e] := ⟨_, rfl⟩
  refine ⟨h', ?_, ?_⟩
  · unfold splitTraceEdge
    rw [M.bind_ok (node1_conn hr), M.bind_ok (axis1_conn hr), M.bind_ok (axis2_conn hr)]
    dsimp only
    rw [M.bind_ok (nodeEdges_eq m), ← hes, ← hlo, ← hhi]
    have hrun := reorderAxes_run (h := h) (n := m) (x := x1) (by rw [← hes]; exact p1) ht1 (by
      rw [← hes]; exact hx1)
    rw [← hes, q1] at hrun
    rw [M.bind_ok hrun, M.bind_ok (nodeTensor_eq m)]
    simp only [Function.update_self]
    have hshape : t1.shape = F.map (edim h) ++ [e, e].map (edim h) := by
      rw [hts, List.map_append]
    rw [hFlen, hshape, List.take_left' (by simp)]
    rw [M.bind_ok (a := u) (by rw [M.lift_apply, v1])]
    have hset : ∀ k : Heap R, k.node m = ⟨t1, F ++ [e, e]⟩ → setTensor m u k =
        (.ok (), k.setNode m ⟨u, F ++ [e, e]⟩) := by
      intro k hk; simp only [setTensor, M.modify, hk]
    rw [M.bind_ok (hset _ (by simp)), M.bind_ok (nodeEdges_eq m)]
    simp only [Heap.setNode, Function.update_idem, Function.update_self, List.take_left]
    have hse : ∀ (k : Heap R) (l : List EId), k.node m = ⟨u, F ++ [e, e]⟩ →
        setEdges m l k = (.ok (), k.setNode m ⟨u, l⟩) := by
      intro k l hk; simp only [setEdges, M.modify, hk]
    rw [M.bind_ok (hse _ _ (by simp))]
    simp only [Heap.setNode, Function.update_idem]
    rw [← hg, M.bind_ok l1, M.bind_ok (disable_run e g'), ← hh']
    rfl
  have hnd : ∀ n, h'.node n = if n = m then ⟨u, F ++ (news ++ news)⟩ else h.node n := by
    intro n
    rw [hh']; simp only [disableHeap]
    split_ifs with h1
    · rw [h1, l2]
    · rw [l3 n h1, hg]; simp only; rw [Function.update_of_ne h1]
  have hcn : ∀ n, hc.node n = if n = m then ⟨t1, F ++ [e, e]⟩ else h.node n := by
    intro n
    rw [hhc]; simp only
    rw [Function.update_apply]
  have hnn : h'.nn = h.nn := by rw [hh']; simp only [disableHeap]; rw [l4, hg]
  have hne : h'.ne = h.ne + 3 * k := by rw [hh']; simp only [disableHeap]; rw [l5, hk]
  have hexp : expand e news [e, e] = news ++ news := by
    rw [show [e, e] = [e] ++ [e] from rfl, expand_append, expand_single]
  have hnl : news.length = k := by rw [hnews, hk]; simp
  have hnget : ∀ i f, news[i]? = some f ↔ i < k ∧ f = h.ne + 3 * i + 2 := by
    intro i f
    rw [hnews, List.getElem?_map, ← hk]
    by_cases hi : i < k
    · rw [List.getElem?_range hi]; simp [hi, eq_comm]
    · rw [List.getElem?_eq_none (by simpa using hi)]; simp [hi]
  have hnewe : ∀ i < k, h'.edge (h.ne + 3 * i + 2) =
      .conn m (F.length + i) m (F.length + k + i) := by
    intro i hi
    rw [hh']; simp only [disableHeap]
    rw [if_neg (by rw [List.mem_singleton]; omega), l7 i (by omega), hk]
  have at1 : ∀ i < k, At h' (m, F.length + i) (h.ne + 3 * i + 2) := by
    intro i hi
    refine ⟨by rw [hnn]; exact hm, ?_⟩
    simp only
    rw [hnd, if_pos rfl]
    simp only
    rw [List.getElem?_append_right (by omega), Nat.add_sub_cancel_left,
      List.getElem?_append_left (by omega)]
    exact (hnget _ _).2 ⟨hi, rfl⟩
  have at2 : ∀ i < k, At h' (m, F.length + k + i) (h.ne + 3 * i + 2) := by
    intro i hi
    refine ⟨by rw [hnn]; exact hm, ?_⟩
    simp only
    rw [hnd, if_pos rfl]
    simp only
    rw [List.getElem?_append_right (by omega), List.getElem?_append_right (by omega)]
    exact (hnget _ _).2 ⟨by omega, by rw [hnl]; omega⟩
  have hdimi : ∀ i < k, dimAt h' (m, F.length + i) = dimAt h' (m, F.length + k + i) := by
    intro i hi
    simp only [dimAt, Heap.shape]
    rw [hnd, if_pos rfl]
    simp only
    rw [v2, List.append_assoc]
    rw [show (F.map (edim h) ++ (shape ++ shape)).getD (F.length + i) 0 = shape.getD i 0 by
      rw [List.getD_append_right _ _ _ _ (by simp), List.getD_append _ _ _ _ (by simp; omega)]
      congr 1; simp]
    rw [List.getD_append_right _ _ _ _ (by simp; omega),
      List.getD_append_right _ _ _ _ (by simp; omega)]
    congr 1; simp only [List.length_map]; omega
  refine split_finish w r (T := [m]) (F := fun _ => F) (X := fun _ => [e, e]) hnn
    (by rw [hne]; omega) heu hprod (by simp) ?_ ?_ ?_ ?_ ?_ ?_ ?_ ?_ ?_ ?_ ?_ ?_ ?_ ?_ ?_
  · intro n hn
    obtain rfl := List.mem_singleton.1 hn
    exact ⟨hm, by rw [hcn, if_pos rfl]⟩
  · intro n _; simp
  · intro n hn
    obtain rfl := List.mem_singleton.1 hn
    rw [← hes]; exact hF
  · intro n hn hnT hme
    have := (at_conn w heu hr).1 (at_of_mem hn hme)
    rw [List.mem_singleton] at hnT
    rcases this with h1 | h1
    · exact hnT (Prod.mk.inj h1).1
    · exact hnT (Prod.mk.inj h1).1
  · intro n hnT
    rw [List.mem_singleton] at hnT
    exact ⟨by rw [hnd, if_neg hnT], by rw [hcn, if_neg hnT]⟩
  · intro n hn
    obtain rfl := List.mem_singleton.1 hn
    rw [hnd, if_pos rfl, hexp]
  · intro n hn
    obtain rfl := List.mem_singleton.1 hn
    rw [hnd, if_pos rfl]
    simp only
    rw [v2]; simp
  · rw [hnl, hk]
  · intro n hn i f hf
    obtain rfl := List.mem_singleton.1 hn
    rw [hexp] at hf
    have hne12 : ∀ j < k, ((n, F.length + j) : Slot) ≠ (n, F.length + k + j) := by
      intro j hj h2
      have := (Prod.mk.inj h2).2
      omega
    have hlt : ∀ j < k, h.ne + 3 * j + 2 < h'.ne := fun j hj => by rw [hne]; omega
    rcases tail_slot hf with h1 | ⟨h1, h2⟩
    · obtain ⟨i1, rfl⟩ := (hnget _ _).1 h1
      exact edgeOK_conn (at1 i i1) (at2 i i1) (hne12 i i1) (hdimi i i1) (hlt i i1) (hnewe i i1)
        (.inl rfl)
    · obtain ⟨i1, rfl⟩ := (hnget _ _).1 h2
      rw [hnl] at h1 i1 ⊢
      refine edgeOK_conn (at1 _ i1) (at2 _ i1) (hne12 _ i1) (hdimi _ i1) (hlt _ i1) (hnewe _ i1)
        (.inr ?_)
      rw [Nat.add_assoc, Nat.add_sub_cancel' h1]
  · intro f h1 h2
    rw [hh', hhc]; simp only [disableHeap]
    rw [if_neg (by simpa using h2), l6 f h1, hg]
  · rw [hh']; simp only [disableHeap]; rw [if_pos (by simp)]
  · rw [hnews]
    exact (List.nodup_map_iff_inj_on List.nodup_range).2 fun x _ y _ hxy => by omega
  · intro f hf
    rw [hnews, List.mem_map] at hf
    obtain ⟨i, _, rfl⟩ := hf
    omega
  · intro f hf
    rw [hnews, List.mem_map] at hf
    obtain ⟨i, hi, rfl⟩ := hf
    rw [hnewe i (by rw [hk]; exact List.mem_range.1 hi), hr]
  · intro n hn hdims hold τ hτ
    obtain rfl := List.mem_singleton.1 hn
    rw [hexp] at hτ ⊢
    rw [hcn, if_pos rfl, hnd, if_pos rfl]
    obtain ⟨u', w1, _, w3⟩ := key news (edim h') hdims hold
    rw [v1] at w1
    obtain rfl := Except.ok.inj w1
    exact w3 τ hτ

/-- `split_edge` of a shape that does not fit is refused. -/
theorem splitEdge_err [CommSemiring R] {h : Heap R} (w : WF h) {e : EId} (heu : InUse h e)
    {shape : List Nat} (hprod : shape.prod ≠ edim h e) (swap : Bool) :
    splitEdge swap e shape h = (.error .valueError, h) := by
  unfold splitEdge
  rw [M.bind_ok (dimension_eq w heu), if_pos hprod]
  rfl

/-- A shape with one entry leaves everything as it is. -/
theorem splitEdge_single [CommSemiring R] {h : Heap R} (w : WF h) {e : EId} (heu : InUse h e)
    {shape : List Nat} (hprod : shape.prod = edim h e) (h1 : shape.length = 1) (swap : Bool) :
    splitEdge swap e shape h = (.ok [e], h) := by
  unfold splitEdge
  rw [M.bind_ok (dimension_eq w heu), if_neg (by rw [not_not]; exact hprod), if_pos h1]
  rfl

/-- `split_edge` on an edge that is in use. -/
theorem splitEdge_ok [CommSemiring R] {h : Heap R} (w : WF h) {e : EId} (heu : InUse h e)
    {shape : List Nat} (hprod : shape.prod = edim h e) (h1 : shape.length ≠ 1) (swap : Bool) :
    ∃ h' news, splitEdge swap e shape h = (.ok news, h') ∧ Split h h' e shape news := by
  unfold splitEdge
  rw [M.bind_ok (dimension_eq w heu), if_neg (by rw [not_not]; exact hprod), if_neg h1]
  rcases w.good heu with ⟨n, a, hr⟩ | ⟨n, a, m, b, hr⟩
  · have hat : At h (n, a) e := (at_dang w heu hr).2 rfl
    have htr : isTrace e h = (.ok false, h) := by
      unfold isTrace
      rw [M.bind_ok (node1_dang hr), M.bind_ok (node2_dang hr)]
      rfl
    obtain ⟨h', k1, k2⟩ := splitDangling_run w hat.1 heu hr hprod
    refine ⟨h', _, ?_, k2⟩
    rw [M.bind_ok htr]
    rw [if_neg (by simp), get_bind, hr]
    exact k1
  · have a1 : At h (n, a) e := (at_conn w heu hr).2 (.inl rfl)
    have a2 : At h (m, b) e := (at_conn w heu hr).2 (.inr rfl)
    by_cases hnm : n = m
    · subst hnm
      have htr : isTrace e h = (.ok true, h) := by
        unfold isTrace
        rw [M.bind_ok (node1_conn hr), M.bind_ok (node2_conn hr)]
        simp
      obtain ⟨h', k1, k2⟩ := splitTrace_run w a1.1 heu hr hprod
      refine ⟨h', _, ?_, k2⟩
      rw [M.bind_ok htr, if_pos rfl]
      exact k1
    · have htr : isTrace e h = (.ok false, h) := by
        unfold isTrace
        rw [M.bind_ok (node1_conn hr), M.bind_ok (node2_conn hr)]
        simp [hnm]
      have hB : Between h n m e := ⟨a, b, .inl hr⟩
      rw [M.bind_ok htr, if_neg (by simp), get_bind, hr]
      dsimp only
      cases swap
      · obtain ⟨h', k1, k2⟩ := splitPair_run w hnm a1.1 a2.1 heu hB hprod
        exact ⟨h', _, k1, k2⟩
      · obtain ⟨h', k1, k2⟩ := splitPair_run w (Ne.symm hnm) a2.1 a1.1 heu hB.symm hprod
        exact ⟨h', _, k1, k2⟩

end TN.Graph
