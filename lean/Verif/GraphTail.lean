import Verif.GraphFrame

/-!
# Replacing the last axes of nodes

Flattening and splitting first move the axes concerned to the end and then replace them.
-/

namespace TN.Graph

open TN

variable {R : Type}

theorem other_perm {r : Nat} {back : List Nat} (hn : back.Nodup) (hlt : ∀ p ∈ back, p < r) :
    (otherAxes r back ++ back).Perm (List.range r) := by
  rw [List.perm_ext_iff_of_nodup _ List.nodup_range]
  · intro p
    simp only [otherAxes, List.mem_append, List.mem_filter, List.mem_range, decide_eq_true_eq]
    by_cases hp : p ∈ back
    · simp [hp, hlt p hp]
    · simp [hp]
  · refine List.nodup_append.2 ⟨List.nodup_range.filter _, hn, ?_⟩
    intro a ha b hb hab
    subst hab
    simp only [otherAxes, List.mem_filter, decide_eq_true_eq] at ha
    exact ha.2 hb

theorem other_map {es E : List EId} {back : List Nat}
    (h : ∀ p < es.length, p ∈ back ↔ es.getD p default ∈ E) :
    (otherAxes es.length back).map (fun p => es.getD p default) = es.filter (fun e => e ∉ E) := by
  unfold otherAxes
  rw [filter_range_getD es (fun e => decide (e ∉ E))]
  intro p hp
  simp only [h p hp]

/-- Distinct edges that occur once in the list of a node, moved to the back. -/
theorem back_perm {es E : List EId} (hE : E.Nodup) (h1 : ∀ e ∈ E, es.count e = 1) :
    (otherAxes es.length (E.map es.idxOf) ++ E.map es.idxOf).Perm (List.range es.length) ∧
    (otherAxes es.length (E.map es.idxOf) ++ E.map es.idxOf).map (fun p => es.getD p default) =
      es.filter (fun e => e ∉ E) ++ E := by
  refine ⟨other_perm (idxOf_map_nodup hE h1) (map_idxOf_lt h1), ?_⟩
  rw [List.map_append, map_idxOf_getD h1, other_map fun p hp => mem_idxOf_iff h1 hp]

theorem tail_slot {l y : List EId} {k : Nat} {e : EId} (h : (l ++ y)[k]? = some e) :
    l[k]? = some e ∨ (l.length ≤ k ∧ y[k - l.length]? = some e) := by
  rw [List.getElem?_append] at h
  split_ifs at h with hc
  · exact .inl h
  · exact .inr ⟨by omega, h⟩

/-- The last axes of the nodes `T` are replaced. -/
theorem tail_wf {hc hm : Heap R} (wc : WF hc) {T : List NId} {dead : EId → Prop}
    {F X Y : NId → List EId} {Ds : NId → List Nat} (hnn : hm.nn = hc.nn) (hne : hc.ne ≤ hm.ne)
    (hT : ∀ n ∈ T, (hc.node n).edges = F n ++ X n) (hX : ∀ n ∈ T, ∀ e ∈ X n, dead e)
    (hF : ∀ n ∈ T, ∀ e ∈ F n, ¬ dead e)
    (hother : ∀ n, n ∉ T → hm.node n = hc.node n)
    (hdead : ∀ n < hc.nn, n ∉ T → ∀ e ∈ (hc.node n).edges, ¬ dead e)
    (hnew : ∀ n ∈ T, (hm.node n).edges = F n ++ Y n)
    (hshape : ∀ n ∈ T, (hm.node n).tensor.shape = (F n).map (edim hc) ++ Ds n)
    (hlen : ∀ n ∈ T, (Ds n).length = (Y n).length)
    (hok : ∀ n ∈ T, n < hc.nn → ∀ i e, (Y n)[i]? = some e → EdgeOK hm (n, (F n).length + i) e)
    (hedge : ∀ e, InUse hc e → ¬ dead e → hm.edge e = hc.edge e) :
    WF hm ∧
    (∀ e, InUse hm e → (InUse hc e ∧ ¬ dead e) ∨ ∃ n ∈ T, e ∈ Y n) ∧
    (∀ e, InUse hc e → ¬ dead e → InUse hm e ∧ edim hm e = edim hc e) := by
  have live : ∀ s e, At hc s e → ¬ dead e →
      At hm s e ∧ dimAt hm s = dimAt hc s ∧ hm.edge e = hc.edge e := by
    intro s e hs hd
    obtain ⟨n, k⟩ := s
    by_cases hn : n ∈ T
    · have h1 := hs.2
      simp only at h1
      rw [hT n hn] at h1
      rcases tail_slot h1 with h2 | ⟨_, h2⟩
      · have hk : k < (F n).length := (List.getElem?_eq_some_iff.1 h2).1
        refine ⟨⟨by rw [hnn]; exact hs.1, ?_⟩, ?_, hedge e hs.inUse hd⟩
        · simp only
          rw [hnew n hn, List.getElem?_append_left hk]; exact h2
        · simp only [dimAt, Heap.shape]
          rw [hshape n hn, List.getD_append _ _ _ _ (by simpa using hk)]
          have h3 := wc.shaped hs.1
          simp only at h3
          rw [h3, hT n hn, List.map_append, List.getD_append _ _ _ _ (by simpa using hk)]
      · exact absurd (hX n hn e (List.mem_of_getElem? h2)) hd
    · refine ⟨⟨by rw [hnn]; exact hs.1, by simp only; rw [hother n hn]; exact hs.2⟩, ?_,
        hedge e hs.inUse hd⟩
      simp only [dimAt, Heap.shape, hother n hn]
  have cover : ∀ s e, At hm s e → (At hc s e ∧ ¬ dead e) ∨
      (EdgeOK hm s e ∧ ∃ n ∈ T, e ∈ Y n) := by
    intro s e hs
    obtain ⟨n, k⟩ := s
    have hlt : n < hc.nn := by rw [← hnn]; exact hs.1
    by_cases hn : n ∈ T
    · have h1 := hs.2
      simp only at h1
      rw [hnew n hn] at h1
      rcases tail_slot h1 with h2 | ⟨hk, h2⟩
      · left
        have hk : k < (F n).length := (List.getElem?_eq_some_iff.1 h2).1
        refine ⟨⟨hlt, ?_⟩, hF n hn e (List.mem_of_getElem? h2)⟩
        simp only
        rw [hT n hn, List.getElem?_append_left hk]; exact h2
      · right
        have := hok n hn hlt _ e h2
        rw [show (F n).length + (k - (F n).length) = k by omega] at this
        exact ⟨this, n, hn, List.mem_of_getElem? h2⟩
    · left
      have h1 : At hc (n, k) e := ⟨hlt, by simp only; rw [← hother n hn]; exact hs.2⟩
      exact ⟨h1, hdead n hlt hn e h1.mem⟩
  have wm : WF hm := by
    refine cut_wf wc hne ?_ live fun s e hs => ?_
    · intro n hn
      by_cases hnT : n ∈ T
      · rw [hnew n hnT, NDArray.ndim, hshape n hnT]
        simp [hlen n hnT]
      · rw [hother n hnT]; exact wc.len n (hnn ▸ hn)
    · rcases cover s e hs with h1 | h1
      · exact .inl h1
      · exact .inr h1.1
  refine ⟨wm, ?_, ?_⟩
  · rintro e ⟨s, hs⟩
    rcases cover s e hs with ⟨h1, h2⟩ | ⟨_, h1⟩
    · exact .inl ⟨h1.inUse, h2⟩
    · exact .inr h1
  · rintro e ⟨s, hs⟩ hd
    obtain ⟨h1, h2, _⟩ := live s e hs hd
    exact ⟨h1.inUse, by rw [wm.edim_eq h1, wc.edim_eq hs, h2]⟩

/-- The run of one round of `flatten_edges`. -/
theorem flattenAt_run [CommSemiring R] {h x : Heap R} {n : NId} {E : List EId} {dim : EId → Nat}
    {t' : NDArray R}
    (hE : E.Nodup) (h1 : ∀ e ∈ E, (h.node n).edges.count e = 1)
    (hlt : ∀ e ∈ (h.node n).edges, e < h.ne)
    (hsh : Shaped dim (h.node n).tensor (h.node n).edges)
    (ht : (h.node n).tensor.transpose
      (otherAxes (h.node n).edges.length (E.map (h.node n).edges.idxOf) ++
        E.map (h.node n).edges.idxOf) = .ok t')
    (hu : updAll (reorderMoves n (h.node n).edges
      (otherAxes (h.node n).edges.length (E.map (h.node n).edges.idxOf) ++
        E.map (h.node n).edges.idxOf)) h = (.ok (), x)) :
    ∃ t'', flattenAt E n h = (.ok h.ne, ⟨Function.update h.node n
        ⟨t'', (h.node n).edges.filter (fun e => e ∉ E) ++ [h.ne]⟩,
        Function.update x.edge h.ne
          (.dang n ((h.node n).edges.filter (fun e => e ∉ E)).length), h.nn, h.ne + 1⟩) ∧
      t''.shape = ((h.node n).edges.filter (fun e => e ∉ E)).map dim ++ [gdim dim E] ∧
      ∀ (c : EId) (τ : EId → Nat), c ∉ (h.node n).edges →
        (∀ l ∈ (h.node n).edges, τ l < dim l) →
        val t'' ((h.node n).edges.filter (fun e => e ∉ E) ++ [c])
          (Function.update τ c (gpos dim E τ)) = val (h.node n).tensor (h.node n).edges τ := by
  obtain ⟨es, hes⟩ : ∃ es, es = (h.node n).edges := ⟨_, rfl⟩
  rw [← hes] at h1 hlt hsh ht hu ⊢
  obtain ⟨F, hF⟩ : ∃ F, F = es.filter (fun e => e ∉ E) := ⟨_, rfl⟩
  rw [← hF]
  obtain ⟨hp, hm⟩ := back_perm hE h1
  rw [← hF] at hm
  obtain ⟨s1, s2, s3, s4⟩ := transpose_val hsh hp
  rw [hm] at s3 s4
  obtain rfl : t' = s1 := by rw [ht] at s2; exact Except.ok.inj s2
  have hEsub : ∀ e ∈ E, e ∈ es := fun e he => List.count_pos_iff.1 (by rw [h1 e he]; omega)
  have hFsub : ∀ e ∈ F, e ∈ es := fun e he => by
    rw [hF, List.mem_filter] at he; exact he.1
  have key : ∀ c, c ∉ es → ∃ t'', t'.reshape (F.map dim ++ [gdim dim E]) = .ok t'' ∧
      t''.shape = F.map dim ++ [gdim dim E] ∧ ∀ τ : EId → Nat,
        (∀ l ∈ F ++ E, τ l < dim l) → val t'' (F ++ [c]) (Function.update τ c (gpos dim E τ)) =
          val t' (F ++ E) τ := by
    intro c hc
    have hcF : c ∉ F := fun h2 => hc (hFsub c h2)
    have hexp : expand c E (F ++ [c]) = F ++ E := by
      rw [expand_append, expand_of_not_mem hcF, expand_single]
    obtain ⟨t'', r1, r2, r3⟩ := reshape_coarse (t := t') (ls := F ++ [c]) (c := c) (E := E)
      (dim := dim) (dim' := Function.update dim c (gdim dim E)) (by rw [hexp]; exact s3) (by simp)
      (fun l _ hlc => by rw [Function.update_of_ne hlc])
    have hmap : (F ++ [c]).map (Function.update dim c (gdim dim E)) = F.map dim ++ [gdim dim E] := by
      rw [List.map_append]
      congr 1
      · refine List.map_congr_left fun l hl => Function.update_of_ne ?_ _ _
        rintro rfl; exact hcF hl
      · simp
    rw [Shaped, hmap] at r2
    rw [hmap] at r1
    rw [hexp] at r3
    exact ⟨t'', r1, r2, r3⟩
  obtain ⟨t'', r1, r2, _⟩ := key h.ne (fun hc => by have := hlt _ hc; omega)
  refine ⟨t'', ?_, r2, ?_⟩
  · unfold flattenAt
    rw [M.bind_ok (nodeEdges_eq n), ← hes, if_neg (by
      rintro ⟨e, he, hne⟩; exact hne (hEsub e he))]
    have hrun := reorderAxes_run (h := h) (n := n) (x := x) (by rw [← hes]; exact hp) ht (by
      rw [← hes]; exact hu)
    rw [← hes, hm] at hrun
    rw [M.bind_ok hrun, M.bind_ok (nodeTensor_eq n)]
    simp only [Function.update_self]
    have hFlen : (otherAxes es.length (E.map es.idxOf)).length = F.length := by
      have h2 := congrArg List.length hm
      simp only [List.length_map, List.length_append] at h2
      omega
    have hshape : t'.shape = F.map dim ++ E.map dim := by rw [s3, List.map_append]
    rw [hFlen, hshape]
    rw [show F.length = (F.map dim).length by simp, List.take_left, List.drop_left]
    rw [show (E.map dim).prod = gdim dim E from rfl]
    rw [M.bind_ok (a := t'') (by rw [M.lift_apply, r1])]
    have hset : ∀ k : Heap R, k.node n = ⟨t', F ++ E⟩ → setTensor n t'' k =
        (.ok (), k.setNode n ⟨t'', F ++ E⟩) := by
      intro k hk; simp only [setTensor, M.modify, hk]
    rw [M.bind_ok (hset _ (by simp))]
    simp only [Heap.setNode, Function.update_idem, List.length_map]
    have hnd : ∀ k : Heap R, newDangling n F.length k = (.ok k.ne, { k with
      edge := Function.update k.edge k.ne (.dang n F.length)
      ne := k.ne + 1 }) := fun _ => rfl
    rw [M.bind_ok (hnd _), M.bind_ok (nodeEdges_eq n)]
    simp only [Function.update_self, List.take_left]
    have hse : ∀ (k : Heap R) (l : List EId), k.node n = ⟨t'', F ++ E⟩ →
        setEdges n l k = (.ok (), k.setNode n ⟨t'', l⟩) := by
      intro k l hk; simp only [setEdges, M.modify, hk]
    rw [M.bind_ok (hse _ _ (by simp))]
    simp [Heap.setNode, Function.update_idem]
  · intro c τ hc hτ
    obtain ⟨t3, q1, _, q3⟩ := key c hc
    rw [r1] at q1
    obtain rfl := Except.ok.inj q1
    rw [q3 τ, s4]
    intro l hl
    rcases List.mem_append.1 hl with hl | hl
    exacts [hτ l (hFsub l hl), hτ l (hEsub l hl)]

end TN.Graph
