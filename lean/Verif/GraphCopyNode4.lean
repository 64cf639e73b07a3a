import Verif.GraphCopyNode3

/-!
# `contract_copy_node`: the run (C44)
-/

set_option linter.unusedSectionVars false

namespace TN.Graph

open TN Finset

variable {R : Type}

/-- The whole function.  The last two parts relate the result to a heap in which the partners
also have fresh edges and the contracted edges are disabled. -/
theorem contractCopyNode_run [CommSemiring R] {h : Heap R} {cn : NId} (w : WF h) (hcn : cn < h.nn)
    {r d : Nat} (ht : (h.node cn).tensor = Copy.makeCopyTensor r d)
    (hd : ∀ e ∈ (h.node cn).edges, (h.edge e).dangling = false)
    (hP : neighbours h cn ≠ [])
    (hlen : (((neighbours h cn).flatMap fun n => (h.node n).edges).filter
      fun e => e ∉ (h.node cn).edges).length < 52) :
    ∃ h' k, contractCopyNode cn h = (.ok h.nn, h') ∧ h' = freshHeap k cn ∧
      h.ne ≤ k.ne ∧ k.nn = h.nn + 1 ∧
      (∀ n < h.nn, k.node n = h.node n) ∧
      (∀ e ∈ (h.node cn).edges, k.edge e = h.edge e) ∧
      (∀ e ∈ (k.node h.nn).edges, e < h.ne) ∧
      (∀ τ : EId → Nat, val (k.node h.nn).tensor (k.node h.nn).edges τ =
        ∑ i ∈ range d, prodVal (netOf h (neighbours h cn))
            (Copy.setAll (h.node cn).edges.dedup i τ)) ∧
      Merged h (disableHeap ((neighbours h cn).foldl freshHeap h') (h.node cn).edges.dedup)
        (neighbours h cn ++ [cn]) h.nn (h.node cn).edges.dedup := by
  obtain ⟨t, c1, c2, c3⟩ := computeContracted_ok w hcn ht hd hP hlen
  obtain ⟨P, hPdef⟩ : ∃ P, P = neighbours h cn := ⟨_, rfl⟩
  obtain ⟨S, hSdef⟩ : ∃ S, S = (h.node cn).edges.dedup := ⟨_, rfl⟩
  have hmem := fun p => mem_neighbours w hcn hd (p := p)
  have hlt : ∀ p ∈ P, p < h.nn := by
    intro p hp
    rw [hPdef] at hp
    obtain ⟨_, e, _, k, hk⟩ := (hmem p).1 hp
    exact hk.1
  have hcnP : cn ∉ P := by rw [hPdef]; exact fun hm => ((hmem cn).1 hm).1 rfl
  have hPn : P.Nodup := by rw [hPdef]; exact neighbours_nodup
  have hSmem : ∀ e, e ∈ S ↔ e ∈ (h.node cn).edges := by intro e; rw [hSdef, List.mem_dedup]
  have w1 := addNode_wf w t
  have hcn1 : (addNode h t).node cn = h.node cn := addNode_node_old hcn
  have hSlt : ∀ e ∈ (h.node cn).edges, e < h.ne := fun e he => w.lt (inUse_of_mem hcn he)
  have hSe : ∀ e ∈ (h.node cn).edges, (addNode h t).edge e = h.edge e :=
    fun e he => addNode_edge_old (hSlt e he)
  -- the partners are the same in the graph with the new node
  have hneigh : neighbours (addNode h t) cn = P := by
    rw [hPdef]
    unfold neighbours
    rw [hcn1]
    congr 1
    refine List.filterMap_congr fun e he => ?_
    unfold otherEnd
    rw [hSe e he]
  obtain ⟨ps, g1, g2⟩ := getPartners_ok w1 (cn := cn) (Nat.lt_succ_of_lt hcn) (by
    intro e he
    rw [hcn1] at he
    rw [hSe e he]; exact hd e he)
  have hfst : ps.map Prod.fst = P := g2.fst.trans hneigh
  have hPlt1 : ∀ n ∈ P, n < (addNode h t).nn := fun n hn => Nat.lt_succ_of_lt (hlt n hn)
  have hfm : P.flatMap (fun n => ((addNode h t).node n).edges) =
      P.flatMap (fun n => (h.node n).edges) :=
    List.flatMap_congr fun n hn => by rw [addNode_node_old (hlt n hn)]
  have hsrcfst : (srcOf (addNode h t) P S).map Prod.fst =
      (P.flatMap (fun n => (h.node n).edges)).filter (fun e => e ∉ S) := by
    rw [srcOf_edges, hfm]
  rw [← hPdef, ← hSdef] at c2 c3
  have hndim : t.ndim = (srcOf (addNode h t) P S).length := by
    have := congrArg List.length hsrcfst
    rw [List.length_map] at this
    rw [this]; exact c2.ndim
  have hpairs : (ps.flatMap fun p => ((addNode h t).node p.1).edges.map fun e => (p.1, e)) =
      (allSlots (addNode h t) P).map fun x => (x.2.1, x.1) := by
    unfold allSlots
    rw [List.map_flatMap, ← hfst, List.flatMap_map]
    refine List.flatMap_congr fun p _ => ?_
    rw [List.map_map]
    have : ∀ (l : List Nat) (j : Nat), (l.map fun e => (p.1, e)) =
        (l.zipIdx j).map ((fun x : EId × Slot => (x.2.1, x.1)) ∘ fun q => (q.1, (p.1, q.2))) := by
      intro l
      induction l with
      | nil => intro j; rfl
      | cons a l ih => intro j; rw [List.map_cons, List.zipIdx_cons, List.map_cons, ih (j + 1)]; rfl
    exact this _ 0
  have htgt : ∀ (j : Nat) (x : EId × Slot), (srcOf (addNode h t) P S)[j]? = some x →
      mv (movesOf (srcOf (addNode h t) P S) h.nn) x.2 = (h.nn, j) := by
    intro j x hx
    exact mv_srcOf hPn (e := x.1) hx
  have hnewP : h.nn ∉ P := fun hm => absurd (hlt _ hm) (lt_irrefl _)
  have hS1 : ∀ e, InUse (addNode h t) e → (e ∈ S ↔ ∃ s, At (addNode h t) s e ∧ s.1 = cn) := by
    intro e hu
    rw [hSmem]
    constructor
    · intro he
      rw [← hcn1] at he
      exact ⟨_, at_of_mem (Nat.lt_succ_of_lt hcn) he, rfl⟩
    · rintro ⟨s, hs, rfl⟩
      rw [← hcn1]
      exact List.mem_of_getElem? hs.2
  obtain ⟨k, m1, m2⟩ := moveEdges_ok w1 (cn := cn) (new := h.nn) (P := P) (S := S) hPn hPlt1
    hcn.ne hnewP hS1 (by
      intro e he
      rw [hSmem] at he
      rw [hSe e he]; exact hd e he) (by
      intro e he
      have hat := at_of_mem (h := addNode h t) (n := h.nn) (Nat.lt_succ_self _) he
      obtain ⟨h1, h2⟩ := addNode_at_new.1 hat
      refine ⟨((addNode h t).node h.nn).edges.idxOf e, ?_⟩
      have h3 := addNode_edge_new (h := h) h1
      rwa [← h2] at h3) (by
      rw [addNode_node_new, ← hndim]; simp) (by
      rw [addNode_node_new]; exact hndim) (Nat.lt_succ_self _) htgt (allSlots (addNode h t) P)
    [] (addNode h t) rfl (by
      refine ⟨rfl, rfl, fun _ _ => rfl, rfl, by simp, ?_, fun _ _ => rfl⟩
      intro e hu
      rw [movedRec_none _ (w1.good hu)]
      intro s _
      rfl)
  have hdrop : ((addNode h t).node h.nn).edges.drop (srcOf (addNode h t) P S).length = [] := by
    rw [List.drop_eq_nil_iff, addNode_node_new, ← hndim]; simp
  have hknew : k.node h.nn = ⟨t, (P.flatMap (fun n => (h.node n).edges)).filter
      (fun e => e ∉ S)⟩ := by
    have h1 := m2.tensor
    have h2 := m2.edges
    rw [hdrop, List.append_nil, hsrcfst] at h2
    rw [addNode_node_new] at h1
    rcases hx : k.node h.nn with ⟨t', es⟩
    rw [hx] at h1 h2
    simp only at h1 h2
    rw [h1, h2]
  have hkold : ∀ n < h.nn, k.node n = h.node n := by
    intro n hn
    rw [m2.node n hn.ne, addNode_node_old hn]
  have hfresh := freshEdges_len (h := k) (n := cn) (by
    rw [hkold cn hcn]; exact w.len cn hcn)
  have hrun : contractCopyNode cn h = (.ok h.nn, freshHeap k cn) := by
    unfold contractCopyNode
    refine (M.bind_ok c1).trans ?_
    refine (M.bind_ok (newNode_eq h t)).trans ?_
    refine (M.bind_ok g1).trans ?_
    rw [get_bind, hpairs]
    refine (M.bind_ok m1).trans ?_
    rw [if_neg (by simpa using hndim)]
    exact (M.bind_ok hfresh).trans rfl
  -- the records
  have hrecS : ∀ e ∈ (h.node cn).edges, k.edge e = h.edge e := by
    intro e he
    have hu1 : InUse (addNode h t) e := by
      rw [← hcn1] at he
      exact inUse_of_mem (Nat.lt_succ_of_lt hcn) he
    rw [m2.used e hu1, hSe e he]
    refine movedRec_none _ (by rw [← hSe e he]; exact w1.good hu1) ?_
    intro s hs
    unfold visited
    rw [if_neg]
    intro hm
    obtain ⟨⟨e', s'⟩, h1, h2⟩ := List.mem_map.1 hm
    simp only at h2
    subst h2
    obtain ⟨h3, _, h4⟩ := (mem_srcOf hPlt1).1 h1
    rw [← hSe e he] at hs
    have := h3.unique ((w1.mem_ends hu1).1 hs)
    subst this
    exact h4 ((hSmem _).2 he)
  have hsrcN : srcOf (addNode h t) (P ++ [cn]) S = srcOf (addNode h t) P S := by
    unfold srcOf
    rw [List.flatMap_append]
    have : ((addNode h t).node cn).edges.zipIdx.filter (fun p => p.1 ∉ S) = [] := by
      rw [List.filter_eq_nil_iff]
      rintro ⟨e, j⟩ hp
      have h1 := List.mem_of_getElem? (List.mem_zipIdx_iff_getElem?.1 hp)
      rw [hcn1] at h1
      simpa using (hSmem _).2 h1
    rw [List.flatMap_singleton, this, List.map_nil, List.append_nil]
  have hflN : ((P ++ [cn]).flatMap (fun n => (h.node n).edges)).filter (fun e => e ∉ S) =
      (P.flatMap (fun n => (h.node n).edges)).filter (fun e => e ∉ S) := by
    rw [List.flatMap_append, List.filter_append]
    have : ([cn].flatMap fun n => (h.node n).edges).filter (fun e => e ∉ S) = [] := by
      rw [List.filter_eq_nil_iff]
      intro e he
      simpa using (hSmem e).2 (by simpa using he)
    rw [this, List.append_nil]
  have hneE : (h.node cn).edges ≠ [] := by
    intro h0
    refine hP ?_
    unfold neighbours
    rw [h0]; rfl
  have hmg : Merged h (disableHeap (P.foldl freshHeap (freshHeap k cn)) S) (P ++ [cn]) h.nn S := by
    refine merged_of (h2 := k.setNode h.nn ((addNode h t).node h.nn)) (t := t) w ?_ ?_ ?_ ?_ ?_ ?_
      ?_ ?_ ?_ ?_ ?_ ?_
    · rw [List.nodup_append]
      refine ⟨hPn, by simp, ?_⟩
      intro a ha b hb hab
      have : b = cn := by simpa using hb
      exact hcnP (by rw [← this, ← hab]; exact ha)
    · intro n hn
      rcases List.mem_append.1 hn with hn | hn
      · exact hlt n hn
      · have : n = cn := by simpa using hn
        rw [this]; exact hcn
    · rw [hSdef]; exact List.nodup_dedup _
    · intro e he
      rw [hSmem] at he
      refine ⟨inUse_of_mem hcn he, hd e he, ?_⟩
      rintro ⟨n, j⟩ hs
      by_cases hn : n = cn
      · simp [hn]
      · refine List.mem_append_left _ ?_
        rw [hPdef]
        exact (hmem n).2 ⟨hn, e, he, j, hs⟩
    · rw [hflN]; exact c2
    · intro τ _
      rw [hflN, c3 τ, hSdef]
      exact (sumOver_copyNode ht (copy_edim w hcn ht) hneE τ).symm
    · funext n
      rw [Heap.setNode_node]
      by_cases hn : n = h.nn
      · subst hn; rw [Function.update_self]
      · rw [Function.update_of_ne hn, m2.node n hn]
    · exact m2.nn
    · exact m2.ne
    · intro e hu
      rw [Heap.setNode_edge, m2.used e hu, hsrcN]
      refine movedRec_ends (w1.good hu) ?_ ?_
      · intro s hs
        refine mv_not_mem ?_
        rw [movesOf_olds]; exact hs
      · intro s hs s' hs' hss
        have a1 := (w1.mem_ends hu).1 hs
        have a2 := (w1.mem_ends hu).1 hs'
        have key : ∀ x y : Slot, At (addNode h t) x e → At (addNode h t) y e → x.1 = y.1 →
            x ∈ (srcOf (addNode h t) P S).map Prod.snd →
            y ∈ (srcOf (addNode h t) P S).map Prod.snd := by
          intro x y hx hy hxy hm
          obtain ⟨⟨e', x'⟩, h1, h2⟩ := List.mem_map.1 hm
          simp only at h2
          subst h2
          obtain ⟨h3, h4, h5⟩ := (mem_srcOf hPlt1).1 h1
          have := h3.unique hx
          subst this
          exact List.mem_map.2 ⟨(e', y), (mem_srcOf hPlt1).2 ⟨hy, hxy ▸ h4, h5⟩, rfl⟩
        exact ⟨key s s' a1 a2 hss, key s' s a2 a1 hss.symm⟩
    · intro e hu
      rw [Heap.setNode_edge]
      exact m2.dead e hu
    · have hk2 : ((k.setNode h.nn ((addNode h t).node h.nn)).setNode h.nn
          { (k.setNode h.nn ((addNode h t).node h.nn)).node h.nn with
            edges := ((P ++ [cn]).flatMap (fun n => (h.node n).edges)).filter
              (fun e => e ∉ S) }) = k := by
        rw [hflN]
        simp only [Heap.setNode, Function.update_self, Function.update_idem, addNode_node_new]
        rw [← hknew, Function.update_eq_self]
      rw [hk2]
      refine ((freshHeap_freshened k cn).trans (freshAll P (freshHeap k cn))).congr ?_
      intro n
      simp only [List.mem_append]
      tauto
  rw [← hPdef, ← hSdef]
  refine ⟨freshHeap k cn, k, hrun, rfl, ?_, m2.nn, hkold, hrecS, ?_, ?_, hmg⟩
  · rw [m2.ne]; simp [addNode]
  · intro e he
    rw [hknew] at he
    simp only [List.mem_filter, List.mem_flatMap] at he
    obtain ⟨⟨n, hn, hen⟩, _⟩ := he
    exact w.lt (inUse_of_mem (hlt n hn) hen)
  · intro τ
    rw [hknew]
    exact c3 τ

end TN.Graph
