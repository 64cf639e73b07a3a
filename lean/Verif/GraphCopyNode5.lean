import Verif.GraphCopyNode4
import Verif.GraphProps5

/-!
# C44: contracting a copy node
-/

set_option linter.unusedSectionVars false

namespace TN.Graph

open TN Finset

variable {R : Type}

theorem copyContracted_of [CommSemiring R] {h h' k : Heap R} {cn : NId} (w : WF h)
    (hcn : cn < h.nn) {r d : Nat} (ht : (h.node cn).tensor = Copy.makeCopyTensor r d)
    (hd : ∀ e ∈ (h.node cn).edges, (h.edge e).dangling = false)
    (hP : neighbours h cn ≠ []) (hk : h' = freshHeap k cn) (hne : h.ne ≤ k.ne)
    (hnn : k.nn = h.nn + 1) (hold : ∀ n < h.nn, k.node n = h.node n)
    (hnewlt : ∀ e ∈ (k.node h.nn).edges, e < h.ne)
    (hentry : ∀ τ : EId → Nat, val (k.node h.nn).tensor (k.node h.nn).edges τ =
        ∑ i ∈ range d, prodVal (netOf h (neighbours h cn))
            (Copy.setAll (h.node cn).edges.dedup i τ))
    (mg : Merged h (disableHeap ((neighbours h cn).foldl freshHeap h') (h.node cn).edges.dedup)
        (neighbours h cn ++ [cn]) h.nn (h.node cn).edges.dedup) :
    CopyContracted h h' cn h.nn := by
  have F1 := freshHeap_freshened k cn
  rw [← hk] at F1
  have F2 := freshAll (neighbours h cn) h'
  obtain ⟨P, hPdef⟩ : ∃ P, P = neighbours h cn := ⟨_, rfl⟩
  obtain ⟨S, hSdef⟩ : ∃ S, S = (h.node cn).edges.dedup := ⟨_, rfl⟩
  have hSmem : ∀ e, e ∈ S ↔ e ∈ (h.node cn).edges := by intro e; rw [hSdef, List.mem_dedup]
  have hcnP : cn ∉ P := by
    rw [hPdef]; exact fun hm => ((mem_neighbours w hcn hd).1 hm).1 rfl
  rw [← hPdef] at F2 mg
  rw [← hSdef] at mg
  obtain ⟨h'', hh''⟩ : ∃ x, x = disableHeap (P.foldl freshHeap h') S := ⟨_, rfl⟩
  rw [← hh''] at mg
  have hnode'' : ∀ n, n ∉ P → h''.node n = h'.node n := by
    intro n hn
    rw [hh'']
    exact F2.other n hn
  have hedge'' : ∀ e < h'.ne, e ∉ S → h''.edge e = h'.edge e := by
    intro e he heS
    rw [hh'']
    simp only [disableHeap, if_neg heS]
    exact F2.old e he
  have hPfresh : ∀ p ∈ P, ∀ (j : Nat) (e : EId), (h''.node p).edges[j]? = some e → h'.ne ≤ e := by
    intro p hp j e hj
    rw [hh''] at hj
    exact (F2.fresh p hp j e hj).1
  have hnewcn : h.nn ≠ cn := hcn.ne'
  have hnewP : h.nn ∉ P := by
    rw [hPdef]
    intro hm
    obtain ⟨_, e, _, j, hj⟩ := (mem_neighbours w hcn hd).1 hm
    exact lt_irrefl _ hj.1
  have hnew : h'.node h.nn = k.node h.nn := F1.other h.nn (by simpa using hnewcn)
  have hne' : h.ne ≤ h'.ne := hne.trans F1.ne
  have hlive : ∀ n < h'.nn, n ∉ P → ∀ (j : Nat) (e : EId), (h'.node n).edges[j]? = some e → e < h'.ne := by
    intro n hn hnP j e hj
    rw [F1.nn, hnn] at hn
    by_cases h1 : n = cn
    · exact (F1.fresh n (by simp [h1]) j e hj).2.1
    · rw [F1.other n (by simpa using h1)] at hj
      by_cases h2 : n = h.nn
      · subst h2
        exact lt_of_lt_of_le (hnewlt e (List.mem_of_getElem? hj)) hne'
      · have h3 : n < h.nn := by omega
        rw [hold n h3] at hj
        exact lt_of_lt_of_le (w.lt (inUse_of_mem h3 (List.mem_of_getElem? hj))) hne'
  have hneE : (h.node cn).edges ≠ [] := by
    intro h0
    refine hP ?_
    unfold neighbours
    rw [h0]; rfl
  have hd' : (h.shape cn).headD 0 = d := by
    have h1 : (h.node cn).edges.length = r := by
      rw [w.len cn hcn, ht]; simp [Copy.makeCopyTensor, NDArray.ndim]
    have h2 : 0 < r := by
      rw [← h1]; exact List.length_pos_of_ne_nil hneE
    rw [Heap.shape, ht]
    obtain ⟨r', rfl⟩ : ∃ r', r = r' + 1 := ⟨r - 1, by omega⟩
    simp [Copy.makeCopyTensor, List.replicate_succ]
  have hnn'' : h''.nn = h'.nn := by rw [hh'']; exact F2.nn
  have hok'' := mg.wf.graphOK
  refine ⟨rfl, F1.nn.trans hnn, hne', ?_, ?_, ?_, ?_, ?_, ?_, ?_, ?_⟩
  · intro n hn hncn
    rw [F1.other n (by simpa using hncn), hold n hn]
  · have := mg.edges
    rw [hnode'' _ hnewP] at this
    rw [this, List.flatMap_append, List.filter_append, ← hPdef]
    have h1 : ([cn].flatMap fun n => (h.node n).edges).filter (fun e => e ∉ S) = [] := by
      rw [List.filter_eq_nil_iff]
      intro e he
      simpa using (hSmem e).2 (by simpa using he)
    rw [h1, List.append_nil]
    refine List.filter_congr fun e _ => ?_
    simp [hSmem]
  · intro τ _
    rw [hnew, hentry τ, hd']
    refine Finset.sum_congr rfl fun i _ => ?_
    unfold prodVal netOf
    rw [List.map_map]
    congr 1
    refine List.map_congr_left fun n _ => ?_
    simp only [Function.comp, val]
    congr 1
    refine List.map_congr_left fun e _ => ?_
    simp [Copy.setAll]
  · refine ⟨by rw [F1.tensor, hold cn hcn], ?_⟩
    intro e he
    obtain ⟨j, hj, hje⟩ := List.mem_iff_getElem.1 he
    obtain ⟨h1, _, h3⟩ := F1.fresh cn (by simp) j e (by rw [List.getElem?_eq_getElem hj, hje])
    exact ⟨hne.trans h1, by rw [h3]⟩
  · intro e hu he
    have h1 : e ∉ S := fun hm => he ((hSmem e).1 hm)
    rw [← hedge'' e (lt_of_lt_of_le (w.lt hu) hne') h1]
    exact mg.dangling e hu h1
  · intro e hu he
    have h1 : e ∉ S := fun hm => he ((hSmem e).1 hm)
    obtain ⟨hu'', hdim⟩ := mg.live e hu h1
    rw [← hdim]
    have hlt := lt_of_lt_of_le (w.lt hu) hne'
    have hee := hedge'' e hlt h1
    unfold edim
    rw [hee]
    rcases hn1 : (h'.edge e).node1 with _ | n
    · rfl
    · have hat : At h'' (n, (h''.edge e).axis1) e := by
        refine (mg.wf.mem_ends hu'').1 ?_
        rcases mg.wf.good hu'' with ⟨n', a, hr⟩ | ⟨n', a, m, b, hr⟩
        · have h2 : n' = n := by
            have := congrArg EdgeRec.node1 hr
            rw [hee, hn1] at this
            simpa using this.symm
          rw [hr, h2]; simp
        · have h2 : n' = n := by
            have := congrArg EdgeRec.node1 hr
            rw [hee, hn1] at this
            simpa using this.symm
          rw [hr, h2]; simp
      have hnP : n ∉ P := fun hm => by
        have := hPfresh n hm _ e hat.2
        omega
      simp only [dimAt, Heap.shape, hnode'' n hnP]
  · intro n hn hnP
    rw [← hPdef] at hnP
    have hn'' : n < h''.nn := by rw [hnn'']; exact hn
    have hs : ∀ m, m ∉ P → h''.shape m = h'.shape m := by
      intro m hm; unfold Heap.shape; rw [hnode'' m hm]
    constructor
    · have := hok''.rank n hn''
      rwa [hnode'' n hnP, hs n hnP] at this
    · intro j e hj
      have hlt := hlive n hn hnP j e hj
      have hj'' : (h''.node n).edges[j]? = some e := by rw [hnode'' n hnP]; exact hj
      have hf := hok''.edge n hn'' j e hj''
      have heS : e ∉ S := by
        intro hm
        have h1 := (mg.disabled e hm).1
        have h2 := hf.2.1
        rw [h1] at h2
        exact absurd h2 (by simp)
      have hee := hedge'' e hlt heS
      unfold Fits at hf
      rw [hee] at hf
      obtain ⟨_, f2, f3⟩ := hf
      rcases f3 with f3 | ⟨f3, m, j', f4, f5, f6, f7, f8⟩
      · refine ⟨⟨hlt, f2, .inl f3⟩, ?_⟩
        intro p hp
        rw [← hPdef] at hp
        rw [f3.2.1, f3.2.2.2.1]
        refine ⟨?_, by simp⟩
        intro hnp
        obtain rfl : n = p := by simpa using hnp
        exact hnP hp
      · have hmP : m ∉ P := by
          intro hm
          have := hPfresh m hm j' e f6
          omega
        rw [hnode'' m hmP] at f6
        rw [hs m hmP, hs n hnP] at f7
        refine ⟨⟨hlt, f2, .inr ⟨f3, m, j', f4, by rw [← hnn'']; exact f5, f6, f7, f8⟩⟩, ?_⟩
        intro p hp
        rw [← hPdef] at hp
        have a1 : n ≠ p := by rintro rfl; exact hnP hp
        have a2 : m ≠ p := by rintro rfl; exact hmP hp
        rcases f8 with f8 | f8
        · rw [f8.1, f8.2.2.1]; simp [a1, a2]
        · rw [f8.1, f8.2.2.1]; simp [a1, a2]
  · intro rest hrn hrlt σ hσ
    rw [← hPdef] at hrn hσ ⊢
    rw [← mg.value rest hrn hrlt σ hσ]
    congr 1
    unfold netOf
    refine List.map_congr_left fun n hn => ?_
    have hnP : n ∉ P := by
      rcases List.mem_cons.1 hn with rfl | hn
      · exact hnewP
      · intro hm
        exact (List.nodup_append.1 hrn).2.2 n (List.mem_append_left _ hm) n hn rfl
    rw [hnode'' n hnP]

/-- C44.  In a correct graph, a copy node without dangling edges and with a neighbour is
contracted to the node whose entries are the sums over one common index at the copy node; the
rest of the graph stays correct and the value of every network is kept.  The bound on the number
of remaining edges is numpy's: it accepts 52 letters as subscripts.  That the former neighbours
are detached from the graph is false: `C44_stale_false`. -/
theorem C44_contract_partial [CommSemiring R] {h : Heap R} {cn : NId} (w : GraphOK h)
    (hcn : cn < h.nn) {r d : Nat} (ht : (h.node cn).tensor = Copy.makeCopyTensor r d)
    (hd : ∀ e ∈ (h.node cn).edges, (h.edge e).dangling = false)
    (hP : neighbours h cn ≠ [])
    (hlen : (((neighbours h cn).flatMap fun n => (h.node n).edges).filter
      fun e => e ∉ (h.node cn).edges).length < 52) :
    ∃ h', contractCopyNode cn h = (.ok h.nn, h') ∧ CopyContracted h h' cn h.nn := by
  obtain ⟨h', k, a1, a2, a3, a4, a5, _, a7, a8, a9⟩ :=
    contractCopyNode_run w.wf hcn ht hd hP hlen
  exact ⟨h', a1, copyContracted_of w.wf hcn ht hd hP a2 a3 a4 a5 a7 a8 a9⟩

/-- The former neighbours keep their list of edges, also those that now belong to the new node
and those of the copy node; so the graph is never correct after the call. -/
theorem C44_stale_false [CommSemiring R] {h : Heap R} {cn : NId} (w : GraphOK h)
    (hcn : cn < h.nn) {r d : Nat} (ht : (h.node cn).tensor = Copy.makeCopyTensor r d)
    (hd : ∀ e ∈ (h.node cn).edges, (h.edge e).dangling = false)
    (hP : neighbours h cn ≠ [])
    (hlen : (((neighbours h cn).flatMap fun n => (h.node n).edges).filter
      fun e => e ∉ (h.node cn).edges).length < 52) :
    (∀ p ∈ neighbours h cn, (contractCopyNode cn h).2.node p = h.node p) ∧
      ¬ GraphOK (contractCopyNode cn h).2 := by
  obtain ⟨h', k, a1, a2, a3, a4, a5, a6, _, _, _⟩ :=
    contractCopyNode_run w.wf hcn ht hd hP hlen
  have w := w.wf
  rw [a1]
  simp only
  have F1 := freshHeap_freshened k cn
  rw [← a2] at F1
  have hnode : ∀ p ∈ neighbours h cn, h'.node p = h.node p := by
    intro p hp
    obtain ⟨h1, e, _, j, hj⟩ := (mem_neighbours w hcn hd).1 hp
    rw [F1.other p (by simpa using h1), a5 p hj.1]
  refine ⟨hnode, ?_⟩
  intro hok
  have w' := hok.wf
  obtain ⟨p, hp⟩ := List.exists_mem_of_ne_nil _ hP
  obtain ⟨hpcn, e, he, j, hj⟩ := (mem_neighbours w hcn hd).1 hp
  have hat : At h' (p, j) e := by
    refine ⟨?_, ?_⟩
    · rw [F1.nn, a4]; exact Nat.lt_succ_of_lt hj.1
    · simp only; rw [hnode p hp]; exact hj.2
  have hcat := at_of_mem hcn he
  have hlt := w.lt hcat.inUse
  have hrec : h'.edge e = h.edge e := by
    rw [F1.old e (lt_of_lt_of_le hlt a3), a6 e he]
  have hend : (cn, (h.node cn).edges.idxOf e) ∈ (h'.edge e).ends := by
    rw [hrec]; exact (w.mem_ends hcat.inUse).2 hcat
  have hcat' := (w'.mem_ends hat.inUse).1 hend
  have := (F1.fresh cn (by simp) _ e hcat'.2).1
  omega

/-! ### Exceptions -/

theorem partnersLoop_dangling {h : Heap R} (w : WF h) {cn : NId} (hcn : cn < h.nn)
    (es : List EId) : ∀ (ps : List (NId × List Nat)),
    (∀ e ∈ es, e ∈ (h.node cn).edges) → (∃ e ∈ es, (h.edge e).dangling = true) →
    partnersLoop cn es ps h = (.error .valueError, h) := by
  induction es with
  | nil => rintro ps _ ⟨e, he, _⟩; simp at he
  | cons e es ih =>
    intro ps hes hdg
    have hu : InUse h e := inUse_of_mem hcn (hes e (by simp))
    unfold partnersLoop
    rcases w.good hu with ⟨n, a, hr⟩ | ⟨n, a, m, b, hr⟩
    · refine (M.bind_ok (a := true) (h' := h) (by rw [isDangling_eq, hr])).trans ?_
      rfl
    · have hdg' : ∃ e ∈ es, (h.edge e).dangling = true := by
        obtain ⟨e', h1, h2⟩ := hdg
        rcases List.mem_cons.1 h1 with rfl | h1
        · rw [hr] at h2; simp at h2
        · exact ⟨e', h1, h2⟩
      have ih' := fun ps => ih ps (fun e he => hes e (by simp [he])) hdg'
      refine (M.bind_ok (a := false) (h' := h) (by rw [isDangling_eq, hr])).trans ?_
      simp only [Bool.false_eq_true, if_false]
      refine (M.bind_ok (node1_conn hr)).trans ?_
      refine (M.bind_ok (node2_conn hr)).trans ?_
      by_cases h1 : n = cn ∧ (some m : Option Nat) = some cn
      · rw [if_pos h1]; exact ih' _
      · rw [if_neg h1]
        by_cases h2 : n = cn
        · rw [if_pos h2]
          exact (M.bind_ok (axis2_conn hr)).trans (ih' _)
        · have h3 : m = cn := by
            rcases (at_conn w hu hr).1 (at_of_mem hcn (hes e (by simp))) with z | z
            · exact absurd (Prod.mk.inj z).1.symm h2
            · exact (Prod.mk.inj z).1.symm
          rw [if_neg h2, if_pos (by rw [h3])]
          exact (M.bind_ok (axis1_conn hr)).trans (ih' _)

/-- A copy node with a dangling edge is refused, and nothing has happened. -/
theorem C44_dangling_raises [CommSemiring R] {h : Heap R} {cn : NId} (w : GraphOK h)
    (hcn : cn < h.nn) (hd : ∃ e ∈ (h.node cn).edges, (h.edge e).dangling = true) :
    contractCopyNode cn h = (.error .valueError, h) := by
  have h1 : getPartners cn h = (.error .valueError, h) :=
    partnersLoop_dangling w.wf hcn (h.node cn).edges [] (fun _ h => h) hd
  have h2 : computeContracted cn h = (.error .valueError, h) := by
    unfold computeContracted
    exact M.bind_error h1
  unfold contractCopyNode
  exact M.bind_error h2

theorem inputTerms_any {S : List Nat} : ∀ (ps : List (List Nat × List Nat)) (n : Nat),
    (∀ p ∈ ps, Copy.Shared S p.1 p.2) →
    Copy.inputTerms (ps.map fun p => (p.1.length, p.2)) n =
      .ok (Copy.termsOf S (ps.map Prod.fst) n,
        n + (Copy.rest S (ps.map Prod.fst).flatten).length) ∨
    Copy.inputTerms (ps.map fun p => (p.1.length, p.2)) n = .error .indexError
  | [], n, _ => .inl rfl
  | p :: ps, n, h => by
    have h1 := Copy.inputIndices_eq (S := S) (shared := p.2) p.1 0 n (by
      intro k e hk; simpa using h p (by simp) k e hk)
    have h2 := inputTerms_any ps (n + (Copy.rest S p.1).length) (fun q hq => h q (by simp [hq]))
    rw [List.map_cons, Copy.inputTerms, List.range_eq_range', h1]
    by_cases h3 : ∃ i ∈ Copy.termOf S p.1 n, 62 ≤ i
    · right
      simp only [Copy.subscripts, if_pos h3, bind, Except.bind]
    · simp only [Copy.subscripts, if_neg h3, bind, Except.bind]
      rcases h2 with h2 | h2
      · left
        simp only [h2, List.map_cons, Copy.termsOf, List.flatten_cons, Copy.rest_append,
          List.length_append, Nat.add_assoc]
      · right
        simp only [h2]

/-- With 52 or more remaining edges, or without a neighbour (all edges are trace edges, or there
are none), the call raises and nothing has happened. -/
theorem C44_limit_raises [CommSemiring R] {h : Heap R} {cn : NId} (w : GraphOK h)
    (hcn : cn < h.nn) (hd : ∀ e ∈ (h.node cn).edges, (h.edge e).dangling = false)
    (hlen : neighbours h cn = [] ∨ 52 ≤ (((neighbours h cn).flatMap fun n =>
      (h.node n).edges).filter fun e => e ∉ (h.node cn).edges).length) :
    contractCopyNode cn h = (.error .valueError, h) ∨
      contractCopyNode cn h = (.error .indexError, h) := by
  have w := w.wf
  have hmem := fun p => mem_neighbours w hcn hd (p := p)
  have hlt : ∀ p ∈ neighbours h cn, p < h.nn := by
    intro p hp
    obtain ⟨_, e, _, k, hk⟩ := (hmem p).1 hp
    exact hk.1
  have hcnP : cn ∉ neighbours h cn := fun hm => ((hmem cn).1 hm).1 rfl
  obtain ⟨ps, g1, g2⟩ := getPartners_ok w hcn hd
  have hfst : ps.map Prod.fst = neighbours h cn := g2.fst
  have hsh := partners_shared g2 hlt hcnP
  have h2 : ((ps.map fun p : NId × List Nat => ((h.node p.1).edges, p.2)).map
      fun p : List Nat × List Nat => (p.1.length, p.2)) =
      ps.map fun p => ((h.shape p.1).length, p.2) := by
    rw [List.map_map]
    refine List.map_congr_left fun p hp => ?_
    simp only [Function.comp]
    rw [w.len p.1 (hlt _ (by rw [← hfst]; exact List.mem_map.2 ⟨p, hp, rfl⟩))]
    rfl
  have hflat : ((ps.map fun p : NId × List Nat => ((h.node p.1).edges, p.2)).map
      Prod.fst).flatten = (neighbours h cn).flatMap fun n => (h.node n).edges := by
    rw [List.map_map, ← hfst, List.flatMap_map, List.flatMap_def]; rfl
  have hrest : Copy.rest (h.node cn).edges.dedup ((ps.map fun p : NId × List Nat =>
      ((h.node p.1).edges, p.2)).map Prod.fst).flatten =
      ((neighbours h cn).flatMap fun n => (h.node n).edges).filter
        fun e => e ∉ (h.node cn).edges := by
    rw [hflat]
    unfold Copy.rest
    refine List.filter_congr fun e _ => ?_
    simp
  have hin := inputTerms_any (S := (h.node cn).edges.dedup)
    (ps.map fun p => ((h.node p.1).edges, p.2)) 1 (by
      intro q hq
      obtain ⟨p, hp, rfl⟩ := List.mem_map.1 hq
      exact hsh p hp)
  rw [h2, hrest] at hin
  have key : computeContracted cn h = (.error .valueError, h) ∨
      computeContracted cn h = (.error .indexError, h) := by
    unfold computeContracted
    rcases hin with hin | hin
    · obtain ⟨m, hm⟩ : ∃ m, m = (((neighbours h cn).flatMap fun n => (h.node n).edges).filter
        fun e => e ∉ (h.node cn).edges).length := ⟨_, rfl⟩
      rw [← hm] at hin hlen
      obtain ⟨terms, hterms⟩ : ∃ x, x = Copy.termsOf (h.node cn).edges.dedup
        ((ps.map fun p : NId × List Nat => ((h.node p.1).edges, p.2)).map Prod.fst) 1 := ⟨_, rfl⟩
      rw [← hterms] at hin
      by_cases h3 : ∃ i ∈ List.range' 1 m, 62 ≤ i
      · right
        refine (M.bind_ok g1).trans ?_
        rw [get_bind]
        refine M.bind_error ?_
        rw [M.lift_apply]
        simp only [Copy.einsumExpression, hin, bind, Except.bind, Nat.add_sub_cancel_left,
          Copy.subscripts, if_pos h3]
      · left
        refine (M.bind_ok g1).trans ?_
        rw [get_bind]
        refine (M.bind_ok (a := (terms, List.range' 1 m)) (h' := h) ?_).trans ?_
        · rw [M.lift_apply]
          simp only [Copy.einsumExpression, hin, bind, Except.bind, Nat.add_sub_cancel_left,
            Copy.subscripts, if_neg h3]
        · rw [M.lift_apply]
          unfold Copy.einsum
          by_cases h4 : (ps.map fun p => (h.node p.1).tensor).isEmpty
          · rw [if_pos h4]
          · rw [if_neg h4, if_pos]
            have h5 : 52 ≤ m := by
              rcases hlen with h5 | h5
              · rw [h5] at hfst
                have : ps = [] := by simpa using hfst
                rw [this] at h4
                simp at h4
              · exact h5
            exact ⟨m, List.mem_append_right _ (by rw [List.mem_range'_1]; omega), h5⟩
    · right
      refine (M.bind_ok g1).trans ?_
      rw [get_bind]
      refine M.bind_error ?_
      rw [M.lift_apply]
      simp only [Copy.einsumExpression, hin, bind, Except.bind]
  unfold contractCopyNode
  rcases key with key | key
  · exact .inl (M.bind_error key)
  · exact .inr (M.bind_error key)

/-! ### A copy node with two neighbours, one of them with a trace edge and an open edge -/

def copyOps : List (Op Nat) :=
  [.node (Copy.makeCopyTensor 3 2), .node (ones [2, 2, 3, 3]), .node (ones [2, 2]),
    .connect 0 3, .connect 1 7, .connect 8 2, .connect 6 5]

def copyHeap : Heap Nat := runOps copyOps Heap.empty

theorem copyHeap_ok : GraphOK copyHeap :=
  (C07_history_partial copyOps graphOK_empty ⟨trivial, trivial, trivial,
    ⟨⟨0, by decide, by decide⟩, ⟨1, by decide, by decide⟩⟩,
    ⟨⟨0, by decide, by decide⟩, ⟨2, by decide, by decide⟩⟩,
    ⟨⟨2, by decide, by decide⟩, ⟨0, by decide, by decide⟩⟩,
    ⟨⟨1, by decide, by decide⟩, ⟨1, by decide, by decide⟩⟩, trivial⟩).1

theorem copyHeap_neighbours : neighbours copyHeap 0 = [1, 2] := by
  have h1 : ((copyHeap.node 0).edges.filterMap (otherEnd copyHeap 0)) = [1, 2, 2] := by
    decide +kernel
  unfold neighbours
  rw [h1]
  simp [List.eraseDups_cons]

example : ∃ h', contractCopyNode 0 copyHeap = (.ok 3, h') ∧ CopyContracted copyHeap h' 0 3 :=
  C44_contract_partial copyHeap_ok (cn := 0) (r := 3) (d := 2) (by decide) rfl (by decide +kernel)
    (by rw [copyHeap_neighbours]; simp) (by rw [copyHeap_neighbours]; decide +kernel)

example := C44_stale_false copyHeap_ok (cn := 0) (r := 3) (d := 2) (by decide) rfl
    (by decide +kernel) (by rw [copyHeap_neighbours]; simp)
    (by rw [copyHeap_neighbours]; decide +kernel)

example := C44_dangling_raises copyHeap_ok (cn := 1) (by decide) ⟨4, by decide +kernel⟩

/-- All edges are trace edges. -/
example := C44_limit_raises (h := runOps [.node (Copy.makeCopyTensor (R := Nat) 2 2),
    .connect 0 1] Heap.empty) (cn := 0)
  (C07_history_partial [.node (Copy.makeCopyTensor 2 2), .connect 0 1] graphOK_empty
    ⟨trivial, ⟨⟨0, by decide, by decide⟩, ⟨0, by decide, by decide⟩⟩, trivial⟩).1
  (by decide) (by decide +kernel) (.inl (by decide +kernel))

end TN.Graph
