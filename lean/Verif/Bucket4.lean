import Verif.Bucket3

/-!
# C56: when the bucket contractor works and when it raises
-/

set_option linter.unusedSectionVars false

namespace TN.Graph

open TN Finset

variable {R : Type}

/-- C56: with fewer than 52 axes, `bucket` always succeeds. -/
theorem C56_bucket_total_partial [CommSemiring R] {h : Heap R} {A nodes order : List NId} (w : GraphOK h)
    (hA : A.Nodup) (hlt : ∀ n ∈ A, n < h.nn) (ho : CopyOrder h A order) (hsub : ∀ n ∈ nodes, n ∈ A)
    (hcov : ∀ n ∈ A, n ∉ nodes → n ∈ order ∨ ∃ cn ∈ order, n ∈ neighbours h cn)
    (hlen : (flatL (netOf h A)).length < 52) (hnb : ∀ cn ∈ order, neighbours h cn ≠ []) :
    ∃ N' h', bucket nodes order h = (.ok N', h') ∧ Bucketed h h' A nodes order N' := by
  rcases C56_bucket_partial w hA hlt ho hsub hcov with h1 | ⟨_, _, _, _, h2 | ⟨cn, h3, h4⟩⟩
  · exact h1
  · omega
  · exact absurd h4 (hnb cn h3)

/-- After a copy node was contracted, the partners of a former neighbour cannot be determined. -/
theorem partners_stale [CommSemiring R] {h h' : Heap R} {cn c : NId} (w : WF h) (hcn : cn < h.nn)
    (hd : ∀ e ∈ (h.node cn).edges, (h.edge e).dangling = false)
    (C : CopyContracted h h' cn h.nn) (hold : ∀ e ∈ (h.node cn).edges, h'.edge e = h.edge e)
    (hc : c ∈ neighbours h cn) (hdc : ∀ e ∈ (h.node c).edges, (h.edge e).dangling = false) :
    ∀ (es : List EId) (ps : List (NId × List Nat)), (∀ e ∈ es, e ∈ (h.node c).edges) →
    (∃ e ∈ es, e ∉ (h.node cn).edges) → partnersLoop c es ps h' = (.error .runtimeError, h') := by
  obtain ⟨hcc, e0, he0, k0, hk0⟩ := (mem_neighbours w hcn hd).1 hc
  have hcP : h.nn ∉ neighbours h cn := fun hm => by
    obtain ⟨_, e, _, k, hk⟩ := (mem_neighbours w hcn hd).1 hm
    exact lt_irrefl _ hk.1
  intro es
  induction es with
  | nil => rintro ps _ ⟨e, he, _⟩; simp at he
  | cons e es ih =>
    intro ps hes hex
    have hec := hes e (by simp)
    have hat := at_of_mem hk0.1 hec
    by_cases hm : e ∈ (h.node cn).edges
    · have hex' : ∃ e ∈ es, e ∉ (h.node cn).edges := by
        obtain ⟨e', h1, h2⟩ := hex
        rcases List.mem_cons.1 h1 with rfl | h1
        · exact absurd hm h2
        · exact ⟨e', h1, h2⟩
      have ih' := fun ps => ih ps (fun e he => hes e (by simp [he])) hex'
      have hrec := hold e hm
      rcases w.good hat.inUse with ⟨n, a, hr⟩ | ⟨n, a, m, b, hr⟩
      · have := hd e hm
        rw [hr] at this; simp at this
      · rw [hr] at hrec
        have hends := fun s => at_conn w hat.inUse hr (s := s)
        unfold partnersLoop
        refine (M.bind_ok (a := false) (h' := h') (by rw [isDangling_eq, hrec])).trans ?_
        simp only [Bool.false_eq_true, if_false]
        refine (M.bind_ok (node1_conn hrec)).trans ?_
        refine (M.bind_ok (node2_conn hrec)).trans ?_
        by_cases h1 : n = c ∧ (some m : Option Nat) = some c
        · rw [if_pos h1]; exact ih' _
        · rw [if_neg h1]
          by_cases h2 : n = c
          · rw [if_pos h2]
            exact (M.bind_ok (axis2_conn hrec)).trans (ih' _)
          · have h3 : m = c := by
              rcases (hends _).1 hat with z | z
              · exact absurd (Prod.mk.inj z).1.symm h2
              · exact (Prod.mk.inj z).1.symm
            rw [if_neg h2, if_pos (by rw [h3])]
            exact (M.bind_ok (axis1_conn hrec)).trans (ih' _)
    · have hnew : e ∈ (h'.node h.nn).edges := by
        rw [C.edges, List.mem_filter]
        exact ⟨List.mem_flatMap.2 ⟨c, hc, hec⟩, by simpa using hm⟩
      obtain ⟨j, hj, hje⟩ := List.mem_iff_getElem.1 hnew
      obtain ⟨⟨_, f1, f2⟩, f3⟩ := (C.ok h.nn (by rw [C.nn]; omega) hcP).2 j e (by
        rw [List.getElem?_eq_getElem hj, hje])
      have hdg : (h'.edge e).dangling = false := by
        rw [C.dangling e hat.inUse hm]; exact hdc e hec
      have f4 := f3 c hc
      obtain ⟨n1, n2, hn1, hn2⟩ : ∃ n1 n2, (h'.edge e).node1 = some n1 ∧ (h'.edge e).node2 = some n2 := by
        rcases f2 with f2 | ⟨_, m, j', _, _, _, _, f2 | f2⟩
        · rw [hdg] at f2; exact absurd f2.1 (by simp)
        · exact ⟨_, _, f2.1, f2.2.2.1⟩
        · exact ⟨_, _, f2.1, f2.2.2.1⟩
      have e1 : node1 e h' = (.ok n1, h') := by
        unfold node1; rw [get_bind, f1, hn1]; rfl
      have e2 : node2 e h' = (.ok (some n2), h') := by
        unfold node2; rw [get_bind, f1, hdg, hn2]; rfl
      rw [hn1, hn2] at f4
      unfold partnersLoop
      refine (M.bind_ok (a := false) (h' := h') (by rw [isDangling_eq, hdg])).trans ?_
      simp only [Bool.false_eq_true, if_false]
      refine (M.bind_ok e1).trans ?_
      refine (M.bind_ok e2).trans ?_
      have g1 : n1 ≠ c := by simpa using f4.1
      rw [if_neg (fun h => g1 h.1), if_neg g1, if_neg f4.2]
      rfl

/-- C56 is false for orders with two joined copy nodes: after the first was contracted, the second, if it has another
edge, makes `bucket` raise AssertionError. -/
theorem C56_joined_raises [CommSemiring R] {h : Heap R} {nodes order : List NId} {cn c : NId} (w : GraphOK h)
    (hcn : cn < h.nn) {r d : Nat} (ht : (h.node cn).tensor = Copy.makeCopyTensor r d)
    (hd : ∀ e ∈ (h.node cn).edges, (h.edge e).dangling = false)
    (hlen : (((neighbours h cn).flatMap fun n => (h.node n).edges).filter
      fun e => e ∉ (h.node cn).edges).length < 52)
    (hc : c ∈ neighbours h cn) (hdc : ∀ e ∈ (h.node c).edges, (h.edge e).dangling = false)
    (hex : ∃ e ∈ (h.node c).edges, e ∉ (h.node cn).edges) :
    (bucket nodes (cn :: c :: order) h).1 = .error .runtimeError := by
  have hP : neighbours h cn ≠ [] := List.ne_nil_of_mem hc
  obtain ⟨h', k, a1, a2, a3, a4, a5, a6, a7, a8, a9⟩ :=
    contractCopyNode_run w.wf hcn ht hd hP hlen
  have C := copyContracted_of w.wf hcn ht hd hP a2 a3 a4 a5 a7 a8 a9
  have F1 := freshHeap_freshened k cn
  rw [← a2] at F1
  have hold : ∀ e ∈ (h.node cn).edges, h'.edge e = h.edge e := by
    intro e he
    rw [F1.old e (lt_of_lt_of_le (w.wf.lt (inUse_of_mem hcn he)) a3), a6 e he]
  obtain ⟨ps, g1, _⟩ := getPartners_ok w.wf hcn hd
  obtain ⟨hcc, e0, he0, k0, hk0⟩ := (mem_neighbours w.wf hcn hd).1 hc
  have hst := partners_stale w.wf hcn hd C hold hc hdc (h.node c).edges [] (fun _ h => h) hex
  have hgp : getPartners c h' = (.error .runtimeError, h') := by
    unfold getPartners
    refine (M.bind_ok (a := (h.node c).edges) (h' := h') ?_).trans hst
    unfold nodeEdges
    rw [get_bind, C.other c hk0.1 hcc]
    rfl
  unfold bucket
  have h1 : bucketLoop (cn :: c :: order) nodes.dedup h =
      bucketLoop (c :: order)
        (nodes.dedup.filter (fun n => n ∉ ps.map Prod.fst ++ [cn]) ++ [h.nn]) h' :=
    (M.bind_ok g1).trans (M.bind_ok a1)
  have h2 : bucketLoop (c :: order)
        (nodes.dedup.filter (fun n => n ∉ ps.map Prod.fst ++ [cn]) ++ [h.nn]) h' = (.error .runtimeError, h') :=
    M.bind_error hgp
  rw [h1, h2]

/-! ### Two copy nodes with a common neighbour, and a chain of joined copy nodes -/

/-- Copy nodes 0 and 1, node 2 joined to both, node 3 joined to copy node 0 with an open axis, node 4 joined to copy
node 1. -/
def bucketOps : List (Op Nat) :=
  [.node (Copy.makeCopyTensor 2 2), .node (Copy.makeCopyTensor 2 2), .node (ones [2, 2]),
    .node (ones [2, 3]), .node (ones [2]), .connect 0 4, .connect 1 6, .connect 2 5, .connect 3 8]

def bucketHeap : Heap Nat := runOps bucketOps Heap.empty

theorem bucketHeap_ok : GraphOK bucketHeap :=
  (C07_history_partial bucketOps graphOK_empty ⟨trivial, trivial, trivial, trivial, trivial,
    ⟨⟨0, by decide, by decide⟩, ⟨2, by decide, by decide⟩⟩,
    ⟨⟨0, by decide, by decide⟩, ⟨3, by decide, by decide⟩⟩,
    ⟨⟨1, by decide, by decide⟩, ⟨2, by decide, by decide⟩⟩,
    ⟨⟨1, by decide, by decide⟩, ⟨4, by decide, by decide⟩⟩, trivial⟩).1

theorem bucketHeap_neighbours : neighbours bucketHeap 0 = [2, 3] ∧ neighbours bucketHeap 1 = [2, 4] := by
  have h1 : ((bucketHeap.node 0).edges.filterMap (otherEnd bucketHeap 0)) = [2, 3] := by decide +kernel
  have h2 : ((bucketHeap.node 1).edges.filterMap (otherEnd bucketHeap 1)) = [2, 4] := by decide +kernel
  unfold neighbours
  rw [h1, h2]
  simp [List.eraseDups_cons]

example : ∃ N' h', bucket [0, 1, 2, 3, 4] [0, 1] bucketHeap = (.ok N', h') ∧
    Bucketed bucketHeap h' [0, 1, 2, 3, 4] [0, 1, 2, 3, 4] [0, 1] N' := by
  obtain ⟨n0, n1⟩ := bucketHeap_neighbours
  refine C56_bucket_total_partial bucketHeap_ok (by decide) (by decide) ⟨by decide, ?_, ?_, ?_⟩
    (fun _ h => h) (fun n h1 h2 => absurd h1 h2) (by decide +kernel) ?_
  · intro cn hc
    rcases List.mem_cons.1 hc with rfl | hc
    · exact ⟨⟨2, 2, rfl⟩, by decide +kernel⟩
    · obtain rfl : cn = 1 := by simpa using hc
      exact ⟨⟨2, 2, rfl⟩, by decide +kernel⟩
  · intro cn hc c hc'
    rcases List.mem_cons.1 hc with rfl | hc
    · rw [n0]; revert c; decide
    · obtain rfl : cn = 1 := by simpa using hc
      rw [n1]; revert c; decide
  · intro cn hc
    rcases List.mem_cons.1 hc with rfl | hc
    · rw [n0]; decide
    · obtain rfl : cn = 1 := by simpa using hc
      rw [n1]; decide
  · intro cn hc
    rcases List.mem_cons.1 hc with rfl | hc
    · rw [n0]; decide
    · obtain rfl : cn = 1 := by simpa using hc
      rw [n1]; decide

/-- Two joined copy nodes between two vectors. -/
def joinedOps : List (Op Nat) :=
  [.node (Copy.makeCopyTensor 2 2), .node (Copy.makeCopyTensor 2 2), .node (ones [2]),
    .node (ones [2]), .connect 0 2, .connect 1 4, .connect 3 5]

def joinedHeap : Heap Nat := runOps joinedOps Heap.empty

theorem joinedHeap_ok : GraphOK joinedHeap :=
  (C07_history_partial joinedOps graphOK_empty ⟨trivial, trivial, trivial, trivial,
    ⟨⟨0, by decide, by decide⟩, ⟨1, by decide, by decide⟩⟩,
    ⟨⟨0, by decide, by decide⟩, ⟨2, by decide, by decide⟩⟩,
    ⟨⟨1, by decide, by decide⟩, ⟨3, by decide, by decide⟩⟩, trivial⟩).1

theorem joinedHeap_neighbours : neighbours joinedHeap 0 = [1, 2] := by
  have h1 : ((joinedHeap.node 0).edges.filterMap (otherEnd joinedHeap 0)) = [1, 2] := by decide +kernel
  unfold neighbours
  rw [h1]
  simp [List.eraseDups_cons]

/-- C56 is false: a network of two copy nodes and two vectors cannot be contracted. -/
theorem C56_joined_false : GraphOK joinedHeap ∧
    (∀ cn ∈ [0, 1], (∃ r d, (joinedHeap.node cn).tensor = Copy.makeCopyTensor r d) ∧
      ∀ e ∈ (joinedHeap.node cn).edges, (joinedHeap.edge e).dangling = false) ∧
    (bucket [0, 1, 2, 3] [0, 1] joinedHeap).1 = .error .runtimeError := by
  refine ⟨joinedHeap_ok, ?_, ?_⟩
  · intro cn hc
    rcases List.mem_cons.1 hc with rfl | hc
    · exact ⟨⟨2, 2, rfl⟩, by decide +kernel⟩
    · obtain rfl : cn = 1 := by simpa using hc
      exact ⟨⟨2, 2, rfl⟩, by decide +kernel⟩
  · exact C56_joined_raises joinedHeap_ok (by decide) (r := 2) (d := 2) rfl (by decide +kernel)
      (by rw [joinedHeap_neighbours]; decide +kernel) (by rw [joinedHeap_neighbours]; simp)
      (by decide +kernel) ⟨8, by decide +kernel, by decide +kernel⟩

end TN.Graph
