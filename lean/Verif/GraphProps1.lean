import Verif.GraphHistory

/-!
# C07: the graph stays consistent

`GraphOK` (GraphSpec.lean) is the specification.  The full property is false: the library does
not check some arguments.  `C07_history_partial` is the part that holds: histories of any
length in which every call respects `Op.Valid` – rejected calls included.  The other theorems
are the witnesses for what the library does not check.
-/

namespace TN.Graph

open TN

variable {R : Type}

/-- Running a history of operations; an exception does not end the history. -/
def runOps [CommSemiring R] (ops : List (Op R)) (h : Heap R) : Heap R :=
  ops.foldl (fun h op => op.after h) h

/-- Every call of the history respects what the library leaves to the caller. -/
def ValidRun [CommSemiring R] : List (Op R) → Heap R → Prop
  | [], _ => True
  | op :: ops, h => op.Valid h ∧ ValidRun ops (op.after h)

theorem graphOK_empty [CommSemiring R] : GraphOK (Heap.empty : Heap R) :=
  ⟨fun n hn => absurd hn (Nat.not_lt_zero n), fun n hn => absurd hn (Nat.not_lt_zero n)⟩

/-- **C07** (partial: the calls respect `Op.Valid`).  Every history keeps the graph consistent,
and the library's own `check_correct` accepts every list of nodes of the graph. -/
theorem C07_history_partial [CommSemiring R] (ops : List (Op R)) {h : Heap R} (g : GraphOK h)
    (hv : ValidRun ops h) :
    GraphOK (runOps ops h) ∧ ∀ nodes : List NId, (∀ n ∈ nodes, n < (runOps ops h).nn) →
      checkCorrect nodes (runOps ops h) = (.ok (), runOps ops h) := by
  have key : GraphOK (runOps ops h) := by
    induction ops generalizing h with
    | nil => exact g
    | cons op ops ih =>
      exact ih (graphOK_iff.2 (Op.after_wf (graphOK_iff.1 g) hv.1)) hv.2
  exact ⟨key, fun nodes hn => checkCorrect_ok key hn⟩

/-! ### A history that meets the hypotheses -/

/-- A tensor of ones. -/
def ones (s : List Nat) : NDArray Nat := ⟨s, fun _ => 1⟩

/-- A history with a successful call of most operations and two rejected ones: the `connect` of
a connected edge and the `contract` of a dangling edge. -/
def demoOps : List (Op Nat) :=
  [.node (ones [2, 3, 2]), .node (ones [2, 3]), .node (ones [2]),
   .connect 0 3, .connect 1 4, .connect 2 5, .connect 6 6, .contract 8,
   .flattenEdges false [6, 7], .contract 14, .contract 17]

theorem demoOps_valid : ValidRun demoOps Heap.empty := by
  refine ⟨trivial, trivial, trivial, ⟨⟨0, by decide +kernel, by decide +kernel⟩, ⟨1, by decide +kernel, by decide +kernel⟩⟩,
    ⟨⟨0, by decide +kernel, by decide +kernel⟩, ⟨1, by decide +kernel, by decide +kernel⟩⟩,
    ⟨⟨0, by decide +kernel, by decide +kernel⟩, ⟨2, by decide +kernel, by decide +kernel⟩⟩,
    ⟨⟨0, by decide +kernel, by decide +kernel⟩, ⟨0, by decide +kernel, by decide +kernel⟩⟩,
    ⟨0, by decide +kernel, by decide +kernel⟩, ?_, ⟨2, by decide +kernel, by decide +kernel⟩, ?_,
    trivial⟩
  · intro e he
    have : e = 6 ∨ e = 7 := by simpa using he
    rcases this with rfl | rfl
    · exact ⟨1, by decide +kernel, by decide +kernel⟩
    · exact ⟨1, by decide +kernel, by decide +kernel⟩
  · exact ⟨3, by decide +kernel, by decide +kernel⟩

example : GraphOK (runOps demoOps Heap.empty) :=
  (C07_history_partial demoOps graphOK_empty demoOps_valid).1

/-! ### What the library does not check -/

/-- One node with three axes. -/
def oneNode : Heap Nat := runOps [.node (ones [2, 2, 2])] Heap.empty

theorem oneNode_ok : GraphOK oneNode :=
  (C07_history_partial [.node (ones [2, 2, 2])] graphOK_empty ⟨trivial, trivial⟩).1

/-- `reorder_edges` with a duplicate in the list passes both set comparisons
(network_components.py:224-236), changes the axes of the edges and the edge list, and only then
raises in `transpose`: the rejected call leaves an inconsistent node. -/
theorem C07_reorder_duplicate_false : ∃ (h : Heap Nat) (n : NId) (order : List EId), GraphOK h ∧
    n < h.nn ∧ (∀ e ∈ order, Current h e) ∧ (reorderEdges n order h).1 = .error .valueError ∧
    ¬ GraphOK (reorderEdges n order h).2 := by
  refine ⟨oneNode, 0, [0, 0, 1, 2], oneNode_ok, by decide, ?_, by decide, ?_⟩
  · intro e he
    have : e = 0 ∨ e = 1 ∨ e = 2 := by simpa using he
    rcases this with rfl | rfl | rfl <;> exact ⟨0, by decide, by decide⟩
  · intro g
    have := g.rank 0 (by decide)
    revert this
    decide

/-- `outer_product(node, node)` raises after it has moved the edges of the node to a node that
is then dropped. -/
theorem C07_outer_product_self_false : ∃ (h : Heap Nat) (n : NId), GraphOK h ∧ n < h.nn ∧
    (outerProduct n n h).1 ≠ .ok h.nn ∧ ¬ GraphOK (outerProduct n n h).2 := by
  refine ⟨oneNode, 0, oneNode_ok, by decide, by decide, ?_⟩
  intro g
  have := checkCorrect_ok g (nodes := [0]) (by decide)
  have h2 := congrArg Prod.fst this
  revert h2
  decide

/-- Three vectors, the first two connected by edge 3. -/
def threeVectors (d : Nat) : Heap Nat :=
  runOps [.node (ones [2]), .node (ones [2]), .node (ones [d]), .connect 0 1] Heap.empty

theorem threeVectors_ok (d : Nat) : GraphOK (threeVectors d) :=
  (C07_history_partial [.node (ones [2]), .node (ones [2]), .node (ones [d]), .connect 0 1]
    graphOK_empty ⟨trivial, trivial, trivial,
    ⟨⟨0, Nat.succ_pos _, by exact List.mem_cons_self⟩,
      ⟨1, Nat.lt_of_lt_of_le (by decide : 1 < 3) (Nat.le_refl _), by exact List.mem_cons_self⟩⟩,
    trivial⟩).1

/-- A stale dangling edge – edge 0 was replaced by edge 3 in `connect` – is accepted by `connect`
again; the call succeeds and the second vector is left with an edge that its other end does not
list. -/
theorem C07_stale_edge_false : ∃ (h : Heap Nat) (e1 e2 : EId), GraphOK h ∧ e1 < h.ne ∧
    Current h e2 ∧ (connect e1 e2 h).1 = .ok h.ne ∧ ¬ GraphOK (connect e1 e2 h).2 := by
  refine ⟨threeVectors 2, 0, 2, threeVectors_ok 2, by decide, ⟨2, by decide, by decide⟩, by decide,
    ?_⟩
  intro g
  have := (g.edge 1 (by decide) 0 3 (by decide)).2.2
  rcases this with ⟨h1, _⟩ | ⟨_, m, j, h1, h2, h3, _, h5 | h5⟩
  · revert h1; decide
  · have h6 := h5.1; revert h6; decide
  · obtain ⟨rfl⟩ : m = 0 := by
      have h6 := h5.1
      have h7 : (Graph.connect 0 2 (threeVectors 2)).2.edge 3 = .conn 0 0 1 0 := by decide
      rw [h7] at h6
      simpa using h6.symm
    obtain ⟨rfl⟩ : j = 0 := by
      have h6 := h5.2.1
      have h7 : (Graph.connect 0 2 (threeVectors 2)).2.edge 3 = .conn 0 0 1 0 := by decide
      rw [h7] at h6
      simpa using h6.symm
    revert h3; decide

/-- `redirect_edge` compares no dimensions: it succeeds and joins an axis of dimension 2 to an
axis of dimension 5. -/
theorem C07_redirect_dimension_false : ∃ (h : Heap Nat) (e : EId) (new old : NId), GraphOK h ∧
    Current h e ∧ new < h.nn ∧ old < h.nn ∧ (redirectEdge e new old h).1 = .ok () ∧
    ¬ GraphOK (redirectEdge e new old h).2 := by
  refine ⟨threeVectors 5, 3, 2, 1, threeVectors_ok 5, ⟨0, by decide, by decide⟩, by decide,
    by decide, by decide, ?_⟩
  intro g
  have h7 : (redirectEdge 3 2 1 (threeVectors 5)).2.edge 3 = .conn 0 0 2 0 := by decide
  have := (g.edge 0 (by decide) 0 3 (by decide)).2.2
  rw [h7] at this
  rcases this with ⟨h1, _⟩ | ⟨_, m, j, h1, h2, h3, h4, h5 | h5⟩
  · simp at h1
  · obtain ⟨_, _, h5, h6⟩ := h5
    simp only [Option.some.injEq] at h5 h6
    subst h5; subst h6
    revert h4; decide
  · simp at h5

end TN.Graph
