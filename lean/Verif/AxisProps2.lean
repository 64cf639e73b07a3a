import Verif.AxisProps1

/-!
# C72: axis names, histories and cases
-/

namespace TN.Graph

open TN

set_option linter.unusedSectionVars false

variable {R : Type}

/-- **C72.**  `add_axis_names` accepts a list of names exactly when there is one for every edge and none occurs twice.  A
rejected call changes nothing. -/
theorem C72_add_axis_names [CommSemiring R] {h : Heap R} (g : GraphOK h) {nm : AxTab} {n : NId} (hn : n < h.nn)
    (l : List String) :
    (l.Nodup ∧ l.length = (h.node n).edges.length → addAxisNames n l (h, nm) = (.ok (), (h, Function.update nm n l))) ∧
    (¬ (l.Nodup ∧ l.length = (h.node n).edges.length) → addAxisNames n l (h, nm) = (.error .valueError, (h, nm))) := by
  have hd : (h.node n).tensor.ndim = (h.node n).edges.length := (g.rank n hn).symm
  have hs : addAxisNames n l (h, nm) =
      (if ¬ l.Nodup then (NM.throw .valueError : NM R Unit) else if l.length ≠ (h.node n).tensor.ndim then NM.throw .valueError
        else setAxisNames n l) (h, nm) := by
    unfold addAxisNames
    rw [NM.bind_ok (NM.lift_ok (nodeTensor_eq n) nm)]
  constructor
  · rintro ⟨h1, h2⟩
    rw [hs, if_neg (not_not.2 h1), if_neg (by omega)]
    unfold setAxisNames
    rw [NM.bind_ok (NM.lift_ok (nodeTensor_eq n) nm), if_neg (by omega)]
    rfl
  · intro h1
    rw [hs]
    by_cases h2 : l.Nodup
    · rw [if_neg (not_not.2 h2), if_pos (by
        intro h3
        exact h1 ⟨h2, by omega⟩)]
      rfl
    · rw [if_pos h2]
      rfl

/-! ### Histories -/

/-- The state after a history of calls, with names. -/
def runOpsN [CommSemiring R] (ops : List (Op R)) (s : Heap R × AxTab) : Heap R × AxTab :=
  ops.foldl (fun s op => (op.runN s).2) s

/-- No call of the history splits a trace edge. -/
def NoTraceSplits [CommSemiring R] : List (Op R) → Heap R → Prop
  | [], _ => True
  | op :: ops, h => op.NoTraceSplit h ∧ NoTraceSplits ops (op.after h)

/-- **C72** (partial: no call splits a trace edge).  Names do not change what a history does to the graph: the graph is
the one of the model without names, hence consistent, and no node ever has fewer names than edges. -/
theorem C72_history_partial [CommSemiring R] (ops : List (Op R)) {h : Heap R} (g : GraphOK h) {nm : AxTab}
    (hn : Named (h, nm)) (hv : ValidRun ops h) (hs : NoTraceSplits ops h) :
    (runOpsN ops (h, nm)).1 = runOps ops h ∧ GraphOK (runOpsN ops (h, nm)).1 ∧ Named (runOpsN ops (h, nm)) := by
  have key : (runOpsN ops (h, nm)).1 = runOps ops h ∧ Named (runOpsN ops (h, nm)) := by
    clear g
    induction ops generalizing h nm with
    | nil => exact ⟨rfl, hn⟩
    | cons op ops ih =>
      obtain ⟨h1, h2, _⟩ := Op.runN_sim hn hv.1 hs.1
      obtain ⟨⟨h', nm'⟩, hq⟩ : ∃ q, q = (op.runN (h, nm)).2 := ⟨_, rfl⟩
      rw [← hq] at h1 h2
      simp only at h1
      have h3 := ih (h := h') (nm := nm') h2 (by rw [h1]; exact hv.2) (by rw [h1]; exact hs.2)
      have h4 : runOpsN (op :: ops) (h, nm) = runOpsN ops (h', nm') := by
        rw [hq]
        rfl
      rw [h4]
      exact ⟨h3.1.trans (by rw [h1]; rfl), h3.2⟩
  exact ⟨key.1, by rw [key.1]; exact (C07_history_partial ops g hv).1, key.2⟩

/-- No names at all, and no nodes. -/
def noNames : AxTab := fun _ => []

theorem named_empty [CommSemiring R] : Named ((Heap.empty : Heap R), noNames) := fun _ => Nat.le_refl _

example : (runOpsN demoOps (Heap.empty, noNames)).1 = runOps demoOps Heap.empty :=
  (C72_history_partial demoOps graphOK_empty named_empty demoOps_valid
    ⟨trivial, trivial, trivial, trivial, trivial, trivial, trivial, trivial, trivial, trivial, trivial, trivial⟩).1

/-! ### Cases -/

/-- The names `a`, `b`, `c`, `d` for every node, as many as it has edges. -/
def letters (h : Heap R) : AxTab := fun n => ["a", "b", "c", "d"].take (h.node n).edges.length

example := C72_get_edge (h := oneNode) (nm := letters oneNode) (n := 0) (by decide) (by decide) "b"

example : getEdge 0 "b" (oneNode, letters oneNode) = (.ok 1, (oneNode, letters oneNode)) :=
  ((C72_get_edge (h := oneNode) (nm := letters oneNode) (n := 0) (by decide) (by decide) "b").1 1).2 ⟨1, by decide, by decide⟩

example := C72_add_axis_names oneNode_ok (nm := letters oneNode) (n := 0) (by decide) ["x", "y", "z"]

example := C72_reorder_axes oneNode_ok (nm := letters oneNode) (n := 0) (by decide) (by decide) (perm := [2, 0, 1])
  (by decide)

example := C72_reorder_edges oneNode_ok (nm := letters oneNode) (n := 0) (by decide) (by decide) (order := [2, 0, 1])
  (by decide) (by decide)

example := C72_remove_node oneNode_ok (nm := letters oneNode) (n := 0) (by decide) (by decide)

/-- Two nodes connected by the edges 6 and 7: the axes 0 and 1 of node 0 to the axes of node 1. -/
def doubleBond : Heap Nat :=
  runOps [.node (ones [2, 2, 3, 2]), .node (ones [2, 2]), .connect 0 4, .connect 1 5] Heap.empty

theorem doubleBond_ok : GraphOK doubleBond :=
  (C07_history_partial [.node (ones [2, 2, 3, 2]), .node (ones [2, 2]), .connect 0 4, .connect 1 5] graphOK_empty
    ⟨trivial, trivial, ⟨⟨0, by decide +kernel, by decide +kernel⟩, ⟨1, by decide +kernel, by decide +kernel⟩⟩,
      ⟨⟨0, by decide +kernel, by decide +kernel⟩, ⟨1, by decide +kernel, by decide +kernel⟩⟩, trivial⟩).1

theorem named_doubleBond : Named (doubleBond, letters doubleBond) := by
  intro n
  rcases n with _ | _ | n
  · decide +kernel
  · decide +kernel
  · exact Nat.zero_le _

theorem doubleBond_current : ∀ e ∈ [6, 7], Current doubleBond e := by
  intro e he
  have : e = 6 ∨ e = 7 := by simpa using he
  rcases this with rfl | rfl <;> exact ⟨0, by decide +kernel, by decide +kernel⟩

theorem doubleBond_same : ∀ e ∈ [7], SameNodes doubleBond 6 e := by
  intro e he
  obtain rfl : e = 7 := by simpa using he
  left
  decide +kernel

example := C72_flatten_partial doubleBond_ok named_doubleBond false (e0 := 6) (E := [7]) (by decide) (by decide)
  doubleBond_current doubleBond_same (by decide +kernel)

example := C72_flatten_false doubleBond_ok named_doubleBond false (e0 := 6) (E := [7]) (by decide) (by decide)
  doubleBond_current doubleBond_same (by decide +kernel)

/-- The two edges flattened, the axis called `c` before is called `a`. -/
example : (getEdge 0 "a" (flattenEdgesN false [6, 7] (doubleBond, letters doubleBond)).2).1 = .ok 2 ∧
    (getEdge 0 "c" (doubleBond, letters doubleBond)).1 = .ok 2 := by decide +kernel

example := C72_split_partial doubleBond_ok named_doubleBond false (e := 6) (doubleBond_current 6 (by simp)) (shape := [2, 1])
  (by decide +kernel) (by decide) (by decide +kernel) (new := some ["x", "y"]) (by decide)

example := C72_split_false doubleBond_ok named_doubleBond false (e := 6) (doubleBond_current 6 (by simp)) (shape := [2, 1])
  (by decide +kernel) (by decide) (by decide +kernel) (new := none) (by decide)

/-- A node with two trace edges, 4 and 5. -/
def twoTraces : Heap Nat := runOps [.node (ones [4, 4, 2, 2]), .connect 0 1, .connect 2 3] Heap.empty

theorem twoTraces_ok : GraphOK twoTraces :=
  (C07_history_partial [.node (ones [4, 4, 2, 2]), .connect 0 1, .connect 2 3] graphOK_empty
    ⟨trivial, ⟨⟨0, by decide +kernel, by decide +kernel⟩, ⟨0, by decide +kernel, by decide +kernel⟩⟩,
      ⟨⟨0, by decide +kernel, by decide +kernel⟩, ⟨0, by decide +kernel, by decide +kernel⟩⟩, trivial⟩).1

theorem twoTraces_current : ∀ e ∈ [4, 5], Current twoTraces e := by
  intro e he
  have : e = 4 ∨ e = 5 := by simpa using he
  rcases this with rfl | rfl <;> exact ⟨0, by decide +kernel, by decide +kernel⟩

example := C72_trace_flatten_false twoTraces_ok (nm := letters twoTraces) false (n := 0) (by decide +kernel) (e0 := 4) (E := [5])
  (by decide) (by decide) twoTraces_current (by decide +kernel)

example := C72_trace_split_false twoTraces_ok (nm := letters twoTraces) false (n := 0) (by decide +kernel) (e := 4)
  (twoTraces_current 4 (by simp)) (shape := [2, 2]) (by decide +kernel) (by decide) (by decide +kernel) none

/-- **C72**, what fails for trace edges.  The contraction that raises leaves an inconsistent graph: here a node of ones
of shape `(4, 4)` with a trace edge, the edge split by shape `(2, 2)`, and one of the two new edges contracted. -/
theorem C72_trace_contract_false : ∃ (h : Heap Nat) (e f : EId) (shape : List Nat) (nm : AxTab), GraphOK h ∧ Current h e ∧
    (nm 0).length = (h.node 0).edges.length ∧ (splitEdgeN false e shape none (h, nm)).1 = .ok [f, f + 3] ∧
    GraphOK (splitEdgeN false e shape none (h, nm)).2.1 ∧
    (contractN f (splitEdgeN false e shape none (h, nm)).2).1 = .error .indexError ∧
    ¬ GraphOK (contractN f (splitEdgeN false e shape none (h, nm)).2).2.1 := by
  have g : GraphOK (runOps [.node (ones [4, 4]), .connect 0 1] Heap.empty) :=
    (C07_history_partial [.node (ones [4, 4]), .connect 0 1] graphOK_empty
      ⟨trivial, ⟨⟨0, by decide +kernel, by decide +kernel⟩, ⟨0, by decide +kernel, by decide +kernel⟩⟩, trivial⟩).1
  obtain ⟨news, h', nm', h1, h2, _⟩ := C72_trace_split_false g (nm := fun _ => ["a", "b"]) false (n := 0) (by decide +kernel) (e := 2)
    ⟨0, by decide +kernel, by decide +kernel⟩ (shape := [2, 2]) (by decide +kernel) (by decide) (by decide +kernel) none
  refine ⟨_, 2, 5, [2, 2], fun _ => ["a", "b"], g, ⟨0, by decide +kernel, by decide +kernel⟩, by decide +kernel, by decide +kernel, ?_, by decide +kernel, ?_⟩
  · rw [h1]; exact h2
  · intro g'
    have := checkCorrect_ok g' (nodes := [0]) (by decide +kernel)
    have h2 := congrArg Prod.fst this
    revert h2
    decide +kernel

/-- **C72**, what fails.  The default names of `split_edge` can repeat a name of the node; the node can then not be
copied. -/
theorem C72_split_duplicate_false : ∃ (h : Heap Nat) (e : EId) (shape : List Nat) (nm : AxTab), GraphOK h ∧ Current h e ∧
    (nm 0).Nodup ∧ (nm 0).length = (h.node 0).edges.length ∧ (splitEdgeN false e shape none (h, nm)).1 = .ok [2, 3] ∧
    ¬ ((splitEdgeN false e shape none (h, nm)).2.2 0).Nodup ∧
    ∀ cj conjugate, (nodeCopyN cj conjugate 0 (splitEdgeN false e shape none (h, nm)).2).1 = .error .valueError := by
  have g : GraphOK (runOps [.node (ones [2, 4])] Heap.empty) :=
    (C07_history_partial [.node (ones [2, 4])] graphOK_empty ⟨trivial, trivial⟩).1
  have hd : ¬ ((splitEdgeN false 1 [2, 2] none (runOps [.node (ones [2, 4])] Heap.empty, fun _ => ["1", "x"])).2.2 0).Nodup := by
    decide +kernel
  refine ⟨_, 1, [2, 2], fun _ => ["1", "x"], g, ⟨0, by decide +kernel, by decide +kernel⟩, by decide, by decide +kernel, by decide +kernel, hd,
    fun cj conjugate => ?_⟩
  rw [nodeCopyN_dup (h := (splitEdgeN false 1 [2, 2] none (runOps [.node (ones [2, 4])] Heap.empty, fun _ => ["1", "x"])).2.1) cj conjugate hd]

end TN.Graph
