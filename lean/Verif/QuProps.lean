import Verif.QuContract

/-!
# Operators for which eliminating identities goes wrong, and one for which it does not (C42)
-/

set_option linter.unusedSectionVars false

namespace TN.Graph

open TN Finset

variable {R : Type} [CommSemiring R]

/-! ### Checks for concrete graphs -/

instance (copy : NId → Bool) (h : Heap R) (n : NId) : Decidable (Ident copy h n) :=
  inferInstanceAs (Decidable (_ ∧ _))

theorem closedNet_of {h : Heap R} {N : List NId}
    (hc : ∀ n ∈ N, ∀ e ∈ (h.node n).edges, ∀ m < h.nn, e ∈ (h.node m).edges → m ∈ N) : ClosedNet h N :=
  fun s s' e h1 h2 h3 => hc s.1 h3 e h1.mem s'.1 h2.1 h2.mem

theorem noChain_of {copy : NId → Bool} {h : Heap R} {N : List NId}
    (hc : ∀ n ∈ N, Ident copy h n → ∀ a ∈ (h.node n).edges, (h.edge a).dangling = true →
      ∀ b ∈ (h.node n).edges, ∀ m < h.nn, b ∈ (h.node m).edges → m ≠ n → Ident copy h m →
        ∀ c ∈ (h.node m).edges, c = b ∨ (h.edge c).dangling = true) : NoChain copy h N :=
  fun n hn hid _ a ha hd _ b hb t ht htn hit _ c hk =>
    hc n hn hid a ha.mem hd b hb.mem t.1 ht.1 ht.mem htn hit c hk.mem

theorem quOK_of {h : Heap R} {q : QuOp} {N : List NId} (ne : N ≠ []) (nodup : N.Nodup)
    (lt : ∀ n ∈ N, n < h.nn)
    (closed : ∀ n ∈ N, ∀ e ∈ (h.node n).edges, ∀ m < h.nn, e ∈ (h.node m).edges → m ∈ N)
    (refs : q.refs = N) (edup : (q.ign ++ q.out ++ q.inn).Nodup)
    (e1 : ∀ e ∈ q.ign ++ q.out ++ q.inn, (h.edge e).dangling = true ∧ ∃ n ∈ N, e ∈ (h.node n).edges)
    (e2 : ∀ n ∈ N, ∀ e ∈ (h.node n).edges, (h.edge e).dangling = true → e ∈ q.ign ++ q.out ++ q.inn) :
    QuOK h q N := by
  refine ⟨ne, nodup, lt, closedNet_of closed, fun n => by rw [refs], edup, fun e => ⟨fun he => ?_, ?_⟩⟩
  · obtain ⟨h1, n, h2, h3⟩ := e1 e he
    exact ⟨h1, _, h2, at_of_mem (lt n h2) h3⟩
  · rintro ⟨h1, s, h2, h3⟩
    exact e2 s.1 h2 e h3.mem h1

/-- A run that visits every set in the order of the list, except for the nodes when the identities are
eliminated, and contracts the first two nodes again and again. -/
def plainRun (k : Nat) (vis : List Nat → List Nat) : Run Int where
  copy n := decide (n < k)
  fuel := 50
  queue := id
  vis := vis
  fo := ⟨false, ⟨id, fun _ => .refl _⟩⟩
  ie := id
  nodes := id
  alg _ l := (List.range (l.length - 1)).map fun _ => (0, 1)

/-- The identity matrix of `CopyNode(2, 2)`. -/
def delta2 : NDArray Int := ⟨[2, 2], fun ix => if ix.getD 0 0 = ix.getD 1 0 then 1 else 0⟩

theorem delta2_isDelta : IsDelta delta2 2 := ⟨rfl, fun _ _ _ _ => rfl⟩

/-- The vector `[3, 4]`. -/
def vec34 : NDArray Int := ⟨[2], fun ix => 3 + ix.getD 0 0⟩

/-- The errors and the entries of a vector. -/
def outcome (x : Py (Option (NDArray Int)) × Heap Int) : Sum PyErr (List Nat × List Int) :=
  match x.1 with
  | .ok (some t) => .inr (t.shape, [t.get [0], t.get [1]])
  | .ok none => .inl .runtimeError
  | .error e => .inl e

/-- Two identities in a row in front of the vector: the edges are `0 -n0- 5 -n1- 6 -n2`. -/
def chainHeap : Heap Int :=
  runOps [.node delta2, .node delta2, .node vec34, .connect 1 2, .connect 3 4] Heap.empty

theorem chainHeap_ok : GraphOK chainHeap :=
  (C07_history_partial [.node delta2, .node delta2, .node vec34, .connect 1 2, .connect 3 4] graphOK_empty
    ⟨trivial, trivial, trivial, ⟨⟨0, by decide, by decide⟩, ⟨1, by decide, by decide⟩⟩,
    ⟨⟨1, by decide, by decide⟩, ⟨2, by decide, by decide⟩⟩, trivial⟩).1

/-- The vector behind two identities. -/
def chainOp : QuOp := ⟨[0], [], [], [0, 1, 2]⟩

theorem chainOp_ok : QuOK chainHeap chainOp [0, 1, 2] :=
  quOK_of (by decide) (by decide) (by decide +kernel) (by decide +kernel) rfl (by decide) (by decide +kernel)
    (by decide +kernel)

/-- **C42 fails for chains of identities.**  The vector `[3, 4]` behind two identities: if the set of nodes
is visited from one end `eval` returns the vector, from the other end it raises `ValueError`. -/
theorem C42_chain_false :
    GraphOK chainHeap ∧ QuOK chainHeap chainOp [0, 1, 2] ∧
    (∀ n ∈ [0, 1, 2], Ident (plainRun 2 id).copy chainHeap n → ∃ d, IsDelta (chainHeap.node n).tensor d) ∧
    outcome (quEval (plainRun 2 List.reverse) chainOp [] chainHeap) = .inr ([2], [3, 4]) ∧
    outcome (quEval (plainRun 2 id) chainOp [] chainHeap) = .inl .valueError := by
  refine ⟨chainHeap_ok, chainOp_ok, ?_, by decide +kernel, by decide +kernel⟩
  intro n hn hid
  simp only [List.mem_cons, List.not_mem_nil, or_false] at hn
  rcases hn with rfl | rfl | rfl
  · exact ⟨2, delta2_isDelta⟩
  · exact ⟨2, delta2_isDelta⟩
  · exact absurd hid (by decide +kernel)

/-- An identity between two vectors, which is the factor 25, and a vector. -/
def scalarHeap : Heap Int :=
  runOps [.node delta2, .node vec34, .node vec34, .connect 0 2, .connect 1 3, .node vec34] Heap.empty

theorem scalarHeap_ok : GraphOK scalarHeap :=
  (C07_history_partial [.node delta2, .node vec34, .node vec34, .connect 0 2, .connect 1 3, .node vec34]
    graphOK_empty ⟨trivial, trivial, trivial, ⟨⟨0, by decide, by decide⟩, ⟨1, by decide, by decide⟩⟩,
    ⟨⟨0, by decide, by decide⟩, ⟨2, by decide, by decide⟩⟩, trivial, trivial⟩).1

/-- **C42 fails if a part of the network is referred to by an identity only.**  The vector `[3, 4]` times the
factor 25: with all nodes as reference nodes `eval` returns `[75, 100]`; with the identity as the only
reference node to the factor, `nodes` are the same but `eval` silently returns `[3, 4]`. -/
theorem C42_refs_false :
    GraphOK scalarHeap ∧
    (quNodes (plainRun 1 id) ⟨[6], [], [], [0]⟩ scalarHeap).1.toOption.join = some [3, 0, 1, 2] ∧
    (quNodes (plainRun 1 id) ⟨[6], [], [], [0, 1, 2, 3]⟩ scalarHeap).1.toOption.join = some [0, 1, 2, 3] ∧
    outcome (quEval (plainRun 1 id) ⟨[6], [], [], [0, 1, 2, 3]⟩ [] scalarHeap) = .inr ([2], [75, 100]) ∧
    outcome (quEval (plainRun 1 id) ⟨[6], [], [], [0]⟩ [] scalarHeap) = .inr ([2], [3, 4]) :=
  ⟨scalarHeap_ok, by decide +kernel, by decide +kernel, by decide +kernel, by decide +kernel⟩

/-! ### A case meeting the hypotheses -/

/-- A matrix between two identities. -/
def wireHeap : Heap Int :=
  runOps [.node delta2, .node delta2, .node ⟨[2, 2], fun ix => 5 * ix.getD 0 0 + ix.getD 1 0⟩,
    .connect 1 4, .connect 5 2] Heap.empty

theorem wireHeap_ok : GraphOK wireHeap :=
  (C07_history_partial [.node delta2, .node delta2, .node ⟨[2, 2], fun ix => 5 * ix.getD 0 0 + ix.getD 1 0⟩,
    .connect 1 4, .connect 5 2] graphOK_empty
    ⟨trivial, trivial, trivial, ⟨⟨0, by decide, by decide⟩, ⟨2, by decide, by decide⟩⟩,
    ⟨⟨2, by decide, by decide⟩, ⟨1, by decide, by decide⟩⟩, trivial⟩).1

example := C42_network (copy := (plainRun 2 id).copy) chainHeap_ok (N := [0, 1, 2]) (by decide) (by decide +kernel)
  (by decide) chainOp_ok.closed C42_chain_false.2.2.1

example := C42_eval_partial (plainRun 2 List.reverse) (fun _ => .refl _) (fun l => l.reverse_perm)
  (fun _ => .refl _) (fun _ => .refl _)
  (fun k l hl => by
    have : ∀ n, PathOK (n + 1) ((List.range n).map fun _ => (0, 1)) := by
      intro n
      induction n with
      | zero => simp [PathOK]
      | succ n ih =>
        rw [List.range_succ_eq_map, List.map_cons, List.map_map]
        exact ⟨by omega, by omega, by omega, ih⟩
    have h1 := this (l.length - 1)
    rw [Nat.sub_add_cancel (by omega)] at h1
    exact h1) wireHeap_ok
  (q := ⟨[0], [3], [], [0, 1, 2]⟩) (N := [0, 1, 2])
  (quOK_of (by decide) (by decide) (by decide +kernel) (by decide +kernel) rfl (by decide) (by decide +kernel)
    (by decide +kernel))
  (by
    intro n hn hid
    simp only [List.mem_cons, List.not_mem_nil, or_false] at hn
    rcases hn with rfl | rfl | rfl
    · exact ⟨2, delta2_isDelta⟩
    · exact ⟨2, delta2_isDelta⟩
    · exact absurd hid (by decide +kernel))
  (noChain_of (by decide +kernel)) (order := [3, 0]) (.inr (by decide))

end TN.Graph
