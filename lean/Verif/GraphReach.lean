import Verif.GraphPath
import Verif.GraphProps2
import Mathlib.Logic.Relation

/-!
# C15: reachable, check_connected, get_neighbors

Model of `_reachable`, `reachable`, `check_connected`, `get_neighbors`
(network_operations.py:591-638, 680-694, 823-846).

The `while` loop is run with fuel; `none` stands for a loop that has not stopped.  The theorem
shows that it stops.  The order in which the start set is put into the queue is the parameter
`inn`.
-/

namespace TN.Graph

open TN

set_option linter.unusedSectionVars false

variable {R : Type}

/-- The nodes named by the edges of a node, in the order of the two inner loops
(network_operations.py:600-601). -/
def named (h : Heap R) (n : NId) : List NId :=
  (h.node n).edges.flatMap fun e => [(h.edge e).node1, (h.edge e).node2].filterMap id

/-- The body of the inner loops (network_operations.py:602-604): queue and seen nodes. -/
def visit : List NId → List NId × List NId → List NId × List NId
  | [], s => s
  | n :: l, (q, seen) => if n ∉ seen then visit l (q ++ [n], seen ++ [n]) else visit l (q, seen)

/-- The `while` loop of `_reachable` (network_operations.py:596-605). -/
def reachLoop (h : Heap R) : Nat → List NId → List NId → Option (List NId)
  | 0, _, _ => none
  | _ + 1, [], seen => some seen
  | fuel + 1, n :: q, seen =>
    let seen := if n ∉ seen then seen ++ [n] else seen
    let p := visit (named h n) (q, seen)
    reachLoop h fuel p.1 p.2

/-- `_reachable(nodes)` (network_operations.py:591-605). -/
def reachable' (fuel : Nat) (inn : List Nat → List Nat) (nodes : List NId) :
    M R (Option (List NId)) := do
  if nodes = [] then M.throw .valueError
  else do
    let h ← M.get
    pure (reachLoop h fuel (inn nodes.dedup) [])

/-- `reachable(inputs)` for a collection of nodes and edges (network_operations.py:608-638). -/
def reachable (fuel : Nat) (inn : List Nat → List Nat) (inputs : List (NId ⊕ EId)) :
    M R (Option (List NId)) := do
  let ns ← M.mapEach inputs fun
    | .inl n => pure n
    | .inr e => node1 e
  reachable' fuel inn ns

/-- `check_connected(nodes)` (network_operations.py:680-694). -/
def checkConnected (fuel : Nat) (inn : List Nat → List Nat) (nodes : List NId) :
    M R (Option Unit) :=
  match nodes with
  | [] => M.throw .indexError
  | n :: _ => do
    match ← reachable fuel inn [.inl n] with
    | none => pure none
    | some r => if ∀ m ∈ nodes, m ∈ r then pure (some ()) else M.throw .valueError

/-- `get_neighbors(node)` (network_operations.py:823-846). -/
def getNeighbors (n : NId) : M R (List NId) := do
  let es ← nodeEdges n
  let rec go : List EId → List NId → M R (List NId)
    | [], acc => pure acc
    | e :: es, acc => do
      let d ← isDangling e
      if d then go es acc
      else do
        let t ← isTrace e
        if t then go es acc
        else do
          let n1 ← node1 e
          if n1 = n then do
            match ← node2 e with
            | some m => if m ∉ acc then go es (acc ++ [m]) else go es acc
            | none => go es acc
          else if n1 ∉ acc then go es (acc ++ [n1]) else go es acc
  go es []

/-! ### Specification -/

/-- Two nodes share an edge. -/
def Adjacent (h : Heap R) (n m : NId) : Prop :=
  n < h.nn ∧ m < h.nn ∧ ∃ e, e ∈ (h.node n).edges ∧ e ∈ (h.node m).edges

/-- There is a chain of edges from `n` to `m`. -/
def Connected (h : Heap R) : NId → NId → Prop := Relation.ReflTransGen (Adjacent h)

theorem Adjacent.symm {h : Heap R} {n m : NId} (a : Adjacent h n m) : Adjacent h m n :=
  ⟨a.2.1, a.1, a.2.2.elim fun e he => ⟨e, he.2, he.1⟩⟩

theorem Connected.symm {h : Heap R} {n m : NId} (c : Connected h n m) : Connected h m n := by
  induction c with
  | refl => exact .refl
  | tail _ a ih => exact Relation.ReflTransGen.head a.symm ih

/-! ### Proofs -/

theorem mem_named {h : Heap R} (w : WF h) {n m : NId} (hn : n < h.nn) :
    m ∈ named h n ↔ ∃ e, e ∈ (h.node n).edges ∧ e ∈ (h.node m).edges ∧ m < h.nn := by
  unfold named
  rw [List.mem_flatMap]
  constructor
  · rintro ⟨e, he, hm⟩
    have hu := inUse_of_mem hn he
    refine ⟨e, he, ?_⟩
    rcases w.good hu with ⟨k, a, hr⟩ | ⟨k, a, l, b, hr⟩
    · simp only [hr, List.mem_filterMap, id, List.mem_cons, List.not_mem_nil, or_false] at hm
      obtain ⟨x, h1 | h1, h2⟩ := hm
      · have h3 := (at_dang w hu hr (s := (k, a))).2 rfl
        rw [h1] at h2
        obtain rfl := Option.some.inj h2
        exact ⟨h3.mem, h3.1⟩
      · rw [h1] at h2; simp at h2
    · simp only [hr, List.mem_filterMap, id, List.mem_cons, List.not_mem_nil, or_false] at hm
      obtain ⟨x, h1 | h1, h2⟩ := hm <;> rw [h1] at h2 <;> obtain rfl := Option.some.inj h2
      · have h3 := (at_conn w hu hr (s := (k, a))).2 (.inl rfl)
        exact ⟨h3.mem, h3.1⟩
      · have h3 := (at_conn w hu hr (s := (l, b))).2 (.inr rfl)
        exact ⟨h3.mem, h3.1⟩
  · rintro ⟨e, he, hm, hlt⟩
    have hu := inUse_of_mem hn he
    refine ⟨e, he, ?_⟩
    have h1 := at_of_mem hlt hm
    rcases w.good hu with ⟨k, a, hr⟩ | ⟨k, a, l, b, hr⟩
    · rw [at_dang w hu hr] at h1
      obtain rfl := congrArg Prod.fst h1
      simp [hr]
    · rw [at_conn w hu hr] at h1
      rcases h1 with h1 | h1 <;> obtain rfl := congrArg Prod.fst h1 <;> simp [hr]

/-- What `visit` does to queue and seen nodes. -/
theorem visit_spec : ∀ (l q seen : List NId), seen.Nodup →
    ∃ new, visit l (q, seen) = (q ++ new, seen ++ new) ∧ (∀ n ∈ new, n ∈ l) ∧
      (seen ++ new).Nodup ∧ ∀ n ∈ l, n ∈ seen ++ new := by
  intro l
  induction l with
  | nil => intro q seen hs; exact ⟨[], by simp [visit], by simp, by simpa using hs, by simp⟩
  | cons n l ih =>
    intro q seen hs
    unfold visit
    by_cases hn : n ∈ seen
    · obtain ⟨new, h1, h2, h3, h4⟩ := ih q seen hs
      refine ⟨new, by simpa [hn] using h1, fun m hm => by simp [h2 m hm], h3, ?_⟩
      intro m hm
      rcases List.mem_cons.1 hm with rfl | hm
      · simp [hn]
      · exact h4 m hm
    · obtain ⟨new, h1, h2, h3, h4⟩ := ih (q ++ [n]) (seen ++ [n]) (by
        rw [List.nodup_append]
        exact ⟨hs, by simp, by rintro a ha b hb rfl; simp at hb; exact hn (hb ▸ ha)⟩)
      refine ⟨n :: new, by simpa [hn] using h1, ?_, by simpa using h3, ?_⟩
      · intro m hm
        rcases List.mem_cons.1 hm with rfl | hm
        · simp
        · simp [h2 m hm]
      · intro m hm
        rcases List.mem_cons.1 hm with rfl | hm
        · simp
        · simpa using h4 m hm

theorem reachLoop_spec {h : Heap R} (w : WF h) {start : List NId} :
    ∀ (fuel : Nat) (q seen : List NId), seen.Nodup → q.length + (h.nn - seen.length) < fuel →
    (∀ n ∈ q ++ seen, n < h.nn ∧ ∃ s ∈ start, Connected h s n) →
    (∀ s ∈ start, s ∈ q ++ seen) →
    (∀ n ∈ seen, n ∉ q → ∀ m, Adjacent h n m → m ∈ seen) →
    ∃ r, reachLoop h fuel q seen = some r ∧ r.Nodup ∧
      ∀ m, m ∈ r ↔ ∃ s ∈ start, Connected h s m := by
  intro fuel
  induction fuel with
  | zero => intro q seen _ hf; omega
  | succ fuel ih =>
    intro q seen hs hf hr hst' hcl
    rcases q with _ | ⟨n, q⟩
    · refine ⟨seen, rfl, hs, fun m => ⟨fun hm => (hr m (by simpa using hm)).2, ?_⟩⟩
      rintro ⟨s, hs1, hs2⟩
      induction hs2 with
      | refl => simpa using hst' s hs1
      | tail _ hab ih2 => exact hcl _ ih2 (by simp) _ hab
    · obtain ⟨hn, s0, hs0, hc0⟩ := hr n (by simp)
      obtain ⟨seen', hseen'⟩ : ∃ seen', seen' = if n ∉ seen then seen ++ [n] else seen := ⟨_, rfl⟩
      have hmem' : ∀ m, m ∈ seen' ↔ m ∈ seen ∨ m = n := by
        intro m
        rw [hseen']
        by_cases hc : n ∈ seen
        · rw [if_neg (by simpa using hc)]
          constructor
          · exact .inl
          · rintro (h1 | rfl)
            · exact h1
            · exact hc
        · rw [if_pos hc]; simp
      have hnd' : seen'.Nodup := by
        rw [hseen']
        by_cases hc : n ∈ seen
        · rw [if_neg (by simpa using hc)]; exact hs
        · rw [if_pos hc, List.nodup_append]
          exact ⟨hs, by simp, by rintro a ha b hb rfl; simp at hb; exact hc (hb ▸ ha)⟩
      have hlen' : seen.length ≤ seen'.length := by
        rw [hseen']; split_ifs <;> simp
      obtain ⟨new, h1, h2, h3, h4⟩ := visit_spec (named h n) q seen' hnd'
      have hadj : ∀ m, m ∈ named h n ↔ Adjacent h n m := by
        intro m
        rw [mem_named w hn]
        constructor
        · rintro ⟨e, a, b, c⟩; exact ⟨hn, c, e, a, b⟩
        · rintro ⟨_, c, e, a, b⟩; exact ⟨e, a, b, c⟩
      have hok : ∀ m ∈ (q ++ new) ++ (seen' ++ new), m < h.nn ∧ ∃ s ∈ start, Connected h s m := by
        have hnew : ∀ m ∈ new, m < h.nn ∧ ∃ s ∈ start, Connected h s m := by
          intro m hm
          have := (hadj m).1 (h2 m hm)
          exact ⟨this.2.1, s0, hs0, hc0.tail this⟩
        intro m hm
        simp only [List.mem_append, hmem'] at hm
        rcases hm with (hm | hm) | (hm | rfl) | hm
        · exact hr m (by simp [hm])
        · exact hnew m hm
        · exact hr m (by simp [hm])
        · exact ⟨hn, s0, hs0, hc0⟩
        · exact hnew m hm
      have hle : (seen' ++ new).length ≤ h.nn := by
        have h5 : (seen' ++ new).Subperm (List.range h.nn) :=
          h3.subperm fun m hm => List.mem_range.2 (hok m (by simp at hm ⊢; tauto)).1
        simpa using h5.length_le
      obtain ⟨r, k1, k2, k3⟩ := ih (q ++ new) (seen' ++ new) h3 (by
          simp only [List.length_append, List.length_cons] at hf hle ⊢
          omega) hok (by
          intro s hs1
          have := hst' s hs1
          simp only [List.mem_append, List.mem_cons, hmem'] at this ⊢
          tauto) (by
          intro m hm hmq k hk
          by_cases hmn : m = n
          · subst hmn
            exact h4 k ((hadj k).2 hk)
          · have h5 : m ∈ seen := by
              simp only [List.mem_append, hmem', not_or] at hm hmq
              tauto
            have h6 := hcl m h5 (by
              simp only [List.mem_append, List.mem_cons, not_or] at hmq ⊢
              exact ⟨hmn, hmq.1⟩) k hk
            simp only [List.mem_append, hmem']
            exact .inl (.inl h6))
      refine ⟨r, ?_, k2, k3⟩
      rw [← k1]
      conv_lhs => unfold reachLoop
      simp only [← hseen', h1]

/-- **C15.**  `reachable(inputs)` stops and returns exactly the nodes that a chain of edges
connects to one of the inputs (for an input edge: to its `node1`), each once.  The graph is
unchanged. -/
theorem C15_reachable {h : Heap R} (g : GraphOK h) {inputs : List (NId ⊕ EId)} (hne : inputs ≠ [])
    {inn : List Nat → List Nat} (hinn : ∀ l, (inn l).Perm l)
    (hn : ∀ n, .inl n ∈ inputs → n < h.nn) (he : ∀ e, .inr e ∈ inputs → Current h e) :
    ∃ fuel₀ r, (∀ fuel ≥ fuel₀, reachable fuel inn inputs h = (.ok (some r), h)) ∧ r.Nodup ∧
      ∀ m, m ∈ r ↔ ∃ i ∈ inputs, match i with
        | .inl n => Connected h n m
        | .inr e => ∃ n, (h.edge e).node1 = some n ∧ Connected h n m := by
  have w := graphOK_iff.1 g
  obtain ⟨src, hsrc⟩ : ∃ src : NId ⊕ EId → NId,
      src = fun | .inl n => n | .inr e => ((h.edge e).node1).getD 0 := ⟨_, rfl⟩
  have hsrc1 : ∀ i ∈ inputs, (match i with
      | .inl n => (pure n : M R NId) | .inr e => node1 e) h = (.ok (src i), h) ∧ src i < h.nn := by
    intro i hi
    rcases i with n | e
    · subst hsrc; exact ⟨rfl, hn n hi⟩
    · have hu := current_iff.1 (he e hi)
      subst hsrc
      rcases w.good hu with ⟨k, a, hr⟩ | ⟨k, a, l, b, hr⟩
      · simp only
        rw [node1_dang hr, hr]
        exact ⟨rfl, ((at_dang w hu hr (s := (k, a))).2 rfl).1⟩
      · simp only
        rw [node1_conn hr, hr]
        exact ⟨rfl, ((at_conn w hu hr (s := (k, a))).2 (.inl rfl)).1⟩
  have hmap : ∀ l : List (NId ⊕ EId), (∀ i ∈ l, i ∈ inputs) →
      M.mapEach l (fun | .inl n => (pure n : M R NId) | .inr e => node1 e) h =
        (.ok (l.map src), h) := by
    intro l
    induction l with
    | nil => intro _; rfl
    | cons i l ih =>
      intro hl
      rw [M.mapEach_cons]
      refine (M.bind_ok (hsrc1 i (hl i (by simp))).1).trans ?_
      refine (M.bind_ok (ih fun j hj => hl j (by simp [hj]))).trans ?_
      rfl
  have hstart : ∀ n ∈ inn (inputs.map src).dedup, n < h.nn := by
    intro n hn
    rw [(hinn _).mem_iff, List.mem_dedup, List.mem_map] at hn
    obtain ⟨i, hi, rfl⟩ := hn
    exact (hsrc1 i hi).2
  have key : ∀ fuel, (inn (inputs.map src).dedup).length + h.nn < fuel →
      ∃ r, reachLoop h fuel (inn (inputs.map src).dedup) [] = some r ∧ r.Nodup ∧
        ∀ m, m ∈ r ↔ ∃ s ∈ inn (inputs.map src).dedup, Connected h s m := by
    intro fuel hf
    refine reachLoop_spec w fuel _ [] (by simp) (by simpa using hf) ?_ (by simp) (by simp)
    intro n hn
    rw [List.append_nil] at hn
    exact ⟨hstart n hn, n, hn, .refl⟩
  -- more fuel does not change the result
  have mono : ∀ (fuel q seen r), reachLoop h fuel q seen = some r → ∀ fuel' ≥ fuel,
      reachLoop h fuel' q seen = some r := by
    intro fuel
    induction fuel with
    | zero => intro q seen r hr; simp [reachLoop] at hr
    | succ fuel ih =>
      intro q seen r hr fuel' hf
      obtain ⟨f, rfl⟩ : ∃ f, fuel' = f + 1 := ⟨fuel' - 1, by omega⟩
      rcases q with _ | ⟨n, q⟩
      · exact hr
      · unfold reachLoop at hr ⊢
        exact ih _ _ _ hr f (by omega)
  obtain ⟨r, h1, h2, h3⟩ := key _ (Nat.lt_succ_self _)
  refine ⟨(inn (inputs.map src).dedup).length + h.nn + 1, r, fun fuel hf => ?_, h2, ?_⟩
  · unfold reachable
    refine (M.bind_ok (hmap inputs fun _ hi => hi)).trans ?_
    unfold reachable'
    rw [if_neg (by simpa using hne)]
    refine (M.bind_ok (show M.get h = (.ok h, h) from rfl)).trans ?_
    rw [mono _ _ _ _ h1 fuel hf]
    rfl
  · intro m
    rw [h3]
    simp only [(hinn _).mem_iff, List.mem_dedup, List.mem_map]
    constructor
    · rintro ⟨s, ⟨i, hi, rfl⟩, hc⟩
      refine ⟨i, hi, ?_⟩
      rcases i with n | e
      · subst hsrc; exact hc
      · have hu := current_iff.1 (he e hi)
        subst hsrc
        rcases w.good hu with ⟨k, a, hr⟩ | ⟨k, a, l, b, hr⟩ <;>
        · simp only [hr] at hc ⊢
          exact ⟨k, rfl, hc⟩
    · rintro ⟨i, hi, hc⟩
      refine ⟨src i, ⟨i, hi, rfl⟩, ?_⟩
      rcases i with n | e
      · subst hsrc; exact hc
      · obtain ⟨n, hn1, hc⟩ := hc
        subst hsrc
        simp only [hn1]
        exact hc

/-- An empty collection is rejected. -/
theorem C15_reachable_empty (fuel : Nat) (inn : List Nat → List Nat) (h : Heap R) :
    reachable fuel inn [] h = (.error .valueError, h) := rfl

/-- `check_connected(nodes)` stops; it accepts exactly the non-empty collections of which any two
nodes are connected by a chain of edges, and rejects the others with a `ValueError`. -/
theorem C15_check_connected {h : Heap R} (g : GraphOK h) {nodes : List NId} (hne : nodes ≠ [])
    (hlt : ∀ n ∈ nodes, n < h.nn) {inn : List Nat → List Nat} (hinn : ∀ l, (inn l).Perm l) :
    ∃ fuel₀, ∀ fuel ≥ fuel₀,
      ((∀ n ∈ nodes, ∀ m ∈ nodes, Connected h n m) →
        checkConnected fuel inn nodes h = (.ok (some ()), h)) ∧
      (¬ (∀ n ∈ nodes, ∀ m ∈ nodes, Connected h n m) →
        checkConnected fuel inn nodes h = (.error .valueError, h)) := by
  rcases nodes with _ | ⟨n, ns⟩
  · exact absurd rfl hne
  obtain ⟨fuel₀, r, h1, _, h3⟩ := C15_reachable g (inputs := [.inl n]) (by simp) hinn
    (fun m hm => by simp at hm; subst hm; exact hlt m (by simp)) (by simp)
  have hr : ∀ m, m ∈ r ↔ Connected h n m := by
    intro m; rw [h3]; simp
  have hiff : (∀ m ∈ n :: ns, m ∈ r) ↔ ∀ a ∈ n :: ns, ∀ b ∈ n :: ns, Connected h a b := by
    constructor
    · intro hc a ha b hb
      exact ((hr a).1 (hc a ha)).symm.trans ((hr b).1 (hc b hb))
    · intro hc m hm
      exact (hr m).2 (hc n (by simp) m hm)
  refine ⟨fuel₀, fun fuel hf => ?_⟩
  have hrun : checkConnected fuel inn (n :: ns) h =
      (if ∀ m ∈ n :: ns, m ∈ r then pure (some ()) else M.throw .valueError : M R _) h := by
    unfold checkConnected
    exact M.bind_ok (h1 fuel hf)
  rw [hrun]
  constructor
  · intro hc; rw [if_pos (hiff.2 hc)]; rfl
  · intro hc; rw [if_neg (fun h => hc (hiff.1 h))]; rfl

/-- `get_neighbors(node)`: the other nodes that share an edge with the node, each once. -/
theorem C15_get_neighbors {h : Heap R} (g : GraphOK h) {n : NId} (hn : n < h.nn) :
    ∃ ms, getNeighbors n h = (.ok ms, h) ∧ ms.Nodup ∧
      ∀ m, m ∈ ms ↔ m ≠ n ∧ Adjacent h n m := by
  have w := graphOK_iff.1 g
  have key : ∀ (es : List EId), (∀ e ∈ es, e ∈ (h.node n).edges) → ∀ acc : List NId, acc.Nodup →
      ∃ ms, getNeighbors.go n es acc h = (.ok ms, h) ∧ ms.Nodup ∧
        ∀ m, m ∈ ms ↔ m ∈ acc ∨ (m ≠ n ∧ m < h.nn ∧ ∃ e ∈ es, e ∈ (h.node m).edges) := by
    intro es
    induction es with
    | nil => intro _ acc ha; exact ⟨acc, rfl, ha, by simp⟩
    | cons e es ih =>
      intro hes acc ha
      have he := hes e (by simp)
      have ih := ih fun x hx => hes x (by simp [hx])
      have hu := inUse_of_mem hn he
      have hat := at_of_mem hn he
      -- a step that adds nothing
      have skip : (∀ m, m ≠ n → m < h.nn → e ∈ (h.node m).edges → m ∈ acc) →
          getNeighbors.go n (e :: es) acc h = getNeighbors.go n es acc h →
          ∃ ms, getNeighbors.go n (e :: es) acc h = (.ok ms, h) ∧ ms.Nodup ∧
            ∀ m, m ∈ ms ↔ m ∈ acc ∨ (m ≠ n ∧ m < h.nn ∧ ∃ e' ∈ e :: es, e' ∈ (h.node m).edges) := by
        intro hs hr
        obtain ⟨ms, h1, h2, h3⟩ := ih acc ha
        refine ⟨ms, hr.trans h1, h2, fun m => ?_⟩
        rw [h3]
        constructor
        · rintro (h4 | ⟨h4, h5, x, h6, h7⟩)
          · exact .inl h4
          · exact .inr ⟨h4, h5, x, by simp [h6], h7⟩
        · rintro (h4 | ⟨h4, h5, x, h6, h7⟩)
          · exact .inl h4
          · rcases List.mem_cons.1 h6 with rfl | h6
            · exact .inl (hs m h4 h5 h7)
            · exact .inr ⟨h4, h5, x, h6, h7⟩
      -- a step that adds the node `k`
      have add : ∀ k, k ≠ n → k < h.nn → e ∈ (h.node k).edges → k ∉ acc →
          (∀ m, m ≠ n → m < h.nn → e ∈ (h.node m).edges → m = k) →
          getNeighbors.go n (e :: es) acc h = getNeighbors.go n es (acc ++ [k]) h →
          ∃ ms, getNeighbors.go n (e :: es) acc h = (.ok ms, h) ∧ ms.Nodup ∧
            ∀ m, m ∈ ms ↔ m ∈ acc ∨ (m ≠ n ∧ m < h.nn ∧ ∃ e' ∈ e :: es, e' ∈ (h.node m).edges) := by
        intro k hk1 hk2 hk3 hk4 hs hr
        obtain ⟨ms, h1, h2, h3⟩ := ih (acc ++ [k]) (by
          rw [List.nodup_append]
          exact ⟨ha, by simp, by rintro a ha b hb rfl; simp at hb; exact hk4 (hb ▸ ha)⟩)
        refine ⟨ms, hr.trans h1, h2, fun m => ?_⟩
        rw [h3, List.mem_append, List.mem_singleton]
        constructor
        · rintro ((h4 | rfl) | ⟨h4, h5, x, h6, h7⟩)
          · exact .inl h4
          · exact .inr ⟨hk1, hk2, e, by simp, hk3⟩
          · exact .inr ⟨h4, h5, x, by simp [h6], h7⟩
        · rintro (h4 | ⟨h4, h5, x, h6, h7⟩)
          · exact .inl (.inl h4)
          · rcases List.mem_cons.1 h6 with rfl | h6
            · exact .inl (.inr (hs m h4 h5 h7))
            · exact .inr ⟨h4, h5, x, h6, h7⟩
      rcases w.good hu with ⟨k, a, hr⟩ | ⟨k, a, l, b, hr⟩
      · refine skip ?_ ?_
        · intro m hmn hm hme
          have h1 := (at_dang w hu hr).1 (at_of_mem hm hme)
          have h2 := (at_dang w hu hr).1 hat
          exact absurd ((congrArg Prod.fst h1).trans (congrArg Prod.fst h2).symm) hmn
        · conv_lhs => unfold getNeighbors.go
          rw [M.bind_ok isDangling_eq, hr]
          rfl
      · have hmem : ∀ m, m < h.nn → (e ∈ (h.node m).edges ↔ m = k ∨ m = l) := by
          intro m hm
          constructor
          · intro hme
            rcases (at_conn w hu hr).1 (at_of_mem hm hme) with h1 | h1
            · exact .inl (congrArg Prod.fst h1)
            · exact .inr (congrArg Prod.fst h1)
          · rintro (rfl | rfl)
            · exact ((at_conn w hu hr (s := (m, a))).2 (.inl rfl)).mem
            · exact ((at_conn w hu hr (s := (m, b))).2 (.inr rfl)).mem
        have hk := ((at_conn w hu hr (s := (k, a))).2 (.inl rfl)).1
        have hl := ((at_conn w hu hr (s := (l, b))).2 (.inr rfl)).1
        have hnn := (hmem n hn).1 he
        have step : getNeighbors.go n (e :: es) acc h =
            (if k = l then getNeighbors.go n es acc
             else if k = n then (if l ∉ acc then getNeighbors.go n es (acc ++ [l])
               else getNeighbors.go n es acc)
             else if k ∉ acc then getNeighbors.go n es (acc ++ [k])
             else getNeighbors.go n es acc : M R _) h := by
          conv_lhs => unfold getNeighbors.go
          rw [M.bind_ok isDangling_eq, hr]
          simp only [Bool.false_eq_true, if_false]
          refine (M.bind_ok (isTrace_conn hr)).trans ?_
          by_cases hkl : k = l
          · simp [hkl]
          · simp only [hkl, decide_false, Bool.false_eq_true, if_false]
            refine (M.bind_ok (node1_conn hr)).trans ?_
            by_cases hkn : k = n
            · simp only [hkn, if_true]
              exact M.bind_ok (node2_conn hr)
            · simp only [hkn, if_false]
        by_cases hkl : k = l
        · subst hkl
          refine skip ?_ (by rw [step, if_pos rfl])
          intro m hmn hm hme
          have := (hmem m hm).1 hme
          rcases hnn with rfl | rfl <;> rcases this with rfl | rfl <;> exact absurd rfl hmn
        · rw [if_neg hkl] at step
          by_cases hkn : k = n
          · rw [if_pos hkn] at step
            by_cases hla : l ∈ acc
            · rw [if_neg (by simpa using hla)] at step
              refine skip ?_ step
              intro m hmn hm hme
              rcases (hmem m hm).1 hme with rfl | rfl
              · exact absurd hkn hmn
              · exact hla
            · rw [if_pos hla] at step
              refine add l (fun hc => hkl (hkn.trans hc.symm)) hl ((hmem l hl).2 (.inr rfl)) hla ?_
                step
              intro m hmn hm hme
              rcases (hmem m hm).1 hme with rfl | rfl
              · exact absurd hkn hmn
              · rfl
          · rw [if_neg hkn] at step
            have hln : l = n := by
              rcases hnn with h1 | h1
              · exact absurd h1.symm hkn
              · exact h1.symm
            by_cases hka : k ∈ acc
            · rw [if_neg (by simpa using hka)] at step
              refine skip ?_ step
              intro m hmn hm hme
              rcases (hmem m hm).1 hme with rfl | rfl
              · exact hka
              · exact absurd hln hmn
            · rw [if_pos hka] at step
              refine add k hkn hk ((hmem k hk).2 (.inl rfl)) hka ?_ step
              intro m hmn hm hme
              rcases (hmem m hm).1 hme with rfl | rfl
              · rfl
              · exact absurd hln hmn
  obtain ⟨ms, h1, h2, h3⟩ := key (h.node n).edges (fun _ h => h) [] (by simp)
  refine ⟨ms, ?_, h2, fun m => ?_⟩
  · unfold getNeighbors
    exact (M.bind_ok (nodeEdges_eq n)).trans h1
  · rw [h3]
    constructor
    · rintro (h4 | ⟨h4, h5, e, h6, h7⟩)
      · simp at h4
      · exact ⟨h4, hn, h5, e, h6, h7⟩
    · rintro ⟨h4, _, h5, e, h6, h7⟩
      exact .inr ⟨h4, h5, e, h6, h7⟩

/-! ### Concrete cases meeting the hypotheses -/

example := C15_reachable pair_ok (inputs := [.inl 0, .inr 5]) (by simp) (inn := List.reverse)
  List.reverse_perm (by intro n hn; simp at hn; subst hn; decide)
  (by intro e he; simp at he; subst he; exact ⟨1, by decide, by decide⟩)

example := C15_check_connected twoVectors_ok (nodes := [0, 1]) (by simp) (by decide)
  (inn := id) (fun _ => .refl _)

example := C15_get_neighbors pair_ok (n := 1) (by decide)

end TN.Graph
