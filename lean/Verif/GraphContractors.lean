import Verif.GraphProps5
import Verif.GraphRedirect
import Verif.GraphCopy

/-!
# The contractors `auto`, `path_solver` and `contract_path`

Model of `contract_trace_edges` (network_operations.py:737-751), of `auto`, `path_solver` and
`contract_path` (contractors/opt_einsum_paths/path_contractors.py:197-403).

The searches of `opt_einsum` are a parameter.  `set.pop` returns the first element of the
iteration order `ie`.
-/

namespace TN.Graph

open TN

set_option linter.unusedSectionVars false

variable {R : Type}

/-- The loop of `contract_trace_edges` (network_operations.py:747-750) up to the first trace edge. -/
def firstTrace : List EId → M R (Option EId)
  | [] => pure none
  | e :: es => do
    let tr ← isTrace e
    if tr then pure (some e) else firstTrace es

/-- `contract_trace_edges(node)` (network_operations.py:737-751). -/
def contractTraceEdges [CommSemiring R] (fo : FlatOrder) (n : NId) : M R NId := do
  let es ← nodeEdges n
  let t ← firstTrace es
  match t with
  | none => pure n
  | some e => contractParallel fo e

/-- The searches of `opt_einsum.paths` with their arguments `memory_limit` and `nbranch`. -/
inductive Search
  | dynamic (mem : Option Nat)
  | branch (mem nbranch : Option Nat)
  | greedy (mem : Option Nat)
  deriving DecidableEq

/-- The search that `auto` uses for `n ≥ 2` nodes (path_contractors.py:242-263, with `optimal`
100-126, `branch` 129-163, `greedy` 166-193). -/
def autoSearch (n : Nat) (mem : Option Nat) : Search :=
  if n < 5 then .dynamic mem
  else if n < 7 then .branch mem none
  else if n < 9 then .branch mem (some 2)
  else if n < 15 then .branch none (some 1)
  else .greedy mem

/-- The branch of `auto` for one node (path_contractors.py:222-240). -/
def autoSingle [CommSemiring R] (fo : FlatOrder) (ie : List Nat → List Nat) (n : NId)
    (order : Option (List EId)) (ignore : Bool) : M R NId := do
  let h ← M.get
  let dang := (allEdges h [n]).filter (fun e => (h.edge e).dangling)
  let order' ← (if ignore then pure order
    else match order with
      | none => if (ie dang).length > 1 then M.throw .valueError else pure (some (ie dang))
      | some o => pure (some o))
  let f ← (match ie ((allEdges h [n]).filter (fun e => ¬ (h.edge e).dangling)) with
    | [] => pure n
    | e :: _ => contractParallel fo e)
  match order' with
  | none => M.throw .typeError
  | some o => do
    reorderEdges f o
    if ignore then pure () else reorderEdges f o
    pure f

/-- `auto` (path_contractors.py:197-263). -/
def auto [CommSemiring R] (fo : FlatOrder) (ie inn : List Nat → List Nat)
    (search : Search → Heap R → List NId → List (Nat × Nat)) (nodes : List NId)
    (order : Option (List EId)) (mem : Option Nat) (ignore : Bool) : M R NId :=
  match nodes with
  | [] => M.throw .valueError
  | [n] => autoSingle fo ie n order ignore
  | _ => base fo ie inn (search (autoSearch nodes.length mem)) nodes order ignore

/-- The search that `path_solver("auto", nodes)` uses (path_contractors.py:325-345); `none` when
it returns the empty path at once.  The four tests are not exclusive: each one overwrites the
choice of the ones before. -/
def solverSearch (n : Nat) (mem : Option Nat) : Option Search :=
  if n ≤ 1 then none
  else
    let alg : Option Search := none
    let alg := if n < 5 then some (.dynamic mem) else alg
    let alg := if n < 7 then some (.branch mem none) else alg
    let _alg := if n < 9 then some (.branch mem (some 2)) else alg
    if n < 15 then some (.branch mem (some 1)) else some (.greedy mem)

/-- The first loop of `contract_path` (path_contractors.py:368-372): the result of
`contract_parallel` is dropped. -/
def pathTraces [CommSemiring R] (fo : FlatOrder) : List EId → M R Unit
  | [] => pure ()
  | e :: es => do
    let h ← M.get
    if (h.edge e).disabled then pathTraces fo es
    else do
      let tr ← isTrace e
      if tr then do
        let _ ← contractParallel fo e
        pathTraces fo es
      else pathTraces fo es

/-- The loop over the path in `contract_path` (path_contractors.py:383-394).  A step names one
position or two. -/
def pathSteps [CommSemiring R] (fo : FlatOrder) : List (List Nat) → List NId → M R (List NId)
  | [], ns => pure ns
  | p :: path, ns =>
    match p with
    | [] => pathSteps fo path ns
    | [a] =>
      match ns[a]? with
      | some x => do
        let new ← contractTraceEdges fo x
        pathSteps fo path (ns.eraseIdx a ++ [new])
      | none => M.throw .indexError
    | [a, b] =>
      match ns[a]?, ns[b]? with
      | some x, some y => do
        let new ← contractBetween fo x y true none
        pathSteps fo path (multiRemove (ns ++ [new]) [a, b])
      | _, _ => M.throw .indexError
    | _ => M.throw .valueError

/-- The branch of `contract_path` for one node (path_contractors.py:374-378). -/
def contractPathSingle [CommSemiring R] (cj : R → R) (n : NId) (order : List EId) : M R NId := do
  let new ← nodeCopy false cj false n
  let es ← nodeEdges n
  M.forEach es fun e => redirectEdge e new n
  reorderEdges new order
  pure new

/-- The end of `contract_path` (path_contractors.py:397-403). -/
def contractPathEnd [CommSemiring R] (fo : FlatOrder) (l : List NId) (order : List EId) : M R NId :=
  match l with
  | [] => M.throw .indexError
  | f :: _ => do
    let f ← contractTraceEdges fo f
    reorderEdges f order
    pure f

/-- `contract_path(path, nodes, output_edge_order)` (path_contractors.py:354-403).  For an empty
path it returns the list of nodes. -/
def contractPath [CommSemiring R] (fo : FlatOrder) (ie : List Nat → List Nat) (cj : R → R)
    (path : List (List Nat)) (nodes : List NId) (order : List EId) : M R (NId ⊕ List NId) := do
  let h ← M.get
  pathTraces fo (ie (allEdges h nodes))
  match nodes with
  | [n] => do
    let f ← contractPathSingle cj n order
    pure (.inl f)
  | _ =>
    if path = [] then pure (.inr nodes)
    else do
      let l ← pathSteps fo path nodes
      let f ← contractPathEnd fo l order
      pure (.inl f)

/-! ### Trace edges -/

theorem isTrace_nodup {h : Heap R} (w : WF h) {n : NId} (hn : n < h.nn)
    (hnd : (h.node n).edges.Nodup) {e : EId} (he : e ∈ (h.node n).edges) :
    isTrace e h = (.ok false, h) := by
  have hu := inUse_of_mem hn he
  rcases w.good hu with ⟨m, a, hr⟩ | ⟨m, a, l, b, hr⟩
  · exact isTrace_dang hr
  · rw [isTrace_conn hr]
    by_cases hml : m = l
    · subst hml
      exfalso
      have h1 := at_of_mem hn he
      have h2 : n = m := by
        rcases (at_conn w hu hr).1 h1 with h3 | h3 <;> exact congrArg Prod.fst h3
      subst h2
      have h3 := (w.between_self_iff hn hu).1 ⟨a, b, .inl hr⟩
      have := List.nodup_iff_count_le_one.1 hnd e
      omega
    · simp [hml]

theorem firstTrace_none {h : Heap R} : ∀ (l : List EId),
    (∀ e ∈ l, isTrace e h = (.ok false, h)) → firstTrace l h = (.ok none, h)
  | [], _ => rfl
  | e :: l, hl => by
    unfold firstTrace
    rw [M.bind_ok (hl e (by simp))]
    simpa using firstTrace_none l fun x hx => hl x (by simp [hx])

theorem contractTraceEdges_nodup [CommSemiring R] (fo : FlatOrder) {h : Heap R} (w : WF h) {n : NId}
    (hn : n < h.nn) (hnd : (h.node n).edges.Nodup) : contractTraceEdges fo n h = (.ok n, h) := by
  unfold contractTraceEdges
  rw [M.bind_ok (nodeEdges_eq n)]
  exact M.bind_ok (firstTrace_none _ fun e he => isTrace_nodup w hn hnd he)

theorem firstTrace_spec {h : Heap R} (w : WF h) {n : NId} (hn : n < h.nn) : ∀ (l : List EId),
    (∀ e ∈ l, e ∈ (h.node n).edges) →
    (firstTrace l h = (.ok none, h) ∧ ∀ e ∈ l, ¬ Between h n n e) ∨
    ∃ e ∈ l, firstTrace l h = (.ok (some e), h) ∧ ∃ a b, h.edge e = .conn n a n b
  | [], _ => .inl ⟨rfl, by simp⟩
  | e :: l, hl => by
    have he := hl e (by simp)
    have hu := inUse_of_mem hn he
    have ih := firstTrace_spec w hn l fun x hx => hl x (by simp [hx])
    have skip : isTrace e h = (.ok false, h) → firstTrace (e :: l) h = firstTrace l h := by
      intro hi
      conv_lhs => unfold firstTrace
      rw [M.bind_ok hi]
      simp
    have next : isTrace e h = (.ok false, h) → ¬ Between h n n e →
        (firstTrace (e :: l) h = (.ok none, h) ∧ ∀ x ∈ e :: l, ¬ Between h n n x) ∨
        ∃ x ∈ e :: l, firstTrace (e :: l) h = (.ok (some x), h) ∧ ∃ a b, h.edge x = .conn n a n b := by
      intro hi hb
      rw [skip hi]
      rcases ih with ⟨h1, h2⟩ | ⟨x, hx, h1⟩
      · refine .inl ⟨h1, ?_⟩
        intro x hx
        rcases List.mem_cons.1 hx with rfl | hx
        · exact hb
        · exact h2 x hx
      · exact .inr ⟨x, by simp [hx], h1⟩
    rcases w.good hu with ⟨m, a, hr⟩ | ⟨m, a, k, b, hr⟩
    · refine next (isTrace_dang hr) ?_
      rintro ⟨a', b', h5 | h5⟩ <;> rw [hr] at h5 <;> cases h5
    · by_cases hmk : m = k
      · subst hmk
        have h2 : n = m := by
          rcases (at_conn w hu hr).1 (at_of_mem hn he) with h3 | h3 <;> exact congrArg Prod.fst h3
        subst h2
        refine .inr ⟨e, by simp, ?_, a, b, hr⟩
        unfold firstTrace
        rw [M.bind_ok (isTrace_conn hr)]
        simp
      · refine next (by rw [isTrace_conn hr]; simp [hmk]) ?_
        rintro ⟨a', b', h5 | h5⟩ <;> rw [hr] at h5 <;> cases h5 <;> exact hmk rfl

/-- A node is contracted along one of its trace edges: all of them are gone. -/
theorem contractParallel_trace [CommSemiring R] (fo : FlatOrder) {h : Heap R} (w : WF h) {n : NId}
    (hn : n < h.nn) {e : EId} (he : e ∈ (h.node n).edges) {a b : Nat} (hr : h.edge e = .conn n a n b) :
    ∃ h', contractParallel fo e h = (.ok h.nn, h') ∧ Reduced h h' [n] [h.nn] ∧ NoTrace h' [h.nn] := by
  have hu := inUse_of_mem hn he
  obtain ⟨S, k', k1, k2, k3, k4⟩ := contractBetween_ok w fo hn hn (allow := false) (order := none)
    (.inl ⟨e, hu, a, b, .inl hr⟩) (by simp)
  have hd : [n, n].dedup = [n] := by simp
  have red := k4.reduced w (N := [n]) (T := []) (N' := [h.nn]) (by simp) (by simpa using hn)
    (by rw [hd]; simp) (by simp)
    (fun x hx => w.between_count hn hn ((k3 x).1 hx).1 ((k3 x).1 hx).2)
  refine ⟨k', (contractParallel_eq fo hr).trans k1, red, ?_⟩
  intro m hm
  rw [List.mem_singleton] at hm
  subst hm
  rw [List.nodup_iff_count_le_one]
  intro y
  by_contra hc
  rw [k4.edges] at hc
  simp only [Option.getD_none, if_true, hd, List.flatMap_cons, List.flatMap_nil,
    List.append_nil] at hc
  have h6 : y ∈ (h.node n).edges.filter (fun e => e ∉ S) := List.count_pos_iff.1 (by omega)
  have h7 := (List.mem_filter.1 h6).2
  rw [List.count_filter (p := fun e => e ∉ S) h7] at hc
  have hyu := inUse_of_mem hn (List.mem_filter.1 h6).1
  have h8 := w.count_le hn y
  exact (by simpa using h7 : y ∉ S) ((k3 y).2
    ⟨hyu, (w.between_self_iff hn hyu).2 (by omega)⟩)

theorem contractTraceEdges_ok [CommSemiring R] (fo : FlatOrder) {h : Heap R} (w : WF h) {n : NId}
    (hn : n < h.nn) :
    ∃ f h', contractTraceEdges fo n h = (.ok f, h') ∧ Reduced h h' [n] [f] ∧ NoTrace h' [f] ∧
      ((h.node n).edges.Nodup → f = n ∧ h' = h) ∧ (¬ (h.node n).edges.Nodup → h.nn ≤ f) := by
  rcases firstTrace_spec w hn (h.node n).edges fun _ he => he with ⟨h1, h2⟩ | ⟨e, he, h1, a, b, hr⟩
  · have hnd : (h.node n).edges.Nodup := by
      rw [List.nodup_iff_count_le_one]
      intro y
      by_contra hc
      have hy : y ∈ (h.node n).edges := List.count_pos_iff.1 (by omega)
      have := w.count_le hn y
      exact h2 y hy ((w.between_self_iff hn (inUse_of_mem hn hy)).2 (by omega))
    refine ⟨n, h, contractTraceEdges_nodup fo w hn hnd, .refl w (by simp) (by simpa using hn), ?_,
      fun _ => ⟨rfl, rfl⟩, fun hc => absurd hnd hc⟩
    simpa [NoTrace] using hnd
  · obtain ⟨h', q1, q2, q3⟩ := contractParallel_trace fo w hn he hr
    refine ⟨h.nn, h', ?_, q2, q3, ?_, fun _ => le_rfl⟩
    · unfold contractTraceEdges
      rw [M.bind_ok (nodeEdges_eq n)]
      exact (M.bind_ok h1).trans q1
    · intro hnd
      have h3 := (w.between_self_iff hn (inUse_of_mem hn he)).1 ⟨a, b, .inl hr⟩
      have := List.nodup_iff_count_le_one.1 hnd e
      omega

/-- The last reordering. -/
theorem reorder_final [CommSemiring R] {h k : Heap R} (w : WF h) {N : List NId} {f : NId}
    (hlt : ∀ n ∈ N, n < h.nn) (r : Reduced h k N [f]) (ht : NoTrace k [f]) {o : List EId}
    (hnd : o.Nodup) (ho : ∀ e, e ∈ o ↔ OpenFor h N e) :
    ∃ h', reorderEdges f o k = (.ok (), h') ∧ Reduced h h' N [f] ∧ NoTrace h' [f] ∧
      (h'.node f).edges = o := by
  have hf := ht f (by simp)
  have hfl := r.lt f (by simp)
  have hperm : o.Perm (k.node f).edges := by
    rw [List.perm_ext_iff_of_nodup hnd hf]
    intro e
    rw [ho, r.mem_final hlt hf, OpenFor, flatL_netOf]
  obtain ⟨h', q1, q2⟩ := reorderEdges_ok r.wf hfl hperm (by
    intro e he hb
    have := (r.wf.between_self_iff hfl (inUse_of_mem hfl (hperm.mem_iff.1 he))).1 hb
    have := List.nodup_iff_count_le_one.1 hf e
    omega)
  refine ⟨h', q1, r.trans (q2.reduced r.nodup r.lt (by simp)) w, ?_, q2.edges⟩
  intro n hn
  rw [List.mem_singleton] at hn
  subst hn
  rw [q2.edges]
  exact hnd

/-! ### `auto` for one node -/

/-- The node after the first part of `auto` for one node whose connected edges are all trace edges. -/
theorem autoSingle_first [CommSemiring R] (fo : FlatOrder) {h : Heap R} (w : WF h) {n : NId}
    (hn : n < h.nn) {ie : List Nat → List Nat} (hie : ∀ l, (ie l).Perm l)
    (htr : ∀ e ∈ (h.node n).edges, (h.edge e).dangling = false → (h.node n).edges.count e = 2) :
    ∃ f h', (match ie ((allEdges h [n]).filter (fun e => ¬ (h.edge e).dangling)) with
      | [] => pure n
      | e :: _ => contractParallel fo e : M R NId) h = (.ok f, h') ∧
      Reduced h h' [n] [f] ∧ NoTrace h' [f] := by
  have hp := hie ((allEdges h [n]).filter (fun e => ¬ (h.edge e).dangling))
  have hmem : ∀ e, e ∈ (allEdges h [n]).filter (fun e => ¬ (h.edge e).dangling) ↔
      e ∈ (h.node n).edges ∧ (h.edge e).dangling = false := by
    intro e
    simp [allEdges]
  generalize ie ((allEdges h [n]).filter (fun e => ¬ (h.edge e).dangling)) = l at hp
  rcases l with _ | ⟨e, l⟩
  · refine ⟨n, h, rfl, .refl w (by simp) (by simpa using hn), ?_⟩
    intro m hm
    rw [List.mem_singleton] at hm
    subst hm
    rw [List.nodup_iff_count_le_one]
    intro y
    by_contra hc
    have hy : y ∈ (h.node m).edges := List.count_pos_iff.1 (by omega)
    have h1 := w.count_le hn y
    obtain ⟨a, b, h3 | h3⟩ := (w.between_self_iff hn (inUse_of_mem hn hy)).2 (by omega)
    all_goals
      have h4 := hp.symm.mem_iff.1 ((hmem y).2 ⟨hy, by rw [h3]⟩)
      simp at h4
  · obtain ⟨h1, h2⟩ := (hmem e).1 (hp.mem_iff.1 (by simp))
    have h3 := htr e h1 h2
    obtain ⟨a, b, h4⟩ := (w.between_self_iff hn (inUse_of_mem hn h1)).2 h3
    obtain ⟨a, b, h4⟩ : ∃ a b, h.edge e = .conn n a n b := by
      rcases h4 with h4 | h4
      · exact ⟨_, _, h4⟩
      · exact ⟨_, _, h4⟩
    obtain ⟨h', q1, q2, q3⟩ := contractParallel_trace fo w hn h1 h4
    exact ⟨h.nn, h', q1, q2, q3⟩

/-- The open edges of one node whose connected edges are all trace edges. -/
theorem open_single {h : Heap R} (w : WF h) {n : NId} (hn : n < h.nn)
    (htr : ∀ e ∈ (h.node n).edges, (h.edge e).dangling = false → (h.node n).edges.count e = 2)
    (e : EId) : e ∈ (allEdges h [n]).filter (fun e => (h.edge e).dangling) ↔ OpenFor h [n] e := by
  have h0 : OpenFor h [n] e ↔ (h.node n).edges.count e = 1 := by simp [OpenFor]
  rw [h0]
  constructor
  · intro h1
    obtain ⟨h1, h2⟩ : e ∈ (h.node n).edges ∧ (h.edge e).dangling = true := by
      simpa [allEdges] using h1
    have h3 := w.count_le hn e
    have h4 := List.count_pos_iff.2 h1
    by_contra hc
    obtain ⟨a, b, h5 | h5⟩ := (w.between_self_iff hn (inUse_of_mem hn h1)).2 (by omega)
    all_goals
      rw [h5] at h2
      cases h2
  · intro h1
    have h2 : e ∈ (h.node n).edges := List.count_pos_iff.1 (by omega)
    have h3 : (h.edge e).dangling = true := by
      by_contra hc
      have := htr e h2 (by simpa using hc)
      omega
    simpa [allEdges] using ⟨h2, h3⟩

theorem autoSingle_ok [CommSemiring R] (fo : FlatOrder) {h : Heap R} (w : WF h) {n : NId}
    (hn : n < h.nn) {ie : List Nat → List Nat} (hie : ∀ l, (ie l).Perm l)
    (htr : ∀ e ∈ (h.node n).edges, (h.edge e).dangling = false → (h.node n).edges.count e = 2)
    {order : Option (List EId)} {ignore : Bool}
    (hord : match order with
      | none => ignore = false ∧ ∀ e e', OpenFor h [n] e → OpenFor h [n] e' → e = e'
      | some o => o.Nodup ∧ ∀ e, e ∈ o ↔ OpenFor h [n] e) :
    ∃ f h', autoSingle fo ie n order ignore h = (.ok f, h') ∧ Reduced h h' [n] [f] ∧
      NoTrace h' [f] ∧ ∀ o, order = some o → (h'.node f).edges = o := by
  obtain ⟨o', ho1, ho2, ho3, ho4⟩ : ∃ o', (if ignore then pure order
      else match order with
        | none => if (ie ((allEdges h [n]).filter (fun e => (h.edge e).dangling))).length > 1 then
            M.throw .valueError
          else pure (some (ie ((allEdges h [n]).filter (fun e => (h.edge e).dangling))))
        | some o => pure (some o) : M R (Option (List EId))) h = (.ok (some o'), h) ∧ o'.Nodup ∧
      (∀ e, e ∈ o' ↔ OpenFor h [n] e) ∧ ∀ o, order = some o → o' = o := by
    cases order with
    | some o =>
      refine ⟨o, ?_, hord.1, hord.2, by simp⟩
      cases ignore <;> rfl
    | none =>
      obtain ⟨rfl, h1⟩ := hord
      have hnd : ((allEdges h [n]).filter (fun e => (h.edge e).dangling)).Nodup :=
        (List.nodup_dedup _).filter _
      have hop := open_single w hn htr
      refine ⟨ie ((allEdges h [n]).filter (fun e => (h.edge e).dangling)), ?_, (hie _).nodup_iff.2 hnd,
        fun e => by rw [(hie _).mem_iff, hop], by simp⟩
      simp only [Bool.false_eq_true, if_false]
      rw [if_neg]
      · rfl
      · rw [(hie _).length_eq]
        generalize (allEdges h [n]).filter (fun e => (h.edge e).dangling) = l at hnd hop
        rcases l with _ | ⟨x, _ | ⟨y, l⟩⟩
        · simp
        · simp
        · have := h1 x y ((hop x).1 (by simp)) ((hop y).1 (by simp))
          simp [this] at hnd
  obtain ⟨f, k, h1, h2, h3⟩ := autoSingle_first fo w hn hie htr
  have hlt : ∀ m ∈ [n], m < h.nn := by simpa using hn
  obtain ⟨k1, q1, q2, q3, q4⟩ := reorder_final w hlt h2 h3 ho2 ho3
  obtain ⟨k2, s1, s2, s3, s4⟩ := reorder_final w hlt q2 q3 ho2 ho3
  have hrun : ∀ k', (do
      reorderEdges f o'
      if ignore then pure () else reorderEdges f o'
      pure f : M R NId) k = (.ok f, k') → autoSingle fo ie n order ignore h = (.ok f, k') := by
    intro k' hk
    unfold autoSingle
    rw [M.bind_ok (show M.get h = (.ok h, h) from rfl)]
    refine (M.bind_ok ho1).trans ?_
    refine (M.bind_ok h1).trans ?_
    exact hk
  cases ignore with
  | true => exact ⟨f, k1, hrun k1 (M.bind_ok q1), q2, q3, fun o ho => q4.trans (ho4 o ho)⟩
  | false =>
    exact ⟨f, k2, hrun k2 ((M.bind_ok q1).trans (M.bind_ok s1)), s2, s3,
      fun o ho => s4.trans (ho4 o ho)⟩

/-! ### `contract_path` -/

/-- A path that contracts `n` nodes to one: a step names one position or two different ones. -/
def StepsOK : Nat → List (List Nat) → Prop
  | n, [] => n = 1
  | n, [a] :: p => a < n ∧ StepsOK n p
  | n, [a, b] :: p => a < n ∧ b < n ∧ a ≠ b ∧ StepsOK (n - 1) p
  | _, _ => False

theorem pathTraces_none [CommSemiring R] (fo : FlatOrder) {h : Heap R} : ∀ (l : List EId),
    (∀ e ∈ l, (h.edge e).disabled = false ∧ isTrace e h = (.ok false, h)) →
    pathTraces fo l h = (.ok (), h)
  | [], _ => rfl
  | e :: l, hl => by
    unfold pathTraces
    rw [M.bind_ok (show M.get h = (.ok h, h) from rfl)]
    obtain ⟨h1, h2⟩ := hl e (by simp)
    simp only [h1, Bool.false_eq_true, if_false]
    refine (M.bind_ok h2).trans ?_
    simpa using pathTraces_none fo l fun x hx => hl x (by simp [hx])

/-- One step with two positions. -/
theorem pathPair_ok [CommSemiring R] (fo : FlatOrder) {h : Heap R} (w : WF h) {N : List NId}
    {ns : List NId} {k : Heap R} (r : Reduced h k N ns) (ht : NoTrace k ns) {a b : Nat}
    (ha : a < ns.length) (hb : b < ns.length) (hab : a ≠ b) :
    ∃ x y new k', ns[a]? = some x ∧ ns[b]? = some y ∧
      contractBetween fo x y true none k = (.ok new, k') ∧
      Reduced h k' N (multiRemove (ns ++ [new]) [a, b]) ∧
      NoTrace k' (multiRemove (ns ++ [new]) [a, b]) ∧
      (multiRemove (ns ++ [new]) [a, b]).length = ns.length - 1 := by
  have ea : ns[a]? = some ns[a] := List.getElem?_eq_getElem ha
  have eb : ns[b]? = some ns[b] := List.getElem?_eq_getElem hb
  have hx : ns[a] ∈ ns := List.getElem_mem ha
  have hy : ns[b] ∈ ns := List.getElem_mem hb
  have hxy : ns[a] ≠ ns[b] := fun hc => hab ((List.Nodup.getElem_inj_iff r.nodup).1 hc)
  generalize ns[a] = x at ea hx hxy
  generalize ns[b] = y at eb hy hxy
  have hd : [x, y].dedup = [x, y] := List.Nodup.dedup (by simp [hxy])
  obtain ⟨S, k', k1, k2, k3, k4⟩ := contractBetween_ok r.wf fo (r.lt x hx)
    (r.lt y hy) (allow := true) (order := none) (.inr ⟨hxy, rfl⟩) (by simp)
  have hm : multiRemove (ns ++ [k.nn]) [a, b] = multiRemove ns [a, b] ++ [k.nn] :=
    multiRemove_append_left ns _ (by
      intro i hi
      simp only [List.mem_cons, List.not_mem_nil, or_false] at hi
      rcases hi with rfl | rfl <;> assumption)
  have hperm := multiRemove_perm ea eb hab
  have red := k4.reduced r.wf (N := ns) (T := multiRemove ns [a, b])
    (N' := multiRemove ns [a, b] ++ [k.nn]) r.nodup r.lt (by rw [hd]; exact hperm)
    (List.perm_append_comm (l₂ := [k.nn]))
    (fun e he => r.wf.between_count (r.lt x hx) (r.lt y hy) ((k3 e).1 he).1 ((k3 e).1 he).2)
  have hnt : NoTrace k' (multiRemove ns [a, b] ++ [k.nn]) := by
    intro n hn
    rcases List.mem_append.1 hn with h5 | h5
    · have h6 : n ∈ ns := hperm.mem_iff.2 (by simp [h5])
      have h7 : n ∉ [x, y] := by
        have h8 := hperm.nodup_iff.1 r.nodup
        simp only [List.nodup_cons, List.mem_cons, not_or] at h8
        simp only [List.mem_cons, List.not_mem_nil, or_false, not_or]
        exact ⟨fun hc => h8.1.2 (hc ▸ h5), fun hc => h8.2.1 (hc ▸ h5)⟩
      rw [k4.other n (r.lt n h6) (by rw [hd]; exact h7)]
      exact ht n h6
    · rw [List.mem_singleton] at h5
      subst h5
      rw [k4.edges]
      simp only [Option.getD_none, if_true, hd, List.flatMap_cons, List.flatMap_nil,
        List.append_nil]
      rw [List.filter_append, List.nodup_append]
      refine ⟨(ht x hx).filter _, (ht y hy).filter _, ?_⟩
      rintro e he e' he' rfl
      have h6 := (List.mem_filter.1 he)
      have h7 := (List.mem_filter.1 he')
      refine (by simpa using h6.2 : e ∉ S) ((k3 e).2 ⟨inUse_of_mem (r.lt x hx) h6.1,
        r.wf.between_of_mem (r.lt x hx) (r.lt y hy) hxy h6.1 h7.1⟩)
  have hlen : (multiRemove ns [a, b] ++ [k.nn]).length = ns.length - 1 := by
    have := hperm.length_eq
    simp only [List.length_cons, List.length_append, List.length_nil] at this ⊢
    omega
  exact ⟨x, y, k.nn, k', ea, eb, k1, by rw [hm]; exact r.trans red w, by rw [hm]; exact hnt,
    by rw [hm]; exact hlen⟩

/-- Only the list of nodes matters up to its order. -/
theorem Reduced.perm [CommSemiring R] {h h' : Heap R} {N ns ns' : List NId}
    (r : Reduced h h' N ns) (hp : ns'.Perm ns) : Reduced h h' N ns' := by
  refine ⟨r.wf, r.nn, r.ne, fun n hn => r.lt n (hp.mem_iff.1 hn), hp.nodup_iff.2 r.nodup,
    fun n hn => r.sub n (hp.mem_iff.1 hn), r.other, ?_, ?_, r.dead, r.use, ?_⟩
  · intro e he
    rw [(flatL_perm (netOf_perm h' hp)).count_eq]
    exact r.edges e he
  · intro e he
    exact r.new e ((flatL_perm (netOf_perm h' hp)).mem_iff.1 he)
  · intro rest hr hrl σ hσ
    rw [← r.value rest hr hrl σ hσ]
    refine netVal_perm (netOf_perm h' (hp.append_right rest)) (r.wf.consistent ?_) σ
    intro n hn
    rcases List.mem_append.1 hn with h5 | h5
    · exact r.lt n (hp.mem_iff.1 h5)
    · exact lt_of_lt_of_le (hrl n h5) r.nn

theorem pathSteps_ok [CommSemiring R] (fo : FlatOrder) {h : Heap R} (w : WF h) {N : List NId} :
    ∀ (p : List (List Nat)) (ns : List NId) (k : Heap R), Reduced h k N ns → NoTrace k ns →
    StepsOK ns.length p →
    ∃ f k', pathSteps fo p ns k = (.ok [f], k') ∧ Reduced h k' N [f] ∧ NoTrace k' [f] := by
  intro p
  induction p with
  | nil =>
    intro ns k r ht hp
    obtain ⟨f, rfl⟩ := List.length_eq_one_iff.1 hp
    exact ⟨f, k, rfl, r, ht⟩
  | cons q p ih =>
    intro ns k r ht hp
    rcases q with _ | ⟨a, _ | ⟨b, _ | ⟨c, q⟩⟩⟩
    · exact hp.elim
    · obtain ⟨ha, hp⟩ := hp
      have ea : ns[a]? = some ns[a] := List.getElem?_eq_getElem ha
      have hx : ns[a] ∈ ns := List.getElem_mem ha
      have hperm : (ns.eraseIdx a ++ [ns[a]]).Perm ns :=
        (List.perm_append_comm (l₂ := [ns[a]])).trans (List.getElem_cons_eraseIdx_perm ha)
      generalize ns[a] = x at ea hx hperm
      obtain ⟨f, k', h1, h2, h3⟩ := ih (ns.eraseIdx a ++ [x]) k (r.perm hperm)
        (fun n hn => ht n (hperm.mem_iff.1 hn)) (by rw [hperm.length_eq]; exact hp)
      refine ⟨f, k', ?_, h2, h3⟩
      unfold pathSteps
      simp only [ea]
      exact (M.bind_ok (contractTraceEdges_nodup fo r.wf (r.lt x hx) (ht x hx))).trans h1
    · obtain ⟨ha, hb, hab, hp⟩ := hp
      obtain ⟨x, y, new, k', ea, eb, k1, k2, k3, k4⟩ := pathPair_ok fo w r ht ha hb hab
      obtain ⟨f, k'', h1, h2, h3⟩ := ih _ k' k2 k3 (by rw [k4]; exact hp)
      refine ⟨f, k'', ?_, h2, h3⟩
      unfold pathSteps
      simp only [ea, eb]
      exact (M.bind_ok k1).trans h1
    · exact hp.elim

/-! ### One node: a copy that takes over the edges -/

theorem Attached.wf_dang {k k' : Heap R} (w : WF k) {c i : Nat} {old : EId}
    (hs : At k (c, i) old) (hr : k.edge old = .dang c i) (x : Attached k k' (.dang c i) [(c, i)]) :
    WF k' := by
  have hat : ∀ s e, At k' s e ↔ if s = (c, i) then e = k.ne else At k s e := by
    rintro ⟨m, a⟩ e
    unfold At
    rw [x.nn, x.slot]
    by_cases hc : (m, a) = (c, i)
    · rw [if_pos (by simpa using hc), if_pos hc]
      have := hs.1
      simp only [Prod.mk.injEq] at hc
      obtain ⟨rfl, rfl⟩ := hc
      exact ⟨fun h1 => (Option.some.inj h1.2).symm, fun h1 => ⟨this, by rw [h1]⟩⟩
    · rw [if_neg (by simpa using hc), if_neg hc]
  have hdim : ∀ s, dimAt k' s = dimAt k s := fun s => by
    simp only [dimAt, Heap.shape, x.tensor]
  refine ⟨fun n hn => by rw [x.len, x.tensor]; exact w.len n (x.nn ▸ hn), ?_⟩
  intro s e hse
  rw [hat] at hse
  split_ifs at hse with hc
  · subst hse hc
    refine ⟨by rw [x.ne]; omega, by rw [x.new]; exact good_dang _ _, by rw [x.new]; simp,
      by rw [x.new]; simp, ?_, ?_⟩
    · rw [x.new]
      intro s' hs'
      simp only [ends_dang, Multiset.mem_singleton] at hs'
      rw [hat, if_pos hs']
    · rw [x.new]
      intro s' hs'
      simp only [ends_dang, Multiset.mem_singleton] at hs'
      rw [hs']
  · have ok := w.edge s e hse
    have hne : e ≠ k.ne := ok.lt.ne
    have hold : e ≠ old := by
      rintro rfl
      have := ok.mem
      rw [hr] at this
      simp only [ends_dang, Multiset.mem_singleton] at this
      exact hc this
    have hrec := x.old e hne
    refine ⟨by rw [x.ne]; have := ok.lt; omega, by rw [hrec]; exact ok.good, by rw [hrec]; exact ok.nodup,
      by rw [hrec]; exact ok.mem, ?_, ?_⟩
    · rw [hrec]
      intro s' hs'
      rw [hat, if_neg]
      · exact ok.listed s' hs'
      · rintro rfl
        exact hold ((ok.listed _ hs').unique hs)
    · rw [hrec]
      intro s' hs'
      rw [hdim, hdim]
      exact ok.dim s' hs'

/-- The graph `h` with a copy `h.nn` of the node `n` all of whose edges are dangling. -/
structure Twin (h k : Heap R) (n : NId) : Prop where
  wf : WF k
  nn : k.nn = h.nn + 1
  ne : h.ne ≤ k.ne
  node : ∀ m < h.nn, k.node m = h.node m
  edge : ∀ e < h.ne, k.edge e = h.edge e
  tensor : (k.node h.nn).tensor = (h.node n).tensor
  fresh : ∀ (a : Nat) (e : EId), (k.node h.nn).edges[a]? = some e → h.ne ≤ e ∧ (k.edge e).dangling = true

theorem copyLoop_twin {h : Heap R} (w : WF h) {n : NId} (hn : n < h.nn)
    (hnd : (h.node n).edges.Nodup) : ∀ (l : List (EId × Nat)) (vis : List EId) (k : Heap R),
    (∀ p ∈ l, (h.node n).edges[p.2]? = some p.1) → Twin h k n →
    ∃ k', copyLoop false h.nn l vis k = (.ok (), k') ∧ Twin h k' n := by
  intro l
  induction l with
  | nil => intro vis k _ t; exact ⟨k, rfl, t⟩
  | cons p l ih =>
    obtain ⟨e, i⟩ := p
    intro vis k hl t
    have hei : (h.node n).edges[i]? = some e := hl (e, i) (by simp)
    have hl' : ∀ p ∈ l, (h.node n).edges[p.2]? = some p.1 := fun p hp => hl p (by simp [hp])
    by_cases hv : e ∈ vis
    · obtain ⟨k', h1, h2⟩ := ih vis k hl' t
      refine ⟨k', ?_, h2⟩
      unfold copyLoop
      rw [if_pos hv]
      exact h1
    · have he : e ∈ (h.node n).edges := List.mem_of_getElem? hei
      have hu := inUse_of_mem hn he
      have hlt := w.lt hu
      have hnn : h.nn < k.nn := by rw [t.nn]; omega
      have hi : i < (k.node h.nn).edges.length := by
        rw [t.wf.len _ hnn, t.tensor, ← w.len n hn]
        exact (List.getElem?_eq_some_iff.1 hei).1
      obtain ⟨old, ho⟩ : ∃ old, (k.node h.nn).edges[i]? = some old := ⟨_, List.getElem?_eq_getElem hi⟩
      obtain ⟨f1, f2⟩ := t.fresh i old ho
      have hat : At k (h.nn, i) old := ⟨hnn, ho⟩
      have hrec : k.edge old = .dang h.nn i := by
        rcases t.wf.good hat.inUse with ⟨m, a, hr⟩ | ⟨m, a, m', b, hr⟩
        · have := (at_dang t.wf hat.inUse hr).1 hat
          cases this
          exact hr
        · rw [hr] at f2; cases f2
      obtain ⟨k1, x, hx⟩ := attachDang (h := k) (c := h.nn) (i := i) (old := old)
        (by rw [t.wf.len _ hnn]; rfl) ho f2 (t.wf.lt hat.inUse).ne
      have t1 : Twin h k1 n := by
        refine ⟨x.wf_dang t.wf hat hrec, x.nn.trans t.nn, by rw [x.ne]; have := t.ne; omega, ?_, ?_,
          (x.tensor _).trans t.tensor, ?_⟩
        · intro m hm
          rw [← t.node m hm]
          have h1 : (k1.node m).edges = (k.node m).edges := by
            refine List.ext_getElem? fun j => ?_
            rw [x.slot, if_neg]
            intro hc
            simp only [List.mem_singleton, Prod.mk.injEq] at hc
            omega
          rcases hk1 : k1.node m with ⟨t1, e1⟩
          rcases hk : k.node m with ⟨t2, e2⟩
          have h2 := x.tensor m
          rw [hk1, hk] at h1 h2
          simp only at h1 h2
          rw [h1, h2]
        · intro f hf
          rw [x.old f (by have := t.ne; omega), t.edge f hf]
        · intro a f hf
          rw [x.slot] at hf
          split_ifs at hf with hc
          · cases hf
            exact ⟨t.ne, by rw [x.new]⟩
          · obtain ⟨g1, g2⟩ := t.fresh a f hf
            refine ⟨g1, ?_⟩
            rw [x.old f]
            · exact g2
            · exact (t.wf.lt (At.inUse (s := (h.nn, a)) ⟨hnn, hf⟩)).ne
      obtain ⟨k', h1, h2⟩ := ih (e :: vis) k1 hl' t1
      refine ⟨k', ?_, h2⟩
      rw [← h1]
      unfold copyLoop
      rw [if_neg hv]
      have hke : k.edge e = h.edge e := t.edge e hlt
      have hrest : (do
          let f ← newDangling h.nn i
          addEdge h.nn f i false
          copyLoop false h.nn l (e :: vis) : M R Unit) k = copyLoop false h.nn l (e :: vis) k1 :=
        hx fun _ => copyLoop false h.nn l (e :: vis)
      rcases w.good hu with ⟨m, a, hr⟩ | ⟨m, a, m', b, hr⟩
      · rw [← hke] at hr
        rw [M.bind_ok (node1_dang hr)]
        refine (M.bind_ok (node2_dang hr)).trans ?_
        rw [if_neg (by simp)]
        rw [hrest]
        cases l <;> rfl
      · have hmm : m ≠ m' := by
          rintro rfl
          have h3 := isTrace_nodup w hn hnd he
          rw [isTrace_conn hr] at h3
          simp at h3
        rw [← hke] at hr
        rw [M.bind_ok (node1_conn hr)]
        refine (M.bind_ok (node2_conn hr)).trans ?_
        rw [if_neg (by simpa using hmm)]
        rw [hrest]
        cases l <;> rfl

theorem nodeCopy_twin (cj : R → R) {h : Heap R} (w : WF h) {n : NId} (hn : n < h.nn)
    (hnd : (h.node n).edges.Nodup) :
    ∃ k, nodeCopy false cj false n h = (.ok h.nn, k) ∧ Twin h k n := by
  have t0 : Twin h (addNode h (h.node n).tensor) n := by
    refine ⟨addNode_wf w _, rfl, by simp [addNode], fun m hm => addNode_node_old hm,
      fun e he => addNode_edge_old he, by rw [addNode_node_new], ?_⟩
    intro a e he
    obtain ⟨h2, rfl⟩ := addNode_at_new.1 (show At (addNode h (h.node n).tensor) (h.nn, a) e from
      ⟨by simp [addNode], he⟩)
    exact ⟨by omega, by rw [addNode_edge_new h2]⟩
  obtain ⟨k, h1, h2⟩ := copyLoop_twin w hn hnd (h.node n).edges.zipIdx [] _
    (fun p hp => List.mem_zipIdx_iff_getElem?.1 hp) t0
  refine ⟨k, ?_, h2⟩
  unfold nodeCopy
  rw [M.bind_ok (nodeTensor_eq n), M.bind_ok (newNode_eq h _)]
  have hes : nodeEdges n (addNode h (h.node n).tensor) = (.ok (h.node n).edges, addNode h (h.node n).tensor) := by
    rw [nodeEdges_eq, addNode_node_old hn]
  have htail : (do let es ← nodeEdges n
                   copyLoop false h.nn es.zipIdx []
                   pure h.nn : M R NId) (addNode h (h.node n).tensor) = (.ok h.nn, k) :=
    (M.bind_ok hes).trans (M.bind_ok h1)
  exact htail

/-- The first `j` edges of `n` have moved to its copy `h.nn`. -/
structure Moved (h k : Heap R) (n : NId) (j : Nat) : Prop where
  wf : WF k
  nn : k.nn = h.nn + 1
  ne : h.ne ≤ k.ne
  node : ∀ m < h.nn, m ≠ n → k.node m = h.node m
  tensor : ∀ m < h.nn, (k.node m).tensor = (h.node m).tensor
  copy : (k.node h.nn).tensor = (h.node n).tensor
  edge : ∀ e < h.ne, e ∉ (h.node n).edges → k.edge e = h.edge e
  dangling : ∀ e < h.ne, (k.edge e).dangling = (h.edge e).dangling
  moved : ∀ a < j, (k.node h.nn).edges[a]? = (h.node n).edges[a]?
  left : ∀ a < j, ∀ e : EId, (k.node n).edges[a]? = some e → h.ne ≤ e
  todo : ∀ (a : Nat) (e : EId), j ≤ a → (k.node h.nn).edges[a]? = some e → h.ne ≤ e ∧ (k.edge e).dangling = true
  stay : ∀ a, j ≤ a → (k.node n).edges[a]? = (h.node n).edges[a]?

theorem redirect_loop {h : Heap R} (w : WF h) {n : NId} (hn : n < h.nn)
    (hnd : (h.node n).edges.Nodup) : ∀ (suf pre : List EId) (k : Heap R),
    (h.node n).edges = pre ++ suf → Moved h k n pre.length →
    ∃ k', M.forEach suf (fun e => redirectEdge e h.nn n) k = (.ok (), k') ∧
      Moved h k' n (h.node n).edges.length := by
  intro suf
  induction suf with
  | nil =>
    intro pre k hp m
    refine ⟨k, rfl, ?_⟩
    rw [hp, List.append_nil]
    exact m
  | cons e suf ih =>
    intro pre k hp m
    have hnn : h.nn < k.nn := by rw [m.nn]; omega
    have hnk : n < k.nn := by rw [m.nn]; omega
    have hje : (h.node n).edges[pre.length]? = some e := by rw [hp]; simp
    have he : e ∈ (h.node n).edges := by rw [hp]; simp
    have hlt : e < h.ne := w.lt (inUse_of_mem hn he)
    have hke : (k.node n).edges[pre.length]? = some e := by rw [m.stay _ le_rfl, hje]
    have hat : At k (n, pre.length) e := ⟨hnk, hke⟩
    have honly : ∀ a, (k.node n).edges[a]? = some e ↔ a = pre.length := by
      intro a
      constructor
      · intro ha
        by_cases hc : a < pre.length
        · have := m.left a hc e ha; omega
        · rw [m.stay a (by omega)] at ha
          obtain ⟨h1, h2⟩ := List.getElem?_eq_some_iff.1 ha
          obtain ⟨h3, h4⟩ := List.getElem?_eq_some_iff.1 hje
          exact (List.Nodup.getElem_inj_iff hnd).1 (h2.trans h4.symm)
      · rintro rfl; exact hke
    have hlen : (k.node h.nn).edges.length = (h.node n).edges.length := by
      rw [m.wf.len _ hnn, m.copy, w.len n hn]
    have hjl : pre.length < (k.node h.nn).edges.length := by
      rw [hlen]; exact (List.getElem?_eq_some_iff.1 hje).1
    obtain ⟨d, hd⟩ : ∃ d, (k.node h.nn).edges[pre.length]? = some d := ⟨_, List.getElem?_eq_getElem hjl⟩
    have hshape : k.shape h.nn = k.shape n := by
      simp only [Heap.shape, m.copy, m.tensor n hn]
    obtain ⟨k1, h1, r⟩ := redirect_ok m.wf hat.inUse (new := h.nn) (old := n) (by omega) hnn hnk
      ⟨_, hat⟩ (by
        intro a ha
        obtain rfl := (honly a).1 ha.2
        refine ⟨d, ⟨hnn, hd⟩, (m.todo _ d le_rfl hd).2, ?_⟩
        rw [m.wf.edim_eq hat]
        simp only [dimAt, hshape])
    have hnn1 : k1.nn = k.nn := r.nn
    have hslot : ∀ x, x < k.nn → ∀ a f, (k1.node x).edges[a]? = some f ↔
        if a = pre.length ∧ x = h.nn then f = e else if a = pre.length ∧ x = n then f = k.ne
        else (k.node x).edges[a]? = some f := by
      intro x hx a f
      have := r.slots x a f
      simp only [honly] at this
      unfold At at this
      simp only [hnn1, hx, true_and] at this
      exact this
    have m1 : Moved h k1 n (pre ++ [e]).length := by
      have hne := m.ne
      refine ⟨r.wf, r.nn.trans m.nn, by rw [r.ne]; omega, ?_, fun x hx => (r.tensor x).trans (m.tensor x hx),
        (r.tensor _).trans m.copy, ?_, ?_, ?_, ?_, ?_, ?_⟩
      · intro x hx hxn
        rw [← m.node x hx hxn]
        have h2 : (k1.node x).edges = (k.node x).edges := by
          refine List.ext_getElem? fun a => ?_
          refine Option.ext fun f => ?_
          rw [hslot x (by omega), if_neg (by omega), if_neg (by omega)]
        rcases hk1 : k1.node x with ⟨t1, e1⟩
        rcases hk : k.node x with ⟨t2, e2⟩
        have h3 := r.tensor x
        rw [hk1, hk] at h2 h3
        simp only at h2 h3
        rw [h2, h3]
      · intro f hf hfn
        rw [r.record f (by omega) (by rintro rfl; exact hfn he), m.edge f hf hfn]
      · intro f hf
        by_cases hfe : f = e
        · subst hfe
          rw [r.dangling, m.dangling f hf]
        · rw [r.record f (by omega) hfe, m.dangling f hf]
      · intro a ha
        simp only [List.length_append, List.length_singleton] at ha
        refine Option.ext fun f => ?_
        rw [hslot _ hnn]
        by_cases hc : a = pre.length
        · rw [if_pos ⟨hc, rfl⟩, hc, hje, Option.some.injEq, eq_comm]
        · rw [if_neg (by omega), if_neg (by omega), m.moved a (by omega)]
      · intro a ha f hf
        simp only [List.length_append, List.length_singleton] at ha
        rw [hslot _ hnk, if_neg (by omega)] at hf
        by_cases hc : a = pre.length
        · rw [if_pos ⟨hc, rfl⟩] at hf
          omega
        · rw [if_neg (by omega)] at hf
          exact m.left a (by omega) f hf
      · intro a f ha hf
        simp only [List.length_append, List.length_singleton] at ha
        rw [hslot _ hnn, if_neg (by omega), if_neg (by omega)] at hf
        obtain ⟨g1, g2⟩ := m.todo a f (by omega) hf
        refine ⟨g1, ?_⟩
        rw [r.record f (m.wf.lt (At.inUse (s := (h.nn, a)) ⟨hnn, hf⟩)) (by omega)]
        exact g2
      · intro a ha
        simp only [List.length_append, List.length_singleton] at ha
        refine Option.ext fun f => ?_
        rw [hslot _ hnk, if_neg (by omega), if_neg (by omega), m.stay a (by omega)]
    obtain ⟨k', h2, h3⟩ := ih (pre ++ [e]) k1 (by rw [hp]; simp) m1
    exact ⟨k', (M.forEach_cons _ _ _ _).trans ((M.bind_ok h1).trans h2), h3⟩

theorem Moved.edges_eq {h k : Heap R} (w : WF h) {n : NId} (hn : n < h.nn)
    (m : Moved h k n (h.node n).edges.length) : (k.node h.nn).edges = (h.node n).edges := by
  have hnn : h.nn < k.nn := by rw [m.nn]; omega
  refine List.ext_getElem? fun a => ?_
  by_cases ha : a < (h.node n).edges.length
  · exact m.moved a ha
  · have hlen : (k.node h.nn).edges.length = (h.node n).edges.length := by
      rw [m.wf.len _ hnn, m.copy, ← w.len n hn]
    rw [List.getElem?_eq_none (by omega), List.getElem?_eq_none (by omega)]

theorem Moved.reduced [CommSemiring R] {h k : Heap R} (w : WF h) {n : NId} (hn : n < h.nn)
    (m : Moved h k n (h.node n).edges.length) : Reduced h k [n] [h.nn] := by
  have hnn : h.nn < k.nn := by rw [m.nn]; omega
  have hed := m.edges_eq w hn
  have hnet : ∀ rest : List NId, ([n] ++ rest).Nodup → (∀ x ∈ rest, x < h.nn) →
      netOf k ([h.nn] ++ rest) = netOf h ([n] ++ rest) := by
    intro rest hnd hlt
    simp only [netOf, List.singleton_append, List.map_cons, hed, m.copy, List.cons.injEq, true_and]
    refine List.map_congr_left fun x hx => ?_
    rw [m.node x (hlt x hx) ?_]
    rintro rfl
    simp [hx] at hnd
  have hflat : flatL (netOf k [h.nn]) = flatL (netOf h [n]) := by
    have := hnet [] (by simp) (by simp)
    simpa using congrArg flatL this
  have hold : ∀ s e, At h s e → ∃ s', At k s' e ∧ dimAt k s' = dimAt h s := by
    rintro ⟨x, a⟩ e ⟨h1, h2⟩
    simp only at h1 h2
    by_cases hx : x = n
    · subst hx
      refine ⟨(h.nn, a), ⟨hnn, ?_⟩, ?_⟩
      · simp only [hed]; exact h2
      · simp only [dimAt, Heap.shape, m.copy]
    · refine ⟨(x, a), ⟨by simp only; omega, ?_⟩, ?_⟩
      · simp only [m.node x h1 hx]; exact h2
      · simp only [dimAt, Heap.shape, m.node x h1 hx]
  refine ⟨m.wf, by omega, m.ne, by simpa using hnn, by simp, ?_, ?_, ?_, ?_, ?_, ?_, ?_⟩
  · intro x hx
    rw [List.mem_singleton] at hx
    exact .inr hx.ge
  · intro x hx hxn
    exact m.node x hx (by simpa using hxn)
  · intro e he
    left
    obtain ⟨s, hs⟩ := he
    obtain ⟨s', h1, h2⟩ := hold s e hs
    refine ⟨h1.inUse, m.dangling e (w.lt hs.inUse), ?_, by rw [hflat]⟩
    rw [m.wf.edim_eq h1, w.edim_eq hs, h2]
  · intro e he
    rw [hflat] at he
    exact inUse_of_flat (by simpa using hn) he
  · intro e he hu
    exact m.edge e he fun hc => hu (inUse_of_mem hn hc)
  · rintro e he ⟨⟨x, a⟩, h1, h2⟩
    simp only at h1 h2
    by_cases hx : x = h.nn
    · subst hx
      rw [hed] at h2
      exact ⟨(n, a), hn, h2⟩
    · have hx' : x < h.nn := by rw [m.nn] at h1; omega
      by_cases hxn : x = n
      · subst hxn
        exfalso
        by_cases ha : a < (h.node x).edges.length
        · have := m.left a ha e h2
          omega
        · rw [m.stay a (by omega), List.getElem?_eq_none (by omega)] at h2
          cases h2
      · rw [m.node x hx' hxn] at h2
        exact ⟨(x, a), hx', h2⟩
  · intro rest hnd hlt σ _
    rw [hnet rest hnd hlt]

theorem contractPathSingle_ok [CommSemiring R] (cj : R → R) {h : Heap R} (w : WF h) {n : NId}
    (hn : n < h.nn) (hnd : (h.node n).edges.Nodup) {o : List EId} (ho : o.Nodup)
    (hop : ∀ e, e ∈ o ↔ OpenFor h [n] e) :
    ∃ h', contractPathSingle cj n o h = (.ok h.nn, h') ∧ Reduced h h' [n] [h.nn] ∧
      NoTrace h' [h.nn] ∧ (h'.node h.nn).edges = o := by
  obtain ⟨k, h1, t⟩ := nodeCopy_twin cj w hn hnd
  have m0 : Moved h k n ([] : List EId).length := by
    refine ⟨t.wf, t.nn, t.ne, fun x hx _ => t.node x hx, fun x hx => by rw [t.node x hx], t.tensor,
      fun e he _ => t.edge e he, fun e he => by rw [t.edge e he], by simp, by simp,
      fun a e _ => t.fresh a e, fun a _ => by rw [t.node n hn]⟩
  obtain ⟨k', h2, m⟩ := redirect_loop w hn hnd (h.node n).edges [] k rfl m0
  have r := m.reduced w hn
  have hnt : NoTrace k' [h.nn] := by
    intro x hx
    rw [List.mem_singleton] at hx
    subst hx
    rw [m.edges_eq w hn]
    exact hnd
  obtain ⟨h', q1, q2, q3, q4⟩ := reorder_final w (by simpa using hn) r hnt ho hop
  refine ⟨h', ?_, q2, q3, q4⟩
  unfold contractPathSingle
  rw [M.bind_ok h1, M.bind_ok (nodeEdges_eq n), t.node n hn, M.bind_ok h2, M.bind_ok q1]
  rfl

/-! ### The properties -/

/-- **C80.**  `contract_trace_edges(node)` returns a node without trace edges: the node itself
when it has none, otherwise a new node with the traces over all of them. -/
theorem C80_contract_trace_edges [CommSemiring R] (fo : FlatOrder) {h : Heap R} (g : GraphOK h)
    {n : NId} (hn : n < h.nn) :
    ∃ f h', contractTraceEdges fo n h = (.ok f, h') ∧ FullContraction h h' [n] f ∧
      ((h.node n).edges.Nodup → f = n ∧ h' = h) ∧ (¬ (h.node n).edges.Nodup → h.nn ≤ f) := by
  have w := graphOK_iff.1 g
  obtain ⟨f, h', h1, h2, h3, h4, h5⟩ := contractTraceEdges_ok fo w hn
  exact ⟨f, h', h1, h2.full w (by simp) (by simpa using hn) h3, h4, h5⟩

/-- **C80.**  `auto` contracts the nodes completely, in the given order of edges, for every number
of nodes and every answer of the path search.  Two conditions concern a single node only: its
edges must not lead to other nodes, and `ignore_edge_order` needs the order all the same. -/
theorem C80_auto_partial [CommSemiring R] (fo : FlatOrder) {h : Heap R} (g : GraphOK h)
    {nodes : List NId} (hne : nodes ≠ []) (hlt : ∀ n ∈ nodes, n < h.nn)
    {ie inn : List Nat → List Nat} (hie : ∀ l, (ie l).Perm l) (hinn : ∀ l, (inn l).Perm l)
    {search : Search → Heap R → List NId → List (Nat × Nat)}
    (hs : ∀ s k l, 2 ≤ l.length → PathOK l.length (search s k l)) {order : Option (List EId)}
    {ignore : Bool} (mem : Option Nat)
    (hone : ∀ n, nodes = [n] → (∀ e ∈ (h.node n).edges, (h.edge e).dangling = false →
      (h.node n).edges.count e = 2) ∧ (ignore = true → order ≠ none))
    (hord : ignore = false ∨ nodes.length = 1 → match (generalizing := false) order with
      | none => ∀ e e', OpenFor h nodes.dedup e → OpenFor h nodes.dedup e' → e = e'
      | some o => o.Nodup ∧ ∀ e, e ∈ o ↔ OpenFor h nodes.dedup e) :
    ∃ f h', auto fo ie inn search nodes order mem ignore h = (.ok f, h') ∧
      FullContraction h h' nodes.dedup f ∧
      (∀ o, ignore = false → order = some o → (h'.node f).edges = o) := by
  have w := graphOK_iff.1 g
  rcases nodes with _ | ⟨n, _ | ⟨n', ns⟩⟩
  · exact absurd rfl hne
  · obtain ⟨h1, h2⟩ := hone n rfl
    have hn := hlt n (by simp)
    have hd : [n].dedup = [n] := by simp
    rw [hd]
    have hord := hord (.inr rfl)
    rw [hd] at hord
    obtain ⟨f, h', q1, q2, q3, q4⟩ := autoSingle_ok fo w hn hie h1 (order := order) (ignore := ignore)
      (by
        cases order with
        | none =>
          refine ⟨?_, hord⟩
          by_contra hc
          exact h2 (by simpa using hc) rfl
        | some o => exact hord)
    exact ⟨f, h', q1, q2.full w (by simp) (by simpa using hn) q3, fun o _ ho => q4 o ho⟩
  · exact C10_full_contraction fo g hne hlt hie hinn (hs _) fun hi => hord (.inl hi)

/-- **C80**, the error of `auto` for no nodes. -/
theorem C80_auto_empty [CommSemiring R] (fo : FlatOrder) (ie inn : List Nat → List Nat)
    (search : Search → Heap R → List NId → List (Nat × Nat)) (order : Option (List EId))
    (mem : Option Nat) (ignore : Bool) (h : Heap R) :
    auto fo ie inn search [] order mem ignore h = (.error .valueError, h) := rfl

/-- **C80**, what fails: for a single node `ignore_edge_order=True` without an order always
raises `TypeError`, after the trace edges have been contracted. -/
theorem C80_auto_ignore_false [CommSemiring R] (fo : FlatOrder) {h : Heap R} (g : GraphOK h)
    {n : NId} (hn : n < h.nn) {ie inn : List Nat → List Nat} (hie : ∀ l, (ie l).Perm l)
    (search : Search → Heap R → List NId → List (Nat × Nat)) (mem : Option Nat)
    (htr : ∀ e ∈ (h.node n).edges, (h.edge e).dangling = false → (h.node n).edges.count e = 2) :
    ∃ f h', auto fo ie inn search [n] none mem true h = (.error .typeError, h') ∧
      FullContraction h h' [n] f := by
  have w := graphOK_iff.1 g
  obtain ⟨f, k, h1, h2, h3⟩ := autoSingle_first fo w hn hie htr
  refine ⟨f, k, ?_, h2.full w (by simp) (by simpa using hn) h3⟩
  simp only [auto]
  unfold autoSingle
  rw [M.bind_ok (show M.get h = (.ok h, h) from rfl)]
  refine (M.bind_ok (show (_ : M R (Option (List EId))) h = (.ok none, h) from rfl)).trans ?_
  refine (M.bind_ok h1).trans ?_
  rfl

/-- **C80.**  `contract_path` contracts nodes without trace edges completely, in the given order,
along every path whose steps name two different positions or one. -/
theorem C80_contract_path_partial [CommSemiring R] (fo : FlatOrder) {h : Heap R} (g : GraphOK h)
    {nodes : List NId} (hnd : nodes.Nodup) (hne : nodes ≠ []) (hlt : ∀ n ∈ nodes, n < h.nn)
    (htr : ∀ n ∈ nodes, (h.node n).edges.Nodup)
    {ie : List Nat → List Nat} (hie : ∀ l, (ie l).Perm l) (cj : R → R) {path : List (List Nat)}
    (hp : 2 ≤ nodes.length → StepsOK nodes.length path) {o : List EId} (ho : o.Nodup)
    (hop : ∀ e, e ∈ o ↔ OpenFor h nodes e) :
    ∃ f h', contractPath fo ie cj path nodes o h = (.ok (.inl f), h') ∧ FullContraction h h' nodes f ∧
      (h'.node f).edges = o ∧ (nodes.length = 1 → f = h.nn) := by
  have w := graphOK_iff.1 g
  have h0 : pathTraces fo (ie (allEdges h nodes)) h = (.ok (), h) := by
    refine pathTraces_none fo _ fun e he => ?_
    obtain ⟨n, h1, h2⟩ : ∃ n ∈ nodes, e ∈ (h.node n).edges := by
      simpa [allEdges] using (hie _).mem_iff.1 he
    refine ⟨?_, isTrace_nodup w (hlt n h1) (htr n h1) h2⟩
    rcases w.good (inUse_of_mem (hlt n h1) h2) with ⟨m, a, hr⟩ | ⟨m, a, m', b, hr⟩ <;> rw [hr]
  rcases nodes with _ | ⟨n, _ | ⟨n', ns⟩⟩
  · exact absurd rfl hne
  · have hn := hlt n (by simp)
    obtain ⟨h', q1, q2, q3, q4⟩ := contractPathSingle_ok cj w hn (htr n (by simp)) ho hop
    refine ⟨h.nn, h', ?_, q2.full w (by simp) (by simpa using hn) q3, q4, fun _ => rfl⟩
    unfold contractPath
    rw [M.bind_ok (show M.get h = (.ok h, h) from rfl)]
    refine (M.bind_ok h0).trans ?_
    exact M.bind_ok q1
  · have hp := hp (by simp)
    obtain ⟨f, k, q1, q2, q3⟩ := pathSteps_ok fo w path (n :: n' :: ns) h (.refl w hnd hlt) htr hp
    obtain ⟨h', s1, s2, s3, s4⟩ := reorder_final w hlt q2 q3 ho hop
    have hpath : path ≠ [] := by
      rintro rfl
      simp [StepsOK] at hp
    refine ⟨f, h', ?_, s2.full w hnd hlt s3, s4, by simp⟩
    · unfold contractPath
      rw [M.bind_ok (show M.get h = (.ok h, h) from rfl)]
      refine (M.bind_ok h0).trans ?_
      simp only [hpath, if_false]
      refine (M.bind_ok q1).trans ?_
      have : contractPathEnd fo [f] o k = (.ok f, h') := by
        simp only [contractPathEnd]
        refine (M.bind_ok (contractTraceEdges_nodup fo q2.wf (q2.lt f (by simp)) (q3 f (by simp)))).trans ?_
        exact M.bind_ok s1
      exact M.bind_ok this

/-- **C80.**  For at least nine nodes `path_solver("auto")` uses the search that `auto` uses,
up to the memory limit, which `auto` does not pass on below 15 nodes. -/
theorem C80_path_solver_partial {n : Nat} (hn : 9 ≤ n) (mem : Option Nat)
    (hm : mem = none ∨ 15 ≤ n) : solverSearch n mem = some (autoSearch n mem) := by
  unfold solverSearch autoSearch
  rcases hm with rfl | hm
  · split_ifs <;> first | rfl | omega
  · split_ifs <;> first | rfl | omega

/-- **C80**, what fails: for two to eight nodes it uses another one, the branch search that follows
a single candidate. -/
theorem C80_path_solver_false {n : Nat} (h2 : 2 ≤ n) (h8 : n < 9) (mem : Option Nat) :
    solverSearch n mem = some (.branch mem (some 1)) ∧
    autoSearch n mem ≠ .branch mem (some 1) := by
  unfold solverSearch autoSearch
  constructor
  · split_ifs <;> first | rfl | omega
  · split_ifs <;> first | omega | simp

/-- Two vectors joined by an edge. -/
def joinedVectors : Heap Nat := runOps [.node (ones [2]), .node (ones [2]), .connect 0 1] Heap.empty

theorem joinedVectors_ok : GraphOK joinedVectors :=
  (C07_history_partial [.node (ones [2]), .node (ones [2]), .connect 0 1] graphOK_empty
    ⟨trivial, trivial, ⟨⟨0, by decide, by decide⟩, ⟨1, by decide, by decide⟩⟩, trivial⟩).1

/-- **C80**, what fails: `auto([a])` for a node that is connected to another node `b` contracts `b`
too.  With the edge of `a` as the order it raises `ValueError`, though `a` has just this edge;
without an order it returns a scalar, and `b` is not connected any more.  `base`, which all the
other contractors use, leaves `b` alone. -/
theorem C80_auto_neighbour_false :
    ∃ (h : Heap Nat) (e : EId), GraphOK h ∧ (∀ x, x ∈ [e] ↔ OpenFor h [0] x) ∧
      (∀ fo : FlatOrder, ∃ f h', base fo id id firstTwo [0] (some [e]) false h = (.ok f, h') ∧
        FullContraction h h' [0] f ∧ (h'.node f).edges = [e]) ∧
      ∃ fo : FlatOrder,
        (auto fo id id (fun _ => firstTwo) [0] (some [e]) none false h).1 = .error .valueError ∧
        ∃ f, (auto fo id id (fun _ => firstTwo) [0] none none false h).1 = .ok f ∧
          ((auto fo id id (fun _ => firstTwo) [0] none none false h).2.node f).edges = [] ∧
          e ∈ (h.node 1).edges ∧
          e ∉ ((auto fo id id (fun _ => firstTwo) [0] none none false h).2.node 1).edges := by
  have hop : ∀ x, x ∈ [(2 : Nat)] ↔ OpenFor joinedVectors [0] x := by
    intro x
    have h1 : ([0] : List NId).flatMap (fun n => (joinedVectors.node n).edges) = [2] := by decide +kernel
    rw [OpenFor, h1]
    by_cases hx : x = 2 <;> simp [hx, eq_comm]
  refine ⟨joinedVectors, 2, joinedVectors_ok, hop, ?_, ⟨false, ⟨id, fun _ => .refl _⟩⟩, by decide +kernel,
    2, by decide +kernel, by decide +kernel, by decide +kernel, by decide +kernel⟩
  intro fo
  have hd : ([0] : List NId).dedup = [0] := by simp
  obtain ⟨f, h', h1, h2, h3⟩ := C10_full_contraction fo joinedVectors_ok (nodes := [0]) (by simp) (by decide)
    (ie := id) (inn := id) (fun _ => .refl _) (fun _ => .refl _) firstTwo_ok
    (order := some [2]) (ignore := false) (fun _ => ⟨by decide, by rw [hd]; exact hop⟩)
  rw [hd] at h2
  exact ⟨f, h', h1, h2, h3 [2] rfl rfl⟩

/-- A node with a trace edge, joined to a vector. -/
def tracedPair : Heap Nat :=
  runOps [.node (ones [2, 2, 3]), .node (ones [3]), .connect 0 1, .connect 2 3] Heap.empty

theorem tracedPair_ok : GraphOK tracedPair :=
  (C07_history_partial [.node (ones [2, 2, 3]), .node (ones [3]), .connect 0 1, .connect 2 3] graphOK_empty
    ⟨trivial, trivial, ⟨⟨0, by decide, by decide⟩, ⟨0, by decide, by decide⟩⟩,
      ⟨⟨0, by decide, by decide⟩, ⟨1, by decide, by decide⟩⟩, trivial⟩).1

/-- **C80**, what fails: with a trace edge `contract_path` raises `ValueError` after it has changed
the network.  It contracts the trace edge to a new node, drops this node, and goes on with the old
one, whose edges are fresh.  `base` returns the value of the same network. -/
theorem C80_contract_path_trace_false :
    ∃ h : Heap Nat, GraphOK h ∧ (∀ e, ¬ OpenFor h [0, 1] e) ∧
      (∀ fo : FlatOrder, ∃ f h', base fo id id firstTwo [0, 1] none false h = (.ok f, h') ∧
        FullContraction h h' [0, 1] f) ∧
      ∃ fo : FlatOrder, (contractPath fo id id [[0, 1]] [0, 1] [] h).1 = .error .valueError ∧
        ((contractPath fo id id [[0, 1]] [0, 1] [] h).2.node 1).edges ≠ (h.node 1).edges := by
  have hop : ∀ e, ¬ OpenFor tracedPair [0, 1] e := by
    intro e
    have h1 : ([0, 1] : List NId).flatMap (fun n => (tracedPair.node n).edges) = [4, 4, 5, 5] := by
      decide +kernel
    rw [OpenFor, h1]
    by_cases h4 : e = 4
    · subst h4; decide
    · by_cases h5 : e = 5
      · subst h5; decide
      · simp [Ne.symm h4, Ne.symm h5]
  refine ⟨tracedPair, tracedPair_ok, hop, ?_, ⟨false, ⟨id, fun _ => .refl _⟩⟩, by decide +kernel,
    by decide +kernel⟩
  intro fo
  have hd : ([0, 1] : List NId).dedup = [0, 1] := by decide
  obtain ⟨f, h', h1, h2, _⟩ := C10_full_contraction fo tracedPair_ok (nodes := [0, 1]) (by simp) (by decide)
    (ie := id) (inn := id) (fun _ => .refl _) (fun _ => .refl _) firstTwo_ok (order := none) (ignore := false)
    (fun _ e e' he => by rw [hd] at he; exact absurd he (hop e))
  rw [hd] at h2
  exact ⟨f, h', h1, h2⟩

/-! ### Concrete cases -/

/-- The last node of the triangle has a trace edge. -/
example (fo : FlatOrder) := C80_contract_trace_edges fo triangle_ok (n := 2) (by decide)

example (fo : FlatOrder) := C80_auto_partial fo triangle_ok (nodes := [1, 2, 0]) (by simp)
  (by decide) (ie := List.reverse) (inn := id) List.reverse_perm (fun _ => .refl _)
  (search := fun _ => firstTwo) (fun _ => firstTwo_ok) (order := some [5, 10, 2]) (ignore := false)
  (some 100) (by simp) (fun _ => ⟨by decide, triangle_open⟩)

/-- A matrix with a third axis whose first two axes are joined. -/
def tracedNode : Heap Nat := runOps [.node (ones [2, 2, 3]), .connect 0 1] Heap.empty

theorem tracedNode_ok : GraphOK tracedNode :=
  (C07_history_partial [.node (ones [2, 2, 3]), .connect 0 1] graphOK_empty
    ⟨trivial, ⟨⟨0, by decide, by decide⟩, ⟨0, by decide, by decide⟩⟩, trivial⟩).1

theorem tracedNode_edges : (tracedNode.node 0).edges = [3, 3, 2] := by decide +kernel

theorem tracedNode_open (e : EId) : e ∈ [2] ↔ OpenFor tracedNode [0] e := by
  have h1 : ([0] : List NId).flatMap (fun n => (tracedNode.node n).edges) = [3, 3, 2] := by decide +kernel
  rw [OpenFor, h1]
  by_cases h2 : e = 2
  · subst h2; decide
  · by_cases h3 : e = 3
    · subst h3; decide
    · simp [h2, Ne.symm h2, Ne.symm h3]

theorem tracedNode_traces : ∀ e ∈ (tracedNode.node 0).edges, (tracedNode.edge e).dangling = false →
    (tracedNode.node 0).edges.count e = 2 := by
  rw [tracedNode_edges]
  decide +kernel

example (fo : FlatOrder) := C80_auto_partial fo tracedNode_ok (nodes := [0]) (by simp)
  (by decide) (ie := List.reverse) (inn := id) List.reverse_perm (fun _ => .refl _)
  (search := fun _ => firstTwo) (fun _ => firstTwo_ok) (order := none) (ignore := false) none
  (by rintro n ⟨⟩; exact ⟨tracedNode_traces, by simp⟩)
  (fun _ e e' h1 h2 => by
    have h1 := (tracedNode_open e).2 (by simpa using h1)
    have h2 := (tracedNode_open e').2 (by simpa using h2)
    simp only [List.mem_singleton] at h1 h2
    rw [h1, h2])

example (fo : FlatOrder) := C80_auto_ignore_false fo tracedNode_ok (n := 0) (by decide)
  (ie := List.reverse) (inn := id) List.reverse_perm (fun _ => firstTwo) none tracedNode_traces

/-- The first two nodes of the triangle, with the third as a neighbour; the path names one position
first. -/
example (fo : FlatOrder) := C80_contract_path_partial fo triangle_ok (nodes := [0, 1]) (by decide) (by simp)
  (by decide) (by decide +kernel) (ie := List.reverse) List.reverse_perm id (path := [[0], [1, 0]])
  (fun _ => ⟨by decide, by decide, by decide, by decide, rfl⟩) (o := [5, 12, 13, 2]) (by decide) (by
    intro e
    have h1 : ([0, 1] : List NId).flatMap (fun n => (triangle.node n).edges) = [13, 11, 2, 11, 12, 5] := by
      decide +kernel
    rw [OpenFor, h1]
    constructor
    · intro h
      simp only [List.mem_cons, List.not_mem_nil, or_false] at h
      rcases h with rfl | rfl | rfl | rfl <;> decide
    · intro h
      have : e ∈ [13, 11, 2, 11, 12, 5] := List.count_pos_iff.1 (by omega)
      simp only [List.mem_cons, List.not_mem_nil, or_false] at this
      revert h
      rcases this with rfl | rfl | rfl | rfl | rfl | rfl <;> decide)

/-- One node of two joined vectors. -/
example (fo : FlatOrder) := C80_contract_path_partial fo joinedVectors_ok (nodes := [0]) (by decide) (by simp)
  (by decide) (by decide +kernel) (ie := id) (fun _ => .refl _) id (path := []) (by simp) (o := [2])
  (by decide) (by
    intro x
    have h1 : ([0] : List NId).flatMap (fun n => (joinedVectors.node n).edges) = [2] := by decide +kernel
    rw [OpenFor, h1]
    by_cases hx : x = 2 <;> simp [hx, eq_comm])

example := C80_path_solver_false (n := 4) (by decide) (by decide) (some 7)
example := C80_path_solver_partial (n := 12) (by decide) none (.inl rfl)

end TN.Graph
