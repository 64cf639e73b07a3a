import Verif.GraphHistory

/-!
# Contraction along a path

Model of `base` (contractors/opt_einsum_paths/path_contractors.py:36-95) and of `multi_remove`,
`get_path` (contractors/opt_einsum_paths/utils.py), `get_all_edges`, `get_subgraph_dangling`
(network_operations.py:709-734).

The path search is a parameter (any function from the graph and the list of nodes to a list of
pairs).  The iteration order of the Python sets is given by `ie` for edges and `inn` for nodes.
-/

namespace TN.Graph

open TN

set_option linter.unusedSectionVars false

variable {R : Type}

/-- `multi_remove(elems, indices)` (contractors/opt_einsum_paths/utils.py:27-29). -/
def multiRemove {α : Type} (elems : List α) (indices : List Nat) : List α :=
  (elems.zipIdx.filter (fun p => p.2 ∉ indices)).map Prod.fst

/-- `get_all_edges(nodes)` (network_operations.py:709-714) as a duplicate free list. -/
def allEdges (h : Heap R) (nodes : List NId) : List EId :=
  (nodes.flatMap (fun n => (h.node n).edges)).dedup

/-- `get_subgraph_dangling(nodes)` (network_operations.py:717-734). -/
def subgraphDangling (h : Heap R) (nodes : List NId) : List EId :=
  (allEdges h nodes).filter (fun e => (h.edge e).dangling ∨
    ¬ ((∀ n, (h.edge e).node1 = some n → n ∈ nodes) ∧
       (∀ n, (h.edge e).node2 = some n → n ∈ nodes)))

/-- The first loop of `base` (path_contractors.py:71-75): every trace edge that is not yet
disabled is contracted with its parallel edges. -/
def tracePhase [CommSemiring R] (fo : FlatOrder) : List EId → List NId → M R (List NId)
  | [], ns => pure ns
  | e :: es, ns => do
    let h ← M.get
    if (h.edge e).disabled then tracePhase fo es ns
    else do
      let tr ← isTrace e
      if tr then do
        let n ← node1 e
        if n ∉ ns then M.throw .keyError
        else do
          let new ← contractParallel fo e
          tracePhase fo es (ns.erase n ++ [new])
      else tracePhase fo es ns

/-- The second loop of `base` (path_contractors.py:84-88). -/
def pathPhase [CommSemiring R] (fo : FlatOrder) : List (Nat × Nat) → List NId → M R (List NId)
  | [], ns => pure ns
  | (a, b) :: p, ns =>
    match ns[a]?, ns[b]? with
    | some x, some y => do
      let new ← contractBetween fo x y true none
      pathPhase fo p (multiRemove (ns ++ [new]) [a, b])
    | _, _ => M.throw .indexError

/-- `base` (path_contractors.py:36-95). -/
def base [CommSemiring R] (fo : FlatOrder) (ie inn : List Nat → List Nat)
    (alg : Heap R → List NId → List (Nat × Nat)) (nodes : List NId) (order : Option (List EId))
    (ignore : Bool) : M R NId := do
  let h0 ← M.get
  let ns := nodes.dedup
  let edges := ie (allEdges h0 ns)
  let dang := subgraphDangling h0 ns
  let order' ← (if ignore then pure (order.getD [])
    else match order with
      | none => if (ie dang).length > 1 then M.throw .valueError else pure (ie dang)
      | some o => if (∃ e ∈ o, e ∉ dang) ∨ (∃ e ∈ dang, e ∉ o) then M.throw .valueError
        else pure o)
  let ns ← tracePhase fo edges ns
  match inn ns with
  | [n] => do
    if ignore then pure () else reorderEdges n order'
    pure n
  | l => do
    let h ← M.get
    let l' ← pathPhase fo (alg h l) l
    match l' with
    | [] => M.throw .indexError
    | f :: _ => do
      if ignore then pure () else reorderEdges f order'
      pure f

/-! ### Lists -/

theorem multiRemove_nil {α : Type} (l : List α) : multiRemove l [] = l := by
  simp [multiRemove]

theorem multiRemove_append_left {α : Type} (l : List α) (x : α) {idx : List Nat}
    (hi : ∀ i ∈ idx, i < l.length) : multiRemove (l ++ [x]) idx = multiRemove l idx ++ [x] := by
  unfold multiRemove
  rw [List.zipIdx_append, List.filter_append, List.map_append]
  congr 1
  have : l.length ∉ idx := fun hc => Nat.lt_irrefl _ (hi _ hc)
  simp [this]

/-- Removing two different positions. -/
theorem multiRemove_perm {α : Type} {l : List α} {a b : Nat} {x y : α} (ha : l[a]? = some x)
    (hb : l[b]? = some y) (hab : a ≠ b) : l.Perm (x :: y :: multiRemove l [a, b]) := by
  have hz : l = l.zipIdx.map Prod.fst := by simp
  have hmem : ∀ i z, l[i]? = some z → (z, i) ∈ l.zipIdx := by
    intro i z hi
    rw [List.mem_zipIdx_iff_getElem?]
    exact hi
  have hnd : l.zipIdx.Nodup := by
    refine List.Nodup.of_map Prod.snd ?_
    rw [List.zipIdx_map_snd]
    exact List.nodup_range'
  have hp : l.zipIdx.Perm ((x, a) :: (y, b) :: l.zipIdx.filter (fun p => p.2 ∉ [a, b])) := by
    rw [List.perm_ext_iff_of_nodup hnd]
    · rintro ⟨z, i⟩
      simp only [List.mem_cons, List.mem_filter, Prod.mk.injEq, List.not_mem_nil, or_false,
        decide_eq_true_eq, not_or]
      constructor
      · intro hm
        have hi := List.mem_zipIdx_iff_getElem?.1 hm
        simp only at hi
        by_cases h1 : i = a
        · subst h1; rw [ha] at hi; exact .inl ⟨(Option.some.inj hi).symm, rfl⟩
        · by_cases h2 : i = b
          · subst h2; rw [hb] at hi; exact .inr (.inl ⟨(Option.some.inj hi).symm, rfl⟩)
          · exact .inr (.inr ⟨hm, h1, h2⟩)
      · rintro (⟨rfl, rfl⟩ | ⟨rfl, rfl⟩ | ⟨hm, _⟩)
        · exact hmem _ _ ha
        · exact hmem _ _ hb
        · exact hm
    · rw [List.nodup_cons, List.nodup_cons]
      refine ⟨?_, ?_, hnd.filter _⟩
      · simp [hab]
      · simp
  have := hp.map Prod.fst
  rw [← hz] at this
  simpa [multiRemove] using this

/-! ### Reducing a network -/

/-- The nodes `N` have been contracted to the nodes `N'`. -/
structure Reduced [CommSemiring R] (h h' : Heap R) (N N' : List NId) : Prop where
  wf : WF h'
  nn : h.nn ≤ h'.nn
  ne : h.ne ≤ h'.ne
  lt : ∀ n ∈ N', n < h'.nn
  nodup : N'.Nodup
  sub : ∀ n ∈ N', n ∈ N ∨ h.nn ≤ n
  other : ∀ n < h.nn, n ∉ N → h'.node n = h.node n
  /-- an edge stays, or had both ends in `N` and is gone -/
  edges : ∀ e, InUse h e → (InUse h' e ∧ (h'.edge e).dangling = (h.edge e).dangling ∧
      edim h' e = edim h e ∧ (flatL (netOf h' N')).count e = (flatL (netOf h N)).count e) ∨
    (¬ InUse h' e ∧ (h'.edge e).disabled = true ∧ (flatL (netOf h N)).count e = 2)
  new : ∀ e ∈ flatL (netOf h' N'), InUse h e
  dead : ∀ e < h.ne, ¬ InUse h e → h'.edge e = h.edge e
  use : ∀ e < h.ne, InUse h' e → InUse h e
  value : ∀ rest : List NId, (N ++ rest).Nodup → (∀ n ∈ rest, n < h.nn) → ∀ σ : EId → Nat,
    InRange h (N ++ rest) σ →
    netVal (netOf h' (N' ++ rest)) σ = netVal (netOf h (N ++ rest)) σ

theorem Reduced.refl [CommSemiring R] {h : Heap R} (w : WF h) {N : List NId} (hN : N.Nodup)
    (hlt : ∀ n ∈ N, n < h.nn) : Reduced h h N N :=
  ⟨w, le_rfl, le_rfl, hlt, hN, fun _ hn => .inl hn, fun _ _ _ => rfl,
    fun _ he => .inl ⟨he, rfl, rfl, rfl⟩, fun _ he => inUse_of_flat hlt he,
    fun _ _ _ => rfl, fun _ _ hu => hu, fun _ _ _ _ _ => rfl⟩

theorem flatL_append_netOf (h : Heap R) (A B : List NId) :
    flatL (netOf h (A ++ B)) = flatL (netOf h A) ++ flatL (netOf h B) := by
  simp [flatL, netOf]

theorem Reduced.inRange [CommSemiring R] {h h' : Heap R} {N N' : List NId}
    (r : Reduced h h' N N') {rest : List NId} (hnd : (N ++ rest).Nodup)
    (hrest : ∀ n ∈ rest, n < h.nn) {σ : EId → Nat}
    (hσ : InRange h (N ++ rest) σ) : InRange h' (N' ++ rest) σ := by
  have hsame : netOf h' rest = netOf h rest := by
    unfold netOf
    refine List.map_congr_left fun n hn => ?_
    rw [r.other n (hrest n hn) fun hc => (List.nodup_append.1 hnd).2.2 n hc n hn rfl]
  intro e he hc
  rw [flatL_append_netOf, hsame] at he hc
  have hu : InUse h e := by
    rcases List.mem_append.1 he with h1 | h1
    · exact r.new e h1
    · exact inUse_of_flat hrest h1
  have hu' : InUse h' e := by
    rcases List.mem_append.1 he with h1 | h1
    · exact inUse_of_flat r.lt h1
    · rw [← hsame] at h1
      exact inUse_of_flat (fun n hn => lt_of_lt_of_le (hrest n hn) r.nn) h1
  rcases r.edges e hu with ⟨_, _, h3, h4⟩ | ⟨h1, _⟩
  · rw [h3]
    rw [List.count_append, h4, ← List.count_append, ← flatL_append_netOf] at hc
    refine hσ e ?_ hc
    rw [flatL_append_netOf, ← List.count_pos_iff, List.count_append, ← h4, ← List.count_append,
      List.count_pos_iff]
    exact he
  · exact absurd hu' h1

theorem Reduced.trans [CommSemiring R] {h h' h'' : Heap R} {N N' N'' : List NId}
    (r : Reduced h h' N N') (s : Reduced h' h'' N' N'') (w : WF h) :
    Reduced h h'' N N'' where
  wf := s.wf
  nn := r.nn.trans s.nn
  ne := r.ne.trans s.ne
  lt := s.lt
  nodup := s.nodup
  sub n hn := by
    rcases s.sub n hn with h1 | h1
    · exact r.sub n h1
    · exact .inr (r.nn.trans h1)
  other n hn hN := by
    rw [s.other n (lt_of_lt_of_le hn r.nn) (fun hc => ?_), r.other n hn hN]
    rcases r.sub n hc with h1 | h1
    · exact hN h1
    · omega
  edges e he := by
    rcases r.edges e he with ⟨h1, h2, h3, h4⟩ | ⟨h1, h2, h3⟩
    · rcases s.edges e h1 with ⟨k1, k2, k3, k4⟩ | ⟨k1, k2, k3⟩
      · exact .inl ⟨k1, k2.trans h2, k3.trans h3, k4.trans h4⟩
      · exact .inr ⟨k1, k2, h4 ▸ k3⟩
    · have hlt := lt_of_lt_of_le (w.lt he) r.ne
      exact .inr ⟨fun hc => h1 (s.use e hlt hc), by rw [s.dead e hlt h1, h2], h3⟩
  new e he := by
    rcases s.edges e (s.new e he) with ⟨_, _, _, h4⟩ | ⟨h1, _⟩
    · refine r.new e ?_
      rw [← List.count_pos_iff, ← h4, List.count_pos_iff]
      exact he
    · exact absurd (inUse_of_flat s.lt he) h1
  dead e hlt hu := by
    rw [s.dead e (lt_of_lt_of_le hlt r.ne) (fun hc => hu (r.use e hlt hc)), r.dead e hlt hu]
  use e hlt hu := r.use e hlt (s.use e (lt_of_lt_of_le hlt r.ne) hu)
  value rest hnd hrest σ hσ := by
    rw [← r.value rest hnd hrest σ hσ]
    refine s.value rest ?_ (fun n hn => lt_of_lt_of_le (hrest n hn) r.nn) σ
      (r.inRange hnd hrest hσ)
    rw [List.nodup_append]
    refine ⟨r.nodup, (List.nodup_append.1 hnd).2.1, ?_⟩
    rintro a ha b hb rfl
    rcases r.sub a ha with h1 | h1
    · exact (List.nodup_append.1 hnd).2.2 a h1 a hb rfl
    · have := hrest a hb; omega

/-- One contraction inside a list of nodes. -/
theorem Contracted.reduced [CommSemiring R] {h h' : Heap R} (w : WF h) {Nc T N N' : List NId}
    {new : NId} {S es : List EId} (c : Contracted h h' Nc new S es) (hN : N.Nodup)
    (hlt : ∀ n ∈ N, n < h.nn) (hp : N.Perm (Nc ++ T)) (hp' : N'.Perm (new :: T))
    (hS : ∀ e ∈ S, (flatL (netOf h Nc)).count e = 2) : Reduced h h' N N' := by
  have hnd : (Nc ++ T).Nodup := hp.nodup_iff.1 hN
  have hT : ∀ n ∈ T, n < h.nn := fun n hn => hlt n (hp.mem_iff.2 (by simp [hn]))
  have hNc : ∀ n ∈ Nc, n < h.nn := fun n hn => hlt n (hp.mem_iff.2 (by simp [hn]))
  have hTN : ∀ n ∈ T, n ∉ Nc := fun n hn hc => (List.nodup_append.1 hnd).2.2 n hc n hn rfl
  have hsame : netOf h' T = netOf h T := by
    unfold netOf
    refine List.map_congr_left fun n hn => ?_
    rw [c.other n (hT n hn) (hTN n hn)]
  have hnew := c.new_eq
  have hnn := c.nn
  have hlt' : ∀ n ∈ new :: T, n < h'.nn := by
    intro n hn
    rcases List.mem_cons.1 hn with rfl | hn
    · omega
    · have := hT n hn; omega
  have hcount' : ∀ e, (flatL (netOf h' N')).count e =
      (if e ∈ S then 0 else (flatL (netOf h Nc)).count e) + (flatL (netOf h T)).count e := by
    intro e
    rw [(flatL_perm (netOf_perm h' hp')).count_eq, show new :: T = [new] ++ T from rfl,
      flatL_append_netOf, hsame, List.count_append]
    congr 1
    have e1 : flatL (netOf h' [new]) = es := by simp [flatL, netOf, c.edges]
    have e2 : flatL (netOf h Nc) = Nc.flatMap (fun n => (h.node n).edges) := by
      simp [flatL, netOf, List.flatMap_map]
    rw [e1, c.perm.count_eq, e2]
    split_ifs with hm
    · rw [List.count_eq_zero]
      intro hc
      simpa [hm] using (List.mem_filter.1 hc).2
    · rw [List.count_filter (by simpa using hm)]
  have hcount : ∀ e, (flatL (netOf h N)).count e =
      (flatL (netOf h Nc)).count e + (flatL (netOf h T)).count e := by
    intro e
    rw [(flatL_perm (netOf_perm h hp)).count_eq, flatL_append_netOf, List.count_append]
  have hle : ∀ e, InUse h e → (flatL (netOf h N)).count e ≤ 2 := by
    intro e hu
    rw [w.count_flat hu hN hlt]
    refine (Multiset.countP_le_card _ _).trans ?_
    rw [(w.good hu).card]
    split_ifs <;> omega
  refine ⟨c.wf, by omega, c.ne, fun n hn => hlt' n (hp'.mem_iff.1 hn), ?_, ?_, ?_, ?_, ?_, c.dead,
    c.use, ?_⟩
  · rw [hp'.nodup_iff, List.nodup_cons]
    refine ⟨fun hc => ?_, (List.nodup_append.1 hnd).2.1⟩
    have := hT _ hc
    omega
  · intro n hn
    rcases List.mem_cons.1 (hp'.mem_iff.1 hn) with rfl | hn
    · exact .inr (by omega)
    · exact .inl (hp.mem_iff.2 (by simp [hn]))
  · intro n hn hN'
    exact c.other n hn fun hc => hN' (hp.mem_iff.2 (by simp [hc]))
  · intro e hu
    by_cases hm : e ∈ S
    · refine .inr ⟨(c.disabled e hm).2, (c.disabled e hm).1, ?_⟩
      have h1 := hle e hu
      rw [hcount, hS e hm] at h1 ⊢
      omega
    · obtain ⟨h1, h2, h3⟩ := c.rest e hu hm
      refine .inl ⟨h1, h2, h3, ?_⟩
      rw [hcount', hcount, if_neg hm]
  · intro e he
    have h1 := List.count_pos_iff.2 he
    rw [hcount'] at h1
    refine inUse_of_flat hlt ?_
    rw [← List.count_pos_iff, hcount]
    split_ifs at h1 <;> omega
  · intro rest hr hrl σ hσ
    have hpr : (N ++ rest).Perm (Nc ++ (T ++ rest)) := by
      rw [← List.append_assoc]; exact hp.append_right rest
    have hpr' : (N' ++ rest).Perm (new :: (T ++ rest)) := hp'.append_right rest
    have hTr : ∀ n ∈ T ++ rest, n < h.nn := by
      intro n hn
      rcases List.mem_append.1 hn with h1 | h1
      exacts [hT n h1, hrl n h1]
    have hall : ∀ n ∈ N ++ rest, n < h.nn := by
      intro n hn
      rcases List.mem_append.1 hn with h1 | h1
      exacts [hlt n h1, hrl n h1]
    have hall' : ∀ n ∈ N' ++ rest, n < h'.nn := by
      intro n hn
      rcases List.mem_append.1 hn with h1 | h1
      · exact hlt' n (hp'.mem_iff.1 h1)
      · have := hrl n h1; omega
    rw [netVal_perm (netOf_perm h' hpr') (c.wf.consistent hall') σ,
      netVal_perm (netOf_perm h hpr) (w.consistent hall) σ]
    refine c.value (T ++ rest) (hpr.nodup_iff.1 hr) hTr σ ?_
    intro e he h4
    have p3 := flatL_perm (netOf_perm h hpr)
    exact hσ e (p3.mem_iff.2 he) (by rw [p3.count_eq]; exact h4)

theorem WF.between_count {h : Heap R} (w : WF h) {n1 n2 : NId} (hn1 : n1 < h.nn) (hn2 : n2 < h.nn)
    {e : EId} (hu : InUse h e) (hb : Between h n1 n2 e) :
    (flatL (netOf h [n1, n2].dedup)).count e = 2 := by
  rw [w.count_flat hu (List.nodup_dedup _) (by
    intro n hn
    rw [List.mem_dedup] at hn
    simp only [List.mem_cons, List.not_mem_nil, or_false] at hn
    rcases hn with rfl | rfl <;> assumption)]
  obtain ⟨a, b, h1⟩ := hb.ends
  rw [h1, Multiset.countP_eq_card.2 ?_]
  · rfl
  · intro s hs
    simp only [Multiset.insert_eq_cons, Multiset.mem_cons, Multiset.mem_singleton] at hs
    rw [List.mem_dedup]
    rcases hs with rfl | rfl <;> simp

theorem WF.count_le {h : Heap R} (w : WF h) {n : NId} (hn : n < h.nn) (e : EId) :
    (h.node n).edges.count e ≤ 2 := by
  by_cases hu : InUse h e
  · rw [w.count hu hn]
    refine (Multiset.countP_le_card _ _).trans ?_
    rw [(w.good hu).card]
    split_ifs <;> omega
  · have : e ∉ (h.node n).edges := fun hc => hu (inUse_of_mem hn hc)
    simp [List.count_eq_zero.2 this]

/-- An edge listed by two different nodes connects them. -/
theorem WF.between_of_mem {h : Heap R} (w : WF h) {n m : NId} (hn : n < h.nn) (hm : m < h.nn)
    (hnm : n ≠ m) {e : EId} (h1 : e ∈ (h.node n).edges) (h2 : e ∈ (h.node m).edges) :
    Between h n m e := by
  have hu := inUse_of_mem hn h1
  have a1 := at_of_mem hn h1
  have a2 := at_of_mem hm h2
  rcases w.good hu with ⟨k, a, hr⟩ | ⟨k, a, l, b, hr⟩
  · rw [at_dang w hu hr] at a1 a2
    exact absurd ((congrArg Prod.fst a1).trans (congrArg Prod.fst a2).symm) hnm
  · rw [at_conn w hu hr] at a1 a2
    rcases a1 with a1 | a1 <;> rcases a2 with a2 | a2
    · exact absurd ((congrArg Prod.fst a1).trans (congrArg Prod.fst a2).symm) hnm
    · obtain rfl := congrArg Prod.fst a1
      obtain rfl := congrArg Prod.fst a2
      exact ⟨_, _, .inl hr⟩
    · obtain rfl := congrArg Prod.fst a1
      obtain rfl := congrArg Prod.fst a2
      exact ⟨_, _, .inr hr⟩
    · exact absurd ((congrArg Prod.fst a1).trans (congrArg Prod.fst a2).symm) hnm

/-- No node of `ns` has a trace edge. -/
def NoTrace (h : Heap R) (ns : List NId) : Prop := ∀ n ∈ ns, (h.node n).edges.Nodup

theorem isTrace_conn {h : Heap R} {e : EId} {n a m b : Nat} (hr : h.edge e = .conn n a m b) :
    isTrace e h = (.ok (decide (n = m)), h) := by
  unfold isTrace
  rw [M.bind_ok (node1_conn hr)]
  refine (M.bind_ok (node2_conn hr)).trans ?_
  simp [Pure.pure, M.pure]

theorem isTrace_dang {h : Heap R} {e : EId} {n a : Nat} (hr : h.edge e = .dang n a) :
    isTrace e h = (.ok false, h) := by
  unfold isTrace
  rw [M.bind_ok (node1_dang hr)]
  refine (M.bind_ok (node2_dang hr)).trans ?_
  simp [Pure.pure, M.pure]

theorem tracePhase_ok [CommSemiring R] (fo : FlatOrder) {h : Heap R} (w : WF h) {N : List NId} :
    ∀ (todo : List EId) (ns : List NId) (k : Heap R), Reduced h k N ns →
    (∀ e ∈ todo, e ∈ flatL (netOf h N)) → (∀ n ∈ N, n < h.nn) →
    (∀ n ∈ ns, ∀ e, (k.node n).edges.count e = 2 → e ∈ todo) →
    ∃ ns' k', tracePhase fo todo ns k = (.ok ns', k') ∧ Reduced h k' N ns' ∧ NoTrace k' ns' ∧
      ns'.length = ns.length := by
  intro todo
  induction todo with
  | nil =>
    intro ns k r _ _ ht
    refine ⟨ns, k, rfl, r, ?_, rfl⟩
    intro n hn
    rw [List.nodup_iff_count_le_one]
    intro e
    have h1 := r.wf.count_le (r.lt n hn) e
    have h2 := ht n hn e
    by_contra hc
    simpa using h2 (by omega)
  | cons e todo ih =>
    intro ns k r he hlt ht
    have hu : InUse h e := inUse_of_flat hlt (he e (by simp))
    have he' : ∀ e ∈ todo, e ∈ flatL (netOf h N) := fun x hx => he x (by simp [hx])
    rcases r.edges e hu with ⟨h1, h2, h3, h4⟩ | ⟨h1, h2, h3⟩
    · have hg : (k.edge e).disabled = false := by
        rcases r.wf.good h1 with ⟨n, a, hr⟩ | ⟨n, a, m, b, hr⟩ <;> rw [hr]
      have skip : isTrace e k = (.ok false, k) →
          tracePhase fo (e :: todo) ns k = tracePhase fo todo ns k := by
        intro hi
        conv_lhs => unfold tracePhase
        rw [M.bind_ok (show M.get k = (.ok k, k) from rfl)]
        simp only [hg, Bool.false_eq_true, if_false]
        refine (M.bind_ok hi).trans ?_
        simp
      have hskip : (∀ n ∈ ns, ¬ Between k n n e) → isTrace e k = (.ok false, k) →
          ∃ ns' k', tracePhase fo (e :: todo) ns k = (.ok ns', k') ∧ Reduced h k' N ns' ∧
            NoTrace k' ns' ∧ ns'.length = ns.length := by
        intro hb hi
        rw [skip hi]
        refine ih ns k r he' hlt ?_
        intro n hn x hx
        rcases List.mem_cons.1 (ht n hn x hx) with rfl | h5
        · exact absurd ((r.wf.between_self_iff (r.lt n hn) h1).2 hx) (hb n hn)
        · exact h5
      rcases r.wf.good h1 with ⟨n, a, hr⟩ | ⟨n, a, m, b, hr⟩
      · refine hskip ?_ (isTrace_dang hr)
        rintro x _ ⟨a', b', h5 | h5⟩ <;> rw [hr] at h5 <;> cases h5
      · by_cases hnm : n = m
        · subst hnm
          have hat := fun s => at_conn r.wf h1 hr (s := s)
          have hmem : n ∈ ns := by
            have h5 : e ∈ flatL (netOf k ns) := by
              rw [← List.count_pos_iff, h4, List.count_pos_iff]
              exact he e (by simp)
            obtain ⟨n0, h6, h7⟩ := mem_flat_netOf.1 h5
            rcases (hat _).1 (at_of_mem (r.lt n0 h6) h7) with h8 | h8 <;>
              · obtain rfl := congrArg Prod.fst h8
                exact h6
          have hb : Between k n n e := ⟨a, b, .inl hr⟩
          obtain ⟨S, k', k1, k2, k3, k4⟩ := contractBetween_ok r.wf fo (r.lt n hmem)
            (r.lt n hmem) (allow := false) (order := none) (.inl ⟨e, h1, hb⟩) (by simp)
          have hd : [n, n].dedup = [n] := by simp
          have red := k4.reduced r.wf (N := ns) (T := ns.erase n) (N' := ns.erase n ++ [k.nn])
            r.nodup r.lt (by rw [hd]; exact List.perm_cons_erase hmem)
            (List.perm_append_comm (l₂ := [k.nn]))
            (fun x hx => r.wf.between_count (r.lt n hmem) (r.lt n hmem) ((k3 x).1 hx).1
              ((k3 x).1 hx).2)
          have hrun : tracePhase fo (e :: todo) ns k =
              tracePhase fo todo (ns.erase n ++ [k.nn]) k' := by
            conv_lhs => unfold tracePhase
            rw [M.bind_ok (show M.get k = (.ok k, k) from rfl)]
            simp only [hg, Bool.false_eq_true, if_false]
            refine (M.bind_ok (isTrace_conn hr)).trans ?_
            simp only [decide_true, if_true]
            refine (M.bind_ok (node1_conn hr)).trans ?_
            rw [if_neg (by simpa using hmem)]
            exact M.bind_ok ((contractParallel_eq fo hr).trans k1)
          obtain ⟨ns', k'', q1, q2, q3, q4⟩ := ih (ns.erase n ++ [k.nn]) k' (r.trans red w) he' hlt
            (by
              intro x hx y hy
              rcases List.mem_append.1 hx with h5 | h5
              · have h6 : x ∈ ns := List.mem_of_mem_erase h5
                have hxn : x ≠ n := by
                  rintro rfl
                  exact (List.Nodup.not_mem_erase r.nodup) h5
                rw [k4.other x (r.lt x h6) (by simpa using hxn)] at hy
                rcases List.mem_cons.1 (ht x h6 y hy) with rfl | h7
                · have h8 : y ∈ (k.node x).edges := List.count_pos_iff.1 (by omega)
                  rcases (hat _).1 (at_of_mem (r.lt x h6) h8) with h9 | h9 <;>
                    exact absurd (congrArg Prod.fst h9) hxn
                · exact h7
              · exfalso
                rw [List.mem_singleton] at h5
                subst h5
                rw [k4.edges] at hy
                simp only [Option.getD_none, if_true, hd, List.flatMap_cons, List.flatMap_nil,
                  List.append_nil] at hy
                have h6 : y ∈ (k.node n).edges.filter (fun e => e ∉ S) :=
                  List.count_pos_iff.1 (by omega)
                have h7 := (List.mem_filter.1 h6).2
                rw [List.count_filter (p := fun e => e ∉ S) h7] at hy
                have hyu := inUse_of_mem (r.lt n hmem) (List.mem_filter.1 h6).1
                exact (by simpa using h7 : y ∉ S) ((k3 y).2
                  ⟨hyu, (r.wf.between_self_iff (r.lt n hmem) hyu).2 hy⟩))
          refine ⟨ns', k'', hrun.trans q1, q2, q3, q4.trans ?_⟩
          have := List.length_pos_of_mem hmem
          rw [List.length_append, List.length_erase_of_mem hmem, List.length_singleton]
          omega
        · refine hskip ?_ (by rw [isTrace_conn hr]; simp [hnm])
          rintro x _ ⟨a', b', h5 | h5⟩ <;> rw [hr] at h5 <;> cases h5 <;> exact hnm rfl
    · have hrun : tracePhase fo (e :: todo) ns k = tracePhase fo todo ns k := by
        conv_lhs => unfold tracePhase
        rw [M.bind_ok (show M.get k = (.ok k, k) from rfl)]
        simp only [h2, if_true]
      rw [hrun]
      refine ih ns k r he' hlt ?_
      intro n hn x hx
      rcases List.mem_cons.1 (ht n hn x hx) with rfl | h5
      · exact absurd (inUse_of_mem (r.lt n hn) (List.count_pos_iff.1 (by omega))) h1
      · exact h5

/-- A path that contracts `n` nodes to one: every step names two different positions. -/
def PathOK : Nat → List (Nat × Nat) → Prop
  | n, [] => n = 1
  | n, (a, b) :: p => a < n ∧ b < n ∧ a ≠ b ∧ PathOK (n - 1) p

theorem pathPhase_ok [CommSemiring R] (fo : FlatOrder) {h : Heap R} (w : WF h) {N : List NId} :
    ∀ (p : List (Nat × Nat)) (ns : List NId) (k : Heap R), Reduced h k N ns → NoTrace k ns →
    PathOK ns.length p →
    ∃ f k', pathPhase fo p ns k = (.ok [f], k') ∧ Reduced h k' N [f] ∧ NoTrace k' [f] := by
  intro p
  induction p with
  | nil =>
    intro ns k r ht hp
    obtain ⟨f, rfl⟩ := List.length_eq_one_iff.1 hp
    exact ⟨f, k, rfl, r, ht⟩
  | cons ab p ih =>
    obtain ⟨a, b⟩ := ab
    intro ns k r ht hp
    obtain ⟨ha, hb, hab, hp⟩ := hp
    have ea : ns[a]? = some ns[a] := List.getElem?_eq_getElem ha
    have eb : ns[b]? = some ns[b] := List.getElem?_eq_getElem hb
    have hx : ns[a] ∈ ns := List.getElem_mem ha
    have hy : ns[b] ∈ ns := List.getElem_mem hb
    have hxy : ns[a] ≠ ns[b] := fun hc => hab ((List.Nodup.getElem_inj_iff r.nodup).1 hc)
    generalize ns[a] = x at ea hx hxy
    generalize ns[b] = y at eb hy hxy
    have hd : [x, y].dedup = [x, y] := List.Nodup.dedup (by simp [hxy])
    obtain ⟨S, k', k1, k2, k3, k4⟩ := contractBetween_ok r.wf fo (r.lt x hx)
      (r.lt y hy) (allow := true) (order := none) (.inr ⟨hxy, rfl⟩) (by simp)
    have hm : multiRemove (ns ++ [k.nn]) [a, b] = multiRemove ns [a, b] ++ [k.nn] :=
      multiRemove_append_left ns _ (by
        intro i hi
        simp only [List.mem_cons, List.not_mem_nil, or_false] at hi
        rcases hi with rfl | rfl <;> assumption)
    have hperm := multiRemove_perm ea eb hab
    have red := k4.reduced r.wf (N := ns) (T := multiRemove ns [a, b])
      (N' := multiRemove ns [a, b] ++ [k.nn]) r.nodup r.lt (by rw [hd]; exact hperm)
      (List.perm_append_comm (l₂ := [k.nn]))
      (fun e he => r.wf.between_count (r.lt x hx) (r.lt y hy) ((k3 e).1 he).1 ((k3 e).1 he).2)
    have hnt : NoTrace k' (multiRemove ns [a, b] ++ [k.nn]) := by
      intro n hn
      rcases List.mem_append.1 hn with h5 | h5
      · have h6 : n ∈ ns := hperm.mem_iff.2 (by simp [h5])
        have h7 : n ∉ [x, y] := by
          have h8 := hperm.nodup_iff.1 r.nodup
          simp only [List.nodup_cons, List.mem_cons, not_or] at h8
          simp only [List.mem_cons, List.not_mem_nil, or_false, not_or]
          exact ⟨fun hc => h8.1.2 (hc ▸ h5), fun hc => h8.2.1 (hc ▸ h5)⟩
        rw [k4.other n (r.lt n h6) (by rw [hd]; exact h7)]
        exact ht n h6
      · rw [List.mem_singleton] at h5
        subst h5
        rw [k4.edges]
        simp only [Option.getD_none, if_true, hd, List.flatMap_cons, List.flatMap_nil,
          List.append_nil]
        rw [List.filter_append, List.nodup_append]
        refine ⟨(ht x hx).filter _, (ht y hy).filter _, ?_⟩
        rintro e he e' he' rfl
        have h6 := (List.mem_filter.1 he)
        have h7 := (List.mem_filter.1 he')
        refine (by simpa using h6.2 : e ∉ S) ((k3 e).2 ⟨inUse_of_mem (r.lt x hx) h6.1,
          r.wf.between_of_mem (r.lt x hx) (r.lt y hy) hxy h6.1 h7.1⟩)
    have hlen : (multiRemove ns [a, b] ++ [k.nn]).length = ns.length - 1 := by
      have := hperm.length_eq
      simp only [List.length_cons, List.length_append, List.length_nil] at this ⊢
      omega
    obtain ⟨f, k'', q1, q2, q3⟩ := ih (multiRemove ns [a, b] ++ [k.nn]) k' (r.trans red w) hnt
      (by rw [hlen]; exact hp)
    refine ⟨f, k'', ?_, q2, q3⟩
    unfold pathPhase
    simp only [ea, eb]
    refine (M.bind_ok k1).trans ?_
    rw [hm]
    exact q1

theorem mem_subgraphDangling {h : Heap R} (w : WF h) {ns : List NId} (hnd : ns.Nodup)
    (hlt : ∀ n ∈ ns, n < h.nn) {e : EId} :
    e ∈ subgraphDangling h ns ↔ (flatL (netOf h ns)).count e = 1 := by
  have hall : e ∈ allEdges h ns ↔ e ∈ flatL (netOf h ns) := by
    rw [mem_flat_netOf]; simp [allEdges]
  unfold subgraphDangling
  rw [List.mem_filter, hall]
  constructor
  · rintro ⟨h1, h2⟩
    have hu := inUse_of_flat hlt h1
    have hpos := List.count_pos_iff.2 h1
    rw [w.count_flat hu hnd hlt] at hpos ⊢
    rcases w.good hu with ⟨n, a, hr⟩ | ⟨n, a, m, b, hr⟩
    · have h3 := Multiset.countP_le_card (fun s : Slot => s.1 ∈ ns) (h.edge e).ends
      have h4 : (h.edge e).ends.card = 1 := by rw [hr]; rfl
      omega
    · have h3 : (h.edge e).ends = (n, a) ::ₘ {(m, b)} := by rw [hr]; rfl
      rw [hr] at h2
      rw [h3, Multiset.countP_cons, ← Multiset.cons_zero, Multiset.countP_cons,
        Multiset.countP_zero] at hpos ⊢
      by_cases h4 : n ∈ ns <;> by_cases h5 : m ∈ ns <;> simp [h4, h5] at h2 hpos ⊢
  · intro h1
    have hmem : e ∈ flatL (netOf h ns) := List.count_pos_iff.1 (by omega)
    refine ⟨hmem, ?_⟩
    have hu := inUse_of_flat hlt hmem
    rw [w.count_flat hu hnd hlt] at h1
    rcases w.good hu with ⟨n, a, hr⟩ | ⟨n, a, m, b, hr⟩
    · rw [hr]; simp
    · have h3 : (h.edge e).ends = (n, a) ::ₘ {(m, b)} := by rw [hr]; rfl
      rw [h3, Multiset.countP_cons, ← Multiset.cons_zero, Multiset.countP_cons,
        Multiset.countP_zero] at h1
      rw [hr]
      by_cases h4 : n ∈ ns <;> by_cases h5 : m ∈ ns <;> simp [h4, h5] at h1 ⊢

theorem Reordered.reduced [CommSemiring R] {h h' : Heap R} {n : NId} {es : List EId}
    (r : Reordered h h' n es) {N : List NId} (hN : N.Nodup) (hlt : ∀ m ∈ N, m < h.nn) (hn : n ∈ N) :
    Reduced h h' N N := by
  have hp : ∀ m, ((h'.node m).edges).Perm (h.node m).edges := by
    intro m
    by_cases hm : m = n
    · subst hm; rw [r.edges]; exact r.perm
    · rw [r.other m hm]
  have hc : ∀ e, (flatL (netOf h' N)).count e = (flatL (netOf h N)).count e := by
    intro e
    clear hN hlt hn
    induction N with
    | nil => rfl
    | cons m N ih =>
      have e1 : ∀ k : Heap R, netOf k (m :: N) =
        ((k.node m).tensor, (k.node m).edges) :: netOf k N := fun _ => rfl
      rw [e1, e1, flatL_cons, flatL_cons, List.count_append, List.count_append, ih,
        (hp m).count_eq]
  refine ⟨r.wf, r.nn.ge, r.ne.ge, fun m hm => r.nn ▸ hlt m hm, hN, fun m hm => .inl hm, ?_, ?_, ?_,
    ?_, ?_, ?_⟩
  · intro m _ hm
    exact r.other m fun hc => hm (hc ▸ hn)
  · intro e hu
    exact .inl ⟨(r.inUse e).2 hu, r.dangling e hu, r.dim e hu, hc e⟩
  · intro e he
    refine inUse_of_flat hlt ?_
    rw [← List.count_pos_iff, ← hc, List.count_pos_iff]
    exact he
  · exact fun e _ hu => r.record e hu
  · exact fun e _ hu => (r.inUse e).1 hu
  · intro rest hnd hr σ hσ
    refine r.value (N ++ rest) ?_ σ
    intro m hm
    rcases List.mem_append.1 hm with h1 | h1
    exacts [hlt m h1, hr m h1]

theorem netVal_single [CommSemiring R] (h : Heap R) {f : NId} (hnd : (h.node f).edges.Nodup)
    (σ : EId → Nat) : netVal (netOf h [f]) σ = val (h.node f).tensor (h.node f).edges σ := by
  have hf : flatL (netOf h [f]) = (h.node f).edges := by simp [flatL, netOf]
  have : closedL (netOf h [f]) = [] := by
    rw [List.eq_nil_iff_forall_not_mem]
    intro e he
    rw [mem_closedL, hf] at he
    have := List.nodup_iff_count_le_one.1 hnd e
    omega
  rw [netVal, this]
  simp [sumOver, prodVal, netOf]

theorem Reduced.mem_final [CommSemiring R] {h k : Heap R} {N : List NId} {f : NId}
    (r : Reduced h k N [f]) (hlt : ∀ n ∈ N, n < h.nn) (hnd : (k.node f).edges.Nodup) (e : EId) :
    e ∈ (k.node f).edges ↔ (flatL (netOf h N)).count e = 1 := by
  have hf : flatL (netOf k [f]) = (k.node f).edges := by simp [flatL, netOf]
  constructor
  · intro he
    have hu := r.new e (by rw [hf]; exact he)
    rcases r.edges e hu with ⟨_, _, _, h4⟩ | ⟨h1, _⟩
    · rw [← h4, hf]
      exact List.count_eq_one_of_mem hnd he
    · exact absurd (inUse_of_mem (r.lt f (by simp)) he) h1
  · intro hc
    have hu : InUse h e := inUse_of_flat hlt (List.count_pos_iff.1 (by omega))
    rcases r.edges e hu with ⟨_, _, _, h4⟩ | ⟨_, _, h3⟩
    · rw [hc, hf] at h4
      exact List.count_pos_iff.1 (by omega)
    · omega

/-- Everything `base` does after the check of the output order. -/
theorem base_run [CommSemiring R] (fo : FlatOrder) {h : Heap R} (w : WF h) {N : List NId}
    (hN : N.Nodup) (hne : N ≠ []) (hlt : ∀ n ∈ N, n < h.nn) {es : List EId}
    (hes : ∀ e, e ∈ es ↔ e ∈ allEdges h N) {inn : List NId → List NId}
    (hinn : ∀ l, (inn l).Perm l) {alg : Heap R → List NId → List (Nat × Nat)}
    (halg : ∀ k l, 2 ≤ l.length → PathOK l.length (alg k l)) :
    ∃ ns k, tracePhase fo es N h = (.ok ns, k) ∧ ∃ f k', Reduced h k' N [f] ∧ NoTrace k' [f] ∧
      ((inn ns = [f] ∧ k' = k) ∨
       ((∀ n, inn ns ≠ [n]) ∧ pathPhase fo (alg k (inn ns)) (inn ns) k = (.ok [f], k'))) := by
  have hmem : ∀ e, e ∈ es ↔ e ∈ flatL (netOf h N) := by
    intro e; rw [hes, mem_flat_netOf]; simp [allEdges]
  obtain ⟨ns, k, h1, h2, h3, h4⟩ := tracePhase_ok fo w es N h (Reduced.refl w hN hlt)
    (fun e he => (hmem e).1 he) hlt (by
      intro n hn e he
      exact (hmem e).2 (mem_flat_netOf.2 ⟨n, hn, List.count_pos_iff.1 (by omega)⟩))
  have hpn := hinn ns
  have hred : Reduced h k N (inn ns) := by
    refine ⟨h2.wf, h2.nn, h2.ne, fun n hn => h2.lt n (hpn.mem_iff.1 hn), hpn.nodup_iff.2 h2.nodup,
      fun n hn => h2.sub n (hpn.mem_iff.1 hn), h2.other, ?_, ?_, h2.dead, h2.use, ?_⟩
    · intro e he
      rw [(flatL_perm (netOf_perm k hpn)).count_eq]
      exact h2.edges e he
    · intro e he
      exact h2.new e ((flatL_perm (netOf_perm k hpn)).mem_iff.1 he)
    · intro rest hr hrl σ hσ
      rw [← h2.value rest hr hrl σ hσ]
      refine netVal_perm (netOf_perm k (hpn.append_right rest)) (h2.wf.consistent ?_) σ
      intro n hn
      rcases List.mem_append.1 hn with h5 | h5
      · exact h2.lt n (hpn.mem_iff.1 h5)
      · exact lt_of_lt_of_le (hrl n h5) h2.nn
  have hnt : NoTrace k (inn ns) := fun n hn => h3 n (hpn.mem_iff.1 hn)
  refine ⟨ns, k, h1, ?_⟩
  have hlen : (inn ns).length = N.length := hpn.length_eq.trans h4
  have hpos : 0 < N.length := List.length_pos_of_ne_nil hne
  by_cases hl : (inn ns).length = 1
  · obtain ⟨f, hf⟩ := List.length_eq_one_iff.1 hl
    rw [hf] at hred hnt
    exact ⟨f, k, hred, hnt, .inl ⟨hf, rfl⟩⟩
  · obtain ⟨f, k', q1, q2, q3⟩ := pathPhase_ok fo w (alg k (inn ns)) (inn ns) k hred hnt
      (halg k (inn ns) (by omega))
    refine ⟨f, k', q2, q3, .inr ⟨?_, q1⟩⟩
    intro n hn
    rw [hn] at hl
    exact hl rfl

theorem base_ok [CommSemiring R] (fo : FlatOrder) {h : Heap R} (w : WF h) {nodes : List NId}
    (hne : nodes ≠ []) (hlt : ∀ n ∈ nodes, n < h.nn) {ie inn : List Nat → List Nat}
    (hie : ∀ l, (ie l).Perm l) (hinn : ∀ l, (inn l).Perm l)
    {alg : Heap R → List NId → List (Nat × Nat)}
    (halg : ∀ k l, 2 ≤ l.length → PathOK l.length (alg k l)) {order : Option (List EId)}
    {ignore : Bool}
    (hord : ignore = false → match order with
      | none => (subgraphDangling h nodes.dedup).length ≤ 1
      | some o => o.Nodup ∧ ∀ e, e ∈ o ↔ (flatL (netOf h nodes.dedup)).count e = 1) :
    ∃ f h', base fo ie inn alg nodes order ignore h = (.ok f, h') ∧
      Reduced h h' nodes.dedup [f] ∧ NoTrace h' [f] ∧
      (∀ o, ignore = false → order = some o → (h'.node f).edges = o) := by
  have hlt' : ∀ n ∈ nodes.dedup, n < h.nn := fun n hn => hlt n (List.mem_dedup.1 hn)
  have hne' : nodes.dedup ≠ [] := by simpa using hne
  have hN : nodes.dedup.Nodup := List.nodup_dedup _
  have hmemd : ∀ e, e ∈ subgraphDangling h nodes.dedup ↔
      (flatL (netOf h nodes.dedup)).count e = 1 := fun e => mem_subgraphDangling w hN hlt'
  obtain ⟨ns, k, h1, f, k', h2, h3, h4⟩ := base_run fo w hN hne' hlt'
    (es := ie (allEdges h nodes.dedup)) (fun e => (hie _).mem_iff) hinn halg
  -- the order that is used at the end
  obtain ⟨o', ho1, ho2, ho3⟩ : ∃ o', (if ignore then pure (order.getD [])
      else match order with
        | none => if (ie (subgraphDangling h nodes.dedup)).length > 1 then M.throw .valueError
          else pure (ie (subgraphDangling h nodes.dedup))
        | some o => if (∃ e ∈ o, e ∉ subgraphDangling h nodes.dedup) ∨
            (∃ e ∈ subgraphDangling h nodes.dedup, e ∉ o) then M.throw .valueError
          else pure o : M R (List EId)) h = (.ok o', h) ∧
      (ignore = false → o'.Nodup ∧ ∀ e, e ∈ o' ↔ (flatL (netOf h nodes.dedup)).count e = 1) ∧
      (∀ o, ignore = false → order = some o → o' = o) := by
    cases ignore with
    | true => exact ⟨order.getD [], rfl, by simp, by simp⟩
    | false =>
      have hord := hord rfl
      cases order with
      | none =>
        simp only at hord
        refine ⟨ie (subgraphDangling h nodes.dedup), ?_, fun _ => ⟨?_, ?_⟩, by simp⟩
        · simp only [Bool.false_eq_true, if_false]
          rw [if_neg (by rw [(hie _).length_eq]; omega)]
          rfl
        · rw [(hie _).nodup_iff]
          unfold subgraphDangling allEdges
          exact (List.nodup_dedup _).filter _
        · intro e
          rw [(hie _).mem_iff, hmemd]
      | some o =>
        simp only at hord
        refine ⟨o, ?_, fun _ => hord, by simp⟩
        simp only [Bool.false_eq_true, if_false]
        rw [if_neg]
        · rfl
        · rintro (⟨e, he, hc⟩ | ⟨e, he, hc⟩)
          · exact hc ((hmemd e).2 ((hord.2 e).1 he))
          · exact hc ((hord.2 e).2 ((hmemd e).1 he))
  -- the reordering
  obtain ⟨h', r1, r2, r3, r4⟩ : ∃ h', (do if ignore then pure () else reorderEdges f o'
                                          pure f : M R NId) k' = (.ok f, h') ∧
      Reduced h h' nodes.dedup [f] ∧ NoTrace h' [f] ∧
      (ignore = false → (h'.node f).edges = o') := by
    cases ignore with
    | true => exact ⟨k', rfl, h2, h3, by simp⟩
    | false =>
      obtain ⟨g1, g2⟩ := ho2 rfl
      have hnd := h3 f (by simp)
      have hfl := h2.lt f (by simp)
      have hperm : o'.Perm (k'.node f).edges := by
        rw [List.perm_ext_iff_of_nodup g1 hnd]
        intro e
        rw [g2, h2.mem_final hlt' hnd]
      obtain ⟨h', q1, q2⟩ := reorderEdges_ok h2.wf hfl hperm (by
        intro e he hb
        have := (h2.wf.between_self_iff hfl (inUse_of_mem hfl (hperm.mem_iff.1 he))).1 hb
        have := List.nodup_iff_count_le_one.1 hnd e
        omega)
      refine ⟨h', ?_, h2.trans (q2.reduced h2.nodup h2.lt (by simp)) w, ?_, fun _ => q2.edges⟩
      · simp only [Bool.false_eq_true, if_false]
        exact M.bind_ok q1
      · intro n hn
        rw [List.mem_singleton] at hn
        subst hn
        rw [q2.edges]
        exact g1
  refine ⟨f, h', ?_, r2, r3, fun o hi ho => (r4 hi).trans (ho3 o hi ho)⟩
  unfold base
  rw [M.bind_ok (show M.get h = (.ok h, h) from rfl)]
  refine (M.bind_ok ho1).trans ?_
  refine (M.bind_ok h1).trans ?_
  rcases h4 with ⟨h4, rfl⟩ | ⟨h4, h5⟩
  · rw [h4]
    exact r1
  · generalize inn ns = L at h4 h5
    rcases L with _ | ⟨x, _ | ⟨y, L⟩⟩
    · refine (M.bind_ok (show M.get k = (.ok k, k) from rfl)).trans ?_
      refine (M.bind_ok h5).trans ?_
      exact r1
    · exact absurd rfl (h4 x)
    · refine (M.bind_ok (show M.get k = (.ok k, k) from rfl)).trans ?_
      refine (M.bind_ok h5).trans ?_
      exact r1

theorem base_err [CommSemiring R] (fo : FlatOrder) {h : Heap R} (w : WF h) {nodes : List NId}
    (hlt : ∀ n ∈ nodes, n < h.nn) {ie inn : List Nat → List Nat}
    (hie : ∀ l, (ie l).Perm l) {alg : Heap R → List NId → List (Nat × Nat)}
    {order : Option (List EId)}
    (hord : match order with
      | none => 1 < (subgraphDangling h nodes.dedup).length
      | some o => ¬ ∀ e, e ∈ o ↔ (flatL (netOf h nodes.dedup)).count e = 1) :
    base fo ie inn alg nodes order false h = (.error .valueError, h) := by
  have hlt' : ∀ n ∈ nodes.dedup, n < h.nn := fun n hn => hlt n (List.mem_dedup.1 hn)
  have hN : nodes.dedup.Nodup := List.nodup_dedup _
  have hmemd : ∀ e, e ∈ subgraphDangling h nodes.dedup ↔
      (flatL (netOf h nodes.dedup)).count e = 1 := fun e => mem_subgraphDangling w hN hlt'
  unfold base
  rw [M.bind_ok (show M.get h = (.ok h, h) from rfl)]
  refine M.bind_error ?_
  simp only [Bool.false_eq_true, if_false]
  cases order with
  | none =>
    simp only at hord ⊢
    rw [if_pos (by rw [(hie _).length_eq]; omega)]
    rfl
  | some o =>
    simp only at hord ⊢
    rw [if_pos]
    · rfl
    · by_contra hc
      apply hord
      intro e
      rw [not_or] at hc
      simp only [not_exists, not_and, not_not] at hc
      rw [← hmemd]
      exact ⟨hc.1 e, hc.2 e⟩

end TN.Graph
