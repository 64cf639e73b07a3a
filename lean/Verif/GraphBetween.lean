import Verif.GraphFlatten2
import Verif.GraphTrace

/-!
# `contract_between`
-/

namespace TN.Graph

open TN

variable {R : Type}

/-- `h'` is `h` after all edges `S` of the nodes `N` were summed and the result stored in the
new node `new`, whose edges are `es`. -/
structure Contracted [CommSemiring R] (h h' : Heap R) (N : List NId) (new : NId) (S : List EId)
    (es : List EId) : Prop where
  wf : WF h'
  new_eq : new = h.nn
  nn : h'.nn = h.nn + 1
  ne : h.ne ≤ h'.ne
  /-- all other nodes keep their tensor and their edges -/
  other : ∀ n < h.nn, n ∉ N → h'.node n = h.node n
  edges : (h'.node new).edges = es
  /-- the new node has the remaining edges -/
  perm : es.Perm ((N.flatMap (fun n => (h.node n).edges)).filter (fun e => e ∉ S))
  /-- remaining edges stay as they are -/
  rest : ∀ e, InUse h e → e ∉ S → InUse h' e ∧ (h'.edge e).dangling = (h.edge e).dangling ∧
    edim h' e = edim h e
  /-- the contracted edges are disabled -/
  disabled : ∀ e ∈ S, (h'.edge e).disabled = true ∧ ¬ InUse h' e
  /-- edges that were not in the graph are not touched -/
  dead : ∀ e < h.ne, ¬ InUse h e → h'.edge e = h.edge e
  use : ∀ e < h.ne, InUse h' e → InUse h e
  /-- the entries of the new tensor are the sums over `S` of the products of the entries of the
  old tensors -/
  entry : ∀ τ : EId → Nat, (∀ e ∈ es, τ e < edim h e) →
    val (h'.node new).tensor es τ = sumOver (edim h) S (prodVal (netOf h N)) τ
  /-- the value of every network that contains all of `N` is unchanged -/
  value : ∀ rest : List NId, (N ++ rest).Nodup → (∀ n ∈ rest, n < h.nn) → ∀ σ : EId → Nat,
    InRange h (N ++ rest) σ → netVal (netOf h' (new :: rest)) σ = netVal (netOf h (N ++ rest)) σ

theorem Merged.use [CommSemiring R] {h h' : Heap R} {N : List NId} {new : NId}
    {S : List EId} (m : Merged h h' N new S) (hN : ∀ n ∈ N, n < h.nn) {e : EId} (hlt : e < h.ne)
    (hu : InUse h' e) : InUse h e := by
  obtain ⟨s, hs⟩ := hu
  by_cases h1 : s.1 = new
  · have h2 := hs.mem
    rw [h1, m.edges] at h2
    obtain ⟨n, hn, h3⟩ := List.mem_flatMap.1 (List.mem_filter.1 h2).1
    exact inUse_of_mem (hN n hn) h3
  · have hl := hs.1
    rw [m.nn] at hl
    have := m.new_eq
    by_cases h2 : s.1 ∈ N
    · have := ((m.detached s.1 h2).2 e hs.mem).1
      omega
    · have h3 := hs.mem
      rw [m.other s.1 (by omega) h2] at h3
      exact inUse_of_mem (by omega) h3

theorem Merged.contracted [CommSemiring R] {h h' : Heap R} {N : List NId} {new : NId}
    {S : List EId} (m : Merged h h' N new S) (hN : ∀ n ∈ N, n < h.nn) : Contracted h h' N new S
      ((N.flatMap (fun n => (h.node n).edges)).filter (fun e => e ∉ S)) :=
  ⟨m.wf, m.new_eq, m.nn, m.ne, m.other, m.edges, List.Perm.refl _,
    fun e h1 h2 => ⟨(m.live e h1 h2).1, m.dangling e h1 h2, (m.live e h1 h2).2⟩, m.disabled, m.dead,
    fun _ => m.use hN,
    fun τ hτ => by have := m.entry τ; rw [m.edges] at this; exact this hτ, m.value⟩

/-- The order of the contracted nodes does not matter. -/
theorem Contracted.swap [CommSemiring R] {h h' : Heap R} (w : WF h) {N N' : List NId} {new : NId}
    {S es : List EId} (c : Contracted h h' N new S es) (p : N.Perm N') (hN : ∀ n ∈ N, n < h.nn) :
    Contracted h h' N' new S es := by
  refine ⟨c.wf, c.new_eq, c.nn, c.ne, fun n h1 h2 => c.other n h1 (fun h3 => h2 (p.mem_iff.1 h3)),
    c.edges, ?_, c.rest, c.disabled, c.dead, c.use, ?_, ?_⟩
  · exact c.perm.trans ((p.flatMap_right _).filter _)
  · intro τ hτ
    rw [c.entry τ hτ]
    refine sumOver_congr fun τ' _ _ => ?_
    exact ((netOf_perm h p).map _).prod_eq
  · intro rest h1 h2 σ h3
    have p2 : (N ++ rest).Perm (N' ++ rest) := p.append_right rest
    have hall : ∀ n ∈ N ++ rest, n < h.nn := by
      intro n hn
      rcases List.mem_append.1 hn with h1 | h1
      exacts [hN n h1, h2 n h1]
    rw [c.value rest (p2.nodup_iff.2 h1) h2 σ ?_]
    · exact netVal_perm (netOf_perm h p2) (w.consistent hall) σ
    · intro e he h4
      have p3 := flatL_perm (netOf_perm h p2)
      exact h3 e (p3.mem_iff.1 he) (by rw [← p3.count_eq]; exact h4)

theorem Contracted.reorder [CommSemiring R] {h h1 h' : Heap R} {N : List NId} {new : NId}
    {S es es' : List EId} (c : Contracted h h1 N new S es) (r : Reordered h1 h' new es') :
    Contracted h h' N new S es' := by
  have hnew := c.new_eq
  refine ⟨r.wf, c.new_eq, r.nn.trans c.nn, by rw [r.ne]; exact c.ne, ?_, r.edges, ?_, ?_, ?_, ?_,
    fun e hlt hu => c.use e hlt ((r.inUse e).1 hu), ?_, ?_⟩
  · intro n h2 h3
    rw [r.other n (by omega), c.other n h2 h3]
  · have := r.perm
    rw [c.edges] at this
    exact this.trans c.perm
  · intro e hu he
    obtain ⟨h2, h3, h4⟩ := c.rest e hu he
    exact ⟨(r.inUse e).2 h2, by rw [r.dangling e h2, h3], by rw [r.dim e h2, h4]⟩
  · intro e he
    obtain ⟨h2, h3⟩ := c.disabled e he
    refine ⟨?_, fun h4 => h3 ((r.inUse e).1 h4)⟩
    rw [r.record e h3, h2]
  · intro e hlt hu
    rw [r.record e (fun hc => hu (c.use e hlt hc)), c.dead e hlt hu]
  · intro τ hτ
    have hp := r.perm
    rw [c.edges] at hp
    rw [r.entry τ, c.edges]
    exact c.entry τ fun e he => hτ e (hp.mem_iff.2 he)
  · intro rest h2 h3 σ h4
    rw [r.value _ ?_ σ, c.value rest h2 h3 σ h4]
    intro n hn
    rw [c.nn]
    rcases List.mem_cons.1 hn with rfl | hn
    · omega
    · have := h3 n hn; omega

/-! ### The shared edges -/

theorem sharesBoth_iff {h : Heap R} {n1 n2 : NId} {e : EId} (hg : (h.edge e).Good) :
    sharesBoth (h.edge e) n1 n2 = true ↔ Between h n1 n2 e := by
  unfold sharesBoth Between
  rcases hg with ⟨n, a, hr⟩ | ⟨n, a, m, b, hr⟩
  · rw [hr]; simp [EdgeRec.dang, EdgeRec.conn]
  · rw [hr]
    simp only [EdgeRec.conn, Option.some.injEq, decide_eq_true_eq, EdgeRec.mk.injEq, and_true]
    constructor
    · rintro (⟨rfl, rfl⟩ | ⟨rfl, rfl⟩)
      · exact ⟨a, b, .inl ⟨rfl, rfl, rfl, rfl⟩⟩
      · exact ⟨b, a, .inr ⟨rfl, rfl, rfl, rfl⟩⟩
    · rintro ⟨x, y, ⟨h1, _, h2, _⟩ | ⟨h1, _, h2, _⟩⟩
      · exact .inl ⟨h1, h2⟩
      · exact .inr ⟨h1, h2⟩

/-- `get_shared_edges` returns the edges between the two nodes, each once. -/
theorem getSharedEdges_ok {h : Heap R} (w : WF h) (so : ObjOrder) {n1 n2 : NId} (hn1 : n1 < h.nn) :
    ∃ S, getSharedEdges so n1 n2 h = (.ok S, h) ∧ S.Nodup ∧
      ∀ e, e ∈ S ↔ InUse h e ∧ Between h n1 n2 e := by
  refine ⟨_, rfl, (so.perm _).nodup_iff.2 (List.nodup_dedup _), fun e => ?_⟩
  rw [(so.perm _).mem_iff, List.mem_dedup, List.mem_filter]
  constructor
  · rintro ⟨h1, h2⟩
    have hu := inUse_of_mem hn1 h1
    exact ⟨hu, (sharesBoth_iff (w.good hu)).1 h2⟩
  · rintro ⟨hu, hb⟩
    refine ⟨?_, (sharesBoth_iff (w.good hu)).2 hb⟩
    obtain ⟨a, b, h1⟩ := hb.ends
    have : At h (n1, a) e := (w.mem_ends hu).1 (by rw [h1]; simp)
    exact this.mem

/-! ### Sorting the axes -/

theorem sortNat_perm (l : List Nat) : (sortNat l).Perm l := List.mergeSort_perm _ _

theorem indSort_perm {S : List EId} {f : EId → Nat} (hf : (S.map f).Nodup) :
    (((sortNat (S.map f)).map (fun l => (S.map f).idxOf l)).map (fun i => S.getD i default)).Perm S ∧
    ∀ i ∈ (sortNat (S.map f)).map (fun l => (S.map f).idxOf l), i < S.length := by
  have h1 : ((sortNat (S.map f)).map (fun l => (S.map f).idxOf l)).Perm (List.range S.length) := by
    refine ((sortNat_perm _).map _).trans ?_
    have : (S.map f).map (fun l => (S.map f).idxOf l) = List.range S.length := by
      apply List.ext_getElem
      · simp
      · intro i h1 h2
        have h3 : i < (S.map f).length := by simpa using h1
        rw [List.getElem_map, List.getElem_range, hf.idxOf_getElem]
    rw [this]
  constructor
  · refine (h1.map _).trans ?_
    have h2 := filter_range_getD S (fun _ => true) (fun _ => true) (fun _ _ => rfl)
    simp only [List.filter_true] at h2
    rw [h2]
  · intro i hi
    have := h1.mem_iff.1 hi
    simpa using this

/-- `tensordot` over the sorted axes, then `_remove_edges`. -/
theorem between_core [CommSemiring R] {h : Heap R} (w : WF h) {m1 m2 : NId} (hne : m1 ≠ m2)
    (hm1 : m1 < h.nn) (hm2 : m2 < h.nn) {S : List EId} (hSn : S.Nodup)
    (hS : ∀ e ∈ S, InUse h e ∧ Between h m1 m2 e) :
    ∃ t h', (h.node m1).tensor.tensordot (h.node m2).tensor
      (((sortNat (S.map (h.node m1).edges.idxOf)).map
        (fun l => (S.map (h.node m1).edges.idxOf).idxOf l)).map
          (fun i => (S.map (h.node m1).edges.idxOf).getD i 0))
      (((sortNat (S.map (h.node m1).edges.idxOf)).map
        (fun l => (S.map (h.node m1).edges.idxOf).idxOf l)).map
          (fun i => (S.map (h.node m2).edges.idxOf).getD i 0)) = .ok t ∧
      newNode t h = (.ok h.nn, addNode h t) ∧
      removeEdges S m1 m2 h.nn (addNode h t) = (.ok (), h') ∧
      Merged h h' [m1, m2] h.nn S := by
  have c1 : ∀ e ∈ S, (h.node m1).edges.count e = 1 := fun e he =>
    (hS e he).2.count_one w (hS e he).1 hne hm1
  have hnd : (S.map (h.node m1).edges.idxOf).Nodup := idxOf_map_nodup hSn c1
  obtain ⟨p1, p2⟩ := indSort_perm hnd
  obtain ⟨C, hC⟩ : ∃ C, C = ((sortNat (S.map (h.node m1).edges.idxOf)).map
        (fun l => (S.map (h.node m1).edges.idxOf).idxOf l)).map (fun i => S.getD i default) :=
    ⟨_, rfl⟩
  rw [← hC] at p1
  have hmap : ∀ f : EId → Nat, ((sortNat (S.map (h.node m1).edges.idxOf)).map
        (fun l => (S.map (h.node m1).edges.idxOf).idxOf l)).map (fun i => (S.map f).getD i 0) =
      C.map f := by
    intro f
    rw [hC, List.map_map (f := fun i => S.getD i default)]
    refine List.map_congr_left fun i hi => ?_
    have := p2 i hi
    rw [List.getD_eq_getElem _ _ (by simpa using this)]
    simp only [Function.comp, List.getElem_map]
    rw [List.getD_eq_getElem _ _ this]
  rw [hmap, hmap]
  obtain ⟨t, t1, t2, t3⟩ := tensordot_pair w hne hm1 hm2 hSn p1 hS
  obtain ⟨h', k1, k2⟩ := removeEdges_run w hne hm1 hm2 hSn hS t2 t3
  exact ⟨t, h', t1, newNode_eq h t, k1, k2⟩

/-- The axes that `contract_between` reads off the edges. -/
theorem between_axes {h : Heap R} (w : WF h) {n1 n2 : NId} (hne : n1 ≠ n2) (hn1 : n1 < h.nn)
    (hn2 : n2 < h.nn) {e : EId} (hu : InUse h e) (hb : Between h n1 n2 e) :
    (if (h.edge e).node1 = some n1 then (h.edge e).axis1 else (h.edge e).axis2.getD 0) =
      (h.node n1).edges.idxOf e ∧
    (if (h.edge e).node1 = some n1 then (h.edge e).axis2.getD 0 else (h.edge e).axis1) =
      (h.node n2).edges.idxOf e := by
  have c1 := hb.count_one w hu hne hn1
  have c2 := hb.symm.count_one w hu hne.symm hn2
  obtain ⟨a, b, hr | hr⟩ := hb
  · rw [idxOf_of_at c1 ((at_conn w hu hr).2 (.inl rfl)),
      idxOf_of_at c2 ((at_conn w hu hr).2 (.inr rfl)), hr]
    simp
  · rw [idxOf_of_at c1 ((at_conn w hu hr).2 (.inr rfl)),
      idxOf_of_at c2 ((at_conn w hu hr).2 (.inl rfl)), hr]
    simp [hne.symm]

/-- One of the edges of the order is shared, or at neither node. -/
def BadOrder (h : Heap R) (n1 n2 : NId) (order : List EId) : Prop :=
  ∃ e ∈ order, (InUse h e ∧ Between h n1 n2 e) ∨
    ∀ n ∈ [n1, n2], (h.edge e).node1 ≠ some n ∧ (h.edge e).node2 ≠ some n

/-- `contract_between` of two different nodes that share edges. -/
theorem contractBetween_pair [CommSemiring R] {h : Heap R} (w : WF h) (fo : FlatOrder)
    {n1 n2 : NId} (hne : n1 ≠ n2) (hn1 : n1 < h.nn) (hn2 : n2 < h.nn) {allow : Bool}
    {order : Option (List EId)} (hsh : ∃ e, InUse h e ∧ Between h n1 n2 e) :
    (BadOrder h n1 n2 (order.getD []) ∧
      contractBetween fo n1 n2 allow order h = (.error .valueError, h)) ∨
    (¬ BadOrder h n1 n2 (order.getD []) ∧ ∃ S N hm, S.Nodup ∧
      (∀ e, e ∈ S ↔ InUse h e ∧ Between h n1 n2 e) ∧ N.Perm [n1, n2] ∧
      (order.getD [] = [] → N = [n1, n2]) ∧ Merged h hm N h.nn S ∧
      contractBetween fo n1 n2 allow order h =
        (do if order.getD [] ≠ [] then reorderEdges h.nn (order.getD [])
            pure h.nn) hm) := by
  obtain ⟨ord, hord⟩ : ∃ ord, ord = order.getD [] := ⟨_, rfl⟩
  obtain ⟨S, hS1, hS2, hS3⟩ := getSharedEdges_ok w fo.so (n2 := n2) hn1
  have hSne : S ≠ [] := by
    obtain ⟨e, he⟩ := hsh
    intro h1
    have := (hS3 e).2 he
    rw [h1] at this; simp at this
  have hb : ∀ e ∈ S, InUse h e ∧ Between h n1 n2 e := fun e he => (hS3 e).1 he
  have hax1 : S.map (fun e => if (h.edge e).node1 = some n1 then (h.edge e).axis1
      else (h.edge e).axis2.getD 0) = S.map (h.node n1).edges.idxOf :=
    List.map_congr_left fun e he => (between_axes w hne hn1 hn2 (hb e he).1 (hb e he).2).1
  have hax2 : S.map (fun e => if (h.edge e).node1 = some n1 then (h.edge e).axis2.getD 0
      else (h.edge e).axis1) = S.map (h.node n2).edges.idxOf :=
    List.map_congr_left fun e he => (between_axes w hne hn1 hn2 (hb e he).1 (hb e he).2).2
  have hbad : BadOrder h n1 n2 ord ↔ ∃ e ∈ ord, e ∈ S ∨
      (decide ((h.edge e).node1 = some n1 ∨ (h.edge e).node2 = some n1) = false ∧
        decide ((h.edge e).node1 = some n2 ∨ (h.edge e).node2 = some n2) = false) := by
    unfold BadOrder
    refine exists_congr fun e => and_congr_right fun _ => ?_
    rw [hS3]
    simp
  rw [← hord]
  unfold contractBetween
  rw [← hord, M.bind_ok hS1]
  simp only
  rw [if_neg hne, if_neg hSne]
  by_cases hbo : BadOrder h n1 n2 ord
  · left
    refine ⟨hbo, M.bind_error ?_⟩
    rw [get_bind, if_pos (hbad.1 hbo)]
    rfl
  · right
    refine ⟨hbo, ?_⟩
    by_cases hflip : (List.map Prod.snd (ord.zipIdx.filter (fun p => decide
          ((h.edge p.1).node1 = some n1 ∨ (h.edge p.1).node2 = some n1))) ≠ [] ∧
        List.map Prod.snd (ord.zipIdx.filter (fun p => ¬ decide
          ((h.edge p.1).node1 = some n1 ∨ (h.edge p.1).node2 = some n1))) ≠ [] ∧
        (List.map Prod.snd (ord.zipIdx.filter (fun p => decide
          ((h.edge p.1).node1 = some n1 ∨ (h.edge p.1).node2 = some n1)))).sum *
          (List.map Prod.snd (ord.zipIdx.filter (fun p => ¬ decide
          ((h.edge p.1).node1 = some n1 ∨ (h.edge p.1).node2 = some n1)))).length >
        (List.map Prod.snd (ord.zipIdx.filter (fun p => ¬ decide
          ((h.edge p.1).node1 = some n1 ∨ (h.edge p.1).node2 = some n1)))).sum *
          (List.map Prod.snd (ord.zipIdx.filter (fun p => decide
          ((h.edge p.1).node1 = some n1 ∨ (h.edge p.1).node2 = some n1)))).length)
    · obtain ⟨t, hm, k1, k2, k3, k4⟩ := between_core w hne.symm hn2 hn1 hS2
        (fun e he => ⟨(hb e he).1, (hb e he).2.symm⟩)
      refine ⟨S, [n2, n1], hm, hS2, hS3, List.Perm.swap _ _ _, ?_, k4, ?_⟩
      · intro h1
        rw [h1] at hflip
        simp at hflip
      · refine M.bind_ok ?_
        rw [get_bind, if_neg (fun h1 => hbo (hbad.2 h1))]
        simp only [decide_eq_true hflip, if_true]
        rw [hax1, hax2, M.bind_ok (nodeTensor_eq n2), M.bind_ok (nodeTensor_eq n1),
          M.bind_ok (a := t) (h' := h) (by rw [M.lift_apply, k1]), M.bind_ok k2, M.bind_ok k3]
        rfl
    · obtain ⟨t, hm, k1, k2, k3, k4⟩ := between_core w hne hn1 hn2 hS2 hb
      refine ⟨S, [n1, n2], hm, hS2, hS3, List.Perm.refl _, fun _ => rfl, k4, ?_⟩
      refine M.bind_ok ?_
      rw [get_bind, if_neg (fun h1 => hbo (hbad.2 h1))]
      simp only [decide_eq_false hflip, Bool.false_eq_true, if_false]
      rw [hax1, hax2, M.bind_ok (nodeTensor_eq n1), M.bind_ok (nodeTensor_eq n2),
        M.bind_ok (a := t) (h' := h) (by rw [M.lift_apply, k1]), M.bind_ok k2, M.bind_ok k3]
      rfl

/-! ### Nodes that share no edge, and trace edges -/

theorem contractBetween_outer [CommSemiring R] {h : Heap R} (w : WF h) (fo : FlatOrder)
    {n1 n2 : NId} (hne : n1 ≠ n2) (hn1 : n1 < h.nn) (hn2 : n2 < h.nn) {allow : Bool}
    {order : Option (List EId)} (hsh : ¬ ∃ e, InUse h e ∧ Between h n1 n2 e) :
    (allow = false ∧ contractBetween fo n1 n2 allow order h = (.error .valueError, h)) ∨
    (allow = true ∧ ∃ hm, Merged h hm [n1, n2] h.nn [] ∧
      contractBetween fo n1 n2 allow order h =
        (do if order.getD [] ≠ [] then reorderEdges h.nn (order.getD [])
            pure h.nn) hm) := by
  obtain ⟨S, hS1, hS2, hS3⟩ := getSharedEdges_ok w fo.so (n2 := n2) hn1
  have hSe : S = [] := by
    rw [List.eq_nil_iff_forall_not_mem]
    intro e he
    exact hsh ⟨e, (hS3 e).1 he⟩
  subst hSe
  unfold contractBetween
  rw [M.bind_ok hS1]
  rw [if_neg hne, if_pos rfl]
  cases allow
  · left
    refine ⟨rfl, M.bind_error ?_⟩
    rw [if_pos (by simp)]
    rfl
  · right
    obtain ⟨hm, k1, k2⟩ := outerProduct_run w hne hn1 hn2
    refine ⟨rfl, hm, k2, M.bind_ok ?_⟩
    rw [if_neg (by simp)]
    exact k1

theorem Flattened.node_count [CommSemiring R] {h h' : Heap R} {E : List EId} {new : EId}
    (f : Flattened h h' E new) {n : NId} (hn : n < h.nn) {e : EId} (he : e ≠ new) (heE : e ∉ E) :
    (h'.node n).edges.count e = (h.node n).edges.count e := by
  have h1 := congrArg (fun l => l.count e) (f.edges n hn)
  rwa [List.count_filter (by simpa using he), List.count_filter (by simpa using heE)] at h1

theorem Flattened.use [CommSemiring R] {h h' : Heap R} {E : List EId} {new : EId}
    (f : Flattened h h' E new) {e : EId} (hu : InUse h' e) (he : e ≠ new) : InUse h e := by
  obtain ⟨s, hs⟩ := hu
  have hlt : s.1 < h.nn := by rw [← f.nn]; exact hs.1
  have h1 : e ∈ (h.node s.1).edges.filter (fun e => e ∉ E) := by
    rw [← f.edges s.1 hlt]
    exact List.mem_filter.2 ⟨hs.mem, by simpa using he⟩
  exact inUse_of_mem hlt (List.mem_filter.1 h1).1

theorem Flattened.flat_count [CommSemiring R] {h h' : Heap R} {E : List EId} {new : EId}
    (f : Flattened h h' E new) {ns : List NId} (hns : ∀ n ∈ ns, n < h.nn) {e : EId}
    (he : e ≠ new) (heE : e ∉ E) :
    (flatL (netOf h' ns)).count e = (flatL (netOf h ns)).count e := by
  induction ns with
  | nil => rfl
  | cons n ns ih =>
    have e1 : ∀ k : Heap R, netOf k (n :: ns) =
      ((k.node n).tensor, (k.node n).edges) :: netOf k ns := fun _ => rfl
    rw [e1, e1, flatL_cons, flatL_cons, List.count_append, List.count_append,
      ih (fun m hm => hns m (by simp [hm]))]
    congr 1
    exact f.node_count (hns n (by simp)) he heE

/-- The positions of the open edges stay in range. -/
theorem Flattened.inRange [CommSemiring R] {h h' : Heap R} {E : List EId} {new : EId}
    (f : Flattened h h' E new) {ns : List NId} (hns : ∀ n ∈ ns, n < h.nn) {σ : EId → Nat}
    (hσ : InRange h ns σ) {e : EId} (he : e ∈ flatL (netOf h' ns)) (hne : e ≠ new)
    (h2 : (flatL (netOf h' ns)).count e ≠ 2) : σ e < edim h' e := by
  have hu' := inUse_of_flat (h := h') (by rw [f.nn]; exact hns) he
  have heE : e ∉ E := fun h1 => (f.disabled e h1).2 hu'
  rw [f.flat_count hns hne heE] at h2
  have he' : e ∈ flatL (netOf h ns) := by
    rw [← List.count_pos_iff, ← f.flat_count hns hne heE]; exact List.count_pos_iff.2 he
  rw [(f.rest e (inUse_of_flat hns he') heE).2.2]
  exact hσ e he' h2

/-- An edge in use has both ends at a node exactly when the node lists it twice. -/
theorem WF.between_self_iff {h : Heap R} (w : WF h) {n : NId} (hn : n < h.nn) {e : EId}
    (hu : InUse h e) : Between h n n e ↔ (h.node n).edges.count e = 2 := by
  rw [w.count hu hn]
  constructor
  · intro hb
    obtain ⟨a, b, h1⟩ := hb.ends
    rw [h1]
    simp [Multiset.countP_eq_card_filter, Multiset.filter_singleton]
  · intro h1
    rcases w.good hu with ⟨m, a, hr⟩ | ⟨m1, a, m2, b, hr⟩
    · exfalso
      have := Multiset.countP_le_card (fun s : Slot => s.1 = n) (h.edge e).ends
      rw [h1, hr] at this
      simp at this
    · have h3 : (h.edge e).ends.countP (fun s => s.1 = n) = (h.edge e).ends.card := by
        rw [h1, hr]; rfl
      rw [Multiset.countP_eq_card, hr] at h3
      have e1 : m1 = n := h3 (m1, a) (by simp)
      have e2 : m2 = n := h3 (m2, b) (by simp)
      subst e1; subst e2
      exact ⟨a, b, .inl hr⟩

/-- Trace edges are flattened, then the new trace edge is contracted. -/
theorem Flattened.contracted [CommSemiring R] {h hf h' : Heap R} (w : WF h) {S : List EId}
    {new : EId} {n : NId} (hn : n < h.nn) (hSne : S ≠ [])
    (hSn : S.Nodup) (hS : ∀ e, e ∈ S ↔ InUse h e ∧ Between h n n e)
    (f : Flattened h hf S new) (m : Merged hf h' [n] h.nn [new]) :
    Contracted h h' [n] h.nn S ((h.node n).edges.filter (fun e => e ∉ S)) := by
  have hat : ∀ e ∈ S, ∀ s, At h s e → s.1 = n := by
    intro e he s hs
    have := ((hS e).1 he).2.at_mem w hs
    simpa using this
  have hflat : ∀ k : Heap R, [n].flatMap (fun n => (k.node n).edges) = (k.node n).edges := by
    intro k; simp
  have hunt : ∀ m < h.nn, m ≠ n → hf.node m = h.node m := by
    intro m hm hmn
    refine f.untouched m hm fun e he h1 => hmn (hat e he _ (at_of_mem hm h1))
  obtain ⟨e0, he0⟩ := List.exists_mem_of_ne_nil S hSne
  have hnd : (hf.edge new).dangling = false := by
    rw [f.dangling e0 he0, ((hS e0).1 he0).2.not_dangling]
  have hlt0 : e0 < h.ne := w.lt ((hS e0).1 he0).1
  have hvalue : ∀ rest : List NId, ([n] ++ rest).Nodup → (∀ k ∈ rest, k < h.nn) →
      ∀ σ : EId → Nat, InRange h ([n] ++ rest) σ →
      netVal (netOf h' (h.nn :: rest)) σ = netVal (netOf h ([n] ++ rest)) σ := by
    intro rest h1 h2 σ h3
    have hall : ∀ k ∈ [n] ++ rest, k < h.nn := by
      intro k hk
      rcases List.mem_append.1 hk with hk | hk
      · rw [List.mem_singleton.1 hk]; exact hn
      · exact h2 k hk
    rw [m.value rest h1 (by rw [f.nn]; exact h2) σ ?_]
    · refine f.value hnd _ h1 hall ?_ σ h3
      rintro k hk ⟨e, he, hm⟩
      have := hat e he _ (at_of_mem hk hm)
      simp only at this
      simp [this]
    · intro e he hc
      by_cases hen : e = new
      · exfalso
        subst hen
        apply hc
        have hu' := inUse_of_flat (h := hf) (by rw [f.nn]; exact hall) he
        rw [f.wf.count_flat hu' h1 (by rw [f.nn]; exact hall)]
        have : (hf.edge e).ends.countP (fun s => s.1 ∈ [n] ++ rest) = (hf.edge e).ends.card := by
          rw [Multiset.countP_eq_card]
          intro s hs
          have hs' := (f.wf.mem_ends hu').1 hs
          have hslt : s.1 < h.nn := by rw [← f.nn]; exact hs'.1
          by_cases hsn : s.1 = n
          · simp [hsn]
          · exfalso
            have h5 := hs'.mem
            rw [hunt s.1 hslt hsn] at h5
            exact f.fresh (inUse_of_mem hslt h5)
        rw [this, (f.wf.good hu').card, hnd]; rfl
      · exact f.inRange hall h3 he hen hc
  refine ⟨m.wf, rfl, by rw [m.nn, f.nn], f.ne.trans m.ne, ?_, ?_, ?_, ?_, ?_, ?_, ?_, ?_, hvalue⟩
  · intro k h1 h2
    rw [m.other k (by rw [f.nn]; exact h1) h2, hunt k h1 (by simpa using h2)]
  · rw [m.edges, hflat, ← f.edges n hn]
    refine List.filter_congr fun e _ => ?_
    simp
  · rw [hflat]
  · intro e hu he
    obtain ⟨h1, h2, h3⟩ := f.rest e hu he
    have hen : e ∉ [new] := by
      rw [List.mem_singleton]; rintro rfl; exact f.fresh hu
    obtain ⟨h4, h5⟩ := m.live e h1 hen
    exact ⟨h4, by rw [m.dangling e h1 hen, h2], by rw [h5, h3]⟩
  · intro e he
    obtain ⟨h1, h2⟩ := f.disabled e he
    have hlt : e < hf.ne := lt_of_lt_of_le (w.lt ((hS e).1 he).1) f.ne
    refine ⟨by rw [m.dead e hlt h2, h1], fun hu => ?_⟩
    have h3 : (h'.edge e).disabled = true := by rw [m.dead e hlt h2, h1]
    rcases m.wf.good hu with ⟨n, a, hr⟩ | ⟨n, a, m, b, hr⟩ <;> rw [hr] at h3 <;> simp at h3
  · intro e hlt hu
    rw [m.dead e (lt_of_lt_of_le hlt f.ne) (fun hc => ?_), f.dead e hlt hu]
    have := f.new_ge
    exact hu (f.use hc (by omega))
  · intro e hlt hu
    have := f.new_ge
    exact f.use (m.use (by simpa [f.nn] using hn) (lt_of_lt_of_le hlt f.ne) hu) (by omega)
  · intro τ hτ
    have hedges : (h'.node h.nn).edges = (h.node n).edges.filter (fun e => e ∉ S) := by
      rw [m.edges, hflat, ← f.edges n hn]
      refine List.filter_congr fun e _ => ?_
      simp
    have hnn' : h.nn < h'.nn := by rw [m.nn, f.nn]; omega
    have hcount : ∀ e, (flatL (netOf h [n])).count e = (h.node n).edges.count e := by
      intro e; simp [flatL, netOf]
    have hclosed : ∀ e, e ∈ closedL (netOf h [n]) ↔ e ∈ S := by
      intro e
      rw [mem_closedL, hcount, hS]
      constructor
      · intro hc
        have hm : e ∈ (h.node n).edges := List.count_pos_iff.1 (by omega)
        refine ⟨inUse_of_mem hn hm, (w.between_self_iff hn (inUse_of_mem hn hm)).2 hc⟩
      · rintro ⟨hu, hb⟩
        exact (w.between_self_iff hn hu).1 hb
    have hperm : (closedL (netOf h [n])).Perm S :=
      (List.perm_ext_iff_of_nodup (closedL_nodup _) hSn).2 hclosed
    have e1 := hvalue [] (by simp) (by simp) τ (by
      intro e he hc
      simp only [List.append_nil] at he hc
      have hm : e ∈ (h.node n).edges := by simpa [flatL, netOf] using he
      refine hτ e (List.mem_filter.2 ⟨hm, ?_⟩)
      simp only [decide_eq_true_eq]
      intro hSe
      exact hc ((mem_closedL).1 ((hclosed e).2 hSe)))
    simp only [List.append_nil] at e1
    rw [netVal_eq (w.consistent (by simpa using hn)), sumOver_perm hperm] at e1
    rw [← e1, netVal_eq (m.wf.consistent (by simpa using hnn'))]
    have hnil : closedL (netOf h' [h.nn]) = [] := by
      rw [List.eq_nil_iff_forall_not_mem]
      intro e he
      rw [mem_closedL] at he
      have h1 : (flatL (netOf h' [h.nn])).count e =
          ((h.node n).edges.filter (fun e => e ∉ S)).count e := by
        simp [flatL, netOf, hedges]
      rw [h1] at he
      have hm := List.mem_filter.1 (List.count_pos_iff.1
        (by omega : 0 < ((h.node n).edges.filter (fun e => e ∉ S)).count e))
      rw [List.count_filter (p := fun e => decide (e ∉ S)) hm.2] at he
      exact (by simpa using hm.2 : e ∉ S) ((hclosed e).1 ((mem_closedL).2 (by rw [hcount]; exact he)))
    rw [hnil]
    simp [sumOver, prodVal, netOf, hedges]

/-- `contract_between` of a node with itself. -/
theorem contractBetween_self [CommSemiring R] {h : Heap R} (w : WF h) (fo : FlatOrder)
    {n : NId} (hn : n < h.nn) {allow : Bool} {order : Option (List EId)} :
    ((¬ ∃ e, InUse h e ∧ Between h n n e) ∧
      contractBetween fo n n allow order h = (.error .valueError, h)) ∨
    ((∃ e, InUse h e ∧ Between h n n e) ∧ ∃ S hm, S.Nodup ∧
      (∀ e, e ∈ S ↔ InUse h e ∧ Between h n n e) ∧
      Contracted h hm [n] h.nn S ((h.node n).edges.filter (fun e => e ∉ S)) ∧
      contractBetween fo n n allow order h =
        (do if order.getD [] ≠ [] then reorderEdges h.nn (order.getD [])
            pure h.nn) hm) := by
  obtain ⟨S, hS1, hS2, hS3⟩ := getSharedEdges_ok w fo.so (n2 := n) hn
  have hb : ∀ e ∈ S, InUse h e ∧ Between h n n e := fun e he => (hS3 e).1 he
  have htr : ∀ (k : Heap R) (e : EId), Between k n n e → ∃ a b, k.edge e = .conn n a n b := by
    rintro k e ⟨a, b, h1 | h1⟩
    exacts [⟨a, b, h1⟩, ⟨b, a, h1⟩]
  unfold contractBetween
  rw [M.bind_ok hS1, if_pos rfl]
  rcases S with _ | ⟨e0, S⟩
  · left
    refine ⟨fun ⟨e, he⟩ => by have := (hS3 e).2 he; simp at this, M.bind_error ?_⟩
    rw [M.bind_ok hS1, if_pos rfl]
    rfl
  · right
    refine ⟨⟨e0, hb e0 (by simp)⟩, ?_⟩
    rcases S with _ | ⟨e1, S⟩
    · obtain ⟨a, b, hr⟩ := htr h e0 (hb e0 (by simp)).2
      obtain ⟨hm, k1, _, k3⟩ := contract_trace w (hb e0 (by simp)).1 hr
      refine ⟨[e0], hm, by simp, hS3, ?_, M.bind_ok ?_⟩
      · have := k3.contracted (by simpa using hn)
        simpa using this
      · rw [M.bind_ok hS1, if_neg (by simp),
          M.bind_ok (flattenEdges_single w fo.swap (hb e0 (by simp)).1)]
        exact k1
    · obtain ⟨a0, b0, hr0⟩ := htr h e0 (hb e0 (by simp)).2
      obtain ⟨new, hf, f1, f2⟩ := flattenEdges_ok w fo.swap hS2 (by simp) (fun e he => (hb e he).1)
        (by
          intro e he
          obtain ⟨a, b, hr⟩ := htr h e (hb e (by simp [List.mem_cons.1 he])).2
          left
          rw [hr, hr0]
          exact ⟨rfl, rfl⟩)
      have hdg : (hf.edge new).dangling = false := by
        rw [f2.dangling e0 (by simp), hr0]
      -- the new edge is a trace edge of the node
      have hnew : ∃ a b, hf.edge new = .conn n a n b := by
        have hone : ∀ s, At hf s new → s.1 = n := by
          intro s hs
          have hslt : s.1 < h.nn := by rw [← f2.nn]; exact hs.1
          have h1 : 0 < (hf.node s.1).edges.count new := List.count_pos_iff.2 hs.mem
          rw [f2.count s.1 hslt e0 (by simp)] at h1
          have h2 := at_of_mem hslt (List.count_pos_iff.1 h1)
          rcases (at_conn w (hb e0 (by simp)).1 hr0).1 h2 with h3 | h3
          · exact congrArg Prod.fst h3
          · exact congrArg Prod.fst h3
        rcases f2.wf.good f2.inUse with ⟨m, a, hr⟩ | ⟨m1, a, m2, b, hr⟩
        · rw [hr] at hdg; simp at hdg
        · have h1 := hone _ ((at_conn f2.wf f2.inUse hr).2 (.inl rfl))
          have h2 := hone _ ((at_conn f2.wf f2.inUse hr).2 (.inr rfl))
          simp only at h1 h2
          subst h1; subst h2
          exact ⟨a, b, hr⟩
      obtain ⟨a, b, hr⟩ := hnew
      obtain ⟨hm, k1, _, k3⟩ := contract_trace f2.wf f2.inUse hr
      rw [f2.nn] at k1 k3
      refine ⟨e0 :: e1 :: S, hm, hS2, hS3, f2.contracted w hn (by simp) hS2 hS3 k3, M.bind_ok ?_⟩
      rw [M.bind_ok hS1, if_neg (by simp), M.bind_ok f1]
      exact k1

/-! ### Summary -/

/-- An edge of the new node that has both ends there had both ends at the old nodes. -/
theorem Contracted.trace_of [CommSemiring R] {h h' : Heap R} (w : WF h) {N : List NId}
    {new : NId} {S es : List EId} (c : Contracted h h' N new S es) (hN : N.Nodup)
    (hNlt : ∀ n ∈ N, n < h.nn) {e : EId} (he : e ∈ es) (hb : Between h' new new e) :
    InUse h e ∧ ∃ m1 ∈ N, ∃ m2 ∈ N, Between h m1 m2 e := by
  have hnew : new < h'.nn := by rw [c.nn, c.new_eq]; omega
  have hu' : InUse h' e := inUse_of_mem hnew (by rw [c.edges]; exact he)
  have he2 := c.perm.mem_iff.1 he
  rw [List.mem_filter] at he2
  obtain ⟨he3, heS⟩ := he2
  have hflat : flatL (netOf h N) = N.flatMap (fun n => (h.node n).edges) := by
    simp [flatL, netOf, List.flatMap_map]
  rw [← hflat] at he3
  have hu := inUse_of_flat hNlt he3
  refine ⟨hu, ?_⟩
  have h1 : es.count e = 2 := by
    rw [← c.edges, c.wf.count hu' hnew]
    obtain ⟨a, b, h2⟩ := hb.ends
    rw [h2]
    simp [Multiset.countP_eq_card_filter, Multiset.filter_singleton]
  rw [c.perm.count_eq, List.count_filter (p := fun e => decide (e ∉ S)) heS, ← hflat, w.count_flat hu hN hNlt] at h1
  rcases w.good hu with ⟨m, a, hr⟩ | ⟨m1, a, m2, b, hr⟩
  · exfalso
    have := Multiset.countP_le_card (fun s : Slot => s.1 ∈ N) (h.edge e).ends
    rw [h1, hr] at this
    simp at this
  · have h3 : (h.edge e).ends.countP (fun s => s.1 ∈ N) = (h.edge e).ends.card := by
      rw [h1, hr]; rfl
    rw [Multiset.countP_eq_card, hr] at h3
    exact ⟨m1, h3 (m1, a) (by simp), m2, h3 (m2, b) (by simp), a, b, .inl hr⟩

theorem Contracted.finish [CommSemiring R] {h hm : Heap R} (w : WF h) {n1 n2 : NId}
    (hn1 : n1 < h.nn) (hn2 : n2 < h.nn) {S es order : List EId}
    (hS : ∀ e, e ∈ S ↔ InUse h e ∧ Between h n1 n2 e)
    (c : Contracted h hm [n1, n2].dedup h.nn S es)
    (hord : order ≠ [] → order.Perm (([n1, n2].dedup.flatMap
      (fun n => (h.node n).edges)).filter (fun e => ¬ sharesBoth (h.edge e) n1 n2)) ∧
      (n1 ≠ n2 → ∀ e, InUse h e → ¬ Between h n1 n1 e ∧ ¬ Between h n2 n2 e)) :
    ∃ h', (do if order ≠ [] then reorderEdges h.nn order
              pure h.nn : M R NId) hm = (.ok h.nn, h') ∧
      Contracted h h' [n1, n2].dedup h.nn S (if order = [] then es else order) := by
  by_cases ho : order = []
  · refine ⟨hm, ?_, ?_⟩
    · rw [if_neg (by simpa using ho)]; rfl
    · rw [if_pos ho]; exact c
  · obtain ⟨o1, o2⟩ := hord ho
    have hlt : ∀ n ∈ [n1, n2].dedup, n < h.nn := by
      intro n hn
      simp only [List.mem_dedup, List.mem_cons, List.not_mem_nil, or_false] at hn
      rcases hn with rfl | rfl <;> assumption
    have hp : order.Perm (hm.node h.nn).edges := by
      rw [c.edges]
      refine o1.trans (List.Perm.trans ?_ c.perm.symm)
      rw [List.filter_congr (q := fun e => decide (e ∉ S))]
      intro e he
      obtain ⟨n, hn, hne⟩ := List.mem_flatMap.1 he
      have hu := inUse_of_mem (hlt n hn) hne
      have h1 := sharesBoth_iff (n1 := n1) (n2 := n2) (w.good hu)
      have h2 := hS e
      by_cases h3 : e ∈ S
      · have := h1.2 (h2.1 h3).2
        simp [h3, this]
      · have : ¬ sharesBoth (h.edge e) n1 n2 = true := fun h4 => h3 (h2.2 ⟨hu, h1.1 h4⟩)
        simp [h3, this]
    have htr : ∀ e ∈ order, ¬ Between hm h.nn h.nn e := by
      intro e he hb
      have hes : e ∈ es := by rw [← c.edges]; exact hp.mem_iff.1 he
      have heS : e ∉ S := by
        have := c.perm.mem_iff.1 hes
        rw [List.mem_filter] at this
        simpa using this.2
      obtain ⟨hu, m1, hm1, m2, hm2, hb'⟩ := c.trace_of w (List.nodup_dedup _) hlt hes hb
      simp only [List.mem_dedup, List.mem_cons, List.not_mem_nil, or_false] at hm1 hm2
      have hnS : ¬ Between h n1 n2 e := fun h1 => heS ((hS e).2 ⟨hu, h1⟩)
      by_cases hne : n1 = n2
      · subst hne
        simp only [or_self] at hm1 hm2
        subst hm1; subst hm2
        exact hnS hb'
      · obtain ⟨t1, t2⟩ := o2 hne e hu
        rcases hm1 with rfl | rfl <;> rcases hm2 with rfl | rfl
        · exact t1 hb'
        · exact hnS hb'
        · exact hnS hb'.symm
        · exact t2 hb'
    obtain ⟨h', k1, k2⟩ := reorderEdges_ok c.wf (by rw [c.nn]; omega) hp htr
    refine ⟨h', ?_, ?_⟩
    · rw [if_pos ho, M.bind_ok k1]; rfl
    · rw [if_neg ho]; exact c.reorder k2

/-- `contract_between` sums over all edges shared by the two nodes. -/
theorem contractBetween_ok [CommSemiring R] {h : Heap R} (w : WF h) (fo : FlatOrder)
    {n1 n2 : NId} (hn1 : n1 < h.nn) (hn2 : n2 < h.nn) {allow : Bool}
    {order : Option (List EId)}
    (hsh : (∃ e, InUse h e ∧ Between h n1 n2 e) ∨ (n1 ≠ n2 ∧ allow = true))
    (hord : order.getD [] ≠ [] → (order.getD []).Perm (([n1, n2].dedup.flatMap
      (fun n => (h.node n).edges)).filter (fun e => ¬ sharesBoth (h.edge e) n1 n2)) ∧
      (n1 ≠ n2 → ∀ e, InUse h e → ¬ Between h n1 n1 e ∧ ¬ Between h n2 n2 e)) :
    ∃ S h', contractBetween fo n1 n2 allow order h = (.ok h.nn, h') ∧ S.Nodup ∧
      (∀ e, e ∈ S ↔ InUse h e ∧ Between h n1 n2 e) ∧
      Contracted h h' [n1, n2].dedup h.nn S
        (if order.getD [] = [] then
          ([n1, n2].dedup.flatMap (fun n => (h.node n).edges)).filter (fun e => e ∉ S)
        else order.getD []) := by
  by_cases hne : n1 = n2
  · subst hne
    have hd : [n1, n1].dedup = [n1] := by simp
    rcases contractBetween_self w fo hn1 (allow := allow) (order := order) with ⟨h1, _⟩ | h1
    · rcases hsh with h2 | h2
      · exact absurd h2 h1
      · exact absurd rfl h2.1
    · obtain ⟨_, S, hm, h2, h3, h4, h5⟩ := h1
      have hfl : ([n1, n1].dedup.flatMap (fun n => (h.node n).edges)).filter (fun e => e ∉ S) =
          (h.node n1).edges.filter (fun e => e ∉ S) := by rw [hd]; simp
      have h4 : Contracted h hm [n1, n1].dedup h.nn S (([n1, n1].dedup.flatMap
          (fun n => (h.node n).edges)).filter (fun e => e ∉ S)) := by
        rw [hfl]; rw [hd]; exact h4
      obtain ⟨h', k1, k2⟩ := h4.finish w hn1 hn1 h3 hord
      exact ⟨S, h', by rw [h5, k1], h2, h3, k2⟩
  · have hd : [n1, n2].dedup = [n1, n2] := by
      rw [List.dedup_eq_self]; simp [hne]
    by_cases hs : ∃ e, InUse h e ∧ Between h n1 n2 e
    · rcases contractBetween_pair w fo hne hn1 hn2 (allow := allow) (order := order) hs with
        ⟨h1, _⟩ | h1
      · exfalso
        obtain ⟨e, he, h2⟩ := h1
        obtain ⟨o1, o2⟩ := hord (by intro h3; rw [h3] at he; simp at he)
        have he2 := o1.mem_iff.1 he
        rw [hd, List.mem_filter] at he2
        obtain ⟨he3, he4⟩ := he2
        obtain ⟨n, hn, hen⟩ := List.mem_flatMap.1 he3
        have hnlt : n < h.nn := by
          simp only [List.mem_cons, List.not_mem_nil, or_false] at hn
          rcases hn with rfl | rfl <;> assumption
        have hu := inUse_of_mem hnlt hen
        rcases h2 with h2 | h2
        · have := (sharesBoth_iff (w.good hu)).2 h2.2
          simp [this] at he4
        · have h3 := h2 n hn
          have h4 := (w.mem_ends hu).2 (at_of_mem hnlt hen)
          rcases w.good hu with ⟨m, a, hr⟩ | ⟨m1, a, m2, b, hr⟩
          · rw [hr] at h3 h4
            simp only [ends_dang, Multiset.mem_singleton] at h4
            have := congrArg Prod.fst h4
            simp only at this
            subst this
            exact h3.1 rfl
          · rw [hr] at h3 h4
            simp only [ends_conn, Multiset.insert_eq_cons, Multiset.mem_cons,
              Multiset.mem_singleton] at h4
            rcases h4 with h4 | h4
            · have := congrArg Prod.fst h4
              simp only at this
              subst this
              exact h3.1 rfl
            · have := congrArg Prod.fst h4
              simp only at this
              subst this
              exact h3.2 rfl
      · obtain ⟨_, S, N, hm, h2, h3, h4, h5, h6, h7⟩ := h1
        have hNlt : ∀ n ∈ N, n < h.nn := by
          intro n hn
          have hn := h4.mem_iff.1 hn
          simp only [List.mem_cons, List.not_mem_nil, or_false] at hn
          rcases hn with rfl | rfl <;> assumption
        have c := (h6.contracted hNlt).swap w (N' := [n1, n2].dedup) (by rw [hd]; exact h4) hNlt
        obtain ⟨h', k1, k2⟩ := c.finish w hn1 hn2 h3 hord
        refine ⟨S, h', by rw [h7, k1], h2, h3, ?_⟩
        by_cases ho : order.getD [] = []
        · rw [if_pos ho] at k2 ⊢
          rw [h5 ho] at k2
          rw [hd] at k2 ⊢
          exact k2
        · rw [if_neg ho] at k2 ⊢
          exact k2
    · rcases contractBetween_outer w fo hne hn1 hn2 (allow := allow) (order := order) hs with
        ⟨h1, _⟩ | h1
      · rcases hsh with h2 | h2
        · exact absurd h2 hs
        · rw [h1] at h2; simp at h2
      · obtain ⟨_, hm, h2, h3⟩ := h1
        have hS : ∀ e, e ∈ ([] : List EId) ↔ InUse h e ∧ Between h n1 n2 e := by
          intro e
          simp only [List.not_mem_nil, false_iff]
          exact fun h4 => hs ⟨e, h4⟩
        have c := h2.contracted (by simp [hn1, hn2])
        rw [← hd] at c
        obtain ⟨h', k1, k2⟩ := c.finish w hn1 hn2 hS hord
        exact ⟨[], h', by rw [h3, k1], List.nodup_nil, hS, k2⟩

end TN.Graph
