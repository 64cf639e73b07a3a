import Verif.GraphReach
import Verif.GraphProps5
import Mathlib.Tactic.IntervalCases

/-!
# Eliminating identities from a network (C42)

Model of `eliminate_identities` (quantum/quantum.py:107-144) on the heap of nodes and edges, and what
one round of its loop does.

Which nodes are of class `CopyNode` is the parameter `copy`; that such a node of rank two holds the
identity matrix is a hypothesis of the theorems (`CopyNode._make_copy_tensor`,
network_components.py:795-800).  The order in which the set of nodes is visited is the order of the
list.
-/

set_option linter.unusedSectionVars false

namespace TN.Graph

open TN Finset

variable {R : Type} [CommSemiring R]

/-- The dictionary of the remaining nodes and the dictionary of the dangling edges. -/
structure ElimState where
  nodes : List (NId × NId)
  edges : EId → Option EId

/-- The branch for all other nodes (quantum/quantum.py:139-142). -/
def keepStep (n : NId) (s : ElimState) : M R ElimState := do
  let h ← M.get
  pure ⟨s.nodes ++ [(n, n)],
    fun e => if e ∈ (h.node n).edges ∧ (h.edge e).dangling = true then some e else s.edges e⟩

/-- The branch for a connected identity (quantum/quantum.py:125-138). -/
def dropStep (n : NId) (a b : EId) (s : ElimState) : M R ElimState := do
  let new ← removeNode n
  match new.lookup 0, new.lookup 1 with
  | some e0, some e1 => do
    let _ ← connect e0 e1
    pure s
  | some e0, none => pure { s with edges := Function.update s.edges b (some e0) }
  | none, some e1 => pure { s with edges := Function.update s.edges a (some e1) }
  | none, none => do
    let h ← M.get
    match ((h.node n).tensor.shape)[0]? with
    | none => M.throw .indexError
    | some d => do
      let m ← newNode ⟨[], fun _ => ((d : Nat) : R)⟩
      pure { s with nodes := s.nodes ++ [(n, m)] }

/-- The body of the loop (quantum/quantum.py:121-142). -/
def elimStep (copy : NId → Bool) (n : NId) (s : ElimState) : M R ElimState := do
  let h ← M.get
  match copy n, (h.node n).edges with
  | true, [a, b] =>
    if (h.edge a).dangling = true ∧ (h.edge b).dangling = true then keepStep n s
    else dropStep n a b s
  | _, _ => keepStep n s

/-- The loop. -/
def elimLoop (copy : NId → Bool) : List NId → ElimState → M R ElimState
  | [], s => pure s
  | n :: ns, s => do
    let s' ← elimStep copy n s
    elimLoop copy ns s'

/-- `eliminate_identities(nodes)` (quantum/quantum.py:107-144). -/
def eliminateIdentities (copy : NId → Bool) (nodes : List NId) : M R ElimState :=
  elimLoop copy nodes ⟨[], fun _ => none⟩

/-! ### Networks -/

section net
variable {L : Type*} [DecidableEq L] {dim : L → Nat}

theorem netVal_congr {net : List (NDArray R × List L)} {σ τ : L → Nat}
    (h : ∀ l ∈ flatL net, σ l = τ l) : netVal net σ = netVal net τ := by
  unfold netVal
  exact sumOver_dependsOn (prodVal_dependsOn net) σ τ fun l hl => h l (List.mem_filter.1 hl).1

/-- An array whose labels occur nowhere else. -/
theorem netVal_cons_open {p : NDArray R × List L} {net : List (NDArray R × List L)}
    (hc : Consistent dim (p :: net)) (hp : p.2.Nodup) (hd : ∀ l ∈ p.2, l ∉ flatL net) (σ : L → Nat) :
    netVal (p :: net) σ = val p.1 p.2 σ * netVal net σ := by
  have hc' : Consistent dim net := fun q hq => hc q (List.mem_cons_of_mem _ hq)
  rw [netVal_eq hc, netVal_eq hc']
  have hperm : (closedL (p :: net)).Perm (closedL net) := by
    rw [List.perm_ext_iff_of_nodup (closedL_nodup _) (closedL_nodup _)]
    intro l
    rw [mem_closedL, mem_closedL, flatL_cons, List.count_append]
    by_cases hl : l ∈ p.2
    · rw [List.count_eq_one_of_mem hp hl, List.count_eq_zero_of_not_mem (hd l hl)]
      omega
    · rw [List.count_eq_zero_of_not_mem hl, Nat.zero_add]
  rw [sumOver_perm hperm]
  have : prodVal (p :: net) = fun τ => val p.1 p.2 τ * prodVal net τ := by
    funext τ; rw [prodVal_cons]
  rw [this]
  refine sumOver_mul_left (dependsOn_val _ _) fun l hl hcl => hd l hl ?_
  rw [mem_closedL] at hcl
  exact List.count_pos_iff.1 (by omega)

end net

/-! ### Cutting one edge of the node -/

/-- The body of the loop of `remove_node` (network_operations.py:120-126). -/
def cutBody (n : NId) (i : Nat) : M R (Option (Nat × EId)) := do
  let cur ← nodeEdges n
  match cur[i]? with
  | none => M.throw .indexError
  | some e => do
    let d ← isDangling e
    if d then pure none
    else do
      let t ← isTrace e
      if t then pure none
      else do
        let (f1, f2) ← disconnect e
        let m ← node1 f1
        pure (some (i, if m ≠ n then f1 else f2))

theorem removeNode_two {n : NId} {h h1 h2 : Heap R} {r0 r1 : Option (Nat × EId)}
    (hl : (h.node n).edges.length = 2) (c0 : cutBody n 0 h = (.ok r0, h1))
    (c1 : cutBody n 1 h1 = (.ok r1, h2)) :
    removeNode n h = (.ok ([r0, r1].filterMap id), h2) := by
  unfold removeNode
  rw [M.bind_ok (nodeEdges_eq n), hl]
  have : M.mapEach (List.range 2) (cutBody n) h = (.ok [r0, r1], h2) := by
    have e : List.range 2 = [0, 1] := rfl
    rw [e, M.mapEach_cons, M.bind_ok c0]
    refine (M.bind_ok (a := [r1]) (h' := h2) ?_).trans rfl
    rw [M.mapEach_cons, M.bind_ok c1]
    rfl
  exact (M.bind_ok this).trans rfl

/-- `h'` is `h` after the edge between axis `i` of `n` and axis `k` of `m` was cut into the dangling
edges `x` and `g`. -/
structure CutOne (h h' : Heap R) (n i m k : Nat) (x g : EId) : Prop where
  wf : WF h'
  nn : h'.nn = h.nn
  ne : h.ne ≤ h'.ne
  tensor : ∀ n < h.nn, (h'.node n).tensor = (h.node n).tensor
  slots : ∀ s f, At h' s f ↔ if s = (n, i) then f = x else if s = (m, k) then f = g else At h s f
  fx : h.ne ≤ x
  fg : h.ne ≤ g
  xg : x ≠ g
  rx : h'.edge x = .dang n i
  rg : h'.edge g = .dang m k
  record : ∀ f < h.ne, h'.edge f = h.edge f
  dim : edim h' x = dimAt h (n, i)
  value : ∀ ns : List NId, ns.Nodup → (∀ n ∈ ns, n < h.nn) → n ∈ ns → m ∈ ns → ∀ σ : EId → Nat,
    netVal (netOf h ns) σ = ∑ v ∈ range (dimAt h (n, i)),
      netVal (netOf h' ns) (Function.update (Function.update σ x v) g v)

theorem dimAt_congr {h h' : Heap R} {s : Slot} (ht : (h'.node s.1).tensor = (h.node s.1).tensor) :
    dimAt h' s = dimAt h s := by
  simp only [dimAt, Heap.shape, ht]

theorem cut_one {h : Heap R} (w : WF h) {n i m k : Nat} {e : EId} (hs : At h (n, i) e)
    (c : Crosses h n i m k e) :
    ∃ h' x g, cutBody n i h = (.ok (some (i, g)), h') ∧ CutOne h h' n i m k x g := by
  have hm : At h (m, k) e := (c.at w hs.inUse).2 (.inr rfl)
  obtain ⟨n1, a1, n2, a2, hr, hsl⟩ : ∃ n1 a1 n2 a2, h.edge e = .conn n1 a1 n2 a2 ∧
      (((n1, a1) = (n, i) ∧ (n2, a2) = (m, k)) ∨ ((n1, a1) = (m, k) ∧ (n2, a2) = (n, i))) := by
    rcases c.2 with hr | hr
    · exact ⟨_, _, _, _, hr, .inl ⟨rfl, rfl⟩⟩
    · exact ⟨_, _, _, _, hr, .inr ⟨rfl, rfl⟩⟩
  obtain ⟨h', d1, d2, d3, d4, d5, d6, d7, d8, d9⟩ := disconnect_at w hs.inUse hr
  obtain ⟨h'', k1, _, _, _, _, _, k7⟩ := disconnect_ok w hs.inUse (by rw [hr])
  obtain rfl : h' = h'' := (Prod.mk.inj (d1.symm.trans k1)).2
  have hn12 : n1 ≠ n2 := by
    rcases hsl with ⟨h1, h2⟩ | ⟨h1, h2⟩
    · rw [(Prod.mk.inj h1).1, (Prod.mk.inj h2).1]; exact c.1.symm
    · rw [(Prod.mk.inj h1).1, (Prod.mk.inj h2).1]; exact c.1
  have htr : isTrace e h = (.ok false, h) := by
    unfold isTrace
    rw [M.bind_ok (node1_conn hr), M.bind_ok (node2_conn hr)]
    simp [hn12]
  have hrun : cutBody n i h = (.ok (some (i, if n1 ≠ n then h.ne else h.ne + 1)), h') := by
    unfold cutBody
    rw [M.bind_ok (nodeEdges_eq n), hs.2]
    dsimp only
    rw [M.bind_ok isDangling_eq, hr, if_neg (by simp), M.bind_ok htr, if_neg (by simp)]
    refine (M.bind_ok d1).trans ?_
    refine (M.bind_ok (node1_dang d7)).trans ?_
    rfl
  have at1 : At h' (n1, a1) h.ne := (d9 _ _).2 (by rw [if_pos rfl])
  have hne' : (n2, a2) ≠ (n1, a1) := fun h1 => hn12 (Prod.mk.inj h1).1.symm
  have at2 : At h' (n2, a2) (h.ne + 1) := (d9 _ _).2 (by rw [if_neg hne', if_pos rfl])
  have hdim1 : edim h' h.ne = dimAt h (n1, a1) := by
    rw [d2.edim_eq at1]
    have h1 : n1 < h.nn := d3 ▸ at1.1
    exact dimAt_congr (d4 _ h1)
  have hdim2 : edim h' (h.ne + 1) = dimAt h (n2, a2) := by
    rw [d2.edim_eq at2]
    have h1 : n2 < h.nn := d3 ▸ at2.1
    exact dimAt_congr (d4 _ h1)
  have hdd : dimAt h (n1, a1) = dimAt h (n2, a2) := by
    rw [← w.edim_eq ((at_conn w hs.inUse hr).2 (.inl rfl)), ← w.edim_eq ((at_conn w hs.inUse hr).2 (.inr rfl))]
  have hval : ∀ ns : List NId, ns.Nodup → (∀ n ∈ ns, n < h.nn) → n1 ∈ ns → n2 ∈ ns → ∀ σ : EId → Nat,
      netVal (netOf h ns) σ = ∑ v ∈ range (dimAt h (n1, a1)),
        netVal (netOf h' ns) (Function.update (Function.update σ h.ne v) (h.ne + 1) v) := by
    intro ns hnd hlt h1 h2 σ
    have := k7.value ns hnd (by rw [d3]; exact hlt)
      (mem_flat_netOf.2 ⟨n1, h1, at1.mem⟩) (mem_flat_netOf.2 ⟨n2, h2, at2.mem⟩) σ
    rw [hdim1] at this
    exact this
  rcases hsl with ⟨h1, h2⟩ | ⟨h1, h2⟩
  · obtain ⟨rfl, rfl⟩ := Prod.mk.inj h1
    obtain ⟨rfl, rfl⟩ := Prod.mk.inj h2
    refine ⟨h', h.ne, h.ne + 1, by simpa using hrun, d2, d3, by omega, d4, d9, le_rfl, by omega, by omega,
      d7, d8, d6, hdim1, hval⟩
  · obtain ⟨rfl, rfl⟩ := Prod.mk.inj h1
    obtain ⟨rfl, rfl⟩ := Prod.mk.inj h2
    refine ⟨h', h.ne + 1, h.ne, by rw [hrun, if_pos c.1], d2, d3, by omega, d4, ?_, by omega, le_rfl, by omega,
      d8, d7, d6, hdim2, ?_⟩
    · intro s f
      rw [d9]
      by_cases s1 : s = (n1, a1)
      · rw [if_pos s1, if_neg (by rw [s1]; exact hne'.symm), if_pos s1]
      · rw [if_neg s1, if_neg s1]
    · intro ns hnd hlt m1 m2 σ
      rw [hval ns hnd hlt m2 m1 σ, hdd]
      refine Finset.sum_congr rfl fun v _ => ?_
      rw [Function.update_comm (by omega)]

theorem cut_none {h : Heap R} {n i : Nat} {e : EId} (hs : At h (n, i) e)
    (c : (h.edge e).dangling = true ∨ ∃ a b, h.edge e = .conn n a n b) :
    cutBody n i h = (.ok none, h) := by
  unfold cutBody
  rw [M.bind_ok (nodeEdges_eq n), hs.2]
  dsimp only
  rw [M.bind_ok isDangling_eq]
  rcases c with hd | ⟨a, b, hr⟩
  · rw [hd]; rfl
  · rw [hr, if_neg (by simp)]
    have htr : isTrace e h = (.ok true, h) := by
      unfold isTrace
      rw [M.bind_ok (node1_conn hr), M.bind_ok (node2_conn hr)]
      simp
    rw [M.bind_ok htr, if_pos rfl]
    rfl

/-! ### What the elimination must keep -/

/-- The array is the identity matrix. -/
def IsDelta (t : NDArray R) (d : Nat) : Prop :=
  t.shape = [d, d] ∧ ∀ i < d, ∀ j < d, t.get [i, j] = if i = j then 1 else 0

/-- A dangling edge of the nodes. -/
def OpenEdge (h : Heap R) (N : List NId) (e : EId) : Prop :=
  (h.edge e).dangling = true ∧ ∃ s : Slot, s.1 ∈ N ∧ At h s e

/-- The nodes are connected to no other nodes. -/
def ClosedNet (h : Heap R) (N : List NId) : Prop :=
  ∀ s s' : Slot, ∀ e, At h s e → At h s' e → s.1 ∈ N → s'.1 ∈ N

/-- The nodes `N'` of `h'` are the same network as the nodes `N` of `h`, with the dangling edges
renamed by `ren`. -/
structure SameNet (h h' : Heap R) (N N' : List NId) (ren : EId → EId) : Prop where
  wf : WF h'
  nn : h.nn ≤ h'.nn
  ne : h.ne ≤ h'.ne
  lt : ∀ n ∈ N', n < h'.nn
  nodup : N'.Nodup
  closed : ClosedNet h' N'
  tensor : ∀ n < h.nn, (h'.node n).tensor = (h.node n).tensor
  maps : ∀ e, OpenEdge h N e → OpenEdge h' N' (ren e) ∧ edim h' (ren e) = edim h e
  inj : ∀ e f, OpenEdge h N e → OpenEdge h N f → ren e = ren f → e = f
  onto : ∀ f, OpenEdge h' N' f → ∃ e, OpenEdge h N e ∧ ren e = f
  old : ∀ e, OpenEdge h N e → ren e = e ∨ h.ne ≤ ren e
  value : ∀ σ : EId → Nat, (∀ f, OpenEdge h' N' f → σ f < edim h' f) →
    netVal (netOf h' N') σ = netVal (netOf h N) (fun e => σ (ren e))

theorem SameNet.refl {h : Heap R} (w : WF h) {N : List NId} (hlt : ∀ n ∈ N, n < h.nn) (hnd : N.Nodup)
    (hc : ClosedNet h N) : SameNet h h N N id :=
  ⟨w, le_rfl, le_rfl, hlt, hnd, hc, fun _ _ => rfl, fun _ he => ⟨he, rfl⟩, fun _ _ _ _ h => h,
    fun f hf => ⟨f, hf, rfl⟩, fun _ _ => .inl rfl, fun _ _ => rfl⟩

theorem SameNet.trans {h h' h'' : Heap R} {N N' N'' : List NId} {r r' : EId → EId} (a : SameNet h h' N N' r)
    (b : SameNet h' h'' N' N'' r') : SameNet h h'' N N'' (fun e => r' (r e)) where
  wf := b.wf
  nn := a.nn.trans b.nn
  ne := a.ne.trans b.ne
  lt := b.lt
  nodup := b.nodup
  closed := b.closed
  tensor n hn := (b.tensor n (lt_of_lt_of_le hn a.nn)).trans (a.tensor n hn)
  maps e he := by
    obtain ⟨h1, h2⟩ := a.maps e he
    obtain ⟨h3, h4⟩ := b.maps _ h1
    exact ⟨h3, h4.trans h2⟩
  inj e f he hf hef := a.inj e f he hf (b.inj _ _ (a.maps e he).1 (a.maps f hf).1 hef)
  onto f hf := by
    obtain ⟨e, h1, rfl⟩ := b.onto f hf
    obtain ⟨e', h2, rfl⟩ := a.onto e h1
    exact ⟨e', h2, rfl⟩
  old e he := by
    rcases b.old _ (a.maps e he).1 with h1 | h1
    · rcases a.old e he with h2 | h2
      · exact .inl (by rw [h1, h2])
      · exact .inr (by rw [h1]; exact h2)
    · exact .inr (a.ne.trans h1)
  value σ hσ := by
    rw [b.value σ hσ, a.value]
    intro f hf
    obtain ⟨h1, h2⟩ := b.maps f hf
    rw [← h2]
    exact hσ _ h1

theorem edges_two {h : Heap R} {n a b : Nat} (hl : (h.node n).edges.length = 2) (ha : At h (n, 0) a)
    (hb : At h (n, 1) b) : (h.node n).edges = [a, b] := by
  obtain ⟨x, y, hxy⟩ := List.length_eq_two.1 hl
  have h1 := ha.2
  have h2 := hb.2
  simp only [hxy] at h1 h2 ⊢
  simp at h1 h2
  rw [h1, h2]

/-- An identity with two dangling edges is a factor. -/
theorem netVal_delta {h : Heap R} (w : WF h) {N N' : List NId} {n x y d : Nat} (hlt : ∀ m ∈ N, m < h.nn)
    (hnd : N.Nodup) (hp : N.Perm (n :: N')) (hx : At h (n, 0) x) (hy : At h (n, 1) y)
    (rx : h.edge x = .dang n 0) (ry : h.edge y = .dang n 1) (hd : IsDelta (h.node n).tensor d) {τ : EId → Nat}
    (tx : τ x < d) (ty : τ y < d) :
    netVal (netOf h N) τ = (if τ x = τ y then 1 else 0) * netVal (netOf h N') τ := by
  have hc := w.consistent hlt
  have hl : (h.node n).edges.length = 2 := by rw [w.len n hx.1, NDArray.ndim, hd.1]; rfl
  have he := edges_two hl hx hy
  have hnp := hp.nodup hnd
  have hxy : x ≠ y := by
    rintro rfl
    rw [rx] at ry
    simp at ry
  rw [netVal_perm (netOf_perm h hp) hc]
  have hc' := hc.perm (netOf_perm h hp)
  have hdis : ∀ l ∈ (h.node n).edges, l ∉ flatL (netOf h N') := by
    intro l hl' hm
    obtain ⟨m, hm1, hm2⟩ := mem_flat_netOf.1 hm
    have hmlt : m < h.nn := hlt m (hp.mem_iff.2 (List.mem_cons_of_mem _ hm1))
    have hat := at_of_mem hmlt hm2
    have : m = n := by
      rw [he] at hl'
      simp only [List.mem_cons, List.not_mem_nil, or_false] at hl'
      rcases hl' with rfl | rfl
      · exact (Prod.mk.inj ((at_dang w hx.inUse rx).1 hat)).1
      · exact (Prod.mk.inj ((at_dang w hy.inUse ry).1 hat)).1
    subst this
    exact (List.nodup_cons.1 hnp).1 hm1
  have := netVal_cons_open (p := ((h.node n).tensor, (h.node n).edges)) (net := netOf h N') hc'
    (by simp only [he]; simp [hxy]) hdis τ
  refine Eq.trans this ?_
  congr 1
  simp only [val, he, List.map_cons, List.map_nil]
  exact hd.2 _ tx _ ty

theorem perm_mem {N N' : List NId} {n : NId} (hp : N.Perm (n :: N')) (hnd : N.Nodup) {m : NId} :
    m ∈ N' ↔ m ∈ N ∧ m ≠ n := by
  have h1 := hp.nodup hnd
  have h2 := (List.nodup_cons.1 h1).1
  rw [hp.mem_iff, List.mem_cons]
  constructor
  · intro h3
    exact ⟨.inr h3, fun h4 => h2 (h4 ▸ h3)⟩
  · rintro ⟨h3 | h3, h4⟩
    · exact absurd h3 h4
    · exact h3

/-- Slots of the heap in which two dangling edges were joined. -/
theorem Joined.slots {h h' : Heap R} (w : WF h) {a b c : EId} (j : Joined h h' a b c) {sa sb : Slot}
    (ra : h.edge a = .dang sa.1 sa.2) (rb : h.edge b = .dang sb.1 sb.2) (ha : InUse h a) (hb : InUse h b)
    (s : Slot) (f : EId) :
    At h' s f ↔ if s = sa ∨ s = sb then f = c else At h s f := by
  have haa : At h sa a := (at_dang w ha ra).2 rfl
  have hbb : At h sb b := (at_dang w hb rb).2 rfl
  have key : At h' s f ↔ ∃ e, At h s e ∧ glue a b c e = f := by
    unfold At
    rw [j.nn]
    constructor
    · rintro ⟨h1, h2⟩
      rw [(j.nodes s.1 h1).2, List.getElem?_map, Option.map_eq_some_iff] at h2
      obtain ⟨e, h3, h4⟩ := h2
      exact ⟨e, ⟨h1, h3⟩, h4⟩
    · rintro ⟨e, ⟨h1, h3⟩, h4⟩
      refine ⟨h1, ?_⟩
      rw [(j.nodes s.1 h1).2, List.getElem?_map, h3]
      simp [h4]
  rw [key]
  by_cases hs : s = sa ∨ s = sb
  · rw [if_pos hs]
    constructor
    · rintro ⟨e, h1, h2⟩
      have : e = a ∨ e = b := by
        rcases hs with rfl | rfl
        · exact .inl (h1.unique haa)
        · exact .inr (h1.unique hbb)
      rw [← h2, glue, if_pos this]
    · rintro rfl
      rcases hs with rfl | rfl
      · exact ⟨a, haa, by simp [glue]⟩
      · exact ⟨b, hbb, by simp [glue]⟩
  · rw [if_neg hs]
    constructor
    · rintro ⟨e, h1, h2⟩
      have : ¬ (e = a ∨ e = b) := by
        rintro (rfl | rfl)
        · exact hs (.inl ((at_dang w ha ra).1 h1))
        · exact hs (.inr ((at_dang w hb rb).1 h1))
      rw [glue, if_neg this] at h2
      exact h2 ▸ h1
    · intro h1
      refine ⟨f, h1, ?_⟩
      have : ¬ (f = a ∨ f = b) := by
        rintro (rfl | rfl)
        · exact hs (.inl ((at_dang w ha ra).1 h1))
        · exact hs (.inr ((at_dang w hb rb).1 h1))
      rw [glue, if_neg this]

theorem sum_delta (d v : Nat) (hv : v < d) (f : Nat → R) :
    ∑ j ∈ range d, (if v = j then 1 else 0) * f j = f v := by
  rw [Finset.sum_eq_single v]
  · simp
  · intro j _ hj
    rw [if_neg (Ne.symm hj), zero_mul]
  · intro h1
    exact absurd (mem_range.2 hv) h1

/-- How the slots change when the node `n` is dropped: the axes `S` get the new edge `c`. -/
structure Dropped (h h' : Heap R) (n : NId) (S : Slot → Prop) (c : EId) : Prop where
  record : ∀ e < h.ne, h'.edge e = h.edge e
  slots : ∀ t f, t.1 ≠ n → (At h' t f ↔ (S t ∧ f = c) ∨ (¬ S t ∧ At h t f))
  fresh : h.ne ≤ c
  own : ∀ i f, At h' (n, i) f → h.ne ≤ f ∨ At h (n, i) f
  closed : ∀ t e, S t → At h t e → (h.edge e).dangling = false ∧ ∃ i, At h (n, i) e
  other : ∀ t, S t → t.1 ≠ n

/-- An identity between two other nodes: its neighbours are joined. -/
theorem drop_both {h : Heap R} (w : WF h) {N N' : List NId} {n d m0 k0 m1 k1 : Nat} {a b : EId}
    (hlt : ∀ m ∈ N, m < h.nn) (hnd : N.Nodup) (hcl : ClosedNet h N) (hp : N.Perm (n :: N'))
    (ha : At h (n, 0) a) (hb : At h (n, 1) b) (hd : IsDelta (h.node n).tensor d)
    (ca : Crosses h n 0 m0 k0 a) (cb : Crosses h n 1 m1 k1 b) (s : ElimState) :
    ∃ h' c, dropStep n a b s h = (.ok s, h') ∧ SameNet h h' N N' id ∧
      Dropped h h' n (fun t => t = (m0, k0) ∨ t = (m1, k1)) c ∧ (h'.edge c).dangling = false := by
  have hnN : n ∈ N := hp.mem_iff.2 (by simp)
  have hl : (h.node n).edges.length = 2 := by rw [w.len n ha.1, NDArray.ndim, hd.1]; rfl
  have hma : At h (m0, k0) a := (ca.at w ha.inUse).2 (.inr rfl)
  have hmb : At h (m1, k1) b := (cb.at w hb.inUse).2 (.inr rfl)
  have hm0 : m0 ∈ N := hcl _ _ a ha hma hnN
  have hm1 : m1 ∈ N := hcl _ _ b hb hmb hnN
  have hab : a ≠ b := by
    rintro rfl
    rcases (ca.at w ha.inUse).1 hb with h1 | h1
    · simp at h1
    · exact ca.1 (Prod.mk.inj h1).1.symm
  have hslne : (m0, k0) ≠ (m1, k1) := by
    intro h1
    rw [h1] at hma
    exact hab (hma.unique hmb)
  have hn0 : ∀ i k : Nat, ((n, i) : Slot) ≠ (m0, k) := fun i k h1 => ca.1 (Prod.mk.inj h1).1.symm
  have hn1 : ∀ i k : Nat, ((n, i) : Slot) ≠ (m1, k) := fun i k h1 => cb.1 (Prod.mk.inj h1).1.symm
  have h01 : ((n, 0) : Slot) ≠ (n, 1) := by simp
  obtain ⟨h1, x0, g0, r0, c0⟩ := cut_one w ha ca
  have hb1 : At h1 (n, 1) b := (c0.slots _ _).2 (by rw [if_neg h01.symm, if_neg (hn0 1 k0)]; exact hb)
  have cb1 : Crosses h1 n 1 m1 k1 b := ⟨cb.1, by rw [c0.record b (w.lt hb.inUse)]; exact cb.2⟩
  obtain ⟨h2, x1, g1, r1, c1⟩ := cut_one c0.wf hb1 cb1
  have hrun := removeNode_two hl r0 r1
  have at0 : At h1 (n, 0) x0 := (c0.slots _ _).2 (by rw [if_pos rfl])
  have atg0 : At h1 (m0, k0) g0 := (c0.slots _ _).2 (by rw [if_neg (hn0 0 k0).symm, if_pos rfl])
  have at0' : At h2 (n, 0) x0 := (c1.slots _ _).2 (by rw [if_neg h01, if_neg (hn1 0 k1)]; exact at0)
  have at1' : At h2 (n, 1) x1 := (c1.slots _ _).2 (by rw [if_pos rfl])
  have atg0' : At h2 (m0, k0) g0 := (c1.slots _ _).2 (by rw [if_neg (hn0 1 k0).symm, if_neg hslne]; exact atg0)
  have atg1' : At h2 (m1, k1) g1 := (c1.slots _ _).2 (by rw [if_neg (hn1 1 k1).symm, if_pos rfl])
  have l0 := c0.wf.lt at0.inUse
  have lg0 := c0.wf.lt atg0.inUse
  have rg0 : h2.edge g0 = .dang m0 k0 := by rw [c1.record _ lg0]; exact c0.rg
  have rx0 : h2.edge x0 = .dang n 0 := by rw [c1.record _ l0]; exact c0.rx
  have fx1 := c1.fx
  have fg1 := c1.fg
  have fx0 := c0.fx
  have fg0 := c0.fg
  have hne1 := c0.ne
  have hne2 := c1.ne
  have hg01 : g0 ≠ g1 := by omega
  have ht1 : ∀ m < h.nn, (h2.node m).tensor = (h.node m).tensor := fun m hm =>
    (c1.tensor m (by rw [c0.nn]; exact hm)).trans (c0.tensor m hm)
  have hdn : ∀ i < 2, dimAt h (n, i) = d := by
    intro i hi
    simp only [dimAt, Heap.shape, hd.1]
    interval_cases i <;> rfl
  have hm0lt := hlt m0 hm0
  have hm1lt := hlt m1 hm1
  have hnlt := hlt n hnN
  have dg0 : edim h2 g0 = d := by
    rw [c1.wf.edim_eq atg0', dimAt_congr (ht1 _ hm0lt), ← w.edim_eq hma, w.edim_eq ha, hdn 0 (by omega)]
  have dg1 : edim h2 g1 = d := by
    rw [c1.wf.edim_eq atg1', dimAt_congr (ht1 _ hm1lt), ← w.edim_eq hmb, w.edim_eq hb, hdn 1 (by omega)]
  obtain ⟨h3, j1, j2, j3, j4⟩ := connect_ok c1.wf atg0'.inUse atg1'.inUse (by rw [rg0]) (by rw [c1.rg]) hg01
    (dg0.trans dg1.symm)
  have sl := j2.slots c1.wf (sa := (m0, k0)) (sb := (m1, k1)) rg0 c1.rg atg0'.inUse atg1'.inUse
  -- slots of the final heap
  have sl3 : ∀ t f, t.1 ≠ n → (At h3 t f ↔ if t = (m0, k0) ∨ t = (m1, k1) then f = h2.ne else At h t f) := by
    intro t f ht
    have q0 : t ≠ (n, 0) := fun h4 => ht (congrArg Prod.fst h4)
    have q1 : t ≠ (n, 1) := fun h4 => ht (congrArg Prod.fst h4)
    rw [sl]
    by_cases hc : t = (m0, k0) ∨ t = (m1, k1)
    · rw [if_pos hc, if_pos hc]
    · rw [if_neg hc, if_neg hc, c1.slots, if_neg q1, if_neg (fun h4 => hc (.inr h4)), c0.slots, if_neg q0,
        if_neg (fun h4 => hc (.inl h4))]
  have sln : ∀ i f, At h3 (n, i) f → f = x0 ∨ f = x1 := by
    intro i f hf
    have hlen : (h3.node n).edges.length = 2 := by
      rw [(j2.nodes n (by rw [c1.nn, c0.nn]; exact hnlt)).2, List.length_map,
        c1.wf.len n (by rw [c1.nn, c0.nn]; exact hnlt), NDArray.ndim, ht1 n hnlt, hd.1]
      rfl
    have hi := hf.lt_len
    simp only [hlen] at hi
    rw [sl, if_neg (by rintro (h4 | h4); exacts [hn0 i k0 h4, hn1 i k1 h4])] at hf
    have : i = 0 ∨ i = 1 := by omega
    rcases this with rfl | rfl
    · exact .inl (hf.unique at0')
    · exact .inr (hf.unique at1')
  have rec3 : ∀ e < h2.ne, h3.edge e = h2.edge e := fun e he => j4 e (by omega)
  have recO : ∀ e < h.ne, h3.edge e = h.edge e := fun e he => by
    rw [rec3 e (by omega), c1.record e (by omega), c0.record e he]
  have ht3 : ∀ m < h.nn, (h3.node m).tensor = (h.node m).tensor := fun m hm =>
    (j2.nodes m (by rw [c1.nn, c0.nn]; exact hm)).1.trans (ht1 m hm)
  have hnn : h3.nn = h.nn := by rw [j2.nn, c1.nn, c0.nn]
  have hcN : (h3.edge h2.ne).dangling = false := by
    obtain ⟨_, _, _, _, _, _, hc⟩ := j2.joined
    rw [hc]
  have hlt' : ∀ m ∈ N', m < h.nn := fun m hm => hlt m ((perm_mem hp hnd).1 hm).1
  have hnd' : N'.Nodup := (List.nodup_cons.1 (hp.nodup hnd)).2
  refine ⟨h3, h2.ne, ?_, ?_, ⟨recO, ?_, by omega, ?_, ?_, ?_⟩, hcN⟩
  · unfold dropStep
    rw [M.bind_ok hrun]
    simp only [List.filterMap_cons, List.filterMap_nil, id, List.lookup_cons]
    simp only [beq_self_eq_true]
    have e10 : ((1 : Nat) == 0) = false := rfl
    rw [e10]
    dsimp only
    rw [M.bind_ok j1]
    rfl
  · refine ⟨j2.wf, hnn.ge, by omega, fun m hm => by rw [hnn]; exact hlt' m hm, hnd', ?_, ht3, ?_, fun _ _ _ _ h => h,
      ?_, fun _ _ => .inl rfl, ?_⟩
    · -- closed
      intro t t' e ht ht' htN
      have q := ((perm_mem hp hnd).1 htN)
      rw [sl3 t e q.2] at ht
      by_cases hn' : t'.1 = n
      · exfalso
        have hx : e = x0 ∨ e = x1 := sln t'.2 e (by rw [← hn']; exact ht')
        split_ifs at ht with h4
        · subst ht
          have := c1.wf.lt at0'.inUse
          have := c1.wf.lt at1'.inUse
          omega
        · have := w.lt ht.inUse
          omega
      · rw [sl3 t' e hn'] at ht'
        rw [perm_mem hp hnd]
        refine ⟨?_, hn'⟩
        split_ifs at ht' with h4
        · rcases h4 with rfl | rfl
          · exact hm0
          · exact hm1
        · split_ifs at ht with h5
          · subst ht
            have := w.lt ht'.inUse
            omega
          · exact hcl _ _ e ht ht' q.1
    · -- maps
      rintro e ⟨h4, t, h5, h6⟩
      have htn : t.1 ≠ n := by
        rintro h7
        have : e = a ∨ e = b := by
          have hi := h6.lt_len
          rw [h7, hl] at hi
          have h8 : t = (n, t.2) := by rw [← h7]
          have h9 : t.2 = 0 ∨ t.2 = 1 := by omega
          rcases h9 with h9 | h9
          · rw [h8, h9] at h6
            exact .inl (h6.unique ha)
          · rw [h8, h9] at h6
            exact .inr (h6.unique hb)
        rcases this with rfl | rfl
        · rcases ca.2 with h9 | h9 <;> simp [h9] at h4
        · rcases cb.2 with h9 | h9 <;> simp [h9] at h4
      have hat : At h3 t e := by
        rw [sl3 t e htn, if_neg]
        · exact h6
        · rintro (rfl | rfl)
          · obtain rfl := h6.unique hma
            rcases ca.2 with h9 | h9 <;> simp [h9] at h4
          · obtain rfl := h6.unique hmb
            rcases cb.2 with h9 | h9 <;> simp [h9] at h4
      refine ⟨⟨by rw [id, recO e (w.lt h6.inUse)]; exact h4, t, (perm_mem hp hnd).2 ⟨h5, htn⟩, hat⟩, ?_⟩
      rw [id, j2.wf.edim_eq hat, w.edim_eq h6]
      exact dimAt_congr (ht3 _ h6.1)
    · -- onto
      rintro f ⟨h4, t, h5, h6⟩
      have q := (perm_mem hp hnd).1 h5
      rw [sl3 t f q.2] at h6
      split_ifs at h6 with h7
      · subst h6
        rw [hcN] at h4
        simp at h4
      · exact ⟨f, ⟨by rw [← recO f (w.lt h6.inUse)]; exact h4, t, q.1, h6⟩, rfl⟩
    · -- value
      intro σ _
      have hlt1 : ∀ m ∈ N, m < h1.nn := fun m hm => by rw [c0.nn]; exact hlt m hm
      have hlt2 : ∀ m ∈ N, m < h2.nn := fun m hm => by rw [c1.nn]; exact hlt1 m hm
      have dx : dimAt h1 (n, 1) = d := by rw [dimAt_congr (c0.tensor n hnlt), hdn 1 (by omega)]
      have hm0' := (perm_mem hp hnd).2 ⟨hm0, ca.1⟩
      have hm1' := (perm_mem hp hnd).2 ⟨hm1, cb.1⟩
      rw [j2.value N' hnd' (fun m hm => by rw [c1.nn, c0.nn]; exact hlt' m hm)
        (mem_flat_netOf.2 ⟨m0, hm0', atg0'.mem⟩) (mem_flat_netOf.2 ⟨m1, hm1', atg1'.mem⟩) σ, dg0,
        c0.value N hnd hlt hnN hm0, hdn 0 (by omega)]
      refine Finset.sum_congr rfl fun v hv => ?_
      have hv' := mem_range.1 hv
      rw [c1.value N hnd hlt1 hnN hm1, dx]
      have hxx : x0 ≠ x1 := by omega
      have hx0g1 : x0 ≠ g1 := by omega
      have hg0x1 : g0 ≠ x1 := by omega
      have hx0g0 := c0.xg
      have hx1g1 := c1.xg
      refine Eq.trans ?_ (Finset.sum_congr rfl fun j hj => (netVal_delta (N' := N') c1.wf hlt2 hnd hp at0' at1' rx0 c1.rx
        (d := d) (by rw [ht1 n hnlt]; exact hd) ?_ ?_).symm)
      · simp only [Function.update_self, Function.update_of_ne hxx, Function.update_of_ne hx0g1,
          Function.update_of_ne hx0g0, Function.update_of_ne hx1g1]
        rw [sum_delta d v hv']
        refine netVal_congr fun l hl' => ?_
        obtain ⟨m, hmN, hml⟩ := mem_flat_netOf.1 hl'
        have hat := at_of_mem (hlt2 m ((perm_mem hp hnd).1 hmN).1) hml
        have hlx0 : l ≠ x0 := by
          rintro rfl
          have := (at_dang c1.wf at0'.inUse rx0).1 hat
          exact ((perm_mem hp hnd).1 hmN).2 (Prod.mk.inj this).1
        have hlx1 : l ≠ x1 := by
          rintro rfl
          have := (at_dang c1.wf at1'.inUse c1.rx).1 hat
          exact ((perm_mem hp hnd).1 hmN).2 (Prod.mk.inj this).1
        by_cases e1 : l = g1
        · subst e1; simp
        · by_cases e0 : l = g0
          · subst e0
            simp [Function.update_of_ne e1, Function.update_of_ne hlx1]
          · simp [Function.update_of_ne e1, Function.update_of_ne e0, Function.update_of_ne hlx0,
              Function.update_of_ne hlx1]
      · simp [Function.update_of_ne hxx, Function.update_of_ne hx0g1, Function.update_of_ne hx0g0, hv']
      · simpa [Function.update_of_ne hx1g1] using hj
  · intro t f ht
    rw [sl3 t f ht]
    split_ifs with h4
    · simp [h4]
    · simp [h4]
  · intro i f hf
    left
    rcases sln i f hf with rfl | rfl <;> omega
  · rintro t e (rfl | rfl) hte
    · obtain rfl := hte.unique hma
      exact ⟨by rcases ca.2 with h9 | h9 <;> simp [h9], 0, ha⟩
    · obtain rfl := hte.unique hmb
      exact ⟨by rcases cb.2 with h9 | h9 <;> simp [h9], 1, hb⟩
  · rintro t (rfl | rfl)
    · exact ca.1
    · exact cb.1

/-- An identity with one dangling edge `e` (axis `j`), the other axis `i` joined to axis `k` of `m`: the
neighbour gets a dangling edge. -/
theorem drop_one {h : Heap R} (w : WF h) {N N' : List NId} {n d m k i j : Nat} {e f : EId}
    (hij : (i = 0 ∧ j = 1) ∨ (i = 1 ∧ j = 0))
    (hlt : ∀ m ∈ N, m < h.nn) (hnd : N.Nodup) (hcl : ClosedNet h N) (hp : N.Perm (n :: N'))
    (he : At h (n, j) e) (re : (h.edge e).dangling = true) (hf : At h (n, i) f)
    (hd : IsDelta (h.node n).tensor d) (c : Crosses h n i m k f) :
    ∃ h' g, removeNode n h = (.ok [(i, g)], h') ∧ SameNet h h' N N' (Function.update id e g) ∧
      Dropped h h' n (fun t => t = (m, k)) g ∧ At h' (m, k) g := by
  have hnN : n ∈ N := hp.mem_iff.2 (by simp)
  have hl : (h.node n).edges.length = 2 := by rw [w.len n he.1, NDArray.ndim, hd.1]; rfl
  have hji : j ≠ i := by omega
  have hmf : At h (m, k) f := (c.at w hf.inUse).2 (.inr rfl)
  have hmN : m ∈ N := hcl _ _ f hf hmf hnN
  have hre : h.edge e = .dang n j := by
    rcases w.good he.inUse with ⟨n', a', hr⟩ | ⟨n', a', m', b', hr⟩
    · rw [hr]
      have := (at_dang w he.inUse hr).1 he
      obtain ⟨rfl, rfl⟩ := Prod.mk.inj this
      rfl
    · rw [hr] at re; simp at re
  have hfd : (h.edge f).dangling = false := by rcases c.2 with h9 | h9 <;> simp [h9]
  obtain ⟨h1, x, g, r0, c0⟩ := cut_one w hf c
  have hnlt := hlt n hnN
  have hmlt := hlt m hmN
  have hnm : ∀ a b : Nat, ((n, a) : Slot) ≠ (m, b) := fun a b h2 => c.1 (Prod.mk.inj h2).1.symm
  have hjis : ((n, j) : Slot) ≠ (n, i) := fun h2 => hji (Prod.mk.inj h2).2
  have ate : At h1 (n, j) e := (c0.slots _ _).2 (by rw [if_neg hjis, if_neg (hnm j k)]; exact he)
  have atx : At h1 (n, i) x := (c0.slots _ _).2 (by rw [if_pos rfl])
  have atg : At h1 (m, k) g := (c0.slots _ _).2 (by rw [if_neg (hnm i k).symm, if_pos rfl])
  have hlte := w.lt he.inUse
  have re1 : h1.edge e = .dang n j := (c0.record e hlte).trans hre
  have cn1 : cutBody n j h1 = (.ok none, h1) := cut_none ate (.inl (by rw [re1]))
  have cn0 : cutBody n j h = (.ok none, h) := cut_none he (.inl re)
  have hrun : removeNode n h = (.ok [(i, g)], h1) := by
    rcases hij with ⟨rfl, rfl⟩ | ⟨rfl, rfl⟩
    · exact removeNode_two hl r0 cn1
    · exact removeNode_two hl cn0 r0
  have hdn : ∀ q < 2, dimAt h (n, q) = d := by
    intro q hq
    simp only [dimAt, Heap.shape, hd.1]
    interval_cases q <;> rfl
  have sl : ∀ t f', t.1 ≠ n → (At h1 t f' ↔ if t = (m, k) then f' = g else At h t f') := by
    intro t f' ht
    rw [c0.slots, if_neg fun h2 => ht (congrArg Prod.fst h2)]
  have own : ∀ q f', At h1 (n, q) f' → f' = x ∨ At h (n, q) f' := by
    intro q f' hq
    rw [c0.slots] at hq
    split_ifs at hq with h2 h3
    · exact .inl hq
    · exact absurd h3 (hnm q k)
    · exact .inr hq
  have ownd : ∀ q f', At h (n, q) f' → f' = e ∨ f' = f := by
    intro q f' hq
    have := hq.lt_len
    simp only [hl] at this
    have hq' : q = j ∨ q = i := by omega
    rcases hq' with rfl | rfl
    · exact .inl (hq.unique he)
    · exact .inr (hq.unique hf)
  have hfx := c0.fx
  have hfg := c0.fg
  have hxg := c0.xg
  have hlt' : ∀ m ∈ N', m < h.nn := fun m hm => hlt m ((perm_mem hp hnd).1 hm).1
  have hnd' : N'.Nodup := (List.nodup_cons.1 (hp.nodup hnd)).2
  have hmN' := (perm_mem hp hnd).2 ⟨hmN, c.1⟩
  have hmd : dimAt h (m, k) = d := by
    rw [← w.edim_eq hmf, w.edim_eq hf, hdn i (by omega)]
  have dg : edim h1 g = d := by
    rw [c0.wf.edim_eq atg, dimAt_congr (c0.tensor m hmlt), hmd]
  -- an open edge other than `e` is not at `n` or at `(m, k)`
  have hopen : ∀ e' t, (h.edge e').dangling = true → At h t e' → e' ≠ e → t.1 ≠ n ∧ t ≠ (m, k) := by
    intro e' t h2 h3 h4
    constructor
    · intro h5
      have h6 : t = (n, t.2) := by rw [← h5]
      rw [h6] at h3
      rcases ownd _ _ h3 with h7 | h7
      · exact h4 h7
      · rw [h7, hfd] at h2; simp at h2
    · rintro rfl
      obtain rfl := h3.unique hmf
      rw [hfd] at h2; simp at h2
  refine ⟨h1, g, hrun, ?_, ⟨c0.record, ?_, hfg, ?_, ?_, ?_⟩, atg⟩
  · refine ⟨c0.wf, c0.nn.ge, c0.ne, fun m hm => by rw [c0.nn]; exact hlt' m hm, hnd', ?_, c0.tensor, ?_, ?_, ?_, ?_, ?_⟩
    · intro t t' e' ht ht' htN
      have q := (perm_mem hp hnd).1 htN
      rw [sl t e' q.2] at ht
      by_cases hn' : t'.1 = n
      · exfalso
        have h6 : t' = (n, t'.2) := by rw [← hn']
        rw [h6] at ht'
        split_ifs at ht with h4
        · subst ht
          rcases own _ _ ht' with h7 | h7
          · exact hxg h7.symm
          · have := w.lt h7.inUse; omega
        · have hlt1 := w.lt ht.inUse
          rcases own _ _ ht' with h7 | h7
          · omega
          · rcases ownd _ _ h7 with rfl | rfl
            · exact q.2 (congrArg Prod.fst ((at_dang w he.inUse hre).1 ht))
            · rcases (c.at w hf.inUse).1 ht with h8 | h8
              · exact q.2 (congrArg Prod.fst h8)
              · exact h4 h8
      · rw [sl t' e' hn'] at ht'
        rw [perm_mem hp hnd]
        refine ⟨?_, hn'⟩
        split_ifs at ht' with h4
        · rw [h4]; exact hmN
        · split_ifs at ht with h5
          · subst ht
            have := w.lt ht'.inUse
            omega
          · exact hcl _ _ e' ht ht' q.1
    · rintro e' ⟨h4, t, h5, h6⟩
      by_cases hee : e' = e
      · subst hee
        rw [Function.update_self]
        refine ⟨⟨by rw [c0.rg], (m, k), hmN', atg⟩, ?_⟩
        rw [dg, w.edim_eq he, hdn j (by omega)]
      · obtain ⟨q1, q2⟩ := hopen e' t h4 h6 hee
        have hat : At h1 t e' := by rw [sl t e' q1, if_neg q2]; exact h6
        rw [Function.update_of_ne hee, id]
        refine ⟨⟨by rw [c0.record e' (w.lt h6.inUse)]; exact h4, t, (perm_mem hp hnd).2 ⟨h5, q1⟩, hat⟩, ?_⟩
        rw [c0.wf.edim_eq hat, w.edim_eq h6]
        exact dimAt_congr (c0.tensor _ h6.1)
    · rintro e1 e2 ⟨_, t1, _, a1⟩ ⟨_, t2, _, a2⟩ h4
      have l1 := w.lt a1.inUse
      have l2 := w.lt a2.inUse
      by_cases q1 : e1 = e <;> by_cases q2 : e2 = e
      · rw [q1, q2]
      · subst q1
        rw [Function.update_self, Function.update_of_ne q2, id] at h4
        omega
      · subst q2
        rw [Function.update_self, Function.update_of_ne q1, id] at h4
        omega
      · rwa [Function.update_of_ne q1, Function.update_of_ne q2] at h4
    · rintro f' ⟨h4, t, h5, h6⟩
      have q := (perm_mem hp hnd).1 h5
      rw [sl t f' q.2] at h6
      split_ifs at h6 with h7
      · exact ⟨e, ⟨re, (n, j), hnN, he⟩, by rw [Function.update_self, h6]⟩
      · refine ⟨f', ⟨by rw [← c0.record f' (w.lt h6.inUse)]; exact h4, t, q.1, h6⟩, ?_⟩
        rw [Function.update_of_ne, id]
        rintro rfl
        exact q.2 (congrArg Prod.fst ((at_dang w he.inUse hre).1 h6))
    · intro e' _
      by_cases q1 : e' = e
      · right; rw [q1, Function.update_self]; exact hfg
      · left; rw [Function.update_of_ne q1, id]
    · intro σ hσ
      have hlt1 : ∀ m ∈ N, m < h1.nn := fun m hm => by rw [c0.nn]; exact hlt m hm
      have hσg : σ g < d := by rw [← dg]; exact hσ g ⟨by rw [c0.rg], (m, k), hmN', atg⟩
      have hex : e ≠ x := by omega
      have heg : e ≠ g := by omega
      rw [c0.value N hnd hlt hnN hmN, hdn i (by omega)]
      have hd1 : IsDelta (h1.node n).tensor d := by rw [c0.tensor n hnlt]; exact hd
      have key : ∀ v ∈ range d, netVal (netOf h1 N)
          (Function.update (Function.update (fun e' => σ (Function.update id e g e')) x v) g v) =
          (if σ g = v then 1 else 0) * netVal (netOf h1 N')
            (Function.update (Function.update (fun e' => σ (Function.update id e g e')) x v) g v) := by
        intro v hv
        have hv' := mem_range.1 hv
        have s1 : Function.update (Function.update (fun e' => σ (Function.update id e g e')) x v) g v e = σ g := by
          rw [Function.update_of_ne heg, Function.update_of_ne hex, Function.update_self]
        have s2 : Function.update (Function.update (fun e' => σ (Function.update id e g e')) x v) g v x = v := by
          rw [Function.update_of_ne hxg, Function.update_self]
        rcases hij with ⟨rfl, rfl⟩ | ⟨rfl, rfl⟩
        · rw [netVal_delta c0.wf hlt1 hnd hp atx ate c0.rx re1 hd1 (by rw [s2]; exact hv') (by rw [s1]; exact hσg),
            s1, s2]
          simp only [eq_comm]
        · rw [netVal_delta c0.wf hlt1 hnd hp ate atx re1 c0.rx hd1 (by rw [s1]; exact hσg) (by rw [s2]; exact hv'),
            s1, s2]
      rw [Finset.sum_congr rfl key, sum_delta d (σ g) hσg]
      refine netVal_congr fun l hl' => ?_
      obtain ⟨m', hmN1, hml⟩ := mem_flat_netOf.1 hl'
      have q := (perm_mem hp hnd).1 hmN1
      have hat := at_of_mem (hlt1 m' q.1) hml
      have hlx : l ≠ x := by
        rintro rfl
        exact q.2 (Prod.mk.inj ((at_dang c0.wf atx.inUse c0.rx).1 hat)).1
      have hle : l ≠ e := by
        rintro rfl
        exact q.2 (Prod.mk.inj ((at_dang c0.wf ate.inUse re1).1 hat)).1
      by_cases e1 : l = g
      · subst e1; rw [Function.update_self]
      · rw [Function.update_of_ne e1, Function.update_of_ne hlx, Function.update_of_ne hle, id]
  · intro t f' ht
    rw [sl t f' ht]
    split_ifs with h4
    · simp [h4]
    · simp [h4]
  · intro q f' hq
    rcases own q f' hq with h7 | h7
    · left; omega
    · exact .inr h7
  · rintro t e' rfl hte
    obtain rfl := hte.unique hmf
    exact ⟨hfd, i, hf⟩
  · rintro t rfl
    exact c.1

/-- An identity closed to a loop is the factor `d`. -/
theorem netVal_loop {h : Heap R} (w : WF h) {N N' : List NId} {n a d : Nat} (hlt : ∀ m ∈ N, m < h.nn)
    (hnd : N.Nodup) (hp : N.Perm (n :: N')) (he : (h.node n).edges = [a, a])
    (hd : IsDelta (h.node n).tensor d) (τ : EId → Nat) :
    netVal (netOf h N) τ = (d : R) * netVal (netOf h N') τ := by
  have hnN : n ∈ N := hp.mem_iff.2 (by simp)
  have hnlt := hlt n hnN
  have hc := w.consistent hlt
  have ha0 : At h (n, 0) a := ⟨hnlt, by simp only [he]; rfl⟩
  have ha1 : At h (n, 1) a := ⟨hnlt, by simp only [he]; rfl⟩
  rw [netVal_perm (netOf_perm h hp) hc]
  have hc' := hc.perm (netOf_perm h hp)
  have hc'' : Consistent (edim h) (netOf h N') := fun q hq => hc' q (List.mem_cons_of_mem _ hq)
  have hna : a ∉ flatL (netOf h N') := by
    intro hm
    obtain ⟨m, hm1, hm2⟩ := mem_flat_netOf.1 hm
    have q := (perm_mem hp hnd).1 hm1
    have hat := at_of_mem (hlt m q.1) hm2
    rcases w.good ha0.inUse with ⟨n', x, hr⟩ | ⟨n', x, m', y, hr⟩
    · have h1 := (at_dang w ha0.inUse hr).1 ha0
      have h2 := (at_dang w ha0.inUse hr).1 ha1
      rw [← h2] at h1
      simp at h1
    · have h1 := (at_conn w ha0.inUse hr).1 ha0
      have h2 := (at_conn w ha0.inUse hr).1 ha1
      have h3 := (at_conn w ha0.inUse hr).1 hat
      simp only [Prod.mk.injEq] at h1 h2 h3
      have := q.2
      omega
  have hperm : (closedL (netOf h (n :: N'))).Perm (a :: closedL (netOf h N')) := by
    have hna' : a ∉ closedL (netOf h N') := fun h1 => hna (List.count_pos_iff.1 (by
      rw [mem_closedL] at h1; omega))
    rw [List.perm_ext_iff_of_nodup (closedL_nodup _) (List.nodup_cons.2 ⟨hna', closedL_nodup _⟩)]
    intro l
    have hfl : flatL (netOf h (n :: N')) = [a, a] ++ flatL (netOf h N') := by
      rw [← he]; exact flatL_cons _ _
    rw [mem_closedL, hfl, List.count_append, List.mem_cons, mem_closedL]
    by_cases hl : l = a
    · subst hl
      rw [List.count_eq_zero_of_not_mem hna]
      simp
    · rw [List.count_eq_zero_of_not_mem (a := l) (l := [a, a]) (by simp [hl]), Nat.zero_add]
      simp [hl]
  rw [netVal_eq hc', netVal_eq hc'', sumOver_perm hperm, sumOver]
  have hda : edim h a = d := by
    rw [w.edim_eq ha0]; simp [dimAt, Heap.shape, hd.1]
  have hpv : prodVal (netOf h (n :: N')) = fun σ => (h.node n).tensor.get [σ a, σ a] * prodVal (netOf h N') σ := by
    funext σ
    have := prodVal_cons ((h.node n).tensor, (h.node n).edges) (netOf h N') σ
    refine this.trans ?_
    simp [val, he]
  rw [hda, hpv]
  have hdep : DependsOn (fun σ : EId → Nat => (h.node n).tensor.get [σ a, σ a]) [a] := by
    intro σ σ' h1
    simp only [h1 a (by simp)]
  have hcl : ∀ l ∈ [a], l ∉ closedL (netOf h N') := by
    intro l hl h1
    simp only [List.mem_singleton] at hl
    subst hl
    rw [mem_closedL] at h1
    exact hna (List.count_pos_iff.1 (by omega))
  rw [Finset.sum_congr rfl (g := fun _ => sumOver (edim h) (closedL (netOf h N')) (prodVal (netOf h N')) τ)]
  · simp
  · intro v hv
    rw [sumOver_mul_left hdep hcl, Function.update_self, hd.2 v (mem_range.1 hv) v (mem_range.1 hv), if_pos rfl,
      one_mul]
    refine sumOver_dependsOn (prodVal_dependsOn _) _ _ fun l hl => ?_
    rw [Function.update_of_ne]
    rintro rfl
    exact hna (List.mem_filter.1 hl).1

/-- A closed loop of an identity: it is replaced by the number `d`. -/
theorem drop_loop {h : Heap R} (w : WF h) {N N' : List NId} {n a d : Nat} (hlt : ∀ m ∈ N, m < h.nn)
    (hnd : N.Nodup) (hcl : ClosedNet h N) (hp : N.Perm (n :: N')) (he : (h.node n).edges = [a, a])
    (hd : IsDelta (h.node n).tensor d) (s : ElimState) {N'' : List NId} (hp'' : N''.Perm (h.nn :: N')) :
    ∃ h', dropStep n a a s h = (.ok { s with nodes := s.nodes ++ [(n, h.nn)] }, h') ∧
      SameNet h h' N N'' id ∧ Dropped h h' n (fun _ => False) h.ne ∧ (h'.node h.nn).edges = [] := by
  have hnN : n ∈ N := hp.mem_iff.2 (by simp)
  have hnlt := hlt n hnN
  have ha0 : At h (n, 0) a := ⟨hnlt, by simp only [he]; rfl⟩
  have ha1 : At h (n, 1) a := ⟨hnlt, by simp only [he]; rfl⟩
  obtain ⟨x, y, hr⟩ : ∃ x y, h.edge a = .conn n x n y := by
    rcases w.good ha0.inUse with ⟨n', x, hr⟩ | ⟨n', x, m', y, hr⟩
    · have h1 := (at_dang w ha0.inUse hr).1 ha0
      have h2 := (at_dang w ha0.inUse hr).1 ha1
      rw [← h2] at h1
      simp at h1
    · have h1 := (at_conn w ha0.inUse hr).1 ha0
      have h2 := (at_conn w ha0.inUse hr).1 ha1
      simp only [Prod.mk.injEq] at h1 h2
      have e1 : n' = n := by omega
      have e2 : m' = n := by omega
      subst e1 e2
      exact ⟨x, y, hr⟩
  have hrun : removeNode n h = (.ok [], h) :=
    removeNode_two (by rw [he]; rfl) (cut_none ha0 (.inr ⟨x, y, hr⟩)) (cut_none ha1 (.inr ⟨x, y, hr⟩))
  obtain ⟨t, ht⟩ : ∃ t : NDArray R, t = ⟨[], fun _ => (d : R)⟩ := ⟨_, rfl⟩
  have htn : t.ndim = 0 := by rw [ht]; rfl
  have w' := addNode_wf w t
  have nn : (addNode h t).nn = h.nn + 1 := rfl
  have ne : (addNode h t).ne = h.ne := by show h.ne + t.ndim = h.ne; rw [htn]; rfl
  have hnew : ((addNode h t).node h.nn).edges = [] := by rw [addNode_node_new, htn]; rfl
  have hnoat : ∀ s f, At (addNode h t) s f → s.1 ≠ h.nn := by
    rintro s f hs h1
    have := hs.lt_len
    rw [h1, hnew] at this
    simp at this
  have sl : ∀ s f, At (addNode h t) s f ↔ At h s f := by
    intro s f
    by_cases h1 : s.1 = h.nn
    · constructor
      · intro h2; exact absurd h1 (hnoat s f h2)
      · intro h2; have := h2.1; omega
    · exact addNode_at_old h1
  have recO : ∀ e, (addNode h t).edge e = h.edge e := by
    intro e
    have h1 : ¬ (h.ne ≤ e ∧ e < h.ne + t.ndim) := by omega
    simp only [addNode, if_neg h1]
  have hmem : ∀ {m : NId}, m ∈ N'' ↔ m = h.nn ∨ (m ∈ N ∧ m ≠ n) := by
    intro m
    rw [hp''.mem_iff, List.mem_cons, perm_mem hp hnd]
  have hlt' : ∀ m ∈ N', m < h.nn := fun m hm => hlt m ((perm_mem hp hnd).1 hm).1
  have hnd' : N'.Nodup := (List.nodup_cons.1 (hp.nodup hnd)).2
  have hnotn : ∀ s e, (h.edge e).dangling = true → At h s e → s.1 ≠ n := by
    intro s e h1 h2 h3
    have : e = a := by
      have := h2.mem
      rw [h3, he] at this
      simpa using this
    rw [this, hr] at h1
    simp at h1
  refine ⟨addNode h t, ?_, ?_, ⟨fun e _ => recO e, ?_, le_rfl, ?_, by simp, by simp⟩, hnew⟩
  · unfold dropStep
    rw [M.bind_ok hrun]
    dsimp only [List.lookup_nil]
    rw [M.bind_ok (M.get_apply h)]
    simp only [hd.1, List.getElem?_cons_zero]
    rw [← ht, M.bind_ok (newNode_eq h t)]
    rfl
  · refine ⟨w', by omega, ne.ge, ?_, ?_, ?_, fun m hm => by rw [addNode_node_old hm], ?_, fun _ _ _ _ h => h, ?_,
      fun _ _ => .inl rfl, ?_⟩
    · intro m hm
      rw [hmem] at hm
      rcases hm with rfl | ⟨h1, _⟩
      · omega
      · have := hlt m h1; omega
    · refine hp''.nodup_iff.2 (List.nodup_cons.2 ⟨fun h1 => ?_, hnd'⟩)
      have := hlt' _ h1
      omega
    · intro s1 s2 e h1 h2 h3
      rw [hmem] at h3 ⊢
      rw [sl] at h1 h2
      rcases h3 with h3 | ⟨h3, h4⟩
      · have := h1.1; omega
      · refine .inr ⟨hcl _ _ e h1 h2 h3, fun h5 => ?_⟩
        have : e = a := by
          have := h2.mem
          rw [h5, he] at this
          simpa using this
        subst this
        rcases (at_conn w ha0.inUse hr).1 h1 with h6 | h6 <;> exact h4 (congrArg Prod.fst h6)
    · rintro e ⟨h1, s, h2, h3⟩
      have h4 := hnotn s e h1 h3
      refine ⟨⟨by rw [id, recO]; exact h1, s, hmem.2 (.inr ⟨h2, h4⟩), (sl _ _).2 h3⟩, ?_⟩
      rw [id, w'.edim_eq ((sl _ _).2 h3), w.edim_eq h3]
      exact dimAt_congr (by rw [addNode_node_old h3.1])
    · rintro f ⟨h1, s, h2, h3⟩
      rw [sl] at h3
      rw [recO] at h1
      rw [hmem] at h2
      rcases h2 with h2 | h2
      · have := h3.1; omega
      · exact ⟨f, ⟨h1, s, h2.1, h3⟩, rfl⟩
    · intro σ _
      have hcons : Consistent (edim (addNode h t)) (netOf (addNode h t) N'') := w'.consistent (by
        intro m hm
        rw [hmem] at hm
        rcases hm with rfl | ⟨h1, _⟩
        · omega
        · have := hlt m h1; omega)
      rw [netVal_perm (netOf_perm _ hp'') hcons]
      have := netVal_cons_open (p := (((addNode h t).node h.nn).tensor, ((addNode h t).node h.nn).edges))
        (net := netOf (addNode h t) N') (hcons.perm (netOf_perm _ hp'')) (by simp [hnew]) (by simp [hnew]) σ
      refine this.trans ?_
      have hold : netOf (addNode h t) N' = netOf h N' := netOf_congr fun m hm => addNode_node_old (hlt' m hm)
      rw [hold, netVal_loop w hlt hnd hp he hd]
      congr 1
      simp only [val, hnew, List.map_nil]
      rw [addNode_node_new, ht]
  · intro s f hs
    rw [sl]
    simp
  · intro i f hf
    rw [sl] at hf
    exact .inr hf

end TN.Graph
