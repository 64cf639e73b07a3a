import Verif.CopyNode
import Verif.GraphMerge
import Verif.GraphContract
import Verif.GraphSpec

/-!
# `contract_copy_node`

Model of `CopyNode.get_partners`, `compute_contracted_tensor` (network_components.py:838-861,
895-903) and `contract_copy_node` (network_components.py:1888-1920).
-/

set_option linter.unusedSectionVars false

namespace TN.Graph

open TN Finset

variable {R : Type}

/-! ### Model -/

/-- `if partner not in partners: partners[partner] = set()`, `partners[partner].add(axis)`
(network_components.py:858-860); the dict keeps insertion order. -/
def addPartner (ps : List (NId × List Nat)) (p : NId) (a : Nat) : List (NId × List Nat) :=
  if p ∈ ps.map Prod.fst then ps.map fun q => if q.1 = p then (q.1, q.2 ++ [a]) else q
  else ps ++ [(p, [a])]

/-- The loop of `get_partners` (network_components.py:850-861), with `_is_my_trace` and
`_get_partner` (network_components.py:838-846); its `assert edge.node2 is self` fails for an edge that
is not attached to the node any more. -/
def partnersLoop (cn : NId) : List EId → List (NId × List Nat) → M R (List (NId × List Nat))
  | [], ps => pure ps
  | e :: es, ps => do
    let dangling ← isDangling e
    if dangling then M.throw .valueError
    else do
      let n1 ← node1 e
      let n2 ← node2 e
      if n1 = cn ∧ n2 = some cn then partnersLoop cn es ps
      else if n1 = cn then do
        let a2 ← axis2 e
        partnersLoop cn es (addPartner ps (n2.getD 0) (a2.getD 0))
      else if n2 = some cn then do
        let a1 ← axis1 e
        partnersLoop cn es (addPartner ps n1 a1)
      else M.throw .runtimeError

/-- `copy_node.get_partners()` (network_components.py:848-861). -/
def getPartners (cn : NId) : M R (List (NId × List Nat)) := do
  let es ← nodeEdges cn
  partnersLoop cn es []

/-- `copy_node.compute_contracted_tensor()` (network_components.py:895-903). -/
def computeContracted [CommSemiring R] (cn : NId) : M R (NDArray R) := do
  let ps ← getPartners cn
  let h ← M.get
  let expr ← M.lift (Copy.einsumExpression (ps.map fun p => ((h.shape p.1).length, p.2)))
  M.lift (Copy.einsum expr.1 expr.2 (ps.map fun p => (h.node p.1).tensor))

/-- The body of the loop over the partners' edges (network_components.py:1910-1917); returns the
next axis. -/
def moveOne (cn new p : NId) (e : EId) (a : Nat) : M R Nat := do
  let n1 ← node1 e
  let n2 ← node2 e
  if n1 = cn ∨ n2 = some cn then pure a
  else do
    let a1 ← axis1 e
    let a2 ← axis2 e
    let old := if n1 = p then some a1 else a2
    match old with
    | none => M.throw .valueError
    | some o => do
      updateAxis e o p a new
      addEdge new e a false
      pure (a + 1)

/-- The loops over partners and their edges (network_components.py:1907-1917).  The lists of
edges of the partners do not change during the loop and are read before. -/
def moveEdges (cn new : NId) : List (NId × EId) → Nat → M R Nat
  | [], a => pure a
  | x :: l, a => do
    let a' ← moveOne cn new x.1 x.2 a
    moveEdges cn new l a'

/-- `contract_copy_node(copy_node)` (network_components.py:1888-1920). -/
def contractCopyNode [CommSemiring R] (cn : NId) : M R NId := do
  let t ← computeContracted cn
  let new ← newNode t
  let ps ← getPartners cn
  let h ← M.get
  let a ← moveEdges cn new
    (ps.flatMap fun p => (h.node p.1).edges.map fun e => (p.1, e)) 0
  if t.ndim ≠ a then M.throw .runtimeError
  else do
    freshEdges cn
    pure new

/-! ### Partners -/

/-- The node at the other end of an edge of `cn`; `none` for a trace edge. -/
def otherEnd (h : Heap R) (cn : NId) (e : EId) : Option NId :=
  if (h.edge e).node1 = some cn then
    if (h.edge e).node2 = some cn then none else (h.edge e).node2
  else (h.edge e).node1

/-- The neighbours of `cn` in the order in which its edges reach them. -/
def neighbours (h : Heap R) (cn : NId) : List NId :=
  ((h.node cn).edges.filterMap (otherEnd h cn)).eraseDups

theorem addPartner_fst (ps : List (NId × List Nat)) (p : NId) (a : Nat) :
    (addPartner ps p a).map Prod.fst =
      if p ∈ ps.map Prod.fst then ps.map Prod.fst else ps.map Prod.fst ++ [p] := by
  unfold addPartner
  by_cases h : p ∈ ps.map Prod.fst
  · rw [if_pos h, if_pos h, List.map_map]
    refine List.map_congr_left fun q _ => ?_
    simp only [Function.comp]
    by_cases hq : q.1 = p
    · rw [if_pos hq]
    · rw [if_neg hq]
  · rw [if_neg h, if_neg h]; simp

theorem mem_addPartner {ps : List (NId × List Nat)} {p : NId} {a q k : Nat} :
    (∃ ax, (q, ax) ∈ addPartner ps p a ∧ k ∈ ax) ↔
      (∃ ax, (q, ax) ∈ ps ∧ k ∈ ax) ∨ (q = p ∧ k = a) := by
  unfold addPartner
  by_cases h : p ∈ ps.map Prod.fst
  · rw [if_pos h]
    constructor
    · rintro ⟨ax, h1, h2⟩
      obtain ⟨⟨q', ax'⟩, h3, h4⟩ := List.mem_map.1 h1
      simp only at h4
      by_cases hq : q' = p
      · rw [if_pos hq] at h4
        obtain ⟨rfl, rfl⟩ := Prod.mk.inj h4
        rcases List.mem_append.1 h2 with h2 | h2
        · exact .inl ⟨ax', h3, h2⟩
        · exact .inr ⟨hq, by simpa using h2⟩
      · rw [if_neg hq] at h4
        obtain ⟨rfl, rfl⟩ := Prod.mk.inj h4
        exact .inl ⟨ax', h3, h2⟩
    · rintro (⟨ax, h1, h2⟩ | ⟨rfl, rfl⟩)
      · by_cases hq : q = p
        · exact ⟨ax ++ [a], List.mem_map.2 ⟨(q, ax), h1, by simp [hq]⟩, by simp [h2]⟩
        · exact ⟨ax, List.mem_map.2 ⟨(q, ax), h1, by simp [hq]⟩, h2⟩
      · obtain ⟨⟨q', ax⟩, h1, h2⟩ := List.mem_map.1 h
        simp only at h2
        exact ⟨ax ++ [k], List.mem_map.2 ⟨(q', ax), h1, by simp [h2]⟩, by simp⟩
  · rw [if_neg h]
    constructor
    · rintro ⟨ax, h1, h2⟩
      rcases List.mem_append.1 h1 with h1 | h1
      · exact .inl ⟨ax, h1, h2⟩
      · simp only [List.mem_singleton, Prod.mk.injEq] at h1
        obtain ⟨rfl, rfl⟩ := h1
        exact .inr ⟨rfl, by simpa using h2⟩
    · rintro (⟨ax, h1, h2⟩ | ⟨rfl, rfl⟩)
      · exact ⟨ax, List.mem_append_left _ h1, h2⟩
      · exact ⟨[k], by simp, by simp⟩

/-- What `ps` says after the edges `done` of `cn` were read. -/
structure PartnersOf (h : Heap R) (cn : NId) (done : List EId) (ps : List (NId × List Nat)) :
    Prop where
  fst : ps.map Prod.fst = (done.filterMap (otherEnd h cn)).eraseDups
  axes : ∀ q k, (∃ ax, (q, ax) ∈ ps ∧ k ∈ ax) ↔ q ≠ cn ∧ ∃ e ∈ done, At h (q, k) e

theorem eraseDups_snoc (l : List Nat) (p : Nat) :
    (l ++ [p]).eraseDups = if p ∈ l.eraseDups then l.eraseDups else l.eraseDups ++ [p] := by
  rw [List.eraseDups_append]
  by_cases h : p ∈ l
  · rw [if_pos (by simpa using h)]
    simp [List.removeAll, h]
  · rw [if_neg (by simpa using h)]
    simp [List.removeAll, h, List.eraseDups_cons]

theorem partnersLoop_ok {h : Heap R} (w : WF h) {cn : NId} (hcn : cn < h.nn) (es : List EId) :
    ∀ (done : List EId) (ps : List (NId × List Nat)), PartnersOf h cn done ps →
    (∀ e ∈ es, e ∈ (h.node cn).edges ∧ (h.edge e).dangling = false) →
    ∃ ps', partnersLoop cn es ps h = (.ok ps', h) ∧ PartnersOf h cn (done ++ es) ps' := by
  induction es with
  | nil => intro done ps hp _; exact ⟨ps, rfl, by simpa using hp⟩
  | cons e es ih =>
    intro done ps hp hes
    obtain ⟨hemem, hdang⟩ := hes e (by simp)
    have hu : InUse h e := (at_of_mem hcn hemem).inUse
    have hcat := at_of_mem hcn hemem
    obtain ⟨k0, hk0⟩ : ∃ k, k = (h.node cn).edges.idxOf e := ⟨_, rfl⟩
    rw [← hk0] at hcat
    have hes' : ∀ e ∈ es, e ∈ (h.node cn).edges ∧ (h.edge e).dangling = false :=
      fun e he => hes e (by simp [he])
    have hd : isDangling e h = (.ok false, h) := by rw [isDangling_eq, hdang]
    rcases w.good hu with ⟨n, a, hr⟩ | ⟨n, a, m, b, hr⟩
    · rw [hr] at hdang; simp at hdang
    have hiff := fun s => at_conn w hu hr (s := s)
    rw [show done ++ e :: es = (done ++ [e]) ++ es by simp]
    unfold partnersLoop
    by_cases h1 : n = cn
    · by_cases h2 : m = cn
      · have hoe : otherEnd h cn e = none := by
          unfold otherEnd; rw [hr, if_pos (by rw [h1]), if_pos (by rw [h2])]
        obtain ⟨ps', g1, g2⟩ := ih (done ++ [e]) ps ⟨by
          rw [List.filterMap_append, hp.fst]; simp [hoe], by
          intro q k
          rw [hp.axes]
          constructor
          · rintro ⟨x, e', y, z⟩
            exact ⟨x, e', by simp [y], z⟩
          · rintro ⟨x, e', y, z⟩
            rcases List.mem_append.1 y with y | y
            · exact ⟨x, e', y, z⟩
            · exfalso
              have : e' = e := by simpa using y
              subst this
              rcases (hiff _).1 z with z | z
              · exact x ((Prod.mk.inj z).1.trans h1)
              · exact x ((Prod.mk.inj z).1.trans h2)⟩ hes'
        refine ⟨ps', ?_, g2⟩
        refine (M.bind_ok hd).trans ?_
        simp only [Bool.false_eq_true, if_false]
        refine (M.bind_ok (node1_conn hr)).trans ?_
        refine (M.bind_ok (node2_conn hr)).trans ?_
        rw [if_pos ⟨h1, by rw [h2]⟩]
        exact g1
      · have hoe : otherEnd h cn e = some m := by
          unfold otherEnd; rw [hr, if_pos (by rw [h1]), if_neg (by simpa using h2)]
        obtain ⟨ps', g1, g2⟩ := ih (done ++ [e]) (addPartner ps m b) ⟨by
          rw [List.filterMap_append, addPartner_fst, hp.fst]
          simp only [List.filterMap_cons, hoe, List.filterMap_nil]
          rw [eraseDups_snoc], by
          intro q k
          rw [mem_addPartner, hp.axes]
          constructor
          · rintro (⟨x, e', y, z⟩ | ⟨rfl, rfl⟩)
            · exact ⟨x, e', by simp [y], z⟩
            · exact ⟨h2, e, by simp, (hiff _).2 (.inr rfl)⟩
          · rintro ⟨x, e', y, z⟩
            rcases List.mem_append.1 y with y | y
            · exact .inl ⟨x, e', y, z⟩
            · have : e' = e := by simpa using y
              subst this
              rcases (hiff _).1 z with z | z
              · exact absurd ((Prod.mk.inj z).1.trans h1) x
              · exact .inr (Prod.mk.inj z)⟩ hes'
        refine ⟨ps', ?_, g2⟩
        refine (M.bind_ok hd).trans ?_
        simp only [Bool.false_eq_true, if_false]
        refine (M.bind_ok (node1_conn hr)).trans ?_
        refine (M.bind_ok (node2_conn hr)).trans ?_
        rw [if_neg (by simp [h2]), if_pos h1]
        refine (M.bind_ok (axis2_conn hr)).trans ?_
        exact g1
    · have h2 : m = cn := by
        rcases (hiff _).1 hcat with z | z
        · exact absurd (Prod.mk.inj z).1.symm h1
        · exact (Prod.mk.inj z).1.symm
      have hoe : otherEnd h cn e = some n := by
        unfold otherEnd; rw [hr, if_neg (by simpa using h1)]
      obtain ⟨ps', g1, g2⟩ := ih (done ++ [e]) (addPartner ps n a) ⟨by
          rw [List.filterMap_append, addPartner_fst, hp.fst]
          simp only [List.filterMap_cons, hoe, List.filterMap_nil]
          rw [eraseDups_snoc], by
          intro q k
          rw [mem_addPartner, hp.axes]
          constructor
          · rintro (⟨x, e', y, z⟩ | ⟨rfl, rfl⟩)
            · exact ⟨x, e', by simp [y], z⟩
            · exact ⟨h1, e, by simp, (hiff _).2 (.inl rfl)⟩
          · rintro ⟨x, e', y, z⟩
            rcases List.mem_append.1 y with y | y
            · exact .inl ⟨x, e', y, z⟩
            · have : e' = e := by simpa using y
              subst this
              rcases (hiff _).1 z with z | z
              · exact .inr (Prod.mk.inj z)
              · exact absurd ((Prod.mk.inj z).1.trans h2) x⟩ hes'
      refine ⟨ps', ?_, g2⟩
      refine (M.bind_ok hd).trans ?_
      simp only [Bool.false_eq_true, if_false]
      refine (M.bind_ok (node1_conn hr)).trans ?_
      refine (M.bind_ok (node2_conn hr)).trans ?_
      rw [if_neg (by simp [h1]), if_neg h1, if_pos (by rw [h2])]
      refine (M.bind_ok (axis1_conn hr)).trans ?_
      exact g1

theorem getPartners_ok {h : Heap R} (w : WF h) {cn : NId} (hcn : cn < h.nn)
    (hd : ∀ e ∈ (h.node cn).edges, (h.edge e).dangling = false) :
    ∃ ps, getPartners cn h = (.ok ps, h) ∧ PartnersOf h cn (h.node cn).edges ps := by
  obtain ⟨ps, g1, g2⟩ := partnersLoop_ok w hcn (h.node cn).edges [] [] ⟨rfl, by simp⟩
    (fun e he => ⟨he, hd e he⟩)
  exact ⟨ps, g1, by simpa using g2⟩

/-! ### The records during the loop -/

/-- The record `r` after some of its ends were moved: `f s` is the new axis of the edge at axis
`s`, if the loop has visited `s`.  For a trace edge the loop moves the first end when it meets
the edge for the first time. -/
def movedRec (f : Slot → Option Slot) (r : EdgeRec) : EdgeRec :=
  match r.node1, r.node2, r.axis2 with
  | some n, some m, some b =>
    let k1 := if n = m ∧ b < r.axis1 then (m, b) else (n, r.axis1)
    let k2 := if n = m ∧ b < r.axis1 then (n, r.axis1) else (m, b)
    let x := (f k1).getD (n, r.axis1)
    let y := (f k2).getD (m, b)
    .conn x.1 x.2 y.1 y.2
  | some n, none, none => let x := (f (n, r.axis1)).getD (n, r.axis1); .dang x.1 x.2
  | _, _, _ => r

theorem movedRec_dang (f : Slot → Option Slot) (n a : Nat) :
    movedRec f (.dang n a) = .dang ((f (n, a)).getD (n, a)).1 ((f (n, a)).getD (n, a)).2 := rfl

theorem movedRec_conn (f : Slot → Option Slot) {n a m b : Nat} (h : ¬ (n = m ∧ b < a)) :
    movedRec f (.conn n a m b) = .conn ((f (n, a)).getD (n, a)).1 ((f (n, a)).getD (n, a)).2
      ((f (m, b)).getD (m, b)).1 ((f (m, b)).getD (m, b)).2 := by
  simp only [movedRec, if_neg h]

theorem movedRec_crossed (f : Slot → Option Slot) {n a b : Nat} (h : b < a) :
    movedRec f (.conn n a n b) = .conn ((f (n, b)).getD (n, a)).1 ((f (n, b)).getD (n, a)).2
      ((f (n, a)).getD (n, b)).1 ((f (n, a)).getD (n, b)).2 := by
  simp only [movedRec, true_and, if_pos h]

theorem updateAxis_dang {k : Heap R} {e n a n' a' : Nat} (hr : k.edge e = .dang n a) :
    updateAxis e a n a' n' k = (.ok (), k.setEdge e (.dang n' a')) := by
  simp [updateAxis, axis1, node1, M.bind_apply, hr]

theorem updateAxis_first {k : Heap R} {e n a m b n' a' : Nat} (hr : k.edge e = .conn n a m b) :
    updateAxis e a n a' n' k = (.ok (), k.setEdge e (.conn n' a' m b)) := by
  simp [updateAxis, axis1, node1, M.bind_apply, hr]

theorem updateAxis_second {k : Heap R} {e n a m b n' a' : Nat} (hr : k.edge e = .conn n a m b)
    (hne : n ≠ m) : updateAxis e b m a' n' k = (.ok (), k.setEdge e (.conn n a n' a')) := by
  by_cases h3 : a = b
  · subst h3
    simp [updateAxis, axis1, axis2, node1, node2, M.bind_apply, hr, hne]
  · simp [updateAxis, axis1, axis2, node2, M.bind_apply, hr, h3]

/-- The body of the loop on an edge that is not an edge of the copy node. -/
theorem moveOne_first {k : Heap R} {cn new p : NId} {e a : Nat} {x1 x2 : Nat} {r' : EdgeRec}
    (hg : (k.edge e = .dang x1 x2 ∧ r' = .dang new a) ∨
      ∃ m b, k.edge e = .conn x1 x2 m b ∧ m ≠ cn ∧ r' = .conn new a m b)
    (hp : x1 = p) (hcn : x1 ≠ cn) (hadd : ∀ k' : Heap R, k'.node = k.node →
        (∃ r, k'.edge = Function.update k.edge e r) →
      addEdge new e a false k' = (.ok (), k'.setNode new
        { k'.node new with edges := (k'.node new).edges.set a e })) :
    moveOne cn new p e a k = (.ok (a + 1), (k.setEdge e r').setNode new
        { k.node new with edges := (k.node new).edges.set a e }) := by
  subst hp
  rcases hg with ⟨hr, rfl⟩ | ⟨m, b, hr, hm, rfl⟩
  · unfold moveOne
    refine (M.bind_ok (node1_dang hr)).trans ?_
    refine (M.bind_ok (node2_dang hr)).trans ?_
    rw [if_neg (by simp [hcn])]
    refine (M.bind_ok (axis1_dang hr)).trans ?_
    refine (M.bind_ok (axis2_dang hr)).trans ?_
    simp only [if_true]
    refine (M.bind_ok (updateAxis_dang hr)).trans ?_
    refine (M.bind_ok (hadd (k.setEdge e (.dang new a)) rfl ⟨_, rfl⟩)).trans ?_
    rfl
  · unfold moveOne
    refine (M.bind_ok (node1_conn hr)).trans ?_
    refine (M.bind_ok (node2_conn hr)).trans ?_
    rw [if_neg (by simp [hcn, hm])]
    refine (M.bind_ok (axis1_conn hr)).trans ?_
    refine (M.bind_ok (axis2_conn hr)).trans ?_
    simp only [if_true]
    refine (M.bind_ok (updateAxis_first hr)).trans ?_
    refine (M.bind_ok (hadd (k.setEdge e (.conn new a m b)) rfl ⟨_, rfl⟩)).trans ?_
    rfl

theorem moveOne_second {k : Heap R} {cn new p : NId} {e a : Nat} {n c m b : Nat}
    (hr : k.edge e = .conn n c m b) (hp : m = p) (hn : n ≠ p) (hncn : n ≠ cn) (hcn : m ≠ cn)
    (hadd : ∀ k' : Heap R, k'.node = k.node →
        (∃ r, k'.edge = Function.update k.edge e r) →
      addEdge new e a false k' = (.ok (), k'.setNode new
        { k'.node new with edges := (k'.node new).edges.set a e })) :
    moveOne cn new p e a k = (.ok (a + 1), (k.setEdge e (.conn n c new a)).setNode new
        { k.node new with edges := (k.node new).edges.set a e }) := by
  subst hp
  unfold moveOne
  refine (M.bind_ok (node1_conn hr)).trans ?_
  refine (M.bind_ok (node2_conn hr)).trans ?_
  rw [if_neg (by simp [hncn, hcn])]
  refine (M.bind_ok (axis1_conn hr)).trans ?_
  refine (M.bind_ok (axis2_conn hr)).trans ?_
  simp only [hn, if_false]
  refine (M.bind_ok (updateAxis_second hr hn)).trans ?_
  refine (M.bind_ok (hadd (k.setEdge e (.conn n c new a)) rfl ⟨_, rfl⟩)).trans ?_
  rfl

/-- One iteration of the loop. -/
theorem moveOne_step {k : Heap R} {cn new : NId} {s : Slot} {e a : Nat} {r : EdgeRec}
    {f : Slot → Option Slot} (hr : k.edge e = movedRec f r) (hg : r.Good)
    (hs : s ∈ r.ends) (hnd : r.ends.Nodup) (hfs : f s = none)
    (hf : ∀ x y, f x = some y → y.1 = new) (hnew : ∀ x ∈ r.ends, x.1 ≠ new)
    (hcnew : cn ≠ new) (hcn : ∀ x ∈ r.ends, x.1 ≠ cn)
    (hord : ∀ x ∈ r.ends, x.1 = s.1 → x ≠ s → ((f x).isSome ↔ x.2 < s.2))
    (hadd : ∀ k' : Heap R, k'.node = k.node →
        (∃ r, k'.edge = Function.update k.edge e r) →
      addEdge new e a false k' = (.ok (), k'.setNode new
        { k'.node new with edges := (k'.node new).edges.set a e })) :
    moveOne cn new s.1 e a k = (.ok (a + 1),
      (k.setEdge e (movedRec (Function.update f s (some (new, a))) r)).setNode new
        { k.node new with edges := (k.node new).edges.set a e }) := by
  obtain ⟨p, c⟩ := s
  rcases hg with ⟨n, x, rfl⟩ | ⟨n, x, m, y, rfl⟩
  · simp only [ends_dang, Multiset.mem_singleton, Prod.mk.injEq] at hs
    obtain ⟨rfl, rfl⟩ := hs
    rw [movedRec_dang, hfs] at hr
    refine moveOne_first (.inl ⟨hr, ?_⟩) rfl (hcn (p, c) (by simp)) hadd
    rw [movedRec_dang]; simp
  · simp only [ends_conn, Multiset.insert_eq_cons, Multiset.mem_cons, Multiset.mem_singleton,
      forall_eq_or_imp, forall_eq] at hs hnew hcn hord
    have hne : (n, x) ≠ (m, y) := by
      simpa using hnd
    have hgetD : ∀ z : Slot, z.1 ≠ cn → ∀ u : Slot, ((f u).getD z).1 ≠ cn := by
      intro z hz u
      rcases hu : f u with _ | v
      · exact hz
      · have := hf u v hu
        simp only [Option.getD_some, this]
        exact fun h => hcnew h.symm
    by_cases hc : n = m ∧ y < x
    · obtain ⟨rfl, hlt⟩ := hc
      rw [movedRec_crossed f hlt] at hr
      rw [movedRec_crossed _ hlt]
      rcases hs with hs | hs
      · obtain ⟨rfl, rfl⟩ := Prod.mk.inj hs
        -- the second visit
        have h1 := (hord.2 rfl (Ne.symm hne)).2 hlt
        obtain ⟨v, hv⟩ := Option.isSome_iff_exists.1 h1
        have hv1 := hf _ _ hv
        rw [hv, hfs] at hr
        simp only [Option.getD_some, Option.getD_none, hv1] at hr
        have := moveOne_second (cn := cn) (new := new) (a := a) hr rfl (Ne.symm hnew.1)
          (Ne.symm hcnew) hcn.1 hadd
        rw [this]
        rw [Function.update_of_ne (Ne.symm hne), Function.update_self, hv]
        simp [hv1]
      · obtain ⟨rfl, rfl⟩ := Prod.mk.inj hs
        have h1 : f (p, x) = none := by
          have := hord.1 rfl hne
          rw [← Option.not_isSome_iff_eq_none, this]
          omega
        rw [hfs, h1] at hr
        refine moveOne_first (.inr ⟨p, c, hr, hcn.1, ?_⟩) rfl hcn.1 hadd
        rw [Function.update_self, Function.update_of_ne hne, h1]
        rfl
    · rw [movedRec_conn f hc] at hr
      rw [movedRec_conn _ hc]
      rcases hs with hs | hs
      · obtain ⟨rfl, rfl⟩ := Prod.mk.inj hs
        rw [hfs] at hr
        refine moveOne_first (.inr ⟨_, _, hr, hgetD _ hcn.2 _, ?_⟩) rfl hcn.1 hadd
        rw [Function.update_self, Function.update_of_ne (Ne.symm hne)]
        rfl
      · obtain ⟨rfl, rfl⟩ := Prod.mk.inj hs
        rw [hfs] at hr
        have hn1 : ((f (n, x)).getD (n, x)).1 ≠ p := by
          rcases hu : f (n, x) with _ | v
          · simp only [Option.getD_none]
            intro hnp
            subst hnp
            have h1 : ¬ (x < c) := by
              have := hord.1 rfl hne
              rw [← this, hu]; simp
            have h2 : x ≠ c := fun h => hne (by rw [h])
            exact hc ⟨rfl, by omega⟩
          · have := hf _ _ hu
            simp only [Option.getD_some, this]
            exact Ne.symm hnew.2
        refine (moveOne_second (cn := cn) (new := new) (a := a) hr rfl hn1 (hgetD _ hcn.1 _)
          hcn.2 hadd).trans ?_
        rw [Function.update_self, Function.update_of_ne hne]
        rfl

/-- An edge of the copy node is skipped. -/
theorem moveOne_skip {k : Heap R} {cn new p : NId} {e a : Nat} {n c m b : Nat}
    (hr : k.edge e = .conn n c m b) (h : n = cn ∨ m = cn) :
    moveOne cn new p e a k = (.ok a, k) := by
  unfold moveOne
  refine (M.bind_ok (node1_conn hr)).trans ?_
  refine (M.bind_ok (node2_conn hr)).trans ?_
  rw [if_pos (by rcases h with h | h <;> simp [h])]
  rfl

end TN.Graph
