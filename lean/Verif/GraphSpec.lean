import Verif.GraphRemove
import Verif.GraphSplit2

/-!
# What a correct graph is, in terms of the fields of nodes and edges

`GraphOK` is the specification of C07.  It only mentions the fields a user can read
(`node.edges`, `node.shape`, `edge.node1`, `edge.axis1`, …) and is shown to be the same as
the invariant `WF` used in the proofs.  `checkCorrect` is the run-time check of the library.
-/

namespace TN.Graph

open TN

variable {R : Type}

/-- What the record of the edge at axis `k` of node `n` must say: the edge is not disabled;
it is dangling and names `(n, k)` as its only end, or it names `(n, k)` and one other
axis `(m, j)` that lists the same edge and has the same dimension. -/
def Fits (h : Heap R) (n k : Nat) (e : EId) : Prop :=
  e < h.ne ∧ (h.edge e).disabled = false ∧
  (((h.edge e).dangling = true ∧ (h.edge e).node1 = some n ∧ (h.edge e).axis1 = k ∧
      (h.edge e).node2 = none ∧ (h.edge e).axis2 = none) ∨
   ((h.edge e).dangling = false ∧ ∃ m j, (m, j) ≠ (n, k) ∧ m < h.nn ∧
      (h.node m).edges[j]? = some e ∧ (h.shape m)[j]? = (h.shape n)[k]? ∧
      (((h.edge e).node1 = some n ∧ (h.edge e).axis1 = k ∧
          (h.edge e).node2 = some m ∧ (h.edge e).axis2 = some j) ∨
       ((h.edge e).node1 = some m ∧ (h.edge e).axis1 = j ∧
          (h.edge e).node2 = some n ∧ (h.edge e).axis2 = some k))))

/-- A correct graph: one edge per axis, and every listed edge fits. -/
structure GraphOK (h : Heap R) : Prop where
  rank : ∀ n < h.nn, (h.node n).edges.length = (h.shape n).length
  edge : ∀ n < h.nn, ∀ k e, (h.node n).edges[k]? = some e → Fits h n k e

theorem dimAt_of_getElem? {h : Heap R} {m j n k : Nat} (x : (h.shape m)[j]? = (h.shape n)[k]?) :
    dimAt h (m, j) = dimAt h (n, k) := by
  simp only [dimAt, List.getD_eq_getElem?_getD, x]

theorem getElem?_of_dimAt {h : Heap R} (w : WF h) {s s' : Slot} {e e' : EId} (hs : At h s e)
    (hs' : At h s' e') (hd : dimAt h s = dimAt h s') :
    (h.shape s.1)[s.2]? = (h.shape s'.1)[s'.2]? := by
  have l1 : s.2 < (h.shape s.1).length := by
    have := hs.lt_len; rw [w.len _ hs.1] at this; exact this
  have l2 : s'.2 < (h.shape s'.1).length := by
    have := hs'.lt_len; rw [w.len _ hs'.1] at this; exact this
  simp only [dimAt] at hd
  rw [List.getD_eq_getElem _ _ l1, List.getD_eq_getElem _ _ l2] at hd
  rw [List.getElem?_eq_getElem l1, List.getElem?_eq_getElem l2, hd]

theorem WF.graphOK {h : Heap R} (w : WF h) : GraphOK h := by
  refine ⟨w.len, fun n hn k e hk => ?_⟩
  have hs : At h (n, k) e := ⟨hn, hk⟩
  have ok := w.edge _ _ hs
  rcases ok.good with ⟨m, a, hr⟩ | ⟨m, a, m', b, hr⟩
  · have hm := ok.mem
    rw [hr] at hm
    simp only [ends_dang, Multiset.mem_singleton, Prod.mk.injEq] at hm
    obtain ⟨rfl, rfl⟩ := hm
    refine ⟨ok.lt, by rw [hr], .inl ?_⟩
    rw [hr]; simp
  · have hm := ok.mem
    have hnd := ok.nodup
    have hl := ok.listed
    have hdm := ok.dim
    rw [hr] at hm hnd hl hdm
    simp only [ends_conn, Multiset.insert_eq_cons, Multiset.mem_cons, Multiset.mem_singleton,
      Multiset.nodup_cons, Multiset.nodup_singleton, and_true] at hm hnd hl hdm
    refine ⟨ok.lt, by rw [hr], .inr ⟨by rw [hr], ?_⟩⟩
    rcases hm with hm | hm
    · have h2 := hl (m', b) (.inr rfl)
      refine ⟨m', b, fun hc => hnd (by rw [← hm, ← hc]), h2.1, h2.2,
        getElem?_of_dimAt w h2 hs (hdm (m', b) (.inr rfl)), .inl ?_⟩
      simp only [Prod.mk.injEq] at hm
      rw [hr, hm.1, hm.2]; simp
    · have h2 := hl (m, a) (.inl rfl)
      refine ⟨m, a, fun hc => hnd (by rw [← hm, ← hc]), h2.1, h2.2,
        getElem?_of_dimAt w h2 hs (hdm (m, a) (.inl rfl)), .inr ?_⟩
      simp only [Prod.mk.injEq] at hm
      rw [hr, hm.1, hm.2]; simp

theorem GraphOK.wf {h : Heap R} (g : GraphOK h) : WF h := by
  refine ⟨g.rank, ?_⟩
  rintro ⟨n, k⟩ e hs
  obtain ⟨hlt, hdis, hor⟩ := g.edge n hs.1 k e hs.2
  rcases hr : h.edge e with ⟨n1, a1, n2, a2, d, dis⟩
  rw [hr] at hdis hor
  simp only at hdis hor
  subst hdis
  rcases hor with ⟨rfl, rfl, rfl, rfl, rfl⟩ | ⟨rfl, m, j, hne, hm, hmj, hsh, hx⟩
  · exact edgeOK_dang hs hlt hr
  · have hs2 : At h (m, j) e := ⟨hm, hmj⟩
    rcases hx with ⟨rfl, rfl, rfl, rfl⟩ | ⟨rfl, rfl, rfl, rfl⟩
    · exact edgeOK_conn hs hs2 (Ne.symm hne) (dimAt_of_getElem? hsh).symm hlt hr (.inl rfl)
    · exact edgeOK_conn hs2 hs hne (dimAt_of_getElem? hsh) hlt hr (.inr rfl)

theorem graphOK_iff {h : Heap R} : GraphOK h ↔ WF h := ⟨GraphOK.wf, WF.graphOK⟩

/-- `check_correct(nodes, check_connections=False)` (network_operations.py:641-677). -/
def checkCorrect (nodes : List NId) : M R Unit :=
  M.forEach nodes fun n => do
    let es ← nodeEdges n
    M.forEach es.zipIdx fun p => do
      let m1 ← node1 p.1
      let m2 ← node2 p.1
      if m1 ≠ n ∧ m2 ≠ some n then M.throw .valueError
      else do
        let a1 ← axis1 p.1
        let a2 ← axis2 p.1
        if (m1 = n ∧ a1 = p.2) ∨ (m2 = some n ∧ a2 = some p.2) then pure ()
        else M.throw .valueError

theorem checkCorrect_ok {h : Heap R} (g : GraphOK h) {nodes : List NId}
    (hn : ∀ n ∈ nodes, n < h.nn) : checkCorrect nodes h = (.ok (), h) := by
  unfold checkCorrect
  refine forEach_ok fun n hm => ?_
  rw [M.bind_ok (nodeEdges_eq n)]
  refine forEach_ok ?_
  rintro ⟨e, k⟩ hk
  obtain ⟨_, hdis, hor⟩ := g.edge n (hn n hm) k e (List.mem_zipIdx_iff_getElem?.1 hk)
  rcases hr : h.edge e with ⟨n1, a1, n2, a2, d, dis⟩
  rw [hr] at hdis hor
  simp only at hdis hor
  subst hdis
  rcases hor with ⟨rfl, rfl, rfl, rfl, rfl⟩ | ⟨rfl, m, j, hne, _, hmj, hsh, hx⟩
  · rw [M.bind_ok (node1_dang hr), M.bind_ok (node2_dang hr), if_neg (by simp),
      M.bind_ok (axis1_dang hr), M.bind_ok (axis2_dang hr), if_pos (by simp)]
    rfl
  · rcases hx with ⟨rfl, rfl, rfl, rfl⟩ | ⟨rfl, rfl, rfl, rfl⟩
    · rw [M.bind_ok (node1_conn hr), M.bind_ok (node2_conn hr), if_neg (by simp),
        M.bind_ok (axis1_conn hr), M.bind_ok (axis2_conn hr), if_pos (by simp)]
      rfl
    · rw [M.bind_ok (node1_conn hr), M.bind_ok (node2_conn hr), if_neg (by simp),
        M.bind_ok (axis1_conn hr), M.bind_ok (axis2_conn hr), if_pos (by simp)]
      rfl

/-- The heap before any object was created. -/
def Heap.empty [Zero R] : Heap R := ⟨fun _ => ⟨⟨[], fun _ => 0⟩, []⟩, fun _ => .dang 0 0, 0, 0⟩

end TN.Graph
