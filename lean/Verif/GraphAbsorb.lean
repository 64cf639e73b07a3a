import Verif.GraphLoops

/-!
# Replacing nodes by a new node

The common shape of `contract`, `contract_between`, `outer_product` and `_contract_trace`:
a new node takes over the edges of some old nodes, which get fresh dangling edges.
-/

namespace TN.Graph

open TN

variable {R : Type}

/-! ### New nodes -/

/-- The heap after `Node(t)`. -/
def addNode (h : Heap R) (t : NDArray R) : Heap R :=
  { node := Function.update h.node h.nn ⟨t, (List.range t.ndim).map (fun i => h.ne + i)⟩
    edge := fun e => if h.ne ≤ e ∧ e < h.ne + t.ndim then
         .dang h.nn (e - h.ne) else h.edge e
    nn := h.nn + 1
    ne := h.ne + t.ndim }

theorem newNode_eq (h : Heap R) (t : NDArray R) : newNode t h = (.ok h.nn, addNode h t) := rfl

theorem addNode_node_old {h : Heap R} {t : NDArray R} {n : NId} (hn : n < h.nn) :
    (addNode h t).node n = h.node n := by
  simp [addNode, hn.ne]

theorem addNode_node_new {h : Heap R} {t : NDArray R} :
    (addNode h t).node h.nn = ⟨t, (List.range t.ndim).map (fun i => h.ne + i)⟩ := by
  simp [addNode]

theorem addNode_edge_old {h : Heap R} {t : NDArray R} {e : EId} (he : e < h.ne) :
    (addNode h t).edge e = h.edge e := by
  have h1 : ¬ (h.ne ≤ e ∧ e < h.ne + t.ndim) := by omega
  simp only [addNode, if_neg h1]

theorem addNode_edge_new {h : Heap R} {t : NDArray R} {k : Nat} (hk : k < t.ndim) :
    (addNode h t).edge (h.ne + k) = .dang h.nn k := by
  have h1 : (h.ne ≤ h.ne + k ∧ h.ne + k < h.ne + t.ndim) := by omega
  simp only [addNode, if_pos h1]
  simp

theorem addNode_at_new {h : Heap R} {t : NDArray R} {k : Nat} {e : EId} :
    At (addNode h t) (h.nn, k) e ↔ k < t.ndim ∧ e = h.ne + k := by
  simp only [At, addNode_node_new]
  constructor
  · rintro ⟨_, h2⟩
    obtain ⟨h3, h4⟩ := List.getElem?_eq_some_iff.1 h2
    simp only [List.length_map, List.length_range] at h3
    simp only [List.getElem_map, List.getElem_range] at h4
    exact ⟨h3, h4.symm⟩
  · rintro ⟨h1, rfl⟩
    refine ⟨by simp [addNode], ?_⟩
    simp [h1]

theorem addNode_at_old {h : Heap R} {t : NDArray R} {s : Slot} {e : EId} (hs : s.1 ≠ h.nn) :
    At (addNode h t) s e ↔ At h s e := by
  simp only [At]
  have h1 : (addNode h t).node s.1 = h.node s.1 := by simp [addNode, hs]
  rw [h1]
  have : (addNode h t).nn = h.nn + 1 := rfl
  rw [this]
  constructor
  · rintro ⟨a, b⟩; exact ⟨by omega, b⟩
  · rintro ⟨a, b⟩; exact ⟨by omega, b⟩

theorem addNode_dimAt_old {h : Heap R} {t : NDArray R} {s : Slot} (hs : s.1 < h.nn) :
    dimAt (addNode h t) s = dimAt h s := by
  simp only [dimAt, Heap.shape, addNode_node_old hs]

theorem addNode_surgery {h : Heap R} (w : WF h) (t : NDArray R) :
    Surgery h (addNode h t) id (fun _ => False) := by
  refine ⟨?_, by simp [addNode], ?_, fun s s' e _ _ _ h => h, ?_⟩
  · intro n hn
    by_cases h1 : n = h.nn
    · subst h1; rw [addNode_node_new]; simp
    · have : n < h.nn := by simp only [addNode] at hn; omega
      rw [addNode_node_old this]
      exact w.len n this
  · intro s e hs _
    have h1 := hs.1
    refine ⟨(addNode_at_old h1.ne).2 hs, addNode_dimAt_old h1, ?_, ?_⟩
    · rw [addNode_edge_old (w.lt ⟨s, hs⟩)]; exact w.good ⟨s, hs⟩
    · rw [addNode_edge_old (w.lt ⟨s, hs⟩)]; simp
  · intro s e hs
    by_cases h1 : s.1 = h.nn
    · right
      obtain ⟨n, k⟩ := s
      simp only at h1
      subst h1
      obtain ⟨h2, rfl⟩ := addNode_at_new.1 hs
      have he := addNode_edge_new (h := h) h2
      refine ⟨by simp [addNode, h2], by rw [he]; exact good_dang _ _, by rw [he]; simp,
        by rw [he]; simp, ?_, ?_⟩
      · rw [he]; intro s' hs'
        simp only [ends_dang, Multiset.mem_singleton] at hs'
        rw [hs']; exact hs
      · rw [he]; intro s' hs'
        simp only [ends_dang, Multiset.mem_singleton] at hs'
        rw [hs']
    · left
      exact ⟨s, (addNode_at_old h1).1 hs, id, rfl⟩

theorem addNode_wf {h : Heap R} (w : WF h) (t : NDArray R) : WF (addNode h t) :=
  (addNode_surgery w t).wf w

/-! ### Fresh edges -/

/-- `h'` is `h` with fresh dangling edges for the nodes in `N`. -/
structure Freshened (h h' : Heap R) (N : List NId) : Prop where
  nn : h'.nn = h.nn
  ne : h.ne ≤ h'.ne
  other : ∀ n, n ∉ N → h'.node n = h.node n
  tensor : ∀ n, (h'.node n).tensor = (h.node n).tensor
  len : ∀ n, (h'.node n).edges.length = (h.node n).edges.length
  fresh : ∀ n ∈ N, ∀ k e, (h'.node n).edges[k]? = some e →
    h.ne ≤ e ∧ e < h'.ne ∧ h'.edge e = .dang n k
  old : ∀ e < h.ne, h'.edge e = h.edge e

theorem freshHeap_freshened (h : Heap R) (n : NId) : Freshened h (freshHeap h n) [n] := by
  refine ⟨rfl, by simp [freshHeap], ?_, ?_, ?_, ?_, ?_⟩
  · intro m hm
    simp [freshHeap, show m ≠ n by simpa using hm]
  · intro m
    simp only [freshHeap, Function.update_apply]
    split
    · subst_vars; rfl
    · rfl
  · intro m
    simp only [freshHeap, Function.update_apply]
    split
    · subst_vars; simp
    · rfl
  · intro m hm k e he
    have : m = n := by simpa using hm
    subst this
    simp only [freshHeap, Function.update_self] at he
    obtain ⟨h1, h2⟩ := List.getElem?_eq_some_iff.1 he
    simp only [List.getElem_map, List.getElem_range] at h2
    simp only [List.length_map, List.length_range] at h1
    subst h2
    refine ⟨by omega, by simp [freshHeap, h1], ?_⟩
    have h3 : h.ne ≤ h.ne + k ∧ h.ne + k < h.ne + (h.node m).edges.length := by omega
    simp only [freshHeap, if_pos h3]
    simp
  · intro e he
    have h3 : ¬ (h.ne ≤ e ∧ e < h.ne + (h.node n).edges.length) := by omega
    simp only [freshHeap, if_neg h3]

theorem Freshened.trans {h h1 h2 : Heap R} {A B : List NId} (x : Freshened h h1 A)
    (y : Freshened h1 h2 B) : Freshened h h2 (A ++ B) := by
  refine ⟨y.nn.trans x.nn, x.ne.trans y.ne, ?_, fun n => (y.tensor n).trans (x.tensor n),
    fun n => (y.len n).trans (x.len n), ?_, ?_⟩
  · intro n hn
    simp only [List.mem_append, not_or] at hn
    rw [y.other n hn.2, x.other n hn.1]
  · intro n hn k e he
    by_cases hB : n ∈ B
    · obtain ⟨h3, h4, h5⟩ := y.fresh n hB k e he
      exact ⟨x.ne.trans h3, h4, h5⟩
    · have hA : n ∈ A := by simpa [hB] using hn
      rw [y.other n hB] at he
      obtain ⟨h3, h4, h5⟩ := x.fresh n hA k e he
      exact ⟨h3, lt_of_lt_of_le h4 y.ne, by rw [y.old e h4, h5]⟩
  · intro e he
    rw [y.old e (lt_of_lt_of_le he x.ne), x.old e he]

/-! ### Absorption -/

/-- Given a consistent graph `h`, in which `new` only has dangling edges; `h2` is `h` with the
edge ends moved by `φ`; then `new` takes the edges `es`, the nodes `N` get fresh edges and
the edges `S` are disabled. -/
theorem absorb_surgery {h h2 h3 : Heap R} (w : WF h) {new : NId} {N : List NId} {S es : List EId}
    {φ : Slot → Slot} (hnew : new < h.nn) (hnN : new ∉ N)
    (hdang : ∀ k e, At h (new, k) e → (h.edge e).dangling = true)
    (h2node : h2.node = h.node) (h2nn : h2.nn = h.nn) (h2ne : h2.ne = h.ne)
    (h2edge : ∀ e, InUse h e → (h2.edge e).Good ∧ (h2.edge e).ends = (h.edge e).ends.map φ)
    (hlen : es.length = (h.node new).tensor.ndim)
    (hto : ∀ s e, At h s e → s.1 ∈ N → e ∉ S → ∃ k, φ s = (new, k) ∧ es[k]? = some e ∧
      dimAt h (new, k) = dimAt h s)
    (hfrom : ∀ k e, es[k]? = some e → ∃ s, s.1 ∈ N ∧ At h s e ∧ e ∉ S ∧ φ s = (new, k))
    (hinj : ∀ s s' e, At h s e → At h s' e → e ∉ S → s.1 ∈ N → s'.1 ∈ N → φ s = φ s' → s = s')
    (hid : ∀ s, s.1 ∉ N → φ s = s)
    (hS : ∀ e ∈ S, ∀ s, At h s e → s.1 ∈ N) (hSlt : ∀ e ∈ S, e < h.ne)
    (h3f : Freshened (h2.setNode new { h2.node new with edges := es }) h3 N) :
    Surgery h (disableHeap h3 S) φ (fun e => e ∈ S ∨ ∃ k, At h (new, k) e) := by
  have hnn : (disableHeap h3 S).nn = h.nn := h3f.nn.trans h2nn
  have hnewnode : (disableHeap h3 S).node new = { h.node new with edges := es } := by
    have := h3f.other new hnN
    simp only [Heap.setNode_node, Function.update_self, h2node] at this
    exact this
  have hother : ∀ n, n ∉ N → n ≠ new → (disableHeap h3 S).node n = h.node n := by
    intro n h1 h2
    have := h3f.other n h1
    have h3 : (disableHeap h3 S).node n = h3.node n := rfl
    rw [h3, this]
    simp [h2, h2node]
  have htensor : ∀ n, ((disableHeap h3 S).node n).tensor = (h.node n).tensor := by
    intro n
    have := h3f.tensor n
    simp only [Heap.setNode_node, Function.update_apply, h2node] at this
    have h1 : (disableHeap h3 S).node n = h3.node n := rfl
    rw [h1, this]
    split
    · subst_vars; rfl
    · rfl
  have hdim : ∀ s, dimAt (disableHeap h3 S) s = dimAt h s := by
    intro s; simp only [dimAt, Heap.shape, htensor]
  have hedge : ∀ e < h.ne, e ∉ S → (disableHeap h3 S).edge e = h2.edge e := by
    intro e he hS
    simp only [disableHeap, if_neg hS]
    exact h3f.old e (by simpa [h2ne] using he)
  have hne : h.ne ≤ (disableHeap h3 S).ne := by
    have := h3f.ne
    simp only [Heap.setNode_ne, h2ne] at this
    exact this
  have hcov : ∀ s e, At h s e → s.1 ∉ N → s.1 ≠ new → ¬ (e ∈ S ∨ ∃ k, At h (new, k) e) := by
    rintro s e hs h1 h2 (h3 | ⟨k, hk⟩)
    · exact h1 (hS e h3 s hs)
    · have hu : InUse h e := ⟨s, hs⟩
      have hd := hdang k e hk
      have hm1 := (w.mem_ends hu).2 hs
      have hm2 := (w.mem_ends hu).2 hk
      rcases w.good hu with ⟨n, a, hr⟩ | ⟨n, a, m, b, hr⟩
      · rw [hr] at hm1 hm2
        simp only [ends_dang, Multiset.mem_singleton] at hm1 hm2
        exact h2 (by rw [hm1, ← hm2])
      · rw [hr] at hd; simp at hd
  refine ⟨?_, hne, ?_, ?_, ?_⟩
  · intro n hn
    rw [hnn] at hn
    rw [htensor]
    by_cases h1 : n = new
    · subst h1; rw [hnewnode]; exact hlen
    · have := h3f.len n
      simp only [Heap.setNode_node, Function.update_apply, h1, if_false, h2node] at this
      exact this.trans (w.len n hn)
  · intro s e hs hd
    simp only [not_or] at hd
    have hu : InUse h e := ⟨s, hs⟩
    have he := hedge e (w.lt hu) hd.1
    rw [he]
    refine ⟨?_, ?_, h2edge e hu⟩
    · by_cases h1 : s.1 ∈ N
      · obtain ⟨k, k1, k2, k3⟩ := hto s e hs h1 hd.1
        rw [k1]
        exact ⟨by rw [hnn]; exact hnew, by simp only [hnewnode]; exact k2⟩
      · rw [hid s h1]
        have h2 : s.1 ≠ new := by
          intro h
          exact hd.2 ⟨s.2, by rw [← h]; exact hs⟩
        exact ⟨by rw [hnn]; exact hs.1, by rw [hother _ h1 h2]; exact hs.2⟩
    · rw [hdim]
      by_cases h1 : s.1 ∈ N
      · obtain ⟨k, k1, k2, k3⟩ := hto s e hs h1 hd.1
        rw [k1, k3]
      · rw [hid s h1]
  · intro s s' e hs hs' hd hφ
    simp only [not_or] at hd
    by_cases h1 : s.1 ∈ N
    · by_cases h2 : s'.1 ∈ N
      · exact hinj s s' e hs hs' hd.1 h1 h2 hφ
      · exfalso
        obtain ⟨k, k1, _⟩ := hto s e hs h1 hd.1
        rw [hid s' h2, k1] at hφ
        exact hd.2 ⟨k, by rw [hφ]; exact hs'⟩
    · by_cases h2 : s'.1 ∈ N
      · exfalso
        obtain ⟨k, k1, _⟩ := hto s' e hs' h2 hd.1
        rw [hid s h1, k1] at hφ
        exact hd.2 ⟨k, by rw [← hφ]; exact hs⟩
      · rwa [hid s h1, hid s' h2] at hφ
  · intro s e hs
    have hs1 : s.1 < h.nn := by rw [← hnn]; exact hs.1
    by_cases h1 : s.1 = new
    · left
      obtain ⟨n, k⟩ := s
      simp only at h1
      subst h1
      have h2 := hs.2
      simp only [hnewnode] at h2
      obtain ⟨s, k1, k2, k3, k4⟩ := hfrom k e h2
      refine ⟨s, k2, ?_, k4⟩
      rintro (h3 | ⟨k', hk'⟩)
      · exact k3 h3
      · have hu : InUse h e := ⟨s, k2⟩
        have hd := hdang k' e hk'
        have hm1 := (w.mem_ends hu).2 k2
        have hm2 := (w.mem_ends hu).2 hk'
        rcases w.good hu with ⟨n', a, hr⟩ | ⟨n', a, m, b, hr⟩
        · rw [hr] at hm1 hm2
          simp only [ends_dang, Multiset.mem_singleton] at hm1 hm2
          rw [hm1, ← hm2] at k1
          exact hnN k1
        · rw [hr] at hd; simp at hd
    · by_cases h2 : s.1 ∈ N
      · right
        obtain ⟨k1, k2, k3⟩ := h3f.fresh s.1 h2 s.2 e hs.2
        simp only [Heap.setNode_ne, h2ne] at k1
        have heS : e ∉ S := fun hSe => absurd (hSlt e hSe) (by omega)
        have he : (disableHeap h3 S).edge e = .dang s.1 s.2 := by
          simp only [disableHeap, if_neg heS]; exact k3
        refine ⟨k2, by rw [he]; exact good_dang _ _, by rw [he]; simp, by rw [he]; simp, ?_, ?_⟩
        · rw [he]; intro s' hs'
          simp only [ends_dang, Multiset.mem_singleton] at hs'
          rw [hs']; exact hs
        · rw [he]; intro s' hs'
          simp only [ends_dang, Multiset.mem_singleton] at hs'
          rw [hs']
      · left
        have hs' : At h s e := ⟨hs1, by
          have := hs.2
          rwa [hother _ h2 h1] at this⟩
        exact ⟨s, hs', hcov s e hs' h2 h1, hid s h2⟩

end TN.Graph
