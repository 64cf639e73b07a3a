import Verif.GraphSlice

/-!
# Splitting a node in two

`split_node`, `split_node_qr` and `split_node_rq` (network_operations.py:130-443) do the same
with different decompositions of the transposed tensor.  The decomposition is a parameter.
-/

namespace TN.Graph

open TN

variable {R : Type}

/-- `[edge.axis1 if edge.node1 is node else edge.axis2 for edge in edges]`
(network_operations.py:231-233). -/
def axesOf (n : NId) (es : List EId) : M R (List Nat) :=
  M.mapEach es fun e => do
    let a ← node1 e
    if a = n then axis1 e
    else do
      let x ← axis2 e
      match x with
      | some x => pure x
      | none => M.throw .typeError

/-- The loops `new.add_edge(edge, i + off); edge.update_axis(axes[i], node, i + off, new)`
(network_operations.py:234-236, 247-250). -/
def attach (es : List EId) (axes : List Nat) (off : Nat) (n m : NId) : M R Unit :=
  M.forEach (es.zip axes).zipIdx fun p => do
    addEdge m p.1.1 (p.2 + off) false
    updateAxis p.1.1 p.1.2 n (p.2 + off) m

/-- `split_node`, `split_node_qr`, `split_node_rq` (network_operations.py:130-443) with the
decomposition `decomp(tensor, pivot)` of the backend. -/
def splitNodeWith (decomp : NDArray R → Nat → Py (NDArray R × NDArray R)) (n : NId)
    (left right : List EId) : M R (NId × NId) := do
  let t ← tensorFromEdgeOrder n (left ++ right)
  let uv ← M.lift (decomp t left.length)
  let l ← newNode uv.1
  let la ← axesOf n left
  attach left la 0 n l
  let r ← newNode uv.2
  let ra ← axesOf n right
  attach right ra 1 n r
  let le ← nodeEdges l
  let re ← nodeEdges r
  match le.getLast?, re.head? with
  | some a, some b => do
    let _ ← connect a b
    freshEdges n
    pure (l, r)
  | _, _ => M.throw .indexError

/-! ### Moving all edges of a node to new nodes -/

theorem relocate_wf {h h' : Heap R} (w : WF h) {n : NId} {tgt : Nat → Slot}
    (hne : h.ne ≤ h'.ne) (hnn : h.nn ≤ h'.nn)
    (hlen : ∀ m < h'.nn, (h'.node m).edges.length = (h'.node m).tensor.ndim)
    (hother : ∀ m < h.nn, m ≠ n → h'.node m = h.node m)
    (hone : ∀ k k' e, At h (n, k) e → At h (n, k') e → k = k')
    (hmove : ∀ k e, At h (n, k) e → At h' (tgt k) e ∧ dimAt h' (tgt k) = dimAt h (n, k) ∧
      h.nn ≤ (tgt k).1 ∧ (h'.edge e).Good ∧
      (h'.edge e).ends = tgt k ::ₘ (h.edge e).ends.erase (n, k))
    (hrec : ∀ e, InUse h e → (∀ k, ¬ At h (n, k) e) → h'.edge e = h.edge e)
    (hcover : ∀ s e, At h' s e → (s.1 < h.nn ∧ s.1 ≠ n) ∨ (∃ k, At h (n, k) e ∧ s = tgt k) ∨
      EdgeOK h' s e) : WF h' := by
  obtain ⟨φ, hφ⟩ : ∃ φ : Slot → Slot, φ = fun s => if s.1 = n then tgt s.2 else s := ⟨_, rfl⟩
  have hφ1 : ∀ k, φ (n, k) = tgt k := by intro k; rw [hφ]; simp
  have hφ2 : ∀ s : Slot, s.1 ≠ n → φ s = s := by intro s hs; rw [hφ]; simp [hs]
  have hends : ∀ k e, At h (n, k) e → (h.edge e).ends.map φ =
      tgt k ::ₘ (h.edge e).ends.erase (n, k) := by
    intro k e hs
    have ok := w.edge _ _ hs
    conv_lhs => rw [← Multiset.cons_erase ok.mem]
    rw [Multiset.map_cons, hφ1]
    congr 1
    refine (Multiset.map_congr rfl fun s hs' => ?_).trans (Multiset.map_id _)
    refine hφ2 s fun hc => ?_
    obtain ⟨m, j⟩ := s
    simp only at hc
    subst hc
    have hat := ok.listed _ (Multiset.mem_of_mem_erase hs')
    have := hone _ _ _ hs hat
    subst this
    exact ok.nodup.notMem_erase hs'
  have hlive : ∀ s e, At h s e → At h' (φ s) e ∧ dimAt h' (φ s) = dimAt h s ∧
      (h'.edge e).Good ∧ (h'.edge e).ends = (h.edge e).ends.map φ := by
    rintro ⟨m, j⟩ e hs
    by_cases hm : m = n
    · subst hm
      obtain ⟨m1, m2, _, m3, m4⟩ := hmove j e hs
      rw [hφ1]
      exact ⟨m1, m2, m3, by rw [m4, hends j e hs]⟩
    · have hsame := hother m hs.1 hm
      rw [hφ2 (m, j) hm]
      refine ⟨⟨lt_of_lt_of_le hs.1 hnn, by rw [hsame]; exact hs.2⟩, ?_, ?_⟩
      · simp only [dimAt, Heap.shape, hsame]
      · by_cases hk : ∃ k, At h (n, k) e
        · obtain ⟨k, hk⟩ := hk
          obtain ⟨_, _, _, m3, m4⟩ := hmove k e hk
          exact ⟨m3, by rw [m4, hends k e hk]⟩
        · push Not at hk
          rw [hrec e hs.inUse hk]
          refine ⟨w.good hs.inUse, ((Multiset.map_congr rfl fun s hs' => ?_).trans
            (Multiset.map_id _)).symm⟩
          refine hφ2 s fun hc => ?_
          obtain ⟨m', j'⟩ := s
          simp only at hc
          subst hc
          exact hk j' ((w.edge _ _ hs).listed _ hs')
  have sg : Surgery h h' φ (fun _ => False) := by
    refine ⟨hlen, hne, fun s e hs _ => hlive s e hs, ?_, ?_⟩
    · rintro ⟨m, j⟩ ⟨m', j'⟩ e hs hs' _ heq
      by_cases hm : m = n
      · subst hm
        by_cases hm' : m' = m
        · subst hm'
          rw [hone _ _ _ hs hs']
        · rw [hφ1, hφ2 _ hm'] at heq
          have := (hmove j e hs).2.2.1
          rw [heq] at this
          exact absurd hs'.1 (by simp only at this ⊢; omega)
      · by_cases hm' : m' = n
        · subst hm'
          rw [hφ1, hφ2 _ hm] at heq
          have := (hmove j' e hs').2.2.1
          rw [← heq] at this
          exact absurd hs.1 (by simp only at this ⊢; omega)
        · rw [hφ2 _ hm, hφ2 _ hm'] at heq
          exact heq
    · intro s e hs
      rcases hcover s e hs with ⟨h1, h2⟩ | ⟨k, h1, h2⟩ | h1
      · left
        refine ⟨s, ⟨h1, ?_⟩, not_false, hφ2 s h2⟩
        rw [← hother s.1 h1 h2]
        exact hs.2
      · left
        exact ⟨(n, k), h1, not_false, by rw [hφ1, h2]⟩
      · exact .inr h1
  exact sg.wf w

/-- What the attaching loop does. -/
theorem attachLoop {n m off : Nat} {ax : EId → Nat} :
    ∀ (L : List EId) (j : Nat) (g : Heap R), L.Nodup →
    (∀ i < L.length, ∃ f, (g.node m).edges[j + off + i]? = some f ∧ (g.edge f).dangling = true) →
    j + off + L.length ≤ (g.node m).tensor.ndim →
    (∀ e ∈ L, (g.edge e).Good ∧ (n, ax e) ∈ (g.edge e).ends) →
    ∃ g', M.forEach ((L.map fun e => (e, ax e)).zipIdx j) (fun p => do
        addEdge m p.1.1 (p.2 + off) false
        updateAxis p.1.1 p.1.2 n (p.2 + off) m) g = (.ok (), g') ∧ g'.ne = g.ne ∧
      Relisted g g' (fun x k => if x = m ∧ j + off ≤ k then L[k - (j + off)]? else none) ∧
      (∀ e ∉ L, g'.edge e = g.edge e) ∧
      ∀ i e, L[i]? = some e → (g'.edge e).Good ∧ (g'.edge e).dangling = (g.edge e).dangling ∧
        (g'.edge e).ends = (m, j + off + i) ::ₘ (g.edge e).ends.erase (n, ax e) := by
  intro L
  induction L with
  | nil =>
    intro j g _ _ _ _
    refine ⟨g, rfl, rfl, ⟨rfl, fun _ => rfl, fun _ => rfl, fun x k => by simp⟩,
      fun _ _ => rfl, by simp⟩
  | cons a L ih =>
    intro j g hL hslot hnd hg
    rw [List.nodup_cons] at hL
    obtain ⟨f0, hf0, hd0⟩ := hslot 0 (by simp)
    have hlen0 : j + off < (g.node m).edges.length := by
      have := (List.getElem?_eq_some_iff.1 hf0).1
      simpa using this
    have hget0 : (g.node m).edges[j + off] = f0 := by
      have := (List.getElem?_eq_some_iff.1 hf0).2
      simpa using this
    simp only [List.length_cons] at hnd
    -- one round
    have r1 : addEdge m a (j + off) false g = (.ok (), g.setNode m { g.node m with
        edges := (g.node m).edges.set (j + off) a }) :=
      addEdge_ok (by omega) hlen0 (.inr (by rw [hget0]; exact hd0))
    obtain ⟨g1, hg1⟩ : ∃ x, x = g.setNode m { g.node m with
        edges := (g.node m).edges.set (j + off) a } := ⟨_, rfl⟩
    rw [← hg1] at r1
    have g1e : g1.edge = g.edge := by rw [hg1]; rfl
    have l1 : Relisted g g1 (fun x k => if x = m ∧ k = j + off then some a else none) := by
      obtain ⟨g1', x1, _, _, x4⟩ := addEdge_slot (h := g) (n := m) (e := a) (a := j + off)
        (by omega) hlen0
      have : g1' = g1 := by
        have := addEdge_ok (h := g) (n := m) (e := a) (a := j + off) (ov := true)
          (by omega) hlen0 (.inl rfl)
        rw [x1] at this
        rw [hg1]
        exact (Prod.mk.inj this).2
      rw [← this]; exact x4
    obtain ⟨rr, q1, q2, q3, q4⟩ := updateAxis_good (h := g1) (e := a) (old := (n, ax a))
      (new := (m, j + off)) (by rw [g1e]; exact (hg a (by simp)).1)
      (by rw [g1e]; exact (hg a (by simp)).2)
    rw [g1e] at q3 q4
    obtain ⟨g2, hg2⟩ : ∃ x, x = g1.setEdge a rr := ⟨_, rfl⟩
    have g2n : g2.node = g1.node := by rw [hg2]; rfl
    have g2e : ∀ e, e ≠ a → g2.edge e = g.edge e := by
      intro e he; rw [hg2]; simp [he, g1e]
    have g2a : g2.edge a = rr := by rw [hg2]; simp
    rw [← hg2] at q1
    obtain ⟨g', k1, k2, k3, k4, k5⟩ := ih (j + 1) g2 hL.2 (by
      intro i hi
      obtain ⟨f, hf1, hf2⟩ := hslot (i + 1) (by simpa using hi)
      refine ⟨f, ?_, ?_⟩
      · rw [g2n, l1.get, if_neg (by omega)]
        simp only
        rw [← hf1]; congr 1; omega
      · by_cases hfa : f = a
        · rw [hfa, g2a, q3, ← hfa]; exact hf2
        · rw [g2e f hfa]; exact hf2)
      (by rw [g2n, l1.tensor]; omega) (by
      intro e he
      have hea : e ≠ a := by rintro rfl; exact hL.1 he
      rw [g2e e hea]
      exact hg e (by simp [he]))
    refine ⟨g', ?_, ?_, ?_, ?_, ?_⟩
    · rw [List.map_cons, List.zipIdx_cons, M.forEach_cons, M.bind_apply, M.bind_ok r1]
      simp only
      simp only at q1
      rw [q1]
      exact k1
    · rw [k2, hg2, hg1]; rfl
    · refine ⟨by rw [k3.nn, hg2, hg1]; rfl, fun x => by rw [k3.tensor, g2n, l1.tensor],
        fun x => by rw [k3.len, g2n, l1.len], fun x k => ?_⟩
      rw [k3.get, g2n, l1.get]
      by_cases hx : x = m
      · by_cases hk : k = j + off
        · simp [hx, hk]
        · by_cases hk' : j + off ≤ k
          · have e1 : j + 1 + off ≤ k := by omega
            have e2 : k - (j + off) = (k - (j + 1 + off)) + 1 := by omega
            simp only [hx, hk', e1, e2, and_self, if_true, List.getElem?_cons_succ, hk, and_false,
              if_false]
          · have e1 : ¬ (j + 1 + off ≤ k) := by omega
            simp [hk', e1, hk]
      · simp [hx]
    · intro e he
      rw [List.mem_cons, not_or] at he
      rw [k4 e he.2, g2e e he.1]
    · intro i e hi
      cases i with
      | zero =>
        simp only [List.getElem?_cons_zero, Option.some.injEq] at hi
        subst hi
        rw [k4 a hL.1, g2a]
        exact ⟨q2, q3, q4⟩
      | succ i =>
        rw [List.getElem?_cons_succ] at hi
        have he : e ∈ L := List.mem_of_getElem? hi
        have hea : e ≠ a := by rintro rfl; exact hL.1 he
        obtain ⟨z1, z2, z3⟩ := k5 i e hi
        rw [g2e e hea] at z2 z3
        refine ⟨z1, z2, ?_⟩
        rw [z3]
        congr 2
        omega

end TN.Graph
