import Verif.GraphSpec

/-!
# Redirecting an edge to another node
-/

namespace TN.Graph

open TN

variable {R : Type}

/-- `redirect_edge(edge, new_node, old_node)` (network_operations.py:986-1037). -/
def redirectEdge (e : EId) (new old : NId) : M R Unit := do
  let tr ← isTrace e
  if ¬ tr then do
    let d ← isDangling e
    let n1 ← node1 e
    let axis ← (if d then
        if n1 ≠ old then M.throw .valueError
        else do
          M.modify fun h => h.setEdge e { h.edge e with node1 := some new }
          axis1 e
      else if n1 = old then do
        M.modify fun h => h.setEdge e { h.edge e with node1 := some new }
        axis1 e
      else do
        let n2 ← node2 e
        if n2 = some old then do
          M.modify fun h => h.setEdge e { h.edge e with node2 := some new }
          let a ← axis2 e
          match a with
          | some a => pure a
          | none => M.throw .typeError
        else M.throw .valueError)
    addEdge new e axis true
    let f ← newDangling old axis
    addEdge old f axis true
  else do
    let n1 ← node1 e
    if n1 ≠ old then M.throw .valueError
    else do
      M.modify fun h => h.setEdge e { h.edge e with node1 := some new }
      M.modify fun h => h.setEdge e { h.edge e with node2 := some new }
      let a1 ← axis1 e
      let a2 ← axis2 e
      match a2 with
      | none => M.throw .typeError
      | some a2 => do
        addEdge new e a1 true
        addEdge new e a2 true
        let f ← newConnected old a1 old a2
        addEdge old f a1 true
        addEdge old f a2 true

/-- Only the edge lists changed. -/
structure Relisted (h h' : Heap R) (upd : Nat → Nat → Option EId) : Prop where
  nn : h'.nn = h.nn
  tensor : ∀ m, (h'.node m).tensor = (h.node m).tensor
  len : ∀ m, (h'.node m).edges.length = (h.node m).edges.length
  get : ∀ m k, (h'.node m).edges[k]? = match upd m k with
    | some f => some f
    | none => (h.node m).edges[k]?

theorem addEdge_slot {h : Heap R} {n : NId} {e : EId} {a : Nat}
    (ha : a < (h.node n).tensor.ndim) (hl : a < (h.node n).edges.length) :
    ∃ h', addEdge n e a true h = (.ok (), h') ∧ h'.edge = h.edge ∧ h'.ne = h.ne ∧
      Relisted h h' (fun m k => if m = n ∧ k = a then some e else none) := by
  refine ⟨_, addEdge_ok ha hl (.inl rfl), rfl, rfl, ⟨rfl, ?_, ?_, ?_⟩⟩
  · intro m
    simp only [Heap.setNode_node]
    by_cases hm : m = n
    · subst hm; rw [Function.update_self]
    · rw [Function.update_of_ne hm]
  · intro m
    simp only [Heap.setNode_node]
    by_cases hm : m = n
    · subst hm; rw [Function.update_self, List.length_set]
    · rw [Function.update_of_ne hm]
  · intro m k
    simp only [Heap.setNode_node]
    by_cases hm : m = n
    · subst hm
      rw [Function.update_self, List.getElem?_set]
      by_cases hk : k = a
      · subst hk; simp [hl]
      · simp [hk, Ne.symm hk]
    · rw [Function.update_of_ne hm]; simp [hm]

theorem Relisted.trans {h h1 h2 : Heap R} {u v : Nat → Nat → Option EId}
    (r1 : Relisted h h1 u) (r2 : Relisted h1 h2 v) :
    Relisted h h2 (fun m k => match v m k with | some f => some f | none => u m k) := by
  refine ⟨r2.nn.trans r1.nn, fun m => (r2.tensor m).trans (r1.tensor m),
    fun m => (r2.len m).trans (r1.len m), fun m k => ?_⟩
  rw [r2.get, r1.get]
  cases v m k <;> rfl

/-- The graph after `redirect_edge(e, new, old)`: every axis of `old` that had `e` has the
new edge, the same axes of `new` have `e`. -/
structure Redirected (h h' : Heap R) (e : EId) (new old : NId) : Prop where
  wf : WF h'
  nn : h'.nn = h.nn
  ne : h'.ne = h.ne + 1
  tensor : ∀ n, (h'.node n).tensor = (h.node n).tensor
  slots : ∀ n k f, At h' (n, k) f ↔
    if (h.node old).edges[k]? = some e ∧ n = new then f = e
    else if (h.node old).edges[k]? = some e ∧ n = old then f = h.ne
    else At h (n, k) f
  record : ∀ f < h.ne, f ≠ e → h'.edge f = h.edge f
  dangling : (h'.edge e).dangling = (h.edge e).dangling

/-- The part of the proof that is about the graph only. -/
theorem redirected_of {h h' : Heap R} (w : WF h) {e : EId} (hu : InUse h e) {new old : NId}
    (hno : new ≠ old) (hn : new < h.nn) (ho : old < h.nn)
    (hto : ∀ k, At h (old, k) e → ∃ d, At h (new, k) d ∧ (h.edge d).dangling = true ∧
      dimAt h (new, k) = edim h e)
    (hne : h'.ne = h.ne + 1)
    (rl : Relisted h h' (fun m k => if (h.node old).edges[k]? = some e ∧ m = new then some e
      else if (h.node old).edges[k]? = some e ∧ m = old then some h.ne else none))
    (hrec : ∀ f < h.ne, f ≠ e → h'.edge f = h.edge f)
    (hd : (h'.edge e).dangling = (h.edge e).dangling)
    (hok : ∀ s, At h' s e → EdgeOK h' s e)
    (hok' : ∀ s, At h' s h.ne → EdgeOK h' s h.ne) : Redirected h h' e new old := by
  have slots : ∀ n k f, At h' (n, k) f ↔
      if (h.node old).edges[k]? = some e ∧ n = new then f = e
      else if (h.node old).edges[k]? = some e ∧ n = old then f = h.ne
      else At h (n, k) f := by
    intro n k f
    unfold At
    simp only [rl.get, rl.nn]
    by_cases h1 : (h.node old).edges[k]? = some e
    · by_cases h2 : n = new
      · subst h2
        simp [h1, hn, eq_comm]
      · by_cases h3 : n = old
        · subst h3
          simp [h1, ho, h2, eq_comm]
        · simp [h2, h3]
    · simp [h1]
  refine ⟨?_, rl.nn, hne, rl.tensor, slots, hrec, hd⟩
  have hdimAt : ∀ s, dimAt h' s = dimAt h s := by
    intro s
    simp only [dimAt, Heap.shape, rl.tensor]
  refine cut_wf w (dead := fun f => f = e ∨ ∃ k, At h (old, k) e ∧ At h (new, k) f)
    (by omega) ?_ ?_ ?_
  · intro n hn'
    rw [rl.len, rl.tensor, w.len n (by rw [← rl.nn]; exact hn')]
  · rintro ⟨n, k⟩ f hs hdead
    push Not at hdead
    refine ⟨?_, hdimAt _, hrec f (w.lt hs.inUse) hdead.1⟩
    rw [slots, if_neg, if_neg]
    · exact hs
    · rintro ⟨h1, rfl⟩
      exact hdead.1 (hs.unique ⟨ho, h1⟩)
    · rintro ⟨h1, rfl⟩
      exact hdead.2 k ⟨ho, h1⟩ hs
  · rintro ⟨n, k⟩ f hs
    by_cases hfe : f = e
    · subst hfe; exact .inr (hok _ hs)
    by_cases hfn : f = h.ne
    · subst hfn; exact .inr (hok' _ hs)
    left
    have hs' := hs
    rw [slots] at hs'
    split_ifs at hs' with h1 h2
    · exact absurd hs' hfe
    · exact absurd hs' hfn
    refine ⟨hs', ?_⟩
    rintro (h3 | ⟨k', h3, h4⟩)
    · exact hfe h3
    · -- `f` is dangling at `(new, k')`, so it is at that axis only
      obtain ⟨d, d1, d2, _⟩ := hto k' h3
      have hfd : f = d := h4.unique d1
      subst hfd
      rcases w.good hs'.inUse with ⟨x, y, hr⟩ | ⟨_, _, _, _, hr⟩
      · have e1 := (at_dang w hs'.inUse hr).1 hs'
        have e2 := (at_dang w hs'.inUse hr).1 h4
        rw [← e2] at e1
        simp only [Prod.mk.injEq] at e1
        obtain ⟨rfl, rfl⟩ := e1
        exact h1 ⟨h3.2, rfl⟩
      · rw [hr] at d2; simp at d2

theorem redirect_ok {h : Heap R} (w : WF h) {e : EId} (hu : InUse h e) {new old : NId}
    (hno : new ≠ old) (hn : new < h.nn) (ho : old < h.nn) (hold : ∃ k, At h (old, k) e)
    (hto : ∀ k, At h (old, k) e → ∃ d, At h (new, k) d ∧ (h.edge d).dangling = true ∧
      dimAt h (new, k) = edim h e) :
    ∃ h', redirectEdge e new old h = (.ok (), h') ∧ Redirected h h' e new old := by
  have hlt := w.lt hu
  have ndim : ∀ n < h.nn, ∀ k f, At h (n, k) f →
      k < (h.node n).tensor.ndim ∧ k < (h.node n).edges.length := by
    intro n hn' k f hs
    have := hs.lt_len
    exact ⟨by rw [← w.len n hn']; exact this, this⟩
  -- one axis: put `e` at `(new, a)` and a new edge at `(old, a)`
  have one : ∀ (r : EdgeRec) (a : Nat) (_ : (h.node old).edges[a]? = some e),
      ∃ h', (do
        addEdge new e a true
        let f ← newDangling old a
        addEdge old f a true : M R Unit) (h.setEdge e r) = (.ok (), h') ∧ h'.ne = h.ne + 1 ∧
        h'.edge = Function.update (Function.update h.edge e r) h.ne (.dang old a) ∧
        Relisted h h' (fun m k => if k = a ∧ m = new then some e
          else if k = a ∧ m = old then some h.ne else none) := by
    intro r a ha
    have hA : At h (old, a) e := ⟨ho, ha⟩
    obtain ⟨d, hd1, _, _⟩ := hto a hA
    obtain ⟨n1, n2⟩ := ndim new hn a d hd1
    obtain ⟨o1, o2⟩ := ndim old ho a e hA
    obtain ⟨x1, r1, e1, ne1, l1⟩ := addEdge_slot (h := h.setEdge e r) (n := new) (e := e) (a := a)
      n1 n2
    rw [M.bind_ok r1]
    have r2 : newDangling old a x1 = (.ok h.ne, { x1 with
        edge := Function.update x1.edge h.ne (.dang old a), ne := h.ne + 1 }) := by
      unfold newDangling
      rw [show x1.ne = h.ne from ne1]
    rw [M.bind_ok r2]
    obtain ⟨x2, r3, e3, ne3, l3⟩ := addEdge_slot (h := { x1 with
        edge := Function.update x1.edge h.ne (.dang old a), ne := h.ne + 1 }) (n := old)
        (e := h.ne) (a := a) (by rw [l1.tensor]; exact o1) (by rw [l1.len]; exact o2)
    rw [r3]
    refine ⟨x2, rfl, ne3, ?_, ?_⟩
    · rw [e3]
      simp only [e1, Heap.setEdge_edge]
    · have l13 : Relisted h x2 _ := Relisted.trans (h := h) (h1 := { x1 with
        edge := Function.update x1.edge h.ne (.dang old a), ne := h.ne + 1 })
        (u := fun m k => if m = new ∧ k = a then some e else none)
        ⟨l1.nn, l1.tensor, l1.len, l1.get⟩ l3
      refine ⟨l13.nn, l13.tensor, l13.len, fun m k => ?_⟩
      rw [l13.get]
      by_cases h1 : m = old
      · subst h1
        by_cases h2 : k = a
        · simp [h2, Ne.symm hno]
        · simp [h2]
      · by_cases h2 : m = new
        · subst h2
          by_cases h3 : k = a
          · simp [h1, h3]
          · simp [h1, h3]
        · simp [h1, h2]
  rcases w.good hu with ⟨n1, a1, hr⟩ | ⟨n1, a1, n2, a2, hr⟩
  · -- a dangling edge
    have hat := fun s => at_dang w hu hr (s := s)
    obtain ⟨k, hk⟩ := hold
    have hk' := (hat _).1 hk
    simp only [Prod.mk.injEq] at hk'
    obtain ⟨rfl, rfl⟩ := hk'
    obtain ⟨h', g1, g2, g3, g4⟩ := one (.dang new k) k hk.2
    refine ⟨h', ?_, ?_⟩
    · unfold redirectEdge
      have ht : isTrace e h = (.ok false, h) := by
        unfold isTrace
        rw [M.bind_ok (node1_dang hr), M.bind_ok (node2_dang hr)]; rfl
      rw [M.bind_ok ht, if_pos (by simp), M.bind_ok isDangling_eq, M.bind_ok (node1_dang hr)]
      have hm : (M.modify (fun h : Heap R => h.setEdge e { h.edge e with node1 := some new })) h =
          (.ok (), h.setEdge e (.dang new k)) := by
        rw [M.modify_apply, hr]
      have hax : axis1 e (h.setEdge e (.dang new k)) = (.ok k, h.setEdge e (.dang new k)) :=
        axis1_dang (n := new) (by simp)
      rw [M.bind_ok (a := k) (h' := h.setEdge e (.dang new k))]
      · exact g1
      · rw [hr, if_pos rfl, if_neg (by simp), M.bind_ok hm, hax]
    · have hold' : ∀ k', (h.node old).edges[k']? = some e ↔ k' = k := by
        intro k'
        have := hat (old, k')
        unfold At at this
        simp only [ho, true_and, Prod.mk.injEq] at this
        exact this
      have rl : Relisted h h' (fun m k => if (h.node old).edges[k]? = some e ∧ m = new then some e
          else if (h.node old).edges[k]? = some e ∧ m = old then some h.ne else none) := by
        simp only [hold']; exact g4
      have get' : ∀ m j, (h'.node m).edges[j]? = if j = k ∧ m = new then some e
          else if j = k ∧ m = old then some h.ne else (h.node m).edges[j]? := by
        intro m j
        rw [g4.get]
        by_cases h1 : j = k ∧ m = new
        · simp [h1]
        · by_cases h2 : j = k ∧ m = old
          · simp [h2, Ne.symm hno]
          · simp [h1, h2]
      have he' : h'.edge e = .dang new k := by
        rw [g3, Function.update_of_ne (by omega), Function.update_self]
      have hf' : h'.edge h.ne = .dang old k := by rw [g3, Function.update_self]
      refine redirected_of w hu hno hn ho hto g2 rl ?_ (by rw [he', hr]) ?_ ?_
      · intro f hf hfe
        rw [g3, Function.update_of_ne (by omega), Function.update_of_ne hfe]
      · rintro ⟨m, j⟩ hs
        have h2 := hs.2
        simp only [get'] at h2
        have : (m, j) = (new, k) := by
          split_ifs at h2 with h3 h4
          · rw [h3.1, h3.2]
          · exact absurd (Option.some.inj h2) (by omega)
          · have hx : (m, j) = (old, k) :=
              (hat (m, j)).1 ⟨by rw [← g4.nn]; exact hs.1, h2⟩
            simp only [Prod.mk.injEq] at hx
            exact absurd ⟨hx.2, hx.1⟩ h4
        rw [this] at hs ⊢
        exact edgeOK_dang hs (by omega) he'
      · rintro ⟨m, j⟩ hs
        have h2 := hs.2
        simp only [get'] at h2
        have : (m, j) = (old, k) := by
          split_ifs at h2 with h3 h4
          · exact absurd (Option.some.inj h2) (by omega)
          · rw [h4.1, h4.2]
          · have : InUse h h.ne := ⟨(m, j), by rw [← g4.nn]; exact hs.1, h2⟩
            exact absurd (w.lt this) (by omega)
        rw [this] at hs ⊢
        exact edgeOK_dang hs (by omega) hf'
  · have hat := fun s => at_conn w hu hr (s := s)
    have hnd : (n1, a1) ≠ (n2, a2) := by
      have := w.nodup hu
      rw [hr] at this
      simpa [Multiset.insert_eq_cons] using this
    by_cases htr : n1 = n2
    · subst htr
      have hax : a1 ≠ a2 := fun hc => hnd (by rw [hc])
      have ho1 : n1 = old := by
        obtain ⟨k, hk⟩ := hold
        rcases (hat _).1 hk with hx | hx <;> simp only [Prod.mk.injEq] at hx <;> exact hx.1.symm
      subst ho1
      have hA1 : At h (n1, a1) e := (hat _).2 (.inl rfl)
      have hA2 : At h (n1, a2) e := (hat _).2 (.inr rfl)
      obtain ⟨d1, hd1, _, q1⟩ := hto a1 hA1
      obtain ⟨d2, hd2, _, q2⟩ := hto a2 hA2
      obtain ⟨x0, hx0⟩ : ∃ x, x = h.setEdge e (.conn new a1 new a2) := ⟨_, rfl⟩
      have t0 : ∀ m, x0.node m = h.node m := by intro m; rw [hx0]; rfl
      have re : x0.edge e = .conn new a1 new a2 := by rw [hx0]; simp
      obtain ⟨x1, r1, e1, ne1, l1⟩ := addEdge_slot (h := x0) (n := new) (e := e) (a := a1)
        (by rw [t0]; exact (ndim new hn a1 d1 hd1).1) (by rw [t0]; exact (ndim new hn a1 d1 hd1).2)
      obtain ⟨x2, r2, e2, ne2, l2⟩ := addEdge_slot (h := x1) (n := new) (e := e) (a := a2)
        (by rw [l1.tensor, t0]; exact (ndim new hn a2 d2 hd2).1)
        (by rw [l1.len, t0]; exact (ndim new hn a2 d2 hd2).2)
      obtain ⟨x3, hx3⟩ : ∃ x : Heap R, x = ⟨x2.node, Function.update x2.edge h.ne
        (.conn n1 a1 n1 a2), x2.nn, h.ne + 1⟩ := ⟨_, rfl⟩
      have r3 : newConnected n1 a1 n1 a2 x2 = (.ok h.ne, x3) := by
        unfold newConnected
        rw [hx3, show x2.ne = h.ne by rw [ne2, ne1, hx0]; rfl]
      have t3 : ∀ m, x3.node m = x2.node m := by intro m; rw [hx3]
      obtain ⟨x4, r4, e4, ne4, l4⟩ := addEdge_slot (h := x3) (n := n1) (e := h.ne) (a := a1)
        (by rw [t3, l2.tensor, l1.tensor, t0]; exact (ndim n1 ho a1 e hA1).1)
        (by rw [t3, l2.len, l1.len, t0]; exact (ndim n1 ho a1 e hA1).2)
      obtain ⟨x5, r5, e5, ne5, l5⟩ := addEdge_slot (h := x4) (n := n1) (e := h.ne) (a := a2)
        (by rw [l4.tensor, t3, l2.tensor, l1.tensor, t0]; exact (ndim n1 ho a2 e hA2).1)
        (by rw [l4.len, t3, l2.len, l1.len, t0]; exact (ndim n1 ho a2 e hA2).2)
      have hold' : ∀ k', (h.node n1).edges[k']? = some e ↔ k' = a1 ∨ k' = a2 := by
        intro k'
        have := hat (n1, k')
        unfold At at this
        simp only [ho, true_and, Prod.mk.injEq] at this
        exact this
      have get' : ∀ m j, (x5.node m).edges[j]? = if (j = a1 ∨ j = a2) ∧ m = new then some e
          else if (j = a1 ∨ j = a2) ∧ m = n1 then some h.ne else (h.node m).edges[j]? := by
        intro m j
        rw [l5.get, l4.get, t3, l2.get, l1.get, t0]
        by_cases c1 : j = a1 <;> by_cases c2 : j = a2 <;> by_cases c3 : m = new <;>
          by_cases c4 : m = n1 <;> simp_all
      have hnn : x5.nn = h.nn := by rw [l5.nn, l4.nn, hx3, l2.nn, l1.nn, hx0]; rfl
      have hten : ∀ m, (x5.node m).tensor = (h.node m).tensor := by
        intro m; rw [l5.tensor, l4.tensor, t3, l2.tensor, l1.tensor, t0]
      have hlen : ∀ m, (x5.node m).edges.length = (h.node m).edges.length := by
        intro m; rw [l5.len, l4.len, t3, l2.len, l1.len, t0]
      have hedge : x5.edge = Function.update (Function.update h.edge e (.conn new a1 new a2)) h.ne
          (.conn n1 a1 n1 a2) := by
        rw [e5, e4, hx3]
        simp only [e2, e1, hx0, Heap.setEdge_edge]
      have rl : Relisted h x5 (fun m k => if (h.node n1).edges[k]? = some e ∧ m = new then some e
          else if (h.node n1).edges[k]? = some e ∧ m = n1 then some h.ne else none) := by
        refine ⟨hnn, hten, hlen, fun m k => ?_⟩
        simp only [hold', get']
        by_cases c1 : (k = a1 ∨ k = a2) ∧ m = new
        · simp [c1]
        · by_cases c2 : (k = a1 ∨ k = a2) ∧ m = n1
          · simp [c2, Ne.symm hno]
          · simp [c1, c2]
      have he' : x5.edge e = .conn new a1 new a2 := by
        rw [hedge, Function.update_of_ne (by omega), Function.update_self]
      have hf' : x5.edge h.ne = .conn n1 a1 n1 a2 := by rw [hedge, Function.update_self]
      have hdimAt : ∀ s, dimAt x5 s = dimAt h s := by
        intro s
        simp only [dimAt, Heap.shape, hten]
      refine ⟨x5, ?_, ?_⟩
      · unfold redirectEdge
        have ht : isTrace e h = (.ok true, h) := by
          unfold isTrace
          rw [M.bind_ok (node1_conn hr), M.bind_ok (node2_conn hr)]
          simp
        rw [M.bind_ok ht, if_neg (by simp), M.bind_ok (node1_conn hr), if_neg (by simp)]
        have m1 : (M.modify (fun h : Heap R => h.setEdge e
            { h.edge e with node1 := some new })) h =
            (.ok (), h.setEdge e (.conn new a1 n1 a2)) := by
          rw [M.modify_apply, hr]
        have m2 : (M.modify (fun h : Heap R => h.setEdge e
            { h.edge e with node2 := some new })) (h.setEdge e (.conn new a1 n1 a2)) =
            (.ok (), x0) := by
          rw [M.modify_apply, hx0]
          simp [Heap.setEdge]
        rw [M.bind_ok m1, M.bind_ok m2, M.bind_ok (axis1_conn re), M.bind_ok (axis2_conn re)]
        dsimp only
        rw [M.bind_ok r1, M.bind_ok r2, M.bind_ok r3, M.bind_ok r4, r5]
      · refine redirected_of w hu hno hn ho hto ?_ rl ?_ (by rw [he', hr]) ?_ ?_
        · rw [ne5, ne4, hx3]
        · intro f hf hfe
          rw [hedge, Function.update_of_ne (by omega), Function.update_of_ne hfe]
        · rintro ⟨x, j⟩ hs
          have h2 := hs.2
          simp only [get'] at h2
          have : (x, j) = (new, a1) ∨ (x, j) = (new, a2) := by
            split_ifs at h2 with h3 h4
            · rcases h3 with ⟨h3 | h3, h3'⟩ <;> simp [h3, h3']
            · exact absurd (Option.some.inj h2) (by omega)
            · rcases (hat (x, j)).1 ⟨by rw [← hnn]; exact hs.1, h2⟩ with hx | hx <;>
                simp only [Prod.mk.injEq] at hx
              · exact absurd ⟨.inl hx.2, hx.1⟩ h4
              · exact absurd ⟨.inr hx.2, hx.1⟩ h4
          exact edgeOK_conn ⟨by rw [hnn]; exact hn, by rw [get']; simp⟩
            ⟨by rw [hnn]; exact hn, by rw [get']; simp⟩ (by simp [hax])
            (by rw [hdimAt, hdimAt, q1, q2]) (by rw [ne5, ne4, hx3]; simp only; omega) he' this
        · rintro ⟨x, j⟩ hs
          have h2 := hs.2
          simp only [get'] at h2
          have : (x, j) = (n1, a1) ∨ (x, j) = (n1, a2) := by
            split_ifs at h2 with h3 h4
            · exact absurd (Option.some.inj h2) (by omega)
            · rcases h4 with ⟨h4 | h4, h4'⟩ <;> simp [h4, h4']
            · have : InUse h h.ne := ⟨(x, j), by rw [← hnn]; exact hs.1, h2⟩
              exact absurd (w.lt this) (by omega)
          exact edgeOK_conn ⟨by rw [hnn]; exact ho, by rw [get']; simp [Ne.symm hno]⟩
            ⟨by rw [hnn]; exact ho, by rw [get']; simp [Ne.symm hno]⟩ (by simp [hax])
            (by rw [hdimAt, hdimAt, ← w.edim_eq hA1, ← w.edim_eq hA2])
            (by rw [ne5, ne4, hx3]; simp) hf' this
    -- the other end
    have pair : ∀ (r : EdgeRec) (a m b : Nat), m ≠ old →
        (∀ s, At h s e ↔ s = (old, a) ∨ s = (m, b)) →
        (r = .conn new a m b ∨ r = .conn m b new a) → ∀ h' : Heap R, h'.ne = h.ne + 1 →
        h'.edge = Function.update (Function.update h.edge e r) h.ne (.dang old a) →
        Relisted h h' (fun m k => if k = a ∧ m = new then some e
          else if k = a ∧ m = old then some h.ne else none) → Redirected h h' e new old := by
      intro r a m b hmo hat hr' h' g2 g3 g4
      have hold' : ∀ k', (h.node old).edges[k']? = some e ↔ k' = a := by
        intro k'
        have := hat (old, k')
        unfold At at this
        simp only [ho, true_and, Prod.mk.injEq, Ne.symm hmo, false_and, or_false] at this
        exact this
      have rl : Relisted h h' (fun m k => if (h.node old).edges[k]? = some e ∧ m = new then some e
          else if (h.node old).edges[k]? = some e ∧ m = old then some h.ne else none) := by
        simp only [hold']; exact g4
      have get' : ∀ m j, (h'.node m).edges[j]? = if j = a ∧ m = new then some e
          else if j = a ∧ m = old then some h.ne else (h.node m).edges[j]? := by
        intro m j
        rw [g4.get]
        by_cases h1 : j = a ∧ m = new
        · simp [h1]
        · by_cases h2 : j = a ∧ m = old
          · simp [h2, Ne.symm hno]
          · simp [h1, h2]
      have he' : h'.edge e = r := by
        rw [g3, Function.update_of_ne (by omega), Function.update_self]
      have hf' : h'.edge h.ne = .dang old a := by rw [g3, Function.update_self]
      have hA : At h (old, a) e := (hat _).2 (.inl rfl)
      have hB : At h (m, b) e := (hat _).2 (.inr rfl)
      obtain ⟨d, d1, d2, d3⟩ := hto a hA
      have hde : e ≠ d := by
        rintro rfl
        rw [hr] at d2; simp at d2
      have hsl : (new, a) ≠ (m, b) := fun hc => hde (hB.unique (by rw [← hc]; exact d1))
      have hA' : At h' (new, a) e := ⟨by rw [g4.nn]; exact hn, by rw [get']; simp⟩
      have hB' : At h' (m, b) e := ⟨by rw [g4.nn]; exact hB.1, by
        rw [get', if_neg (by rintro ⟨rfl, rfl⟩; exact hsl rfl),
          if_neg (by rintro ⟨rfl, rfl⟩; exact hmo rfl)]
        exact hB.2⟩
      have hdimAt : ∀ s, dimAt h' s = dimAt h s := by
        intro s
        simp only [dimAt, Heap.shape, g4.tensor]
      have hdd : dimAt h' (new, a) = dimAt h' (m, b) := by
        rw [hdimAt, hdimAt, d3, w.edim_eq hB]
      refine redirected_of w hu hno hn ho hto g2 rl ?_ ?_ ?_ ?_
      · intro f hf hfe
        rw [g3, Function.update_of_ne (by omega), Function.update_of_ne hfe]
      · rw [he', hr]; rcases hr' with rfl | rfl <;> rfl
      · rintro ⟨x, j⟩ hs
        have h2 := hs.2
        simp only [get'] at h2
        have : (x, j) = (new, a) ∨ (x, j) = (m, b) := by
          split_ifs at h2 with h3 h4
          · rw [h3.1, h3.2]; simp
          · exact absurd (Option.some.inj h2) (by omega)
          · rcases (hat (x, j)).1 ⟨by rw [← g4.nn]; exact hs.1, h2⟩ with hx | hx
            · simp only [Prod.mk.injEq] at hx
              exact absurd ⟨hx.2, hx.1⟩ h4
            · exact .inr hx
        rcases hr' with hr' | hr'
        · exact edgeOK_conn hA' hB' hsl hdd (by omega) (by rw [he', hr']) this
        · exact edgeOK_conn hB' hA' hsl.symm hdd.symm (by omega) (by rw [he', hr']) this.symm
      · rintro ⟨x, j⟩ hs
        have h2 := hs.2
        simp only [get'] at h2
        have : (x, j) = (old, a) := by
          split_ifs at h2 with h3 h4
          · exact absurd (Option.some.inj h2) (by omega)
          · rw [h4.1, h4.2]
          · have : InUse h h.ne := ⟨(x, j), by rw [← g4.nn]; exact hs.1, h2⟩
            exact absurd (w.lt this) (by omega)
        rw [this] at hs ⊢
        exact edgeOK_dang hs (by omega) hf'
    have ht : isTrace e h = (.ok false, h) := by
      unfold isTrace
      rw [M.bind_ok (node1_conn hr), M.bind_ok (node2_conn hr)]
      simp [htr]
    by_cases ho1 : n1 = old
    · subst ho1
      obtain ⟨h', g1, g2, g3, g4⟩ := one (.conn new a1 n2 a2) a1 ((hat _).2 (.inl rfl)).2
      refine ⟨h', ?_, pair _ a1 n2 a2 (Ne.symm htr) hat (.inl rfl) h' g2 g3 g4⟩
      unfold redirectEdge
      rw [M.bind_ok ht, if_pos (by simp), M.bind_ok isDangling_eq, M.bind_ok (node1_conn hr)]
      have hm : (M.modify (fun h : Heap R => h.setEdge e { h.edge e with node1 := some new })) h =
          (.ok (), h.setEdge e (.conn new a1 n2 a2)) := by
        rw [M.modify_apply, hr]
      have hax : axis1 e (h.setEdge e (.conn new a1 n2 a2)) =
          (.ok a1, h.setEdge e (.conn new a1 n2 a2)) := axis1_conn (n := new) (m := n2) (b := a2) (by simp)
      rw [M.bind_ok (a := a1) (h' := h.setEdge e (.conn new a1 n2 a2))]
      · exact g1
      · rw [hr, if_neg (by simp), if_pos rfl, M.bind_ok hm, hax]
    · have ho2 : n2 = old := by
        obtain ⟨k, hk⟩ := hold
        rcases (hat _).1 hk with hx | hx
        · simp only [Prod.mk.injEq] at hx; exact absurd hx.1.symm ho1
        · simp only [Prod.mk.injEq] at hx; exact hx.1.symm
      subst ho2
      obtain ⟨h', g1, g2, g3, g4⟩ := one (.conn n1 a1 new a2) a2 ((hat _).2 (.inr rfl)).2
      refine ⟨h', ?_, pair _ a2 n1 a1 htr (fun s => (hat s).trans or_comm) (.inr rfl) h' g2 g3 g4⟩
      unfold redirectEdge
      rw [M.bind_ok ht, if_pos (by simp), M.bind_ok isDangling_eq, M.bind_ok (node1_conn hr)]
      have hm : (M.modify (fun h : Heap R => h.setEdge e { h.edge e with node2 := some new })) h =
          (.ok (), h.setEdge e (.conn n1 a1 new a2)) := by
        rw [M.modify_apply, hr]
      have hax : axis2 e (h.setEdge e (.conn n1 a1 new a2)) =
          (.ok (some a2), h.setEdge e (.conn n1 a1 new a2)) := axis2_conn (n := n1) (a := a1) (m := new) (by simp)
      rw [M.bind_ok (a := a2) (h' := h.setEdge e (.conn n1 a1 new a2))]
      · exact g1
      · rw [hr, if_neg (by simp), if_neg ho1, M.bind_ok (node2_conn hr), if_pos rfl,
          M.bind_ok hm, M.bind_ok hax]
        rfl

/-- An edge that does not point to `old_node` is rejected and nothing changes. -/
theorem redirect_err {h : Heap R} (w : WF h) {e : EId} (hu : InUse h e) {new old : NId}
    (hold : ¬ ∃ k, At h (old, k) e) :
    redirectEdge e new old h = (.error .valueError, h) := by
  unfold redirectEdge
  rcases w.good hu with ⟨n1, a1, hr⟩ | ⟨n1, a1, n2, a2, hr⟩
  · have h1 : n1 ≠ old := fun hc => hold ⟨a1, hc ▸ (at_dang w hu hr).2 rfl⟩
    have ht : isTrace e h = (.ok false, h) := by
      unfold isTrace
      rw [M.bind_ok (node1_dang hr), M.bind_ok (node2_dang hr)]; rfl
    rw [M.bind_ok ht, if_pos (by simp), M.bind_ok isDangling_eq, M.bind_ok (node1_dang hr)]
    refine M.bind_error ?_
    rw [hr, if_pos rfl, if_pos h1]
    rfl
  · have hat := fun s => at_conn w hu hr (s := s)
    have h1 : n1 ≠ old := fun hc => hold ⟨a1, hc ▸ (hat _).2 (.inl rfl)⟩
    have h2 : n2 ≠ old := fun hc => hold ⟨a2, hc ▸ (hat _).2 (.inr rfl)⟩
    by_cases htr : n1 = n2
    · subst htr
      have ht : isTrace e h = (.ok true, h) := by
        unfold isTrace
        rw [M.bind_ok (node1_conn hr), M.bind_ok (node2_conn hr)]; simp
      rw [M.bind_ok ht, if_neg (by simp), M.bind_ok (node1_conn hr), if_pos h1]
      rfl
    · have ht : isTrace e h = (.ok false, h) := by
        unfold isTrace
        rw [M.bind_ok (node1_conn hr), M.bind_ok (node2_conn hr)]; simp [htr]
      rw [M.bind_ok ht, if_pos (by simp), M.bind_ok isDangling_eq, M.bind_ok (node1_conn hr)]
      refine M.bind_error ?_
      rw [hr, if_neg (by simp), if_neg h1, M.bind_ok (node2_conn hr), if_neg (by simpa using h2)]
      rfl

end TN.Graph
