import Verif.GraphReach

/-!
# Copying a network

Model of `Node.copy` (network_components.py:639-661), `CopyNode.copy` (800-823), `copy` and
`replicate_nodes` (network_operations.py:32-103).

The conjugation of a number is the parameter `cj`.  Dictionaries are lists of pairs in the order
of insertion; the last pair of a key counts.
-/

namespace TN.Graph

open TN

set_option linter.unusedSectionVars false

variable {R : Type}

/-- `backend.conj(tensor)`: entrywise. -/
def conjTensor (cj : R → R) (t : NDArray R) : NDArray R := ⟨t.shape, fun i => cj (t.get i)⟩

/-- The loop over the edges in `Node.copy` (network_components.py:647-660); with `byAxis` the
loop of `CopyNode.copy` (808-822), which uses the position in the list in place of
`edge.axis1`. -/
def copyLoop (byAxis : Bool) (new : NId) : List (EId × Nat) → List EId → M R Unit
  | [], _ => pure ()
  | (e, i) :: l, visited =>
    if e ∈ visited then copyLoop byAxis new l visited
    else do
      let n1 ← node1 e
      let n2 ← node2 e
      if some n1 = n2 then do
        let a1 ← axis1 e
        let a2 ← axis2 e
        match a2 with
        | none => M.throw .typeError
        | some a2 => do
          let a1 := if byAxis then i else a1
          let f ← newConnected new a1 new a2
          addEdge new f a1 false
          addEdge new f a2 false
          copyLoop byAxis new l (e :: visited)
      else do
        let f ← newDangling new i
        addEdge new f i false
        copyLoop byAxis new l (e :: visited)

/-- `node.copy(conjugate)` (network_components.py:639-661, 800-823). -/
def nodeCopy (byAxis : Bool) (cj : R → R) (conjugate : Bool) (n : NId) : M R NId := do
  let t ← nodeTensor n
  let new ← newNode t
  if conjugate then setTensor new (conjTensor cj t)
  let es ← nodeEdges n
  copyLoop byAxis new es.zipIdx []
  pure new

/-- `d[k]` -/
def dictGet {α : Type} (d : List (Nat × α)) (k : Nat) : M R α :=
  match d.reverse.lookup k with
  | some v => pure v
  | none => M.throw .keyError

/-- The loop over the edges of `copy` (network_operations.py:59-81). -/
def copyEdges (d : List (NId × NId)) : List EId → M R (List (EId × EId))
  | [] => pure []
  | e :: es => do
    let n1 ← node1 e
    let a1 ← axis1 e
    let dang ← isDangling e
    let n2 ← (if dang then pure none else node2 e)
    match n2 with
    | none => do
      let c1 ← dictGet d n1
      let f ← newDangling c1 a1
      addEdge c1 f a1 false
      let r ← copyEdges d es
      pure ((e, f) :: r)
    | some m =>
      if m ∉ d.map Prod.fst then do
        let c1 ← dictGet d n1
        let f ← newDangling c1 a1
        addEdge c1 f a1 false
        let r ← copyEdges d es
        pure ((e, f) :: r)
      else do
        let a2 ← axis2 e
        match a2 with
        | none => M.throw .typeError
        | some a2 => do
          let c2 ← dictGet d m
          if n1 ∉ d.map Prod.fst then do
            let f ← newDangling c2 a2
            addEdge c2 f a2 false
            let r ← copyEdges d es
            pure ((e, f) :: r)
          else do
            let c1 ← dictGet d n1
            let f ← newConnected c1 a1 c2 a2
            if n1 ≠ m then do
              addEdge c2 f a2 false
              addEdge c1 f a1 false
              let r ← copyEdges d es
              pure ((e, f) :: r)
            else do
              let r ← copyEdges d es
              pure ((e, f) :: r)

/-- `copy(nodes, conjugate)` (network_operations.py:32-83) for plain nodes: the pairs of the two
dictionaries. -/
def copyNodes (ie : List Nat → List Nat) (cj : R → R) (conjugate : Bool) (nodes : List NId) :
    M R (List (NId × NId) × List (EId × EId)) := do
  let news ← M.mapEach nodes (nodeCopy false cj conjugate)
  let h ← M.get
  let ed ← copyEdges (nodes.zip news) (ie (allEdges h nodes))
  pure (nodes.zip news, ed)

/-! ### Single steps -/

/-- `h'` is `h` with one new edge with record `r` at the axes `S` and nothing else. -/
structure Attached (h h' : Heap R) (r : EdgeRec) (S : List Slot) : Prop where
  nn : h'.nn = h.nn
  ne : h'.ne = h.ne + 1
  new : h'.edge h.ne = r
  old : ∀ e, e ≠ h.ne → h'.edge e = h.edge e
  tensor : ∀ n, (h'.node n).tensor = (h.node n).tensor
  len : ∀ n, (h'.node n).edges.length = (h.node n).edges.length
  slot : ∀ n k, (h'.node n).edges[k]? = if (n, k) ∈ S then some h.ne else (h.node n).edges[k]?

theorem attachDang {h : Heap R} {c i : Nat} {old : EId} (hl : (h.node c).edges.length = (h.shape c).length)
    (hs : (h.node c).edges[i]? = some old) (hd : (h.edge old).dangling = true) (hne : old ≠ h.ne) :
    ∃ h', Attached h h' (.dang c i) [(c, i)] ∧ ∀ {β : Type} (f : EId → M R β),
      (do let x ← newDangling c i
          addEdge c x i false
          f x : M R β) h = f h.ne h' := by
  obtain ⟨k, hk⟩ : ∃ k : Heap R, k = { h with
    edge := Function.update h.edge h.ne (.dang c i)
    ne := h.ne + 1 } := ⟨_, rfl⟩
  have hnew : newDangling c i h = (.ok h.ne, k) := by rw [hk]; rfl
  have hi : i < (h.node c).edges.length := (List.getElem?_eq_some_iff.1 hs).1
  have hadd : addEdge c h.ne i false k = (.ok (), k.setNode c { k.node c with
      edges := (k.node c).edges.set i h.ne }) := by
    unfold addEdge
    rw [M.bind_ok (show M.get k = (.ok k, k) from rfl)]
    have h1 : ¬ i ≥ (k.shape c).length := by rw [hk]; show ¬ i ≥ (h.shape c).length; omega
    have h2 : (k.node c).edges[i]? = some old := by rw [hk]; exact hs
    have h3 : (k.edge old).dangling = true := by rw [hk]; simpa [Function.update_of_ne hne] using hd
    rw [if_neg h1]
    simp only [h2, h3, not_true_eq_false, false_and, if_false]
    rfl
  refine ⟨_, ⟨?_, ?_, ?_, ?_, ?_, ?_, ?_⟩, fun f => (M.bind_ok hnew).trans (M.bind_ok hadd)⟩
  · rw [hk]; rfl
  · rw [hk]; rfl
  · rw [hk]; simp
  · intro e he; rw [hk]; simp [Function.update_of_ne he]
  · intro n
    rw [hk]
    by_cases hn : n = c
    · subst hn; simp
    · simp [Function.update_of_ne hn]
  · intro n
    rw [hk]
    by_cases hn : n = c
    · subst hn; simp
    · simp [Function.update_of_ne hn]
  · intro n j
    rw [hk]
    by_cases hn : n = c
    · subst hn
      simp only [Heap.setNode_node, Function.update_self, List.mem_singleton, Prod.mk.injEq,
        true_and, List.getElem?_set]
      by_cases hj : i = j
      · subst hj; simp [hi]
      · simp [hj, Ne.symm hj]
    · simp [hn]

theorem attachConn {h : Heap R} {c1 a1 c2 a2 : Nat} {o1 o2 : EId} (hneq : (c1, a1) ≠ (c2, a2))
    (hl1 : (h.node c1).edges.length = (h.shape c1).length)
    (hl2 : (h.node c2).edges.length = (h.shape c2).length)
    (hs1 : (h.node c1).edges[a1]? = some o1) (hd1 : (h.edge o1).dangling = true) (hne1 : o1 ≠ h.ne)
    (hs2 : (h.node c2).edges[a2]? = some o2) (hd2 : (h.edge o2).dangling = true) (hne2 : o2 ≠ h.ne)
    (r : EdgeRec) (mk : M R EId) (hmk : mk h = (.ok h.ne, { h with
      edge := Function.update h.edge h.ne r, ne := h.ne + 1 })) :
    ∃ h', Attached h h' r [(c1, a1), (c2, a2)] ∧ ∀ {β : Type} (f : EId → M R β),
      (do let x ← mk
          addEdge c1 x a1 false
          addEdge c2 x a2 false
          f x : M R β) h = f h.ne h' := by
  obtain ⟨k, hk⟩ : ∃ k : Heap R, k = { h with
    edge := Function.update h.edge h.ne r
    ne := h.ne + 1 } := ⟨_, rfl⟩
  rw [← hk] at hmk
  have hi1 : a1 < (h.node c1).edges.length := (List.getElem?_eq_some_iff.1 hs1).1
  have hi2 : a2 < (h.node c2).edges.length := (List.getElem?_eq_some_iff.1 hs2).1
  obtain ⟨k1, hk1⟩ : ∃ k1 : Heap R, k1 = k.setNode c1 { k.node c1 with
      edges := (k.node c1).edges.set a1 h.ne } := ⟨_, rfl⟩
  have hadd : addEdge c1 h.ne a1 false k = (.ok (), k1) := by
    unfold addEdge
    rw [M.bind_ok (show M.get k = (.ok k, k) from rfl)]
    have h1 : ¬ a1 ≥ (k.shape c1).length := by rw [hk]; show ¬ a1 ≥ (h.shape c1).length; omega
    have h2 : (k.node c1).edges[a1]? = some o1 := by rw [hk]; exact hs1
    have h3 : (k.edge o1).dangling = true := by
      rw [hk]; simpa [Function.update_of_ne hne1] using hd1
    rw [if_neg h1]
    simp only [h2, h3, not_true_eq_false, false_and, if_false]
    rw [hk1]; rfl
  have hset := set_node_getElem? h.node c1 c2 a1 a2 h.ne h.ne hneq hi1 hi2
  simp only at hset
  have hnode1 : ∀ n, (k1.node n).tensor = (h.node n).tensor := by
    intro n
    rw [hk1, hk]
    by_cases hn : n = c1
    · subst hn; simp
    · simp [Function.update_of_ne hn]
  have hadd2 : addEdge c2 h.ne a2 false k1 = (.ok (), k1.setNode c2 { k1.node c2 with
      edges := (k1.node c2).edges.set a2 h.ne }) := by
    unfold addEdge
    rw [M.bind_ok (show M.get k1 = (.ok k1, k1) from rfl)]
    have h1 : ¬ a2 ≥ (k1.shape c2).length := by
      rw [Heap.shape, hnode1]; show ¬ a2 ≥ (h.shape c2).length; omega
    have h2 : (k1.node c2).edges[a2]? = some o2 := by
      rw [hk1, hk]
      by_cases hc : c2 = c1
      · subst hc
        have : a1 ≠ a2 := fun hc => hneq (by rw [hc])
        simp [this, hs2]
      · simp [Function.update_of_ne hc, hs2]
    have h3 : (k1.edge o2).dangling = true := by
      rw [hk1, hk]; simpa [Function.update_of_ne hne2] using hd2
    rw [if_neg h1]
    simp only [h2, h3, not_true_eq_false, false_and, if_false]
    rfl
  refine ⟨_, ⟨?_, ?_, ?_, ?_, ?_, ?_, ?_⟩,
    fun f => (M.bind_ok hmk).trans ((M.bind_ok hadd).trans (M.bind_ok hadd2))⟩
  · rw [hk1, hk]; rfl
  · rw [hk1, hk]; rfl
  · rw [hk1, hk]; simp
  · intro e he; rw [hk1, hk]; simp [Function.update_of_ne he]
  · intro n
    rw [hk1, hk]
    exact (hset n 0).1
  · intro n
    rw [hk1, hk]
    exact (hset n 0).2.1
  · intro n j
    rw [hk1, hk]
    refine ((hset n j).2.2).trans ?_
    simp only [List.mem_cons, List.not_mem_nil, or_false]
    by_cases h1 : (n, j) = (c1, a1)
    · simp [h1]
    · by_cases h2 : (n, j) = (c2, a2)
      · simp [h2]
      · simp [h1, h2]

/-! ### The invariant -/

/-- The record of the copy of an edge, when the nodes `nodes` are copied to `c`. -/
def imgRec (nodes : List NId) (c : NId → NId) (r : EdgeRec) : EdgeRec :=
  match r with
  | ⟨some n, a, some m, some b, _, _⟩ =>
    if m ∉ nodes then .dang (c n) a
    else if n ∉ nodes then .dang (c m) b
    else .conn (c n) a (c m) b
  | ⟨some n, a, _, _, _, _⟩ => .dang (c n) a
  | r => r

/-- A trace edge. -/
def IsTr (h : Heap R) (e : EId) : Prop := ∃ n a b, h.edge e = .conn n a n b

/-- The nodes `N` are copied to `c`; the edges in `D` are copied to `E`. -/
structure CopyInv (h k : Heap R) (nodes N : List NId) (c : NId → NId)
    (f : NDArray R → NDArray R) (E : EId → EId) (D : EId → Prop) : Prop where
  nn : h.nn ≤ k.nn
  ne : h.ne ≤ k.ne
  old_node : ∀ n < h.nn, k.node n = h.node n
  old_edge : ∀ e < h.ne, k.edge e = h.edge e
  new : ∀ n ∈ N, h.nn ≤ c n ∧ c n < k.nn
  tensor : ∀ n ∈ N, (k.node (c n)).tensor = f (h.node n).tensor
  len : ∀ n ∈ N, (k.node (c n)).edges.length = (h.node n).edges.length
  done : ∀ n ∈ N, ∀ (a : Nat) (e : EId), (h.node n).edges[a]? = some e → D e →
    (k.node (c n)).edges[a]? = some (E e)
  copied : ∀ n ∈ N, ∀ e ∈ (h.node n).edges, D e →
    h.ne ≤ E e ∧ E e < k.ne ∧ k.edge (E e) = imgRec nodes c (h.edge e)
  todo : ∀ n ∈ N, ∀ (a : Nat) (e : EId), (h.node n).edges[a]? = some e → ¬ D e →
    ∃ e', (k.node (c n)).edges[a]? = some e' ∧ h.ne ≤ e' ∧ e' < k.ne ∧
      (k.edge e').dangling = true

variable {h k k' : Heap R} {nodes N : List NId} {c : NId → NId} {f : NDArray R → NDArray R}
  {E : EId → EId} {D : EId → Prop}

theorem CopyInv.congr (inv : CopyInv h k nodes N c f E D) {D' : EId → Prop}
    (hD : ∀ e, D' e ↔ D e) : CopyInv h k nodes N c f E D' := by
  obtain rfl : D' = D := funext fun e => propext (hD e)
  exact inv

/-- A new edge at slots whose edges are not done. -/
theorem CopyInv.refresh (inv : CopyInv h k nodes N c f E D) {r : EdgeRec} {S : List Slot}
    (x : Attached k k' r S) (hr : S ≠ [] → r.dangling = true)
    (hS : ∀ n ∈ N, ∀ (a : Nat) (e : EId), (c n, a) ∈ S → (h.node n).edges[a]? = some e → ¬ D e)
    (hold : ∀ s ∈ S, h.nn ≤ s.1) : CopyInv h k' nodes N c f E D := by
  have hne := inv.ne
  refine ⟨x.nn ▸ inv.nn, by rw [x.ne]; omega, ?_, ?_, ?_, ?_, ?_, ?_, ?_, ?_⟩
  · intro n hn
    rw [← inv.old_node n hn]
    have h1 : (k'.node n).edges = (k.node n).edges := by
      refine List.ext_getElem? fun j => ?_
      rw [x.slot, if_neg]
      intro hc
      have := hold _ hc
      simp only at this
      omega
    rcases h2 : k'.node n with ⟨t, es⟩
    rcases h3 : k.node n with ⟨t', es'⟩
    have h4 := x.tensor n
    rw [h2, h3] at h4 h1
    simp only at h4 h1
    rw [h4, h1]
  · intro e he
    rw [x.old e (by omega), inv.old_edge e he]
  · intro n hn
    rw [x.nn]; exact inv.new n hn
  · intro n hn
    rw [x.tensor, inv.tensor n hn]
  · intro n hn
    rw [x.len, inv.len n hn]
  · intro n hn a e he hd
    rw [x.slot, if_neg (fun hc => hS n hn a e hc he hd)]
    exact inv.done n hn a e he hd
  · intro n hn e he hd
    obtain ⟨h1, h2, h3⟩ := inv.copied n hn e he hd
    refine ⟨h1, by rw [x.ne]; omega, ?_⟩
    rw [x.old _ (by omega), h3]
  · intro n hn a e he hd
    obtain ⟨e', h1, h2, h3, h4⟩ := inv.todo n hn a e he hd
    rw [x.slot]
    by_cases hc : (c n, a) ∈ S
    · rw [if_pos hc]
      refine ⟨k.ne, rfl, hne, by rw [x.ne]; omega, ?_⟩
      rw [x.new]
      exact hr (List.ne_nil_of_mem hc)
    · rw [if_neg hc]
      refine ⟨e', h1, h2, by rw [x.ne]; omega, ?_⟩
      rw [x.old _ (by omega), h4]

/-- The copy of the edge `e` is put on all its axes. -/
theorem CopyInv.attach (inv : CopyInv h k nodes N c f E D) {e : EId} {r : EdgeRec} {S : List Slot}
    (x : Attached k k' r S) (hr : r = imgRec nodes c (h.edge e))
    (hS : ∀ n ∈ N, ∀ a : Nat, (c n, a) ∈ S ↔ (h.node n).edges[a]? = some e)
    (hold : ∀ s ∈ S, h.nn ≤ s.1) :
    CopyInv h k' nodes N c f (Function.update E e k.ne) (fun y => D y ∨ y = e) := by
  have hne := inv.ne
  refine ⟨x.nn ▸ inv.nn, by rw [x.ne]; omega, ?_, ?_, ?_, ?_, ?_, ?_, ?_, ?_⟩
  · intro n hn
    rw [← inv.old_node n hn]
    have h1 : (k'.node n).edges = (k.node n).edges := by
      refine List.ext_getElem? fun j => ?_
      rw [x.slot, if_neg]
      intro hc
      have := hold _ hc
      simp only at this
      omega
    rcases h2 : k'.node n with ⟨t, es⟩
    rcases h3 : k.node n with ⟨t', es'⟩
    have h4 := x.tensor n
    rw [h2, h3] at h4 h1
    simp only at h4 h1
    rw [h4, h1]
  · intro e he
    rw [x.old e (by omega), inv.old_edge e he]
  · intro n hn
    rw [x.nn]; exact inv.new n hn
  · intro n hn
    rw [x.tensor, inv.tensor n hn]
  · intro n hn
    rw [x.len, inv.len n hn]
  · intro n hn a y hy hd
    rw [x.slot]
    by_cases hye : y = e
    · subst hye
      rw [if_pos ((hS n hn a).2 hy), Function.update_self]
    · rw [if_neg (fun hc => hye (by
        have := (hS n hn a).1 hc
        rw [hy] at this
        exact Option.some.inj this)), Function.update_of_ne hye]
      exact inv.done n hn a y hy (hd.resolve_right hye)
  · intro n hn y hy hd
    by_cases hye : y = e
    · subst hye
      rw [Function.update_self, x.new]
      exact ⟨hne, by rw [x.ne]; omega, hr⟩
    · rw [Function.update_of_ne hye]
      obtain ⟨h1, h2, h3⟩ := inv.copied n hn y hy (hd.resolve_right hye)
      refine ⟨h1, by rw [x.ne]; omega, ?_⟩
      rw [x.old _ (by omega), h3]
  · intro n hn a y hy hd
    rw [not_or] at hd
    obtain ⟨e', h1, h2, h3, h4⟩ := inv.todo n hn a y hy hd.1
    rw [x.slot, if_neg (fun hc => hd.2 (by
        have := (hS n hn a).1 hc
        rw [hy] at this
        exact Option.some.inj this))]
    refine ⟨e', h1, h2, by rw [x.ne]; omega, ?_⟩
    rw [x.old _ (by omega), h4]

theorem CopyInv.rank (inv : CopyInv h k nodes N c f E D) (w : WF h)
    (hf : ∀ t, (f t).shape = t.shape) (hlt : ∀ n ∈ N, n < h.nn) {n : NId} (hn : n ∈ N) :
    (k.node (c n)).edges.length = (k.shape (c n)).length := by
  rw [inv.len n hn, Heap.shape, inv.tensor n hn, hf, w.len n (hlt n hn)]
  rfl

/-- The loop of `Node.copy`. -/
theorem copyLoop_ok (w : WF h) (hf : ∀ t, (f t).shape = t.shape) (hlt : ∀ n ∈ N, n < h.nn)
    (hsub : ∀ n ∈ N, n ∈ nodes)
    (hinj : ∀ n ∈ N, ∀ m ∈ N, c n = c m → n = m) {n : NId} (hn : n ∈ N) (P : List EId) :
    ∀ (l : List (EId × Nat)) (vis : List EId) (k : Heap R) (E : EId → EId),
    (∀ p ∈ l, (h.node n).edges[p.2]? = some p.1) → (∀ p ∈ l, IsTr h p.1 → p.1 ∉ P) →
    CopyInv h k nodes N c f E (fun e => IsTr h e ∧ (e ∈ P ∨ e ∈ vis)) →
    ∃ k' E', copyLoop false (c n) l vis k = (.ok (), k') ∧ k'.nn = k.nn ∧
      CopyInv h k' nodes N c f E' (fun e => IsTr h e ∧ (e ∈ P ∨ e ∈ vis ∨ e ∈ l.map Prod.fst)) := by
  intro l
  induction l with
  | nil =>
    intro vis k E _ _ inv
    exact ⟨k, E, rfl, rfl, inv.congr fun e => by simp⟩
  | cons p l ih =>
    obtain ⟨e, i⟩ := p
    intro vis k E hl hP inv
    have hl' : ∀ p ∈ l, (h.node n).edges[p.2]? = some p.1 := fun p hp => hl p (by simp [hp])
    have hP' : ∀ p ∈ l, IsTr h p.1 → p.1 ∉ P := fun p hp => hP p (by simp [hp])
    have hei : (h.node n).edges[i]? = some e := hl (e, i) (by simp)
    have hat : At h (n, i) e := ⟨hlt n hn, hei⟩
    have hu := hat.inUse
    have hke : k.edge e = h.edge e := inv.old_edge e (w.lt hu)
    have hcn := inv.new n hn
    by_cases hv : e ∈ vis
    · obtain ⟨k', E', h1, h2, h3⟩ := ih vis k E hl' hP' inv
      refine ⟨k', E', ?_, h2, h3.congr fun x => ?_⟩
      · rw [← h1]
        conv_lhs => unfold copyLoop
        rw [if_pos hv]
      · simp only [List.map_cons, List.mem_cons]
        constructor
        · rintro ⟨a, b | b | rfl | b⟩
          exacts [⟨a, .inl b⟩, ⟨a, .inr (.inl b)⟩, ⟨a, .inr (.inl hv)⟩, ⟨a, .inr (.inr b)⟩]
        · rintro ⟨a, b | b | b⟩
          exacts [⟨a, .inl b⟩, ⟨a, .inr (.inl b)⟩, ⟨a, .inr (.inr (.inr b))⟩]
    · by_cases htr : IsTr h e
      · obtain ⟨m, a, b, hr⟩ := htr
        obtain rfl : m = n := by
          rcases (at_conn w hu hr).1 hat with h1 | h1 <;> exact (congrArg Prod.fst h1).symm
        have hrk : k.edge e = .conn m a m b := hke.trans hr
        have htr : IsTr h e := ⟨m, a, b, hr⟩
        have hnD : ¬ (IsTr h e ∧ (e ∈ P ∨ e ∈ vis)) := by
          rintro ⟨_, h1 | h1⟩
          · exact hP (e, i) (by simp) htr h1
          · exact hv h1
        have s1 := (at_conn w hu hr (s := (m, a))).2 (.inl rfl)
        have s2 := (at_conn w hu hr (s := (m, b))).2 (.inr rfl)
        obtain ⟨o1, p1, p2, p3, p4⟩ := inv.todo m hn a e s1.2 hnD
        obtain ⟨o2, q1, q2, q3, q4⟩ := inv.todo m hn b e s2.2 hnD
        have hab : a ≠ b := by
          have := w.nodup hu
          rw [hr] at this
          intro hc
          subst hc
          simp at this
        have hrank := inv.rank w hf hlt hn
        obtain ⟨k1, x, hrun⟩ := attachConn (h := k) (c1 := c m) (a1 := a) (c2 := c m) (a2 := b)
          (by simp [hab]) hrank hrank p1 p4 (by omega) q1 q4 (by omega)
          (.conn (c m) a (c m) b) (newConnected (c m) a (c m) b) rfl
        have inv1 := inv.attach (e := e) x (by rw [hr]; simp [imgRec, hsub m hn]) (by
            intro m' hm' a'
            simp only [List.mem_cons, Prod.mk.injEq, List.not_mem_nil, or_false]
            constructor
            · rintro (⟨h1, rfl⟩ | ⟨h1, rfl⟩)
              · rw [hinj m' hm' m hn h1]; exact s1.2
              · rw [hinj m' hm' m hn h1]; exact s2.2
            · intro h1
              rcases (at_conn w hu hr).1 (show At h (m', a') e from ⟨hlt m' hm', h1⟩) with h2 | h2
              · simp only [Prod.mk.injEq] at h2
                exact .inl ⟨by rw [h2.1], h2.2⟩
              · simp only [Prod.mk.injEq] at h2
                exact .inr ⟨by rw [h2.1], h2.2⟩)
          (by
            intro s hs
            simp only [List.mem_cons, List.not_mem_nil, or_false] at hs
            rcases hs with rfl | rfl <;> exact hcn.1)
        obtain ⟨k', E', h1, h2, h3⟩ := ih (e :: vis) k1 _ hl' hP' (inv1.congr (fun y => by
            simp only [List.mem_cons]
            constructor
            · rintro ⟨u, v | rfl | v⟩
              exacts [.inl ⟨u, .inl v⟩, .inr rfl, .inl ⟨u, .inr v⟩]
            · rintro (⟨u, v | v⟩ | rfl)
              exacts [⟨u, .inl v⟩, ⟨u, .inr (.inr v)⟩, ⟨htr, .inr (.inl rfl)⟩]))
        refine ⟨k', E', ?_, by rw [h2, x.nn], h3.congr fun y => ?_⟩
        · conv_lhs => unfold copyLoop
          rw [if_neg hv]
          refine (M.bind_ok (node1_conn hrk)).trans ?_
          refine (M.bind_ok (node2_conn hrk)).trans ?_
          rw [if_pos rfl]
          refine (M.bind_ok (axis1_conn hrk)).trans ?_
          refine (M.bind_ok (axis2_conn hrk)).trans ?_
          exact (hrun (fun _ => copyLoop false (c m) l (e :: vis))).trans h1
        · simp only [List.map_cons, List.mem_cons]
          constructor <;> rintro ⟨u, v⟩ <;> refine ⟨u, ?_⟩ <;> tauto
      · obtain ⟨o, p1, p2, p3, p4⟩ := inv.todo n hn i e hei (fun hc => htr hc.1)
        obtain ⟨k1, x, hrun⟩ := attachDang (h := k) (c := c n) (i := i) (inv.rank w hf hlt hn) p1 p4
          (by omega)
        have inv1 := inv.refresh x (fun _ => rfl) (by
            intro m hm a y hs hy hc
            simp only [List.mem_singleton, Prod.mk.injEq] at hs
            obtain ⟨h1, rfl⟩ := hs
            obtain rfl := hinj m hm n hn h1
            rw [hei] at hy
            obtain rfl := Option.some.inj hy
            exact htr hc.1)
          (by
            intro s hs
            rw [List.mem_singleton] at hs
            subst hs
            exact hcn.1)
        obtain ⟨k', E', h1, h2, h3⟩ := ih (e :: vis) k1 E hl' hP' (inv1.congr (fun y => by
            simp only [List.mem_cons]
            constructor
            · rintro ⟨u, v | rfl | v⟩
              exacts [⟨u, .inl v⟩, absurd u htr, ⟨u, .inr v⟩]
            · rintro ⟨u, v | v⟩
              exacts [⟨u, .inl v⟩, ⟨u, .inr (.inr v)⟩]))
        have htail : copyLoop false (c n) ((e, i) :: l) vis k =
            (do let x ← newDangling (c n) i
                addEdge (c n) x i false
                copyLoop false (c n) l (e :: vis) : M R Unit) k := by
          conv_lhs => unfold copyLoop
          rw [if_neg hv]
          rcases w.good hu with ⟨m, a, hr⟩ | ⟨m, a, m', b, hr⟩
          · have hrk : k.edge e = .dang m a := hke.trans hr
            refine (M.bind_ok (node1_dang hrk)).trans ?_
            refine (M.bind_ok (node2_dang hrk)).trans ?_
            rw [if_neg (by simp)]
          · have hrk : k.edge e = .conn m a m' b := hke.trans hr
            refine (M.bind_ok (node1_conn hrk)).trans ?_
            refine (M.bind_ok (node2_conn hrk)).trans ?_
            rw [if_neg]
            intro hc
            obtain rfl := Option.some.inj hc
            exact htr ⟨m, a, b, hr⟩
        refine ⟨k', E', ?_, by rw [h2, x.nn], h3.congr fun y => ?_⟩
        · rw [htail]
          exact (hrun (fun _ => copyLoop false (c n) l (e :: vis))).trans h1
        · simp only [List.map_cons, List.mem_cons]
          constructor <;> rintro ⟨u, v⟩ <;> refine ⟨u, ?_⟩ <;> tauto

/-- What `copy` does to the tensors. -/
def copyTensor (cj : R → R) (conjugate : Bool) (t : NDArray R) : NDArray R :=
  if conjugate then conjTensor cj t else t

theorem copyTensor_shape (cj : R → R) (conjugate : Bool) (t : NDArray R) :
    (copyTensor cj conjugate t).shape = t.shape := by
  cases conjugate <;> rfl

/-- One node is copied. -/
theorem nodeCopy_ok (cj : R → R) (conjugate : Bool) (w : WF h) {pre : List NId} {n : NId}
    (hlt : ∀ m ∈ pre ++ [n], m < h.nn) (hsub : ∀ m ∈ pre ++ [n], m ∈ nodes)
    (hinj : ∀ m ∈ pre ++ [n], ∀ m' ∈ pre ++ [n], c m = c m' → m = m') (hnp : n ∉ pre)
    (hcn : c n = k.nn)
    (inv : CopyInv h k nodes pre c (copyTensor cj conjugate) E
      (fun e => IsTr h e ∧ e ∈ pre.flatMap (fun n => (h.node n).edges))) :
    ∃ k' E', nodeCopy false cj conjugate n k = (.ok k.nn, k') ∧ k'.nn = k.nn + 1 ∧
      CopyInv h k' nodes (pre ++ [n]) c (copyTensor cj conjugate) E'
        (fun e => IsTr h e ∧ e ∈ (pre ++ [n]).flatMap (fun n => (h.node n).edges)) := by
  have hn : n < h.nn := hlt n (by simp)
  have hkn : k.node n = h.node n := inv.old_node n hn
  obtain ⟨k1, hk1⟩ : ∃ k1, k1 = addNode k (h.node n).tensor := ⟨_, rfl⟩
  obtain ⟨k2, hk2⟩ : ∃ k2 : Heap R, k2 = k1.setNode k.nn
    { k1.node k.nn with tensor := copyTensor cj conjugate (h.node n).tensor } := ⟨_, rfl⟩
  have hnn := inv.nn
  have hndim : (h.node n).edges.length = (h.node n).tensor.ndim := w.len n hn
  have hnode : ∀ m, m ≠ k.nn → k2.node m = k.node m := by
    intro m hm
    rw [hk2, hk1]
    simp [addNode, Function.update_of_ne hm]
  have hedges : (k2.node k.nn).edges =
      (List.range (h.node n).tensor.ndim).map (fun i => k.ne + i) := by
    rw [hk2, hk1]
    simp [addNode]
  have hedge : ∀ e < k.ne, k2.edge e = k.edge e := by
    intro e he
    rw [hk2, hk1]
    simp only [Heap.setNode_edge, addNode]
    rw [if_neg (by omega)]
  have hnew : ∀ i < (h.node n).tensor.ndim, k2.edge (k.ne + i) = .dang k.nn i := by
    intro i hi
    rw [hk2, hk1]
    simp only [Heap.setNode_edge, addNode]
    rw [if_pos (by omega)]
    congr 1
    omega
  have hcpre : ∀ m ∈ pre, c m ≠ k.nn := by
    intro m hm hc
    have := (inv.new m hm).2
    omega
  have hne2 : k2.ne = k.ne + (h.node n).tensor.ndim := by rw [hk2, hk1]; rfl
  have hnn2 : k2.nn = k.nn + 1 := by rw [hk2, hk1]; rfl
  have inv2 : CopyInv h k2 nodes (pre ++ [n]) c (copyTensor cj conjugate) E
      (fun e => IsTr h e ∧ (e ∈ pre.flatMap (fun n => (h.node n).edges) ∨ e ∈ [])) := by
    have hne := inv.ne
    refine ⟨by omega, by omega, ?_, ?_, ?_, ?_, ?_, ?_, ?_, ?_⟩
    · intro m hm
      rw [hnode m (by omega), inv.old_node m hm]
    · intro e he
      rw [hedge e (by omega), inv.old_edge e he]
    · intro m hm
      rcases List.mem_append.1 hm with h1 | h1
      · have := inv.new m h1; omega
      · rw [List.mem_singleton] at h1; subst h1; omega
    · intro m hm
      rcases List.mem_append.1 hm with h1 | h1
      · rw [hnode _ (hcpre m h1), inv.tensor m h1]
      · rw [List.mem_singleton] at h1; subst h1
        rw [hcn, hk2]; simp
    · intro m hm
      rcases List.mem_append.1 hm with h1 | h1
      · rw [hnode _ (hcpre m h1), inv.len m h1]
      · rw [List.mem_singleton] at h1; subst h1
        rw [hcn, hedges]; simp [hndim]
    · rintro m hm a e he ⟨hd1, hd2⟩
      simp only [List.not_mem_nil, or_false] at hd2
      rcases List.mem_append.1 hm with h1 | h1
      · rw [hnode _ (hcpre m h1)]
        exact inv.done m h1 a e he ⟨hd1, hd2⟩
      · exfalso
        rw [List.mem_singleton] at h1; subst h1
        obtain ⟨x, a', b', hr⟩ := hd1
        obtain ⟨m', h3, h4⟩ := List.mem_flatMap.1 hd2
        have hat : At h (m, a) e := ⟨hn, he⟩
        have hat' := at_of_mem (hlt m' (by simp [h3])) h4
        have e1 : m = x := by
          rcases (at_conn w hat.inUse hr).1 hat with h5 | h5 <;> exact (congrArg Prod.fst h5)
        have e2 : m' = x := by
          rcases (at_conn w hat.inUse hr).1 hat' with h5 | h5 <;> exact (congrArg Prod.fst h5)
        exact hnp (by rw [e1, ← e2]; exact h3)
    · rintro m hm e he ⟨hd1, hd2⟩
      simp only [List.not_mem_nil, or_false] at hd2
      obtain ⟨m', h3, h4⟩ := List.mem_flatMap.1 hd2
      obtain ⟨p1, p2, p3⟩ := inv.copied m' h3 e h4 ⟨hd1, hd2⟩
      exact ⟨p1, by omega, by rw [hedge _ p2, p3]⟩
    · intro m hm a e he hd
      rcases List.mem_append.1 hm with h1 | h1
      · rw [hnode _ (hcpre m h1)]
        obtain ⟨e', p1, p2, p3, p4⟩ := inv.todo m h1 a e he (fun hc => hd ⟨hc.1, .inl hc.2⟩)
        exact ⟨e', p1, p2, by omega, by rw [hedge _ p3, p4]⟩
      · rw [List.mem_singleton] at h1; subst h1
        have ha : a < (h.node m).tensor.ndim := by
          rw [← hndim]; exact (List.getElem?_eq_some_iff.1 he).1
        refine ⟨k.ne + a, ?_, by omega, by omega, ?_⟩
        · rw [hcn, hedges]; simp [ha]
        · rw [hnew a ha]
  obtain ⟨k', E', q1, q2, q3⟩ := copyLoop_ok w (copyTensor_shape cj conjugate) hlt hsub hinj
    (n := n) (by simp) (pre.flatMap (fun n => (h.node n).edges)) (h.node n).edges.zipIdx [] k2 E
    (fun p hp => List.mem_zipIdx_iff_getElem?.1 hp) (by
      rintro ⟨e, i⟩ hp ⟨x, a', b', hr⟩ hc
      have hei := List.mem_zipIdx_iff_getElem?.1 hp
      simp only at hei hr hc
      obtain ⟨m', h3, h4⟩ := List.mem_flatMap.1 hc
      have hat : At h (n, i) e := ⟨hn, hei⟩
      have hat' := at_of_mem (hlt m' (by simp [h3])) h4
      have e1 : n = x := by
        rcases (at_conn w hat.inUse hr).1 hat with h5 | h5 <;> exact (congrArg Prod.fst h5)
      have e2 : m' = x := by
        rcases (at_conn w hat.inUse hr).1 hat' with h5 | h5 <;> exact (congrArg Prod.fst h5)
      exact hnp (by rw [e1, ← e2]; exact h3)) inv2
  refine ⟨k', E', ?_, by omega, q3.congr fun e => ?_⟩
  · unfold nodeCopy
    rw [M.bind_ok (nodeTensor_eq n), hkn, M.bind_ok (newNode_eq k _), ← hk1]
    have hset : (if conjugate then setTensor k.nn (conjTensor cj (h.node n).tensor) else pure () :
        M R Unit) k1 = (.ok (), k2) := by
      rw [hk2]
      cases conjugate with
      | true => rfl
      | false =>
        have : k1 = k1.setNode k.nn { k1.node k.nn with
            tensor := copyTensor cj false (h.node n).tensor } := by
          have h1 : (k1.node k.nn) = { k1.node k.nn with
            tensor := copyTensor cj false (h.node n).tensor } := by
            rw [hk1]; simp [addNode, copyTensor]
          rw [← h1]
          simp only [Heap.setNode, Function.update_eq_self]
        rw [← this]; rfl
    have hes : nodeEdges n k2 = (.ok (h.node n).edges, k2) := by
      rw [nodeEdges_eq, hnode n (by omega), hkn]
    have htail : (do let es ← nodeEdges n
                     copyLoop false k.nn es.zipIdx []
                     pure k.nn : M R NId) k2 = (.ok k.nn, k') := by
      refine (M.bind_ok hes).trans ?_
      rw [hcn] at q1
      exact M.bind_ok q1
    cases conjugate with
    | true => exact (M.bind_ok hset).trans htail
    | false =>
      have : k1 = k2 := congrArg Prod.snd hset
      rw [this]
      exact htail
  · simp only [List.flatMap_append, List.mem_append, List.flatMap_cons, List.flatMap_nil,
      List.append_nil, List.zipIdx_map_fst, List.not_mem_nil, false_or]

/-- All nodes are copied. -/
theorem mapCopy_ok (cj : R → R) (conjugate : Bool) (w : WF h) (hlt : ∀ m ∈ nodes, m < h.nn)
    (hinj : ∀ m ∈ nodes, ∀ m' ∈ nodes, c m = c m' → m = m') (hnd : nodes.Nodup) :
    ∀ (suf pre : List NId) (k : Heap R) (E : EId → EId), nodes = pre ++ suf →
    k.nn = h.nn + pre.length → (∀ i (hi : i < nodes.length), c nodes[i] = h.nn + i) →
    CopyInv h k nodes pre c (copyTensor cj conjugate) E
      (fun e => IsTr h e ∧ e ∈ pre.flatMap (fun n => (h.node n).edges)) →
    ∃ k' E', M.mapEach suf (nodeCopy false cj conjugate) k = (.ok (suf.map c), k') ∧
      k'.nn = h.nn + nodes.length ∧
      CopyInv h k' nodes nodes c (copyTensor cj conjugate) E'
        (fun e => IsTr h e ∧ e ∈ nodes.flatMap (fun n => (h.node n).edges)) := by
  intro suf
  induction suf with
  | nil =>
    intro pre k E hn hk _ inv
    rw [List.append_nil] at hn
    subst hn
    exact ⟨k, E, rfl, hk, inv⟩
  | cons n suf ih =>
    intro pre k E hn hk hc inv
    have hsub : ∀ m ∈ pre ++ [n], m ∈ nodes := by
      intro m hm
      rw [hn]
      simp only [List.mem_append, List.mem_cons, List.not_mem_nil, or_false] at hm ⊢
      tauto
    have hcn : c n = k.nn := by
      have hi : pre.length < nodes.length := by rw [hn]; simp
      have := hc pre.length hi
      rw [hk, ← this]
      congr 1
      simp [hn]
    obtain ⟨k1, E1, h1, h2, h3⟩ := nodeCopy_ok cj conjugate w (pre := pre) (n := n)
      (fun m hm => hlt m (hsub m hm)) hsub
      (fun m hm m' hm' => hinj m (hsub m hm) m' (hsub m' hm'))
      (by
        rw [hn] at hnd
        have := (List.nodup_append.1 hnd).2.2
        intro hc
        exact this n hc n (by simp) rfl) hcn inv
    obtain ⟨k', E', q1, q2, q3⟩ := ih (pre ++ [n]) k1 E1 (by rw [hn]; simp)
      (by rw [h2, hk]; simp; omega) hc h3
    refine ⟨k', E', ?_, q2, q3⟩
    rw [M.mapEach_cons]
    refine (M.bind_ok h1).trans ?_
    refine (M.bind_ok q1).trans ?_
    rw [← hcn]
    rfl

/-- The edges are copied. -/
theorem copyEdges_ok (w : WF h) (hf : ∀ t, (f t).shape = t.shape) (hlt : ∀ n ∈ nodes, n < h.nn)
    (hinj : ∀ n ∈ nodes, ∀ m ∈ nodes, c n = c m → n = m) {d : List (NId × NId)}
    (hd : ∀ n ∈ nodes, ∀ k : Heap R, dictGet d n k = (.ok (c n), k))
    (hkeys : ∀ n, n ∈ d.map Prod.fst ↔ n ∈ nodes) :
    ∀ (es : List EId) (k : Heap R) (E : EId → EId) (D : EId → Prop), es.Nodup →
    (∀ e ∈ es, ∃ n ∈ nodes, e ∈ (h.node n).edges) → (∀ e ∈ es, IsTr h e ↔ D e) →
    CopyInv h k nodes nodes c f E D →
    ∃ k' E' r, copyEdges d es k = (.ok r, k') ∧ k'.nn = k.nn ∧
      CopyInv h k' nodes nodes c f E' (fun e => D e ∨ e ∈ es) ∧ r.map Prod.fst = es ∧
      (∀ e ∉ es, E' e = E e) ∧ ∀ p ∈ r, ¬ IsTr h p.1 → p.2 = E' p.1 := by
  intro es
  induction es with
  | nil =>
    intro k E D _ _ _ inv
    exact ⟨k, E, [], rfl, rfl, inv.congr (by simp), rfl, fun _ _ => rfl, by simp⟩
  | cons e es ih =>
    intro k E D hnd hes hD inv
    rw [List.nodup_cons] at hnd
    have hes' : ∀ e ∈ es, ∃ n ∈ nodes, e ∈ (h.node n).edges := fun x hx => hes x (by simp [hx])
    obtain ⟨n0, hn0, hen0⟩ := hes e (by simp)
    have hu := inUse_of_mem (hlt n0 hn0) hen0
    have hat0 := at_of_mem (hlt n0 hn0) hen0
    have hke : k.edge e = h.edge e := inv.old_edge e (w.lt hu)
    -- what is left to do after the edge `e` got its copy
    have finish : ∀ (k1 : Heap R), ¬ IsTr h e → k1.nn = k.nn →
        CopyInv h k1 nodes nodes c f (Function.update E e k.ne) (fun y => D y ∨ y = e) →
        copyEdges d (e :: es) k = (do let r ← copyEdges d es; pure ((e, k.ne) :: r) : M R _) k1 →
        ∃ k' E' r, copyEdges d (e :: es) k = (.ok r, k') ∧ k'.nn = k.nn ∧
          CopyInv h k' nodes nodes c f E' (fun y => D y ∨ y ∈ e :: es) ∧
          r.map Prod.fst = e :: es ∧ (∀ y ∉ e :: es, E' y = E y) ∧
          ∀ p ∈ r, ¬ IsTr h p.1 → p.2 = E' p.1 := by
      intro k1 htr hnn1 inv1 hrun
      obtain ⟨k', E', r, q1, q2, q3, q4, q5, q6⟩ := ih k1 (Function.update E e k.ne)
        (fun y => D y ∨ y = e) hnd.2 hes' (by
          intro y hy
          rw [hD y (by simp [hy])]
          constructor
          · exact .inl
          · rintro (h1 | rfl)
            · exact h1
            · exact absurd hy hnd.1) inv1
      refine ⟨k', E', (e, k.ne) :: r, ?_, q2.trans hnn1, q3.congr fun y => ?_, by simp [q4], ?_, ?_⟩
      · rw [hrun]
        exact (M.bind_ok q1)
      · simp only [List.mem_cons]; tauto
      · intro y hy
        simp only [List.mem_cons, not_or] at hy
        rw [q5 y hy.2, Function.update_of_ne hy.1]
      · intro p hp hpt
        rcases List.mem_cons.1 hp with rfl | hp
        · simp only
          rw [q5 e hnd.1, Function.update_self]
        · exact q6 p hp hpt
    -- a single axis
    have single : ∀ n a, ¬ IsTr h e → n ∈ nodes → At h (n, a) e →
        (∀ m ∈ nodes, ∀ b, At h (m, b) e → (m, b) = (n, a)) →
        imgRec nodes c (h.edge e) = .dang (c n) a →
        copyEdges d (e :: es) k = (do
          let x ← newDangling (c n) a
          addEdge (c n) x a false
          let r ← copyEdges d es
          pure ((e, x) :: r) : M R _) k →
        ∃ k' E' r, copyEdges d (e :: es) k = (.ok r, k') ∧ k'.nn = k.nn ∧
          CopyInv h k' nodes nodes c f E' (fun y => D y ∨ y ∈ e :: es) ∧
          r.map Prod.fst = e :: es ∧ (∀ y ∉ e :: es, E' y = E y) ∧
          ∀ p ∈ r, ¬ IsTr h p.1 → p.2 = E' p.1 := by
      intro n a htr hn hat hu1 himg hrun
      obtain ⟨o, p1, p2, p3, p4⟩ := inv.todo n hn a e hat.2
        (fun hc => htr ((hD e (by simp)).2 hc))
      obtain ⟨k1, x, hr⟩ := attachDang (h := k) (c := c n) (i := a) (inv.rank w hf hlt hn) p1 p4
        (by omega)
      refine finish k1 htr x.nn (inv.attach x himg.symm ?_ ?_) ?_
      · intro m hm b
        simp only [List.mem_singleton, Prod.mk.injEq]
        constructor
        · rintro ⟨h1, rfl⟩
          rw [hinj m hm n hn h1]
          exact hat.2
        · intro h1
          have := hu1 m hm b ⟨hlt m hm, h1⟩
          simp only [Prod.mk.injEq] at this
          exact ⟨by rw [this.1], this.2⟩
      · intro s hs
        rw [List.mem_singleton] at hs
        subst hs
        exact (inv.new n hn).1
      · rw [hrun]
        exact hr (fun x => do let r ← copyEdges d es; pure ((e, x) :: r))
    rcases w.good hu with ⟨n, a, hr⟩ | ⟨n, a, m, b, hr⟩
    · have hrk : k.edge e = .dang n a := hke.trans hr
      obtain rfl : n0 = n := congrArg Prod.fst ((at_dang w hu hr).1 hat0)
      refine single n0 a ?_ hn0 ((at_dang w hu hr).2 rfl)
        (fun m _ b hb => (at_dang w hu hr).1 hb) (by rw [hr]; rfl) ?_
      · rintro ⟨x, y, z, hc⟩
        rw [hr] at hc
        simp [EdgeRec.dang, EdgeRec.conn] at hc
      · conv_lhs => unfold copyEdges
        refine (M.bind_ok (node1_dang hrk)).trans ?_
        refine (M.bind_ok (axis1_dang hrk)).trans ?_
        rw [M.bind_ok isDangling_eq, hrk]
        refine (M.bind_ok (a := none) (h' := k) rfl).trans ?_
        exact M.bind_ok (hd n0 hn0 k)
    · have hrk : k.edge e = .conn n a m b := hke.trans hr
      have hatn := (at_conn w hu hr (s := (n, a))).2 (.inl rfl)
      have hatm := (at_conn w hu hr (s := (m, b))).2 (.inr rfl)
      have hstart : copyEdges d (e :: es) k =
          (if m ∉ d.map Prod.fst then do
            let c1 ← dictGet d n
            let f ← newDangling c1 a
            addEdge c1 f a false
            let r ← copyEdges d es
            pure ((e, f) :: r)
          else do
            let c2 ← dictGet d m
            if n ∉ d.map Prod.fst then do
              let f ← newDangling c2 b
              addEdge c2 f b false
              let r ← copyEdges d es
              pure ((e, f) :: r)
            else do
              let c1 ← dictGet d n
              let f ← newConnected c1 a c2 b
              if n ≠ m then do
                addEdge c2 f b false
                addEdge c1 f a false
                let r ← copyEdges d es
                pure ((e, f) :: r)
              else do
                let r ← copyEdges d es
                pure ((e, f) :: r) : M R _) k := by
        conv_lhs => unfold copyEdges
        refine (M.bind_ok (node1_conn hrk)).trans ?_
        refine (M.bind_ok (axis1_conn hrk)).trans ?_
        rw [M.bind_ok isDangling_eq, hrk]
        refine (M.bind_ok (a := some m) (h' := k) (node2_conn hrk)).trans ?_
        by_cases hm : m ∈ d.map Prod.fst
        · have : ¬ m ∉ d.map Prod.fst := by simpa using hm
          simp only [if_neg this]
          exact M.bind_ok (axis2_conn hrk)
        · simp only [if_pos hm]
      by_cases hm : m ∈ nodes
      · rw [if_neg (by rw [hkeys]; simpa using hm)] at hstart
        replace hstart := hstart.trans (M.bind_ok (hd m hm k))
        by_cases hn : n ∈ nodes
        · rw [if_neg (by rw [hkeys]; simpa using hn)] at hstart
          replace hstart := hstart.trans (M.bind_ok (hd n hn k))
          by_cases hnm : n = m
          · -- a trace edge: done by `Node.copy`, the new edge stays alone
            subst hnm
            have htr : IsTr h e := ⟨n, a, b, hr⟩
            obtain ⟨k1, hk1⟩ : ∃ k1 : Heap R, k1 = { k with
              edge := Function.update k.edge k.ne (.conn (c n) a (c n) b)
              ne := k.ne + 1 } := ⟨_, rfl⟩
            have x : Attached k k1 (.conn (c n) a (c n) b) [] := by
              rw [hk1]
              refine ⟨rfl, rfl, by simp, fun y hy => by simp [Function.update_of_ne hy],
                fun _ => rfl, fun _ => rfl, fun _ _ => by simp⟩
            have inv1 := inv.refresh x (by simp) (by simp) (by simp)
            obtain ⟨k', E', r, q1, q2, q3, q4, q5, q6⟩ := ih k1 E D hnd.2 hes'
              (fun y hy => hD y (by simp [hy])) inv1
            have hDe : D e := (hD e (by simp)).1 htr
            refine ⟨k', E', (e, k.ne) :: r, ?_, q2.trans x.nn, q3.congr fun y => ?_,
              by simp [q4], ?_, ?_⟩
            · rw [hstart]
              have hnew : newConnected (c n) a (c n) b k = (.ok k.ne, k1) := by rw [hk1]; rfl
              refine (M.bind_ok hnew).trans ?_
              rw [if_neg (by simp)]
              exact M.bind_ok q1
            · simp only [List.mem_cons]
              constructor
              · rintro (h1 | rfl | h1)
                exacts [.inl h1, .inl hDe, .inr h1]
              · rintro (h1 | h1)
                exacts [.inl h1, .inr (.inr h1)]
            · intro y hy
              simp only [List.mem_cons, not_or] at hy
              exact q5 y hy.2
            · intro p hp hpt
              rcases List.mem_cons.1 hp with rfl | hp
              · exact absurd htr hpt
              · exact q6 p hp hpt
          · have htr : ¬ IsTr h e := by
              rintro ⟨x, y, z, hc⟩
              rw [hr] at hc
              simp only [EdgeRec.conn, EdgeRec.mk.injEq, Option.some.injEq] at hc
              exact hnm (hc.1.trans hc.2.2.1.symm)
            have hnD : ¬ D e := fun hc => htr ((hD e (by simp)).2 hc)
            obtain ⟨o1, p1, p2, p3, p4⟩ := inv.todo n hn a e hatn.2 hnD
            obtain ⟨o2, q1, q2, q3, q4⟩ := inv.todo m hm b e hatm.2 hnD
            obtain ⟨k1, x, hrun⟩ := attachConn (h := k) (c1 := c m) (a1 := b) (c2 := c n) (a2 := a)
              (by
                intro hc
                simp only [Prod.mk.injEq] at hc
                exact hnm (hinj n hn m hm hc.1.symm))
              (inv.rank w hf hlt hm) (inv.rank w hf hlt hn) q1 q4 (by omega) p1 p4 (by omega)
              (.conn (c n) a (c m) b) (newConnected (c n) a (c m) b) rfl
            refine finish k1 htr x.nn (inv.attach x ?_ ?_ ?_) ?_
            · rw [hr]; simp [imgRec, hn, hm]
            · intro m' hm' a'
              simp only [List.mem_cons, Prod.mk.injEq, List.not_mem_nil, or_false]
              constructor
              · rintro (⟨h1, rfl⟩ | ⟨h1, rfl⟩)
                · rw [hinj m' hm' m hm h1]; exact hatm.2
                · rw [hinj m' hm' n hn h1]; exact hatn.2
              · intro h1
                rcases (at_conn w hu hr).1 (show At h (m', a') e from ⟨hlt m' hm', h1⟩)
                  with h2 | h2
                · simp only [Prod.mk.injEq] at h2
                  exact .inr ⟨by rw [h2.1], h2.2⟩
                · simp only [Prod.mk.injEq] at h2
                  exact .inl ⟨by rw [h2.1], h2.2⟩
            · intro s hs
              simp only [List.mem_cons, List.not_mem_nil, or_false] at hs
              rcases hs with rfl | rfl
              exacts [(inv.new m hm).1, (inv.new n hn).1]
            · rw [hstart]
              have := hrun (fun x => do let r ← copyEdges d es; pure ((e, x) :: r))
              rw [← this]
              simp only [ne_eq, hnm, not_false_eq_true, if_true]
        · rw [if_pos (by rw [hkeys]; exact hn)] at hstart
          have hnm : n ≠ m := fun hc => hn (hc ▸ hm)
          refine single m b ?_ hm hatm ?_ ?_ hstart
          · rintro ⟨x, y, z, hc⟩
            rw [hr] at hc
            simp only [EdgeRec.conn, EdgeRec.mk.injEq, Option.some.injEq] at hc
            exact hnm (hc.1.trans hc.2.2.1.symm)
          · intro m' hm' b' hb'
            rcases (at_conn w hu hr).1 hb' with h2 | h2
            · have h3 : m' = n := congrArg Prod.fst h2
              exact absurd (h3 ▸ hm') hn
            · exact h2
          · rw [hr]; simp [imgRec, hn, hm]
      · rw [if_pos (by rw [hkeys]; exact hm)] at hstart
        have hn : n ∈ nodes := by
          rcases (at_conn w hu hr).1 hat0 with h1 | h1
          · have := congrArg Prod.fst h1; simp only at this; rw [← this]; exact hn0
          · have := congrArg Prod.fst h1; simp only at this; rw [this] at hn0; exact absurd hn0 hm
        have hnm : n ≠ m := fun hc => hm (hc ▸ hn)
        refine single n a ?_ hn hatn ?_ ?_ (hstart.trans (M.bind_ok (hd n hn k)))
        · rintro ⟨x, y, z, hc⟩
          rw [hr] at hc
          simp only [EdgeRec.conn, EdgeRec.mk.injEq, Option.some.injEq] at hc
          exact hnm (hc.1.trans hc.2.2.1.symm)
        · intro m' hm' b' hb'
          rcases (at_conn w hu hr).1 hb' with h2 | h2
          · exact h2
          · have h3 : m' = m := congrArg Prod.fst h2
            exact absurd (h3 ▸ hm') hm
        · rw [hr]; simp [imgRec, hm]

end TN.Graph
