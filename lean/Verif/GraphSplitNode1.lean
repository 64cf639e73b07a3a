import Verif.GraphSplitNode

/-!
# Splitting a node: the run and its result
-/

namespace TN.Graph

open TN

variable {R : Type}

/-- The edge meets the node `n` exactly at axis `k`. -/
def OnlyAt (g : Heap R) (n : NId) (e : EId) (k : Nat) : Prop :=
  (g.edge e).Good ∧ (n, k) ∈ (g.edge e).ends ∧ ∀ k', (n, k') ∈ (g.edge e).ends → k' = k

theorem OnlyAt.congr {g g' : Heap R} {n : NId} {e : EId} {k : Nat} (h : OnlyAt g n e k)
    (he : g'.edge e = g.edge e) : OnlyAt g' n e k := by
  unfold OnlyAt; rw [he]; exact h

theorem onlyAt_of_wf {h : Heap R} (w : WF h) {n : NId} (hn : n < h.nn)
    (hnd : (h.node n).edges.Nodup) {e : EId} (he : e ∈ (h.node n).edges) :
    OnlyAt h n e ((h.node n).edges.idxOf e) := by
  have hat : At h (n, (h.node n).edges.idxOf e) e :=
    ⟨hn, by simp [List.getElem?_idxOf he]⟩
  have ok := w.edge _ _ hat
  refine ⟨ok.good, ok.mem, fun k' hk' => ?_⟩
  have h1 := ok.listed _ hk'
  have h2 := List.getElem?_eq_some_iff.1 h1.2
  obtain ⟨h3, h4⟩ := h2
  simp only at h3 h4
  rw [← h4, hnd.idxOf_getElem]

theorem axisOf_run {g : Heap R} {n : NId} {e : EId} {k : Nat} (ho : OnlyAt g n e k) :
    (do
      let a ← node1 e
      if a = n then axis1 e
      else do
        let x ← axis2 e
        match x with
        | some x => pure x
        | none => M.throw .typeError : M R Nat) g = (.ok k, g) := by
  obtain ⟨hg, hm, hu⟩ := ho
  rcases hg with ⟨m, a, hr⟩ | ⟨m, a, m', b, hr⟩
  · rw [hr] at hm
    have hm' : (n, k) = (m, a) := by simpa using hm
    obtain ⟨rfl, rfl⟩ := Prod.mk.inj hm'
    rw [M.bind_ok (node1_dang hr), if_pos rfl, axis1_dang hr]
  · rw [hr] at hm hu
    have hm' : (n, k) = (m, a) ∨ (n, k) = (m', b) := by simpa using hm
    by_cases hmn : m = n
    · subst hmn
      rw [M.bind_ok (node1_conn hr), if_pos rfl, axis1_conn hr]
      rw [hu a (by simp)]
    · rcases hm' with h1 | h1
      · exact absurd (Prod.mk.inj h1).1.symm hmn
      · obtain ⟨rfl, rfl⟩ := Prod.mk.inj h1
        rw [M.bind_ok (node1_conn hr), if_neg hmn]
        refine (M.bind_ok (axis2_conn hr)).trans ?_
        rfl

theorem axesOf_run {g : Heap R} {n : NId} {es : List EId} {ax : EId → Nat}
    (ho : ∀ e ∈ es, OnlyAt g n e (ax e)) : axesOf n es g = (.ok (es.map ax), g) :=
  mapEach_readonly fun e he => axisOf_run (ho e he)

theorem axisFrom_run {g : Heap R} {n : NId} {e : EId} {k : Nat} (ho : OnlyAt g n e k) :
    (do
      let a ← node1 e
      if a = n then axis1 e
      else do
        let b ← node2 e
        if b = some n then do
          let x ← axis2 e
          match x with
          | some x => pure x
          | none => M.throw .typeError
        else M.throw .valueError : M R Nat) g = (.ok k, g) := by
  obtain ⟨hg, hm, hu⟩ := ho
  rcases hg with ⟨m, a, hr⟩ | ⟨m, a, m', b, hr⟩
  · rw [hr] at hm
    have hm' : (n, k) = (m, a) := by simpa using hm
    obtain ⟨rfl, rfl⟩ := Prod.mk.inj hm'
    rw [M.bind_ok (node1_dang hr), if_pos rfl, axis1_dang hr]
  · rw [hr] at hm hu
    have hm' : (n, k) = (m, a) ∨ (n, k) = (m', b) := by simpa using hm
    by_cases hmn : m = n
    · subst hmn
      rw [M.bind_ok (node1_conn hr), if_pos rfl, axis1_conn hr]
      rw [hu a (by simp)]
    · rcases hm' with h1 | h1
      · exact absurd (Prod.mk.inj h1).1.symm hmn
      · obtain ⟨rfl, rfl⟩ := Prod.mk.inj h1
        rw [M.bind_ok (node1_conn hr), if_neg hmn, M.bind_ok (node2_conn hr), if_pos rfl]
        refine (M.bind_ok (axis2_conn hr)).trans ?_
        rfl

theorem tensorFromEdgeOrder_run {g : Heap R} {n : NId} {es : List EId} {ax : EId → Nat}
    (ho : ∀ e ∈ es, OnlyAt g n e (ax e)) :
    tensorFromEdgeOrder n es g = M.lift ((g.node n).tensor.transpose (es.map ax)) g := by
  unfold tensorFromEdgeOrder
  refine (M.bind_ok (mapEach_readonly fun e he => axisFrom_run (ho e he))).trans ?_
  exact M.bind_ok (nodeTensor_eq n)

theorem attach_run {n m off : Nat} {ax : EId → Nat} {L : List EId} {g : Heap R} (hL : L.Nodup)
    (hslot : ∀ i < L.length, ∃ f, (g.node m).edges[off + i]? = some f ∧
      (g.edge f).dangling = true) (hlen : off + L.length ≤ (g.node m).tensor.ndim)
    (ho : ∀ e ∈ L, OnlyAt g n e (ax e)) :
    ∃ g', attach L (L.map ax) off n m g = (.ok (), g') ∧ g'.ne = g.ne ∧
      Relisted g g' (fun x k => if x = m ∧ off ≤ k then L[k - off]? else none) ∧
      (∀ e ∉ L, g'.edge e = g.edge e) ∧
      ∀ i e, L[i]? = some e → (g'.edge e).Good ∧ (g'.edge e).dangling = (g.edge e).dangling ∧
        (g'.edge e).ends = (m, off + i) ::ₘ (g.edge e).ends.erase (n, ax e) := by
  obtain ⟨g', k1, k2, k3, k4, k5⟩ := attachLoop (n := n) (m := m) (off := off) (ax := ax) L 0 g hL
    (by simpa using hslot) (by simpa using hlen) fun e he => ⟨(ho e he).1, (ho e he).2.1⟩
  refine ⟨g', ?_, k2, by simpa using k3, k4, by simpa using k5⟩
  unfold attach
  have hz : ∀ l : List EId, l.zip (l.map ax) = l.map fun e => (e, ax e) := by
    intro l; induction l with
    | nil => rfl
    | cons a l ih => simp [ih]
  rw [hz]
  exact k1

/-- The result of splitting `n` into nodes carrying `u` and `v`: the edges of `n` move over, a new
edge `c` joins the two, everything else stays. -/
structure NodeSplit (h h' : Heap R) (n : NId) (L Rr : List EId) (u v : NDArray R) (l r : NId)
    (c : EId) : Prop where
  wf : WF h'
  nn : h'.nn = h.nn + 2
  new : l = h.nn ∧ r = h.nn + 1
  left : h'.node l = ⟨u, L ++ [c]⟩
  right : h'.node r = ⟨v, c :: Rr⟩
  bond : ¬ InUse h c ∧ h'.edge c = .conn l L.length r 0
  other : ∀ m < h.nn, m ≠ n → h'.node m = h.node m
  tensor : (h'.node n).tensor = (h.node n).tensor
  fresh : ∀ e ∈ (h'.node n).edges, ¬ InUse h e ∧ (h'.edge e).dangling = true
  dangling : ∀ e, InUse h e → InUse h' e ∧ (h'.edge e).dangling = (h.edge e).dangling

theorem splitNode_run {decomp : NDArray R → Nat → Py (NDArray R × NDArray R)} {h : Heap R}
    (w : WF h) {n : NId} (hn : n < h.nn) {L Rr : List EId}
    (hp : (L ++ Rr).Perm (h.node n).edges) (hnd : (h.node n).edges.Nodup) {t u v : NDArray R}
    (ht : (h.node n).tensor.transpose ((L ++ Rr).map (h.node n).edges.idxOf) = .ok t)
    (hd : decomp t L.length = .ok (u, v)) {d : Nat} (hu : u.shape = L.map (edim h) ++ [d])
    (hv : v.shape = d :: Rr.map (edim h)) :
    ∃ h' c, splitNodeWith decomp n L Rr h = (.ok (h.nn, h.nn + 1), h') ∧
      NodeSplit h h' n L Rr u v h.nn (h.nn + 1) c := by
  obtain ⟨ax, hax⟩ : ∃ ax, ax = (h.node n).edges.idxOf := ⟨_, rfl⟩
  have hLR : (L ++ Rr).Nodup := hp.nodup_iff.2 hnd
  have hLn : L.Nodup := hLR.of_append_left
  have hRn : Rr.Nodup := hLR.of_append_right
  have hdisj : ∀ e ∈ Rr, e ∉ L := fun e h1 h2 => (List.nodup_append.1 hLR).2.2 e h2 e h1 rfl
  have hmemL : ∀ e ∈ L, e ∈ (h.node n).edges := fun e he => hp.mem_iff.1 (by simp [he])
  have hmemR : ∀ e ∈ Rr, e ∈ (h.node n).edges := fun e he => hp.mem_iff.1 (by simp [he])
  have hlt : ∀ e ∈ (h.node n).edges, e < h.ne := fun e he => w.lt (inUse_of_mem hn he)
  have hud : u.ndim = L.length + 1 := by
    rw [show u.ndim = u.shape.length from rfl, hu]; simp
  have hvd : v.ndim = Rr.length + 1 := by
    rw [show v.ndim = v.shape.length from rfl, hv]; simp
  have ho : ∀ e ∈ L ++ Rr, OnlyAt h n e (ax e) := by
    intro e he
    rw [hax]
    exact onlyAt_of_wf w hn hnd (hp.mem_iff.1 he)
  -- first node
  obtain ⟨g1, hg1⟩ : ∃ g, g = addNode h u := ⟨_, rfl⟩
  have g1nn : g1.nn = h.nn + 1 := by rw [hg1]; rfl
  have g1ne : g1.ne = h.ne + L.length + 1 := by rw [hg1]; simp [addNode, hud, Nat.add_assoc]
  have g1e : ∀ e < h.ne, g1.edge e = h.edge e := fun e he => by rw [hg1]; exact addNode_edge_old he
  have g1s : ∀ k, k ≤ L.length → (g1.node h.nn).edges[k]? = some (h.ne + k) ∧
      g1.edge (h.ne + k) = .dang h.nn k := by
    intro k hk
    rw [hg1, addNode_node_new]
    refine ⟨?_, addNode_edge_new (by omega)⟩
    rw [List.getElem?_map, List.getElem?_range (by omega)]; rfl
  obtain ⟨g2, a1, a2, a3, a4, a5⟩ := attach_run (n := n) (m := h.nn) (off := 0) (ax := ax) (g := g1) hLn
    (by
      intro i hi
      obtain ⟨z1, z2⟩ := g1s (0 + i) (by omega)
      exact ⟨_, z1, by rw [z2]⟩) (by rw [hg1, addNode_node_new]; simp [hud])
    (fun e he => (ho e (by simp [he])).congr (g1e e (hlt e (hmemL e he))))
  have g2nn : g2.nn = h.nn + 1 := by rw [a3.nn, g1nn]
  rw [g1ne] at a2
  have g2l : (g2.node h.nn).edges = L ++ [h.ne + L.length] := by
    apply List.ext_getElem?
    intro k
    rw [a3.get]
    simp only [true_and, Nat.zero_le, if_true, Nat.sub_zero]
    by_cases hk : k < L.length
    · rw [List.getElem?_append_left hk, List.getElem?_eq_getElem hk]
    · rw [List.getElem?_eq_none (by omega)]
      simp only
      rw [List.getElem?_append_right (by omega)]
      by_cases hk' : k = L.length
      · rw [hk', (g1s _ le_rfl).1]; simp
      · rw [List.getElem?_eq_none, List.getElem?_eq_none]
        · simp; omega
        · rw [hg1, addNode_node_new]; simp [hud]; omega
  have g2t : ∀ m, (g2.node m).tensor = (g1.node m).tensor := a3.tensor
  have g2o : ∀ m, m < h.nn → g2.node m = h.node m := by
    intro m hm
    have h1 : (g2.node m).edges = (h.node m).edges := by
      apply List.ext_getElem?
      intro k
      rw [a3.get, if_neg (by omega), hg1, addNode_node_old hm]
    have h2 := g2t m
    rw [hg1, addNode_node_old hm] at h2
    rcases hx : g2.node m with ⟨tt, ee⟩
    rcases hy : h.node m with ⟨tt', ee'⟩
    rw [hx, hy] at h1 h2
    simp only at h1 h2
    rw [h1, h2]
  -- second node
  obtain ⟨g3, hg3⟩ : ∃ g, g = addNode g2 v := ⟨_, rfl⟩
  have g3ne : g3.ne = g2.ne + Rr.length + 1 := by rw [hg3]; simp [addNode, hvd, Nat.add_assoc]
  have g3e : ∀ e < g2.ne, g3.edge e = g2.edge e := fun e he => by rw [hg3]; exact addNode_edge_old he
  have g3s : ∀ k, k ≤ Rr.length → (g3.node (h.nn + 1)).edges[k]? = some (g2.ne + k) ∧
      g3.edge (g2.ne + k) = .dang (h.nn + 1) k := by
    intro k hk
    rw [hg3, ← g2nn, addNode_node_new]
    refine ⟨?_, addNode_edge_new (by omega)⟩
    rw [List.getElem?_map, List.getElem?_range (by omega)]; rfl
  have hRe : ∀ e ∈ Rr, g3.edge e = h.edge e := by
    intro e he
    have := hlt e (hmemR e he)
    rw [g3e e (by omega), a4 e (hdisj e he), g1e e this]
  obtain ⟨g4, b1, b2, b3, b4, b5⟩ := attach_run (n := n) (m := h.nn + 1) (off := 1) (ax := ax)
    (g := g3) hRn
    (by
      intro i hi
      obtain ⟨z1, z2⟩ := g3s (1 + i) (by omega)
      exact ⟨_, z1, by rw [z2]⟩)
    (by rw [hg3, ← g2nn, addNode_node_new]; simp [hvd]; omega)
    (fun e he => (ho e (by simp [he])).congr (hRe e he))
  rw [g3ne] at b2
  have g4r : (g4.node (h.nn + 1)).edges = g2.ne :: Rr := by
    apply List.ext_getElem?
    intro k
    rw [b3.get]
    cases k with
    | zero =>
      rw [if_neg (by omega)]
      have := (g3s 0 (by omega)).1
      simpa using this
    | succ k =>
      rw [if_pos ⟨rfl, by omega⟩, Nat.add_sub_cancel, List.getElem?_cons_succ]
      by_cases hk : k < Rr.length
      · rw [List.getElem?_eq_getElem hk]
      · rw [List.getElem?_eq_none (by omega)]
        simp only
        rw [List.getElem?_eq_none]
        rw [hg3, ← g2nn, addNode_node_new]; simp [hvd]; omega
  have g4o : ∀ m, m < h.nn + 1 → g4.node m = g2.node m := by
    intro m hm
    have h1 : (g4.node m).edges = (g2.node m).edges := by
      apply List.ext_getElem?
      intro k
      rw [b3.get, if_neg (by omega), hg3, addNode_node_old (by omega)]
    have h2 := b3.tensor m
    rw [hg3, addNode_node_old (by omega)] at h2
    rcases hx : g4.node m with ⟨tt, ee⟩
    rcases hy : g2.node m with ⟨tt', ee'⟩
    rw [hx, hy] at h1 h2
    simp only at h1 h2
    rw [h1, h2]
  have g4l : g4.node h.nn = ⟨u, L ++ [h.ne + L.length]⟩ := by
    rw [g4o _ (by omega)]
    have h2 := g2t h.nn
    rw [hg1, addNode_node_new] at h2
    rcases hx : g2.node h.nn with ⟨tt, ee⟩
    rw [hx] at g2l h2
    simp only at g2l h2
    rw [g2l, h2]
  have g4r' : g4.node (h.nn + 1) = ⟨v, g2.ne :: Rr⟩ := by
    have h2 := b3.tensor (h.nn + 1)
    rw [hg3, ← g2nn, addNode_node_new, g2nn] at h2
    rcases hx : g4.node (h.nn + 1) with ⟨tt, ee⟩
    rw [hx] at g4r h2
    simp only at g4r h2
    rw [g4r, h2]
  have hc1 : g4.edge (h.ne + L.length) = .dang h.nn L.length := by
    have n1 : h.ne + L.length ∉ Rr := fun hm => absurd (hlt _ (hmemR _ hm)) (by omega)
    have n2 : h.ne + L.length ∉ L := fun hm => absurd (hlt _ (hmemL _ hm)) (by omega)
    rw [b4 _ n1, g3e _ (by omega), a4 _ n2, (g1s _ le_rfl).2]
  have hc2 : g4.edge g2.ne = .dang (h.nn + 1) 0 := by
    have n1 : g2.ne ∉ Rr := fun hm => absurd (hlt _ (hmemR _ hm)) (by omega)
    rw [b4 _ n1]
    exact (g3s 0 (by omega)).2
  have hcon := connect_run (h := g4) hc1 hc2 (by omega) (by rw [g4l]; simp [hud])
    (by rw [g4l]; simp) (by rw [g4r']; simp [hvd]) (by rw [g4r']; simp)
    (by rw [g4l, g4r']; simp [hu, hv])
  obtain ⟨c, hc⟩ : ∃ c, c = g4.ne := ⟨_, rfl⟩
  rw [← hc] at hcon
  obtain ⟨g5, hg5⟩ : ∃ g : Heap R, g = ⟨Function.update
      (Function.update g4.node h.nn { g4.node h.nn with edges := (g4.node h.nn).edges.set L.length c }) (h.nn + 1)
      { Function.update g4.node h.nn { g4.node h.nn with edges := (g4.node h.nn).edges.set L.length c } (h.nn + 1) with
        edges := (Function.update g4.node h.nn
          { g4.node h.nn with edges := (g4.node h.nn).edges.set L.length c } (h.nn + 1)).edges.set 0 c },
      Function.update g4.edge c (.conn h.nn L.length (h.nn + 1) 0), g4.nn, c + 1⟩ := ⟨_, rfl⟩
  rw [← hg5] at hcon
  have g5l : g5.node h.nn = ⟨u, L ++ [c]⟩ := by
    rw [hg5]
    simp [g4l]
  have g5r : g5.node (h.nn + 1) = ⟨v, c :: Rr⟩ := by
    rw [hg5]
    simp [g4r']
  have g5o : ∀ m < h.nn, g5.node m = h.node m := by
    intro m hm
    rw [hg5]
    simp only
    rw [Function.update_of_ne (by omega), Function.update_of_ne (by omega), g4o m (by omega), g2o m hm]
  have g5e : ∀ e, e ≠ c → g5.edge e = g4.edge e := by
    intro e he; rw [hg5]; simp [he]
  have g5c : g5.edge c = .conn h.nn L.length (h.nn + 1) 0 := by rw [hg5]; simp
  have g5nn : g5.nn = h.nn + 2 := by
    rw [hg5]; simp only; rw [b3.nn, hg3]; simp [addNode, g2nn]
  have g5ne : g5.ne = c + 1 := by rw [hg5]
  have hfr := freshHeap_freshened g5 n
  have hfe := freshEdges_eq (h := g5) (n := n) (by rw [g5o n hn, w.len n hn])
  obtain ⟨g6, hg6⟩ : ∃ g, g = freshHeap g5 n := ⟨_, rfl⟩
  rw [← hg6] at hfr hfe
  have hcge : h.ne < c := by omega
  -- the records
  have recL : ∀ i e, L[i]? = some e → (g6.edge e).Good ∧
      (g6.edge e).dangling = (h.edge e).dangling ∧
      (g6.edge e).ends = (h.nn, i) ::ₘ (h.edge e).ends.erase (n, ax e) := by
    intro i e hi
    have hm : e ∈ L := List.mem_of_getElem? hi
    have hle := hlt e (hmemL e hm)
    have hR : e ∉ Rr := fun hh => hdisj e hh hm
    have := a5 i e hi
    rw [g1e e hle, Nat.zero_add] at this
    rw [hfr.old e (by omega), g5e e (by omega), b4 e hR, g3e e (by omega)]
    exact this
  have recR : ∀ i e, Rr[i]? = some e → (g6.edge e).Good ∧
      (g6.edge e).dangling = (h.edge e).dangling ∧
      (g6.edge e).ends = (h.nn + 1, 1 + i) ::ₘ (h.edge e).ends.erase (n, ax e) := by
    intro i e hi
    have hm : e ∈ Rr := List.mem_of_getElem? hi
    have hle := hlt e (hmemR e hm)
    have := b5 i e hi
    rw [hRe e hm] at this
    rw [hfr.old e (by omega), g5e e (by omega)]
    exact this
  have recO : ∀ e < h.ne, e ∉ (h.node n).edges → g6.edge e = h.edge e := by
    intro e hle hm
    have hL : e ∉ L := fun hh => hm (hmemL e hh)
    have hR : e ∉ Rr := fun hh => hm (hmemR e hh)
    rw [hfr.old e (by omega), g5e e (by omega), b4 e hR, g3e e (by omega), a4 e hL, g1e e hle]
  have recC : g6.edge c = .conn h.nn L.length (h.nn + 1) 0 := by
    rw [hfr.old c (by omega), g5c]
  have n6l : g6.node h.nn = ⟨u, L ++ [c]⟩ := by rw [hfr.other _ (by simp; omega), g5l]
  have n6r : g6.node (h.nn + 1) = ⟨v, c :: Rr⟩ := by rw [hfr.other _ (by simp; omega), g5r]
  have n6o : ∀ m < h.nn, m ≠ n → g6.node m = h.node m := fun m hm hmn => by
    rw [hfr.other _ (by simpa using hmn), g5o m hm]
  have n6n : g6.nn = h.nn + 2 := by rw [hfr.nn, g5nn]
  have n6e : c < g6.ne := by have := hfr.ne; omega
  -- consistency
  obtain ⟨tgt, htgt⟩ : ∃ tgt : Nat → Slot, tgt = fun k =>
    if ((h.node n).edges.getD k 0) ∈ L then (h.nn, L.idxOf ((h.node n).edges.getD k 0))
    else (h.nn + 1, 1 + Rr.idxOf ((h.node n).edges.getD k 0)) := ⟨_, rfl⟩
  have tgtL : ∀ k e, At h (n, k) e → e ∈ L → tgt k = (h.nn, L.idxOf e) := by
    intro k e hs he
    rw [htgt]
    simp only
    rw [List.getD_eq_getElem?_getD, hs.2]
    simp [he]
  have tgtR : ∀ k e, At h (n, k) e → e ∉ L → tgt k = (h.nn + 1, 1 + Rr.idxOf e) := by
    intro k e hs he
    rw [htgt]
    simp only
    rw [List.getD_eq_getElem?_getD, hs.2]
    simp [he]
  have hkax : ∀ k e, At h (n, k) e → k = ax e := by
    intro k e hs
    obtain ⟨h3, h4⟩ := List.getElem?_eq_some_iff.1 hs.2
    simp only at h3 h4
    rw [hax]; simp only; rw [← h4, hnd.idxOf_getElem]
  have atAx : ∀ e ∈ (h.node n).edges, At h (n, ax e) e := by
    intro e he
    exact ⟨hn, by rw [hax]; simp [List.getElem?_idxOf he]⟩
  have dL : ∀ i e, L[i]? = some e → dimAt g6 (h.nn, i) = edim h e := by
    intro i e hi
    obtain ⟨hi1, hi2⟩ := List.getElem?_eq_some_iff.1 hi
    simp only [dimAt, Heap.shape, n6l, hu]
    rw [List.getD_eq_getElem?_getD, List.getElem?_append_left (by simpa using hi1)]
    simp [hi]
  have dR : ∀ i e, Rr[i]? = some e → dimAt g6 (h.nn + 1, 1 + i) = edim h e := by
    intro i e hi
    simp only [dimAt, Heap.shape, n6r, hv]
    rw [List.getD_eq_getElem?_getD, Nat.add_comm 1 i, List.getElem?_cons_succ]
    simp [hi]
  have wf' : WF g6 := by
    refine relocate_wf w (n := n) (tgt := tgt) (by omega) (by omega) ?_ n6o ?_ ?_ ?_ ?_
    · intro m hm
      rw [n6n] at hm
      by_cases h1 : m = h.nn
      · subst h1; rw [n6l]; simp [hud]
      by_cases h2 : m = h.nn + 1
      · subst h2; rw [n6r]; simp [hvd]
      rw [hfr.len, hfr.tensor, g5o m (by omega), w.len m (by omega)]
    · intro k k' e h1 h2
      rw [hkax k e h1, hkax k' e h2]
    · intro k e hs
      have hm : e ∈ (h.node n).edges := hs.mem
      have hk := hkax k e hs
      by_cases he : e ∈ L
      · have hi : L[L.idxOf e]? = some e := List.getElem?_idxOf he
        rw [tgtL k e hs he]
        obtain ⟨z1, z2, z3⟩ := recL _ _ hi
        refine ⟨⟨by simp only; omega, ?_⟩, ?_, le_rfl, z1, by rw [z3, hk]⟩
        · simp only
          rw [n6l]
          rw [List.getElem?_append_left (List.idxOf_lt_length_of_mem he)]
          exact hi
        · rw [dL _ _ hi, w.edim_eq hs]
      · have heR : e ∈ Rr := by
          have := hp.mem_iff.2 hm
          rw [List.mem_append] at this
          exact this.resolve_left he
        have hi : Rr[Rr.idxOf e]? = some e := List.getElem?_idxOf heR
        rw [tgtR k e hs he]
        obtain ⟨z1, z2, z3⟩ := recR _ _ hi
        refine ⟨⟨by simp only; omega, ?_⟩, ?_, by simp, z1, by rw [z3, hk]⟩
        · simp only
          rw [n6r, Nat.add_comm 1, List.getElem?_cons_succ]
          exact hi
        · rw [dR _ _ hi, w.edim_eq hs]
    · intro e hu hk
      refine recO e (w.lt hu) fun hm => ?_
      exact hk _ (atAx e hm)
    · rintro ⟨m, k⟩ e hs
      have hm := hs.1
      rw [n6n] at hm
      simp only at hm
      have dc : dimAt g6 (h.nn, L.length) = d ∧ dimAt g6 (h.nn + 1, 0) = d := by
        simp [dimAt, Heap.shape, n6l, n6r, hu, hv]
      have atc : At g6 (h.nn, L.length) c ∧ At g6 (h.nn + 1, 0) c :=
        ⟨⟨by simp only; omega, by simp [n6l]⟩, ⟨by simp only; omega, by simp [n6r]⟩⟩
      have hend : (g6.edge c).ends = {(h.nn, L.length), (h.nn + 1, 0)} := by
        rw [recC]; simp
      have cOK : ∀ s, s ∈ (g6.edge c).ends → EdgeOK g6 s c := by
        intro s hs'
        refine ⟨n6e, by rw [recC]; exact .inr ⟨_, _, _, _, rfl⟩, by rw [hend]; simp, hs', ?_, ?_⟩
        · intro s' hs''
          rw [hend] at hs''
          have : s' = (h.nn, L.length) ∨ s' = (h.nn + 1, 0) := by simpa using hs''
          rcases this with rfl | rfl
          · exact atc.1
          · exact atc.2
        · have hall : ∀ s' ∈ (g6.edge c).ends, dimAt g6 s' = d := by
            intro s' hs''
            rw [hend] at hs''
            have : s' = (h.nn, L.length) ∨ s' = (h.nn + 1, 0) := by simpa using hs''
            rcases this with rfl | rfl
            · exact dc.1
            · exact dc.2
          intro s' hs''
          rw [hall s' hs'', hall s hs']
      have hsl := hs.2
      simp only at hsl
      by_cases h1 : m = h.nn
      · subst h1
        rw [n6l] at hsl
        simp only at hsl
        by_cases hk : k < L.length
        · rw [List.getElem?_append_left hk] at hsl
          have he : e ∈ L := List.mem_of_getElem? hsl
          have hA := atAx e (hmemL e he)
          refine .inr (.inl ⟨ax e, hA, ?_⟩)
          rw [tgtL _ e hA he]
          obtain ⟨z1, z2⟩ := List.getElem?_eq_some_iff.1 hsl
          rw [← z2, hLn.idxOf_getElem]
        · rw [List.getElem?_append_right (by omega)] at hsl
          have hk' : k = L.length := by
            by_contra hcon
            rw [List.getElem?_eq_none (by simp; omega)] at hsl
            simp at hsl
          subst hk'
          have hce : e = c := by simpa using hsl.symm
          subst hce
          exact .inr (.inr (cOK _ (by rw [hend]; simp)))
      by_cases h2 : m = h.nn + 1
      · subst h2
        rw [n6r] at hsl
        simp only at hsl
        cases k with
        | zero =>
          have hce : e = c := by simpa using hsl.symm
          subst hce
          exact .inr (.inr (cOK _ (by rw [hend]; simp)))
        | succ k =>
          rw [List.getElem?_cons_succ] at hsl
          have he : e ∈ Rr := List.mem_of_getElem? hsl
          have hA := atAx e (hmemR e he)
          refine .inr (.inl ⟨ax e, hA, ?_⟩)
          rw [tgtR _ e hA (hdisj e he)]
          obtain ⟨z1, z2⟩ := List.getElem?_eq_some_iff.1 hsl
          rw [← z2, hRn.idxOf_getElem, Nat.add_comm k]
      by_cases h3 : m = n
      · subst h3
        obtain ⟨z1, z2, z3⟩ := hfr.fresh m (by simp) k e hsl
        exact .inr (.inr (edgeOK_dang hs z2 z3))
      · exact .inl ⟨by simp only; omega, h3⟩
  refine ⟨g6, c, ?_, wf', n6n, ⟨rfl, rfl⟩, n6l, n6r, ⟨fun hu' => ?_, recC⟩, n6o, ?_, ?_, ?_⟩
  · unfold splitNodeWith
    have ht' : tensorFromEdgeOrder n (L ++ Rr) h = (.ok t, h) := by
      rw [tensorFromEdgeOrder_run ho, hax, ht]; rfl
    rw [M.bind_ok ht', M.bind_ok (h := h) (x := M.lift (decomp t L.length)) (a := (u, v)) (h' := h) (by rw [hd]; rfl)]
    rw [M.bind_ok (newNode_eq h u), ← hg1]
    rw [M.bind_ok (axesOf_run (ax := ax)
      (fun e he => (ho e (by simp [he])).congr (g1e e (hlt e (hmemL e he)))))]
    rw [M.bind_ok a1, M.bind_ok (newNode_eq g2 v), ← hg3, g2nn]
    rw [M.bind_ok (axesOf_run (ax := ax) (fun e he => (ho e (by simp [he])).congr (hRe e he)))]
    rw [M.bind_ok b1, M.bind_ok (nodeEdges_eq _), M.bind_ok (nodeEdges_eq _)]
    rw [g4l, g4r']
    simp only [List.getLast?_append, List.getLast?_singleton, List.head?_cons]
    simp only [Option.some_or]
    rw [M.bind_ok hcon, M.bind_ok hfe]
    rfl
  · exact absurd (w.lt hu') (by omega)
  · rw [hfr.tensor, g5o n hn]
  · intro e he
    obtain ⟨k, hk⟩ := List.getElem?_of_mem he
    obtain ⟨z1, z2, z3⟩ := hfr.fresh n (by simp) k e hk
    exact ⟨fun hu' => absurd (w.lt hu') (by omega), by rw [z3]⟩
  · intro e hu'
    by_cases he : e ∈ (h.node n).edges
    · by_cases heL : e ∈ L
      · exact ⟨⟨(h.nn, L.idxOf e), by simp only; omega, by
          simp only
          rw [n6l, List.getElem?_append_left (List.idxOf_lt_length_of_mem heL)]
          exact List.getElem?_idxOf heL⟩, (recL _ _ (List.getElem?_idxOf heL)).2.1⟩
      · have heR : e ∈ Rr := by
          have := hp.mem_iff.2 he
          rw [List.mem_append] at this
          exact this.resolve_left heL
        exact ⟨⟨(h.nn + 1, Rr.idxOf e + 1), by simp only; omega, by
          simp only
          rw [n6r, List.getElem?_cons_succ]
          exact List.getElem?_idxOf heR⟩, (recR _ _ (List.getElem?_idxOf heR)).2.1⟩
    · obtain ⟨⟨m, k⟩, hs⟩ := hu'
      have hmn : m ≠ n := by rintro rfl; exact he hs.mem
      exact ⟨⟨(m, k), by have := hs.1; simp only at this ⊢; omega,
        by simp only; rw [n6o m hs.1 hmn]; exact hs.2⟩, by rw [recO e (w.lt ⟨_, hs⟩) he]⟩

end TN.Graph
