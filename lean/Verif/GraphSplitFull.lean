import Verif.GraphProps4

/-!
# Splitting a node in three

`split_node_full_svd` (network_operations.py:446-589): the singular values become a node of their own.
-/

namespace TN.Graph

open TN

variable {R : Type}

/-- `split_node_full_svd` (network_operations.py:446-589) with the decomposition `decomp(tensor, pivot)`, which
returns the three tensors and the discarded singular values. -/
def splitNode3With (decomp : NDArray R → Nat → Py (NDArray R × NDArray R × NDArray R × NDArray R)) (n : NId)
    (left right : List EId) : M R (NId × NId × NId × NDArray R) := do
  let t ← tensorFromEdgeOrder n (left ++ right)
  let usv ← M.lift (decomp t left.length)
  let l ← newNode usv.1
  let m ← newNode usv.2.1
  let r ← newNode usv.2.2.1
  let la ← axesOf n left
  attach left la 0 n l
  let ra ← axesOf n right
  attach right ra 1 n r
  let le ← nodeEdges l
  let me ← nodeEdges m
  match le.getLast?, me[0]? with
  | some a, some b => do
    let _ ← connect a b
    let me ← nodeEdges m
    let re ← nodeEdges r
    match me[1]?, re.head? with
    | some a, some b => do
      let _ ← connect a b
      freshEdges n
      pure (l, m, r, usv.2.2.2)
    | _, _ => M.throw .indexError
  | _, _ => M.throw .indexError

/-- The result of splitting `n` into nodes carrying `u`, `s` and `v`: the edges of `n` move over, two new edges
join the three in a row, everything else stays. -/
structure NodeSplit3 (h h' : Heap R) (n : NId) (L Rr : List EId) (u s v : NDArray R) (l m r : NId)
    (c c' : EId) : Prop where
  wf : WF h'
  nn : h'.nn = h.nn + 3
  new : l = h.nn ∧ m = h.nn + 1 ∧ r = h.nn + 2
  left : h'.node l = ⟨u, L ++ [c]⟩
  middle : h'.node m = ⟨s, [c, c']⟩
  right : h'.node r = ⟨v, c' :: Rr⟩
  bond : ¬ InUse h c ∧ h'.edge c = .conn l L.length m 0
  bond' : ¬ InUse h c' ∧ h'.edge c' = .conn m 1 r 0
  other : ∀ x < h.nn, x ≠ n → h'.node x = h.node x
  tensor : (h'.node n).tensor = (h.node n).tensor
  fresh : ∀ e ∈ (h'.node n).edges, ¬ InUse h e ∧ (h'.edge e).dangling = true
  dangling : ∀ e, InUse h e → InUse h' e ∧ (h'.edge e).dangling = (h.edge e).dangling

/-- A node is its tensor and its edges. -/
theorem node_ext {x : NodeRec R} {t : NDArray R} {es : List EId} (h1 : x.tensor = t) (h2 : x.edges = es) :
    x = ⟨t, es⟩ := by
  cases x
  simp only at h1 h2
  rw [h1, h2]

/-- The edge that joins two slots of a heap is in order. -/
theorem bond_ok {g : Heap R} {a b : Slot} {c : EId} {d : Nat} (hlt : c < g.ne)
    (hrec : g.edge c = .conn a.1 a.2 b.1 b.2) (hab : a ≠ b) (ha : At g a c) (hb : At g b c)
    (da : dimAt g a = d) (db : dimAt g b = d) : ∀ s, s ∈ (g.edge c).ends → EdgeOK g s c := by
  have hend : (g.edge c).ends = {a, b} := by rw [hrec]; rfl
  have two : ∀ s, s ∈ (g.edge c).ends → s = a ∨ s = b := by
    intro s hs
    rw [hend] at hs
    simpa using hs
  have hall : ∀ s ∈ (g.edge c).ends, dimAt g s = d := by
    intro s hs
    rcases two s hs with rfl | rfl
    · exact da
    · exact db
  intro s hs
  refine ⟨hlt, by rw [hrec]; exact .inr ⟨_, _, _, _, rfl⟩, by rw [hend]; simp [hab], hs, ?_, ?_⟩
  · intro s' hs'
    rcases two s' hs' with rfl | rfl
    · exact ha
    · exact hb
  · intro s' hs'
    rw [hall s' hs', hall s hs]

theorem splitNode3_run {decomp : NDArray R → Nat → Py (NDArray R × NDArray R × NDArray R × NDArray R)} {h : Heap R}
    (w : WF h) {n : NId} (hn : n < h.nn) {L Rr : List EId}
    (hp : (L ++ Rr).Perm (h.node n).edges) (hnd : (h.node n).edges.Nodup) {t u s v tr : NDArray R}
    (ht : (h.node n).tensor.transpose ((L ++ Rr).map (h.node n).edges.idxOf) = .ok t)
    (hd : decomp t L.length = .ok (u, s, v, tr)) {d d' : Nat} (hu : u.shape = L.map (edim h) ++ [d])
    (hs : s.shape = [d, d']) (hv : v.shape = d' :: Rr.map (edim h)) :
    ∃ h' c c', splitNode3With decomp n L Rr h = (.ok (h.nn, h.nn + 1, h.nn + 2, tr), h') ∧
      NodeSplit3 h h' n L Rr u s v h.nn (h.nn + 1) (h.nn + 2) c c' := by
  obtain ⟨ax, hax⟩ : ∃ ax, ax = (h.node n).edges.idxOf := ⟨_, rfl⟩
  have hLR : (L ++ Rr).Nodup := hp.nodup_iff.2 hnd
  have hLn : L.Nodup := hLR.of_append_left
  have hRn : Rr.Nodup := hLR.of_append_right
  have hdisj : ∀ e ∈ Rr, e ∉ L := fun e h1 h2 => (List.nodup_append.1 hLR).2.2 e h2 e h1 rfl
  have hmemL : ∀ e ∈ L, e ∈ (h.node n).edges := fun e he => hp.mem_iff.1 (by simp [he])
  have hmemR : ∀ e ∈ Rr, e ∈ (h.node n).edges := fun e he => hp.mem_iff.1 (by simp [he])
  have hlt : ∀ e ∈ (h.node n).edges, e < h.ne := fun e he => w.lt (inUse_of_mem hn he)
  have ltL : ∀ e ∈ L, e < h.ne := fun e he => hlt e (hmemL e he)
  have ltR : ∀ e ∈ Rr, e < h.ne := fun e he => hlt e (hmemR e he)
  have hud : u.ndim = L.length + 1 := by
    rw [show u.ndim = u.shape.length from rfl, hu]; simp
  have hsd : s.ndim = 2 := by
    rw [show s.ndim = s.shape.length from rfl, hs]; simp
  have hvd : v.ndim = Rr.length + 1 := by
    rw [show v.ndim = v.shape.length from rfl, hv]; simp
  have ho : ∀ e ∈ L ++ Rr, OnlyAt h n e (ax e) := by
    intro e he
    rw [hax]
    exact onlyAt_of_wf w hn hnd (hp.mem_iff.1 he)
  -- the three nodes
  obtain ⟨g1, hg1⟩ : ∃ g, g = addNode h u := ⟨_, rfl⟩
  obtain ⟨g2, hg2⟩ : ∃ g, g = addNode g1 s := ⟨_, rfl⟩
  obtain ⟨g3, hg3⟩ : ∃ g, g = addNode g2 v := ⟨_, rfl⟩
  have g1nn : g1.nn = h.nn + 1 := by rw [hg1]; rfl
  have g2nn : g2.nn = h.nn + 2 := by rw [hg2]; simp [addNode, g1nn]
  have g3nn : g3.nn = h.nn + 3 := by rw [hg3]; simp [addNode, g2nn]
  have g1ne : g1.ne = h.ne + L.length + 1 := by rw [hg1]; simp [addNode, hud, Nat.add_assoc]
  have g2ne : g2.ne = g1.ne + 2 := by rw [hg2]; simp [addNode, hsd]
  have g3ne : g3.ne = g2.ne + Rr.length + 1 := by rw [hg3]; simp [addNode, hvd, Nat.add_assoc]
  have g3l : g3.node h.nn = ⟨u, (List.range u.ndim).map fun i => h.ne + i⟩ := by
    rw [hg3, addNode_node_old (by omega), hg2, addNode_node_old (by omega), hg1, addNode_node_new]
  have g3m : g3.node (h.nn + 1) = ⟨s, (List.range s.ndim).map fun i => g1.ne + i⟩ := by
    rw [hg3, addNode_node_old (by omega), hg2, ← g1nn, addNode_node_new]
  have g3r : g3.node (h.nn + 2) = ⟨v, (List.range v.ndim).map fun i => g2.ne + i⟩ := by
    rw [hg3, ← g2nn, addNode_node_new]
  have g3o : ∀ m, m < h.nn → g3.node m = h.node m := by
    intro m hm
    rw [hg3, addNode_node_old (by omega), hg2, addNode_node_old (by omega), hg1, addNode_node_old hm]
  have g3e : ∀ e < h.ne, g3.edge e = h.edge e := by
    intro e he
    rw [hg3, addNode_edge_old (by omega), hg2, addNode_edge_old (by omega), hg1, addNode_edge_old he]
  have g3el : ∀ k, k ≤ L.length → g3.edge (h.ne + k) = .dang h.nn k := by
    intro k hk
    rw [hg3, addNode_edge_old (by omega), hg2, addNode_edge_old (by omega), hg1, addNode_edge_new (by omega)]
  have g3em : ∀ k, k < 2 → g3.edge (g1.ne + k) = .dang (h.nn + 1) k := by
    intro k hk
    rw [hg3, addNode_edge_old (by omega), hg2, addNode_edge_new (by omega), g1nn]
  have g3er : ∀ k, k ≤ Rr.length → g3.edge (g2.ne + k) = .dang (h.nn + 2) k := by
    intro k hk
    rw [hg3, addNode_edge_new (by omega), g2nn]
  -- the left edges
  obtain ⟨g4, a1, a2, a3, a4, a5⟩ := attach_run (n := n) (m := h.nn) (off := 0) (ax := ax) (g := g3) hLn
    (by
      intro i hi
      refine ⟨h.ne + (0 + i), ?_, by rw [g3el _ (by omega)]⟩
      rw [g3l]
      simp only
      rw [List.getElem?_map, List.getElem?_range (by omega)]; rfl) (by rw [g3l]; simp [hud])
    (fun e he => (ho e (by simp [he])).congr (g3e e (ltL e he)))
  have g4l : (g4.node h.nn).edges = L ++ [h.ne + L.length] := by
    apply List.ext_getElem?
    intro k
    rw [a3.get]
    simp only [true_and, Nat.zero_le, if_true, Nat.sub_zero]
    by_cases hk : k < L.length
    · rw [List.getElem?_append_left hk, List.getElem?_eq_getElem hk]
    · rw [List.getElem?_eq_none (by omega)]
      simp only
      rw [List.getElem?_append_right (by omega), g3l]
      by_cases hk' : k = L.length
      · rw [hk']
        simp [hud]
      · rw [List.getElem?_eq_none, List.getElem?_eq_none]
        · simp; omega
        · simp [hud]; omega
  have g4o : ∀ m, m ≠ h.nn → g4.node m = g3.node m := by
    intro m hm
    refine node_ext (a3.tensor m) ?_
    apply List.ext_getElem?
    intro k
    rw [a3.get, if_neg (by omega)]
  -- the right edges
  have hRe : ∀ e ∈ Rr, g4.edge e = h.edge e := by
    intro e he
    rw [a4 e (hdisj e he), g3e e (ltR e he)]
  obtain ⟨g5, b1, b2, b3, b4, b5⟩ := attach_run (n := n) (m := h.nn + 2) (off := 1) (ax := ax)
    (g := g4) hRn
    (by
      intro i hi
      refine ⟨g2.ne + (1 + i), ?_, ?_⟩
      · rw [g4o _ (by omega), g3r]
        simp only
        rw [List.getElem?_map, List.getElem?_range (by omega)]; rfl
      · rw [a4 _ (fun hm => absurd (ltL _ hm) (by omega)), g3er _ (by omega)])
    (by rw [g4o _ (by omega), g3r]; simp [hvd]; omega)
    (fun e he => (ho e (by simp [he])).congr (hRe e he))
  have g5r : (g5.node (h.nn + 2)).edges = g2.ne :: Rr := by
    apply List.ext_getElem?
    intro k
    rw [b3.get, g4o _ (by omega), g3r]
    cases k with
    | zero =>
      rw [if_neg (by omega)]
      simp [hvd]
    | succ k =>
      rw [if_pos ⟨rfl, by omega⟩, Nat.add_sub_cancel, List.getElem?_cons_succ]
      by_cases hk : k < Rr.length
      · rw [List.getElem?_eq_getElem hk]
      · rw [List.getElem?_eq_none (by omega)]
        simp only
        rw [List.getElem?_eq_none]
        simp [hvd]; omega
  have g5o : ∀ m, m ≠ h.nn + 2 → g5.node m = g4.node m := by
    intro m hm
    refine node_ext (b3.tensor m) ?_
    apply List.ext_getElem?
    intro k
    rw [b3.get, if_neg (by omega)]
  have n5l : g5.node h.nn = ⟨u, L ++ [h.ne + L.length]⟩ := by
    rw [g5o _ (by omega)]
    exact node_ext (by rw [a3.tensor, g3l]) g4l
  have n5m : g5.node (h.nn + 1) = ⟨s, [g1.ne, g1.ne + 1]⟩ := by
    rw [g5o _ (by omega), g4o _ (by omega), g3m, hsd]
    rfl
  have n5r : g5.node (h.nn + 2) = ⟨v, g2.ne :: Rr⟩ :=
    node_ext (by rw [b3.tensor, g4o _ (by omega), g3r]) g5r
  have n5o : ∀ m, m < h.nn → g5.node m = h.node m := by
    intro m hm
    rw [g5o _ (by omega), g4o _ (by omega), g3o m hm]
  have g5e : ∀ e, h.ne ≤ e → g5.edge e = g3.edge e := by
    intro e he
    rw [b4 _ (fun hm => absurd (ltR _ hm) (by omega)), a4 _ (fun hm => absurd (ltL _ hm) (by omega))]
  have g5nn : g5.nn = h.nn + 3 := by rw [b3.nn, a3.nn, g3nn]
  have g5ne : g5.ne = g3.ne := by rw [b2, a2]
  -- the first bond
  have hcon := connect_run (h := g5) (e1 := h.ne + L.length) (e2 := g1.ne)
    (by rw [g5e _ (by omega)]; exact g3el _ le_rfl) (by rw [g5e _ (by omega)]; exact g3em 0 (by omega)) (by omega)
    (by rw [n5l]; simp [hud]) (by rw [n5l]; simp) (by rw [n5m]; simp [hsd]) (by rw [n5m]; simp)
    (by rw [n5l, n5m]; simp [hu, hs])
  obtain ⟨c, hc⟩ : ∃ c, c = g5.ne := ⟨_, rfl⟩
  rw [← hc] at hcon
  obtain ⟨g6, hg6⟩ : ∃ g : Heap R, g = ⟨Function.update
      (Function.update g5.node h.nn { g5.node h.nn with edges := (g5.node h.nn).edges.set L.length c }) (h.nn + 1)
      { Function.update g5.node h.nn { g5.node h.nn with edges := (g5.node h.nn).edges.set L.length c } (h.nn + 1) with
        edges := (Function.update g5.node h.nn
          { g5.node h.nn with edges := (g5.node h.nn).edges.set L.length c } (h.nn + 1)).edges.set 0 c },
      Function.update g5.edge c (.conn h.nn L.length (h.nn + 1) 0), g5.nn, c + 1⟩ := ⟨_, rfl⟩
  rw [← hg6] at hcon
  have n6l : g6.node h.nn = ⟨u, L ++ [c]⟩ := by
    rw [hg6]
    simp [n5l]
  have n6m : g6.node (h.nn + 1) = ⟨s, [c, g1.ne + 1]⟩ := by
    rw [hg6]
    simp [n5m]
  have n6o : ∀ m, m ≠ h.nn → m ≠ h.nn + 1 → g6.node m = g5.node m := by
    intro m hm hm'
    rw [hg6]
    simp only
    rw [Function.update_of_ne hm', Function.update_of_ne hm]
  have g6e : ∀ e, e ≠ c → g6.edge e = g5.edge e := by
    intro e he; rw [hg6]; simp [he]
  have g6c : g6.edge c = .conn h.nn L.length (h.nn + 1) 0 := by rw [hg6]; simp
  have g6nn : g6.nn = h.nn + 3 := by rw [hg6]; exact g5nn
  have g6ne : g6.ne = c + 1 := by rw [hg6]
  -- the second bond
  have hcon' := connect_run (h := g6) (e1 := g1.ne + 1) (e2 := g2.ne)
    (by rw [g6e _ (by omega), g5e _ (by omega)]; exact g3em 1 (by omega))
    (by rw [g6e _ (by omega), g5e _ (by omega)]; exact g3er 0 (by omega)) (by omega)
    (by rw [n6m]; simp [hsd]) (by rw [n6m]; simp) (by rw [n6o _ (by omega) (by omega), n5r]; simp [hvd])
    (by rw [n6o _ (by omega) (by omega), n5r]; simp) (by rw [n6o (h.nn + 2) (by omega) (by omega), n5r, n6m]; simp [hv, hs])
  obtain ⟨c', hc'⟩ : ∃ c', c' = g6.ne := ⟨_, rfl⟩
  rw [← hc'] at hcon'
  obtain ⟨g7, hg7⟩ : ∃ g : Heap R, g = ⟨Function.update
      (Function.update g6.node (h.nn + 1) { g6.node (h.nn + 1) with edges := (g6.node (h.nn + 1)).edges.set 1 c' }) (h.nn + 2)
      { Function.update g6.node (h.nn + 1) { g6.node (h.nn + 1) with edges := (g6.node (h.nn + 1)).edges.set 1 c' } (h.nn + 2) with
        edges := (Function.update g6.node (h.nn + 1)
          { g6.node (h.nn + 1) with edges := (g6.node (h.nn + 1)).edges.set 1 c' } (h.nn + 2)).edges.set 0 c' },
      Function.update g6.edge c' (.conn (h.nn + 1) 1 (h.nn + 2) 0), g6.nn, c' + 1⟩ := ⟨_, rfl⟩
  rw [← hg7] at hcon'
  have n7m : g7.node (h.nn + 1) = ⟨s, [c, c']⟩ := by
    rw [hg7]
    simp [n6m]
  have n7r : g7.node (h.nn + 2) = ⟨v, c' :: Rr⟩ := by
    rw [hg7]
    simp [n6o (h.nn + 2) (by omega) (by omega), n5r]
  have n7o : ∀ m, m ≠ h.nn + 1 → m ≠ h.nn + 2 → g7.node m = g6.node m := by
    intro m hm hm'
    rw [hg7]
    simp only
    rw [Function.update_of_ne hm', Function.update_of_ne hm]
  have g7e : ∀ e, e ≠ c' → g7.edge e = g6.edge e := by
    intro e he; rw [hg7]; simp [he]
  have g7c : g7.edge c' = .conn (h.nn + 1) 1 (h.nn + 2) 0 := by rw [hg7]; simp
  have g7nn : g7.nn = h.nn + 3 := by rw [hg7]; exact g6nn
  have g7ne : g7.ne = c' + 1 := by rw [hg7]
  have g7o : ∀ m < h.nn, g7.node m = h.node m := by
    intro m hm
    rw [n7o m (by omega) (by omega), n6o m (by omega) (by omega), n5o m hm]
  -- fresh edges
  have hfr := freshHeap_freshened g7 n
  have hfe := freshEdges_eq (h := g7) (n := n) (by rw [g7o n hn, w.len n hn])
  obtain ⟨g8, hg8⟩ : ∃ g, g = freshHeap g7 n := ⟨_, rfl⟩
  rw [← hg8] at hfr hfe
  have hcge : h.ne < c := by omega
  have hcc : c < c' := by omega
  -- the records
  have g8e : ∀ e < h.ne, g8.edge e = g5.edge e := by
    intro e he
    rw [hfr.old e (by omega), g7e e (by omega), g6e e (by omega)]
  have recL : ∀ i e, L[i]? = some e → (g8.edge e).Good ∧
      (g8.edge e).dangling = (h.edge e).dangling ∧
      (g8.edge e).ends = (h.nn, i) ::ₘ (h.edge e).ends.erase (n, ax e) := by
    intro i e hi
    have hm : e ∈ L := List.mem_of_getElem? hi
    have hR : e ∉ Rr := fun hh => hdisj e hh hm
    have := a5 i e hi
    rw [g3e e (ltL e hm), Nat.zero_add] at this
    rw [g8e e (ltL e hm), b4 e hR]
    exact this
  have recR : ∀ i e, Rr[i]? = some e → (g8.edge e).Good ∧
      (g8.edge e).dangling = (h.edge e).dangling ∧
      (g8.edge e).ends = (h.nn + 2, 1 + i) ::ₘ (h.edge e).ends.erase (n, ax e) := by
    intro i e hi
    have hm : e ∈ Rr := List.mem_of_getElem? hi
    have := b5 i e hi
    rw [hRe e hm] at this
    rw [g8e e (ltR e hm)]
    exact this
  have recO : ∀ e < h.ne, e ∉ (h.node n).edges → g8.edge e = h.edge e := by
    intro e hle hm
    have hL : e ∉ L := fun hh => hm (hmemL e hh)
    have hR : e ∉ Rr := fun hh => hm (hmemR e hh)
    rw [g8e e hle, b4 e hR, a4 e hL, g3e e hle]
  have recC : g8.edge c = .conn h.nn L.length (h.nn + 1) 0 := by
    rw [hfr.old c (by omega), g7e c (by omega), g6c]
  have recC' : g8.edge c' = .conn (h.nn + 1) 1 (h.nn + 2) 0 := by
    rw [hfr.old c' (by omega), g7c]
  have n8l : g8.node h.nn = ⟨u, L ++ [c]⟩ := by
    rw [hfr.other _ (by simp; omega), n7o _ (by omega) (by omega), n6l]
  have n8m : g8.node (h.nn + 1) = ⟨s, [c, c']⟩ := by rw [hfr.other _ (by simp; omega), n7m]
  have n8r : g8.node (h.nn + 2) = ⟨v, c' :: Rr⟩ := by rw [hfr.other _ (by simp; omega), n7r]
  have n8o : ∀ m < h.nn, m ≠ n → g8.node m = h.node m := fun m hm hmn => by
    rw [hfr.other _ (by simpa using hmn), g7o m hm]
  have n8n : g8.nn = h.nn + 3 := by rw [hfr.nn, g7nn]
  have n8e : c' < g8.ne := by have := hfr.ne; omega
  -- consistency
  obtain ⟨tgt, htgt⟩ : ∃ tgt : Nat → Slot, tgt = fun k =>
    if ((h.node n).edges.getD k 0) ∈ L then (h.nn, L.idxOf ((h.node n).edges.getD k 0))
    else (h.nn + 2, 1 + Rr.idxOf ((h.node n).edges.getD k 0)) := ⟨_, rfl⟩
  have tgtL : ∀ k e, At h (n, k) e → e ∈ L → tgt k = (h.nn, L.idxOf e) := by
    intro k e hs he
    rw [htgt]
    simp only
    rw [List.getD_eq_getElem?_getD, hs.2]
    simp [he]
  have tgtR : ∀ k e, At h (n, k) e → e ∉ L → tgt k = (h.nn + 2, 1 + Rr.idxOf e) := by
    intro k e hs he
    rw [htgt]
    simp only
    rw [List.getD_eq_getElem?_getD, hs.2]
    simp [he]
  have hkax : ∀ k e, At h (n, k) e → k = ax e := by
    intro k e hs
    obtain ⟨h3, h4⟩ := List.getElem?_eq_some_iff.1 hs.2
    simp only at h3 h4
    rw [hax]; simp only; rw [← h4, hnd.idxOf_getElem]
  have atAx : ∀ e ∈ (h.node n).edges, At h (n, ax e) e := by
    intro e he
    exact ⟨hn, by rw [hax]; simp [List.getElem?_idxOf he]⟩
  have dL : ∀ i e, L[i]? = some e → dimAt g8 (h.nn, i) = edim h e := by
    intro i e hi
    obtain ⟨hi1, hi2⟩ := List.getElem?_eq_some_iff.1 hi
    simp only [dimAt, Heap.shape, n8l, hu]
    rw [List.getD_eq_getElem?_getD, List.getElem?_append_left (by simpa using hi1)]
    simp [hi]
  have dR : ∀ i e, Rr[i]? = some e → dimAt g8 (h.nn + 2, 1 + i) = edim h e := by
    intro i e hi
    simp only [dimAt, Heap.shape, n8r, hv]
    rw [List.getD_eq_getElem?_getD, Nat.add_comm 1 i, List.getElem?_cons_succ]
    simp [hi]
  have okC := bond_ok (g := g8) (a := (h.nn, L.length)) (b := (h.nn + 1, 0)) (c := c) (d := d) (by omega) recC
    (by intro hh; have := congrArg Prod.fst hh; simp at this) ⟨by simp only; omega, by simp [n8l]⟩
    ⟨by simp only; omega, by simp [n8m]⟩ (by simp [dimAt, Heap.shape, n8l, hu]) (by simp [dimAt, Heap.shape, n8m, hs])
  have okC' := bond_ok (g := g8) (a := (h.nn + 1, 1)) (b := (h.nn + 2, 0)) (c := c') (d := d') (by omega) recC'
    (by intro hh; have := congrArg Prod.fst hh; simp at this) ⟨by simp only; omega, by simp [n8m]⟩
    ⟨by simp only; omega, by simp [n8r]⟩ (by simp [dimAt, Heap.shape, n8m, hs]) (by simp [dimAt, Heap.shape, n8r, hv])
  have hend : (g8.edge c).ends = {(h.nn, L.length), (h.nn + 1, 0)} := by
    rw [recC]; simp
  have hend' : (g8.edge c').ends = {(h.nn + 1, 1), (h.nn + 2, 0)} := by
    rw [recC']; simp
  have wf' : WF g8 := by
    refine relocate_wf w (n := n) (tgt := tgt) (by omega) (by omega) ?_ n8o ?_ ?_ ?_ ?_
    · intro m hm
      rw [n8n] at hm
      by_cases h1 : m = h.nn
      · subst h1; rw [n8l]; simp [hud]
      by_cases h2 : m = h.nn + 1
      · subst h2; rw [n8m]; simp [hsd]
      by_cases h3 : m = h.nn + 2
      · subst h3; rw [n8r]; simp [hvd]
      rw [hfr.len, hfr.tensor, g7o m (by omega), w.len m (by omega)]
    · intro k k' e h1 h2
      rw [hkax k e h1, hkax k' e h2]
    · intro k e hs
      have hm : e ∈ (h.node n).edges := hs.mem
      have hk := hkax k e hs
      by_cases he : e ∈ L
      · have hi : L[L.idxOf e]? = some e := List.getElem?_idxOf he
        rw [tgtL k e hs he]
        obtain ⟨z1, z2, z3⟩ := recL _ _ hi
        refine ⟨⟨by simp only; omega, ?_⟩, ?_, le_rfl, z1, by rw [z3, hk]⟩
        · simp only
          rw [n8l]
          rw [List.getElem?_append_left (List.idxOf_lt_length_of_mem he)]
          exact hi
        · rw [dL _ _ hi, w.edim_eq hs]
      · have heR : e ∈ Rr := by
          have := hp.mem_iff.2 hm
          rw [List.mem_append] at this
          exact this.resolve_left he
        have hi : Rr[Rr.idxOf e]? = some e := List.getElem?_idxOf heR
        rw [tgtR k e hs he]
        obtain ⟨z1, z2, z3⟩ := recR _ _ hi
        refine ⟨⟨by simp only; omega, ?_⟩, ?_, by simp, z1, by rw [z3, hk]⟩
        · simp only
          rw [n8r, Nat.add_comm 1, List.getElem?_cons_succ]
          exact hi
        · rw [dR _ _ hi, w.edim_eq hs]
    · intro e hu hk
      refine recO e (w.lt hu) fun hm => ?_
      exact hk _ (atAx e hm)
    · rintro ⟨m, k⟩ e hs
      have hm := hs.1
      rw [n8n] at hm
      simp only at hm
      have hsl := hs.2
      simp only at hsl
      by_cases h1 : m = h.nn
      · subst h1
        rw [n8l] at hsl
        simp only at hsl
        by_cases hk : k < L.length
        · rw [List.getElem?_append_left hk] at hsl
          have he : e ∈ L := List.mem_of_getElem? hsl
          have hA := atAx e (hmemL e he)
          refine .inr (.inl ⟨ax e, hA, ?_⟩)
          rw [tgtL _ e hA he]
          obtain ⟨z1, z2⟩ := List.getElem?_eq_some_iff.1 hsl
          rw [← z2, hLn.idxOf_getElem]
        · rw [List.getElem?_append_right (by omega)] at hsl
          have hk' : k = L.length := by
            by_contra hcon
            rw [List.getElem?_eq_none (by simp; omega)] at hsl
            simp at hsl
          subst hk'
          have hce : e = c := by simpa using hsl.symm
          subst hce
          exact .inr (.inr (okC _ (by rw [hend]; simp)))
      by_cases h2 : m = h.nn + 1
      · subst h2
        rw [n8m] at hsl
        simp only at hsl
        match k, hsl with
        | 0, hsl =>
          have hce : e = c := by simpa using hsl.symm
          subst hce
          exact .inr (.inr (okC _ (by rw [hend]; simp)))
        | 1, hsl =>
          have hce : e = c' := by simpa using hsl.symm
          subst hce
          exact .inr (.inr (okC' _ (by rw [hend']; simp)))
        | k + 2, hsl => simp at hsl
      by_cases h3 : m = h.nn + 2
      · subst h3
        rw [n8r] at hsl
        simp only at hsl
        cases k with
        | zero =>
          have hce : e = c' := by simpa using hsl.symm
          subst hce
          exact .inr (.inr (okC' _ (by rw [hend']; simp)))
        | succ k =>
          rw [List.getElem?_cons_succ] at hsl
          have he : e ∈ Rr := List.mem_of_getElem? hsl
          have hA := atAx e (hmemR e he)
          refine .inr (.inl ⟨ax e, hA, ?_⟩)
          rw [tgtR _ e hA (hdisj e he)]
          obtain ⟨z1, z2⟩ := List.getElem?_eq_some_iff.1 hsl
          rw [← z2, hRn.idxOf_getElem, Nat.add_comm k]
      by_cases h4 : m = n
      · subst h4
        obtain ⟨z1, z2, z3⟩ := hfr.fresh m (by simp) k e hsl
        exact .inr (.inr (edgeOK_dang hs z2 z3))
      · exact .inl ⟨by simp only; omega, h4⟩
  refine ⟨g8, c, c', ?_, wf', n8n, ⟨rfl, rfl, rfl⟩, n8l, n8m, n8r, ⟨fun hu' => ?_, recC⟩, ⟨fun hu' => ?_, recC'⟩,
    n8o, ?_, ?_, ?_⟩
  · unfold splitNode3With
    have ht' : tensorFromEdgeOrder n (L ++ Rr) h = (.ok t, h) := by
      rw [tensorFromEdgeOrder_run ho, hax, ht]; rfl
    rw [M.bind_ok ht', M.bind_ok (h := h) (x := M.lift (decomp t L.length)) (a := (u, s, v, tr)) (h' := h) (by rw [hd]; rfl)]
    rw [M.bind_ok (newNode_eq h u), ← hg1, M.bind_ok (newNode_eq g1 s), ← hg2, M.bind_ok (newNode_eq g2 v), ← hg3,
      g1nn, g2nn]
    rw [M.bind_ok (axesOf_run (ax := ax)
      (fun e he => (ho e (by simp [he])).congr (g3e e (ltL e he))))]
    rw [M.bind_ok a1]
    rw [M.bind_ok (axesOf_run (ax := ax) (fun e he => (ho e (by simp [he])).congr (hRe e he)))]
    rw [M.bind_ok b1, M.bind_ok (nodeEdges_eq _), M.bind_ok (nodeEdges_eq _)]
    rw [n5l, n5m]
    simp only [List.getLast?_append, List.getLast?_singleton, Option.some_or, List.getElem?_cons_zero]
    rw [M.bind_ok hcon, M.bind_ok (nodeEdges_eq _), M.bind_ok (nodeEdges_eq _), n6m,
      n6o (h.nn + 2) (by omega) (by omega), n5r]
    simp only [List.getElem?_cons_succ, List.getElem?_cons_zero, List.head?_cons]
    rw [M.bind_ok hcon', M.bind_ok hfe]
    rfl
  · exact absurd (w.lt hu') (by omega)
  · exact absurd (w.lt hu') (by omega)
  · rw [hfr.tensor, g7o n hn]
  · intro e he
    obtain ⟨k, hk⟩ := List.getElem?_of_mem he
    obtain ⟨z1, z2, z3⟩ := hfr.fresh n (by simp) k e hk
    exact ⟨fun hu' => absurd (w.lt hu') (by omega), by rw [z3]⟩
  · intro e hu'
    by_cases he : e ∈ (h.node n).edges
    · by_cases heL : e ∈ L
      · exact ⟨⟨(h.nn, L.idxOf e), by simp only; omega, by
          simp only
          rw [n8l, List.getElem?_append_left (List.idxOf_lt_length_of_mem heL)]
          exact List.getElem?_idxOf heL⟩, (recL _ _ (List.getElem?_idxOf heL)).2.1⟩
      · have heR : e ∈ Rr := by
          have := hp.mem_iff.2 he
          rw [List.mem_append] at this
          exact this.resolve_left heL
        exact ⟨⟨(h.nn + 2, Rr.idxOf e + 1), by simp only; omega, by
          simp only
          rw [n8r, List.getElem?_cons_succ]
          exact List.getElem?_idxOf heR⟩, (recR _ _ (List.getElem?_idxOf heR)).2.1⟩
    · obtain ⟨⟨m, k⟩, hs⟩ := hu'
      have hmn : m ≠ n := by rintro rfl; exact he hs.mem
      exact ⟨⟨(m, k), by have := hs.1; simp only at this ⊢; omega,
        by simp only; rw [n8o m hs.1 hmn]; exact hs.2⟩, by rw [recO e (w.lt ⟨_, hs⟩) he]⟩

end TN.Graph
