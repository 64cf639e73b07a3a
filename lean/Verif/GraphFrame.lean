import Verif.GraphConnect
import Verif.NetGroup

/-!
# Frame properties and explicit runs

`update_axis` reads and writes one edge record; `reorder_axes` touches one node and its
edges.  These facts are needed where the graph is inconsistent in the middle of an operation.
-/

namespace TN.Graph

open TN

variable {R : Type}

set_option linter.unusedSimpArgs false

/-- `update_axis` only depends on the record of its edge. -/
theorem updateAxis_frame (e : EId) (oa : Nat) (on : NId) (na : Nat) (nw : NId) {a a' b : Heap R}
    (h : updateAxis e oa on na nw a = (.ok (), a')) (hb : b.edge e = a.edge e) :
    a' = a.setEdge e (a'.edge e) ∧
      updateAxis e oa on na nw b = (.ok (), b.setEdge e (a'.edge e)) := by
  unfold updateAxis axis1 node1 axis2 node2 at h ⊢
  simp only [bind, M.bind, M.get, M.modify, M.throw, Pure.pure, M.pure, ite_apply'] at h ⊢
  rw [hb]
  rcases hr : a.edge e with ⟨n1, a1, n2, a2, dg, ds⟩
  rw [hr] at h
  cases ds
  · by_cases c1 : a1 = oa
    · by_cases c2 : n1 = some on
      · simp [c1, c2, hr, hb, M.pure, M.throw] at h ⊢
        subst h; simp
      · cases n1 with
        | none => simp [c1, hr, hb, M.pure, M.throw] at h
        | some m1 =>
          have c2' : m1 ≠ on := fun h => c2 (by rw [h])
          by_cases c3 : a2 = some oa
          · cases dg
            · cases n2 with
              | none => simp [c1, c2', c3, hr, hb, M.pure, M.throw] at h
              | some m2 =>
                by_cases c4 : m2 = on
                · simp [c1, c2', c3, c4, hr, hb, M.pure, M.throw] at h ⊢
                  subst h; simp
                · simp [c1, c2', c3, c4, hr, hb, M.pure, M.throw] at h
            · simp [c1, c2', c3, hr, hb, M.pure, M.throw] at h
          · simp [c1, c2', c3, hr, hb, M.pure, M.throw] at h
    · by_cases c3 : a2 = some oa
      · cases dg
        · cases n2 with
          | none => simp [c1, c3, hr, hb, M.pure, M.throw] at h
          | some m2 =>
            by_cases c4 : m2 = on
            · simp [c1, c3, c4, hr, hb, M.pure, M.throw] at h ⊢
              subst h; simp
            · simp [c1, c3, c4, hr, hb, M.pure, M.throw] at h
        · simp [c1, c3, hr, hb, M.pure, M.throw] at h
      · simp [c1, c3, hr, hb, M.pure, M.throw] at h
  · simp at h

theorem updAll_frame {U : List (EId × Slot × Slot)} {a a' b : Heap R}
    (h : updAll U a = (.ok (), a')) (hb : ∀ u ∈ U, b.edge u.1 = a.edge u.1) :
    updAll U b = (.ok (), { b with
      edge := fun e => if e ∈ U.map Prod.fst then a'.edge e else b.edge e }) ∧
    (∀ e, e ∉ U.map Prod.fst → a'.edge e = a.edge e) := by
  induction U generalizing a b with
  | nil =>
    have : a = a' := (Prod.mk.inj h).2
    subst this
    refine ⟨?_, fun _ _ => rfl⟩
    simp [updAll]
  | cons u U ih =>
    rw [updAll, M.forEach_cons, M.bind_apply] at h
    rcases hx : updateAxis u.1 u.2.1.2 u.2.1.1 u.2.2.2 u.2.2.1 a with ⟨_ | v, a1⟩
    · rw [hx] at h; simp at h
    rw [hx] at h
    simp only at h
    obtain ⟨h1, h2⟩ := updateAxis_frame _ _ _ _ _ hx (hb u (by simp))
    obtain ⟨h3, h4⟩ := ih (a := a1) (b := b.setEdge u.1 (a1.edge u.1)) h (by
      intro u' hu'
      by_cases hc : u'.1 = u.1
      · rw [hc]; simp
      · rw [h1]
        simp only [Heap.setEdge_edge, Function.update_of_ne hc]
        exact hb u' (by simp [hu']))
    refine ⟨?_, ?_⟩
    · rw [updAll, M.forEach_cons, M.bind_ok h2]
      refine h3.trans ?_
      congr 1
      simp only [Heap.setEdge]
      congr 1
      funext e
      by_cases hc : e = u.1
      · subst hc
        by_cases hm : u.1 ∈ U.map Prod.fst
        · rw [if_pos hm, if_pos (by simp)]
        · rw [if_neg hm, if_pos (by simp), Function.update_self, h4 _ hm]
      · rw [Function.update_of_ne hc]
        by_cases hm : e ∈ U.map Prod.fst
        · rw [if_pos hm, if_pos (by rw [List.map_cons, List.mem_cons]; exact .inr hm)]
        · rw [if_neg hm, if_neg (by rw [List.map_cons, List.mem_cons]; exact not_or.2 ⟨hc, hm⟩)]
    · intro e he
      rw [List.map_cons, List.mem_cons, not_or] at he
      rw [h4 e he.2, h1]
      simp [Function.update_of_ne he.1]

theorem updAll_rest {U : List (EId × Slot × Slot)} {a a' : Heap R}
    (h : updAll U a = (.ok (), a')) :
    a' = { a with edge := a'.edge } := by
  have h1 := (updAll_frame h (fun _ _ => rfl)).1
  rw [h] at h1
  have h2 := (Prod.mk.inj h1).2
  have e1 : a'.node = a.node := by rw [h2]
  have e2 : a'.nn = a.nn := by rw [h2]
  have e3 : a'.ne = a.ne := by rw [h2]
  rw [← e1, ← e2, ← e3]

theorem reorderMoves_fst (n : NId) {es : List EId} {perm : List Nat}
    (hp : perm.Perm (List.range es.length)) (e : EId) :
    e ∈ (reorderMoves n es perm).map Prod.fst ↔ e ∈ es := by
  rw [reorderMoves, List.map_map]
  have : (Prod.fst ∘ fun p : Nat × Nat => (es.getD p.1 default, ((n, p.1) : Slot), ((n, p.2) : Slot)))
    = (fun p => es.getD p default) ∘ Prod.fst := rfl
  rw [this, ← List.map_map, List.zipIdx_map_fst]
  have h1 := hp.map (fun p => es.getD p default)
  have h2 := filter_range_getD es (fun _ => true) (fun _ => true) (fun _ _ => rfl)
  simp only [List.filter_true] at h2
  rw [h2] at h1
  exact h1.mem_iff

/-- The run of `reorder_axes`, without any assumption on the rest of the graph. -/
theorem reorderAxes_run {h x : Heap R} {n : NId} {perm : List Nat} {t' : NDArray R}
    (hp : perm.Perm (List.range (h.node n).edges.length))
    (ht : (h.node n).tensor.transpose perm = .ok t')
    (hu : updAll (reorderMoves n (h.node n).edges perm) h = (.ok (), x)) :
    reorderAxes n perm h = (.ok (), { h with
      node := Function.update h.node n
        ⟨t', perm.map (fun p => (h.node n).edges.getD p default)⟩
      edge := x.edge }) := by
  unfold reorderAxes
  rw [M.bind_ok (nodeEdges_eq n), if_neg (by
    rw [not_not]
    ext p
    rw [List.mem_toFinset, hp.mem_iff, List.mem_range, Finset.mem_range])]
  rw [M.bind_ok (nodeTensor_eq n), M.bind_ok (a := t') (h' := h) (by rw [M.lift_apply, ht]),
    M.bind_ok (a := ()) (h' := h.setNode n ⟨t', (h.node n).edges⟩) (by rfl)]
  have hu' := (updAll_frame hu (b := h.setNode n ⟨t', (h.node n).edges⟩) (fun _ _ => rfl))
  have hm := mapEach_upd (R := R) (l := perm.zipIdx)
    (u := fun p : Nat × Nat => ((h.node n).edges.getD p.1 default, (n, p.1), (n, p.2)))
    (g := fun p : Nat × Nat => (h.node n).edges.getD p.1 default)
    (body := fun p : Nat × Nat => match (h.node n).edges[p.1]? with
      | none => M.throw .indexError
      | some e => do
        updateAxis e p.1 n p.2 n
        pure e)
    (by
      intro p hp'
      have hlt : p.1 < (h.node n).edges.length := by
        have := hp.mem_iff.1 (List.fst_mem_of_mem_zipIdx hp')
        simpa using this
      rw [List.getElem?_eq_getElem hlt, List.getD_eq_getElem _ _ hlt])
    hu'.1
  refine (M.bind_ok hm).trans ?_
  have h1 : perm.zipIdx.map (fun p : Nat × Nat => (h.node n).edges.getD p.1 default) =
      perm.map (fun p => (h.node n).edges.getD p default) := by
    have h1 : (fun p : Nat × Nat => (h.node n).edges.getD p.1 default) =
      (fun p => (h.node n).edges.getD p default) ∘ Prod.fst := rfl
    rw [h1, ← List.map_map, List.zipIdx_map_fst]
  rw [h1]
  simp only [setEdges, M.modify, Heap.setNode, Function.update_self, Function.update_idem]
  congr 2
  funext e
  split_ifs with hc
  · rfl
  · exact (hu'.2 e hc).symm

/-- Edges may be replaced axis by axis, axes may disappear with their edges. -/
theorem cut_wf {h h' : Heap R} (w : WF h) {dead : EId → Prop}
    (hne : h.ne ≤ h'.ne)
    (hl : ∀ n < h'.nn, (h'.node n).edges.length = (h'.node n).tensor.ndim)
    (hlive : ∀ s e, At h s e → ¬ dead e →
      At h' s e ∧ dimAt h' s = dimAt h s ∧ h'.edge e = h.edge e)
    (hnew : ∀ s e, At h' s e → (At h s e ∧ ¬ dead e) ∨ EdgeOK h' s e) : WF h' := by
  have sur : Surgery h h' id dead := by
    refine ⟨hl, hne, ?_, fun _ _ _ _ _ _ h => h, ?_⟩
    · intro s e hs hd
      obtain ⟨h1, h2, h3⟩ := hlive s e hs hd
      refine ⟨h1, h2, ?_, ?_⟩
      · rw [h3]; exact w.good hs.inUse
      · rw [h3, Multiset.map_id]
    · intro s e hs
      rcases hnew s e hs with ⟨h1, h2⟩ | h1
      · exact .inl ⟨s, h1, h2, rfl⟩
      · exact .inr h1
  exact sur.wf w

/-- Disabling edges that nobody lists. -/
theorem disable_wf {h : Heap R} (w : WF h) {l : List EId} (hl : ∀ e ∈ l, ¬ InUse h e) :
    WF (disableHeap h l) := by
  refine cut_wf w (dead := fun _ => False) le_rfl w.len ?_ (fun s e hs => .inl ⟨hs, id⟩)
  intro s e hs _
  refine ⟨hs, rfl, ?_⟩
  simp only [disableHeap]
  rw [if_neg]
  intro he
  exact hl e he hs.inUse

/-- A dangling edge listed where its record says is fine. -/
theorem edgeOK_dang {h : Heap R} {n : NId} {a : Nat} {e : EId} (hs : At h (n, a) e)
    (hlt : e < h.ne) (hr : h.edge e = .dang n a) : EdgeOK h (n, a) e := by
  refine ⟨hlt, by rw [hr]; exact good_dang _ _, by rw [hr]; simp, by rw [hr]; simp, ?_, ?_⟩
  · intro s' hs'
    rw [hr] at hs'
    simp only [ends_dang, Multiset.mem_singleton] at hs'
    rw [hs']; exact hs
  · intro s' hs'
    rw [hr] at hs'
    simp only [ends_dang, Multiset.mem_singleton] at hs'
    rw [hs']

/-- A connected edge listed where its record says, with equal dimensions, is fine. -/
theorem edgeOK_conn {h : Heap R} {n m : NId} {a b : Nat} {e : EId} (hs1 : At h (n, a) e)
    (hs2 : At h (m, b) e) (hne : (n, a) ≠ (m, b)) (hd : dimAt h (n, a) = dimAt h (m, b))
    (hlt : e < h.ne) (hr : h.edge e = .conn n a m b) {s : Slot} (hs : s = (n, a) ∨ s = (m, b)) :
    EdgeOK h s e := by
  have hmem : ∀ s', s' ∈ (h.edge e).ends ↔ s' = (n, a) ∨ s' = (m, b) := by
    intro s'; rw [hr]; simp
  have hdim : ∀ s', s' = (n, a) ∨ s' = (m, b) → dimAt h s' = dimAt h (n, a) := by
    rintro s' (rfl | rfl)
    exacts [rfl, hd.symm]
  refine ⟨hlt, by rw [hr]; exact good_conn _ _ _ _, by rw [hr]; simpa using hne,
    (hmem s).2 hs, ?_, ?_⟩
  · intro s' hs'
    rcases (hmem s').1 hs' with rfl | rfl
    exacts [hs1, hs2]
  · intro s' hs'
    rw [hdim s' ((hmem s').1 hs'), hdim s hs]

/-- The values of a coarse and a fine network agree. -/
theorem regroup_value [CommSemiring R] {hf hg : Heap R} (wf : WF hf) (wg : WF hg)
    (hnn : hg.nn = hf.nn) {c : EId} {E : List EId} (hE : E.Nodup) (hcE : c ∉ E)
    (hEu : ∀ e ∈ E, ¬ InUse hg e) (hcu : InUse hg c) (hcdim : edim hg c = gdim (edim hf) E)
    (hdim : ∀ e, InUse hg e → e ≠ c → edim hg e = edim hf e)
    (hn : ∀ n < hf.nn, Regroup (edim hf) c E ((hf.node n).tensor, (hf.node n).edges)
      ((hg.node n).tensor, (hg.node n).edges))
    {ns : List NId} (hns : ns.Nodup) (hlt : ∀ n ∈ ns, n < hf.nn)
    (hall : ∀ s, At hg s c → s.1 ∈ ns) (σ : EId → Nat)
    (hσ : ∀ e ∈ flatL (netOf hf ns), (flatL (netOf hf ns)).count e ≠ 2 → σ e < edim hf e) :
    ((hg.edge c).dangling = false → netVal (netOf hg ns) σ = netVal (netOf hf ns) σ) ∧
    ((hg.edge c).dangling = true →
      netVal (netOf hg ns) (Function.update σ c (gpos (edim hf) E σ)) =
        netVal (netOf hf ns) σ) := by
  have hltg : ∀ n ∈ ns, n < hg.nn := by rw [hnn]; exact hlt
  have hF : List.Forall₂ (Regroup (edim hf) c E) (netOf hf ns) (netOf hg ns) := by
    simp only [netOf]
    rw [List.forall₂_map_left_iff, List.forall₂_map_right_iff]
    exact List.forall₂_same.2 fun m hm => hn m (hlt m hm)
  have hcount : (flatL (netOf hg ns)).count c = if (hg.edge c).dangling then 1 else 2 := by
    rw [wg.count_flat hcu hns hltg, ← (wg.good hcu).card, Multiset.countP_eq_card]
    intro s hs
    exact hall s ((wg.mem_ends hcu).1 hs)
  have hd : ∀ e ∈ flatL (netOf hg ns), e ≠ c → edim hg e = edim hf e :=
    fun e he => hdim e (inUse_of_flat hltg he)
  have hdis : ∀ e ∈ E, e ∉ flatL (netOf hg ns) :=
    fun e he hm => hEu e he (inUse_of_flat hltg hm)
  refine ⟨fun hdg => ?_, fun hdg => ?_⟩
  · exact netVal_regroup hF (wf.consistent hlt) (wg.consistent hltg) hcdim hd hE hcE hdis
      (by rw [hcount, hdg]; rfl) σ hσ
  · exact netVal_regroup_open hF (wf.consistent hlt) (wg.consistent hltg) hd hE hcE hdis
      (by rw [hcount, hdg]; rfl) σ hσ

end TN.Graph
