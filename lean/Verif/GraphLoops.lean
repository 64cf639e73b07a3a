import Verif.GraphWF

/-!
# The loops of the graph operations

Closed forms for the loops over edges in `network_components.py`.
-/

namespace TN.Graph

open TN

variable {R : Type}

theorem forEach_map {α β : Type} (l : List α) (g : α → β) (f : β → M R Unit) (h : Heap R) :
    M.forEach (l.map g) f h = M.forEach l (fun a => f (g a)) h := by
  induction l generalizing h with
  | nil => rfl
  | cons a l ih =>
    rw [List.map_cons, M.forEach_cons, M.forEach_cons, M.bind_apply, M.bind_apply]
    rcases f (g a) h with ⟨_ | u, h'⟩
    · rfl
    · exact ih h'

/-- A loop whose body never fails and does not change the heap. -/
theorem forEach_skip {α : Type} {l : List α} {f : α → M R Unit} {h : Heap R}
    (hf : ∀ a ∈ l, f a h = (.ok (), h)) : M.forEach l f h = (.ok (), h) := by
  induction l with
  | nil => rfl
  | cons a l ih =>
    rw [M.forEach_cons, M.bind_ok (hf a (by simp))]
    exact ih fun b hb => hf b (by simp [hb])

/-- A loop whose body does not change the heap. -/
theorem forEach_readonly {α : Type} {l : List α} {f : α → M R Unit} {h : Heap R}
    (hf : ∀ a ∈ l, (f a h).2 = h) : (M.forEach l f h).2 = h := by
  induction l with
  | nil => rfl
  | cons a l ih =>
    rw [M.forEach_cons, M.bind_apply]
    have h1 := hf a (by simp)
    rcases hfa : f a h with ⟨_ | u, h'⟩
    · rw [hfa] at h1; exact h1
    · rw [hfa] at h1
      simp only at h1
      subst h1
      exact ih fun b hb => hf b (by simp [hb])

/-! ### Accessors on live edges -/

@[simp] theorem get_bind {α : Type} (f : Heap R → M R α) (h : Heap R) :
    (M.get >>= f) h = f h h := rfl

@[simp] theorem pure_bind' {α β : Type} (a : α) (f : α → M R β) (h : Heap R) :
    ((pure a : M R α) >>= f) h = f a h := rfl

@[simp] theorem modify_bind {α : Type} (g : Heap R → Heap R) (f : Unit → M R α) (h : Heap R) :
    (M.modify g >>= f) h = f () (g h) := rfl

@[simp] theorem throw_bind {α β : Type} (e : PyErr) (f : α → M R β) (h : Heap R) :
    ((M.throw e : M R α) >>= f) h = (.error e, h) := rfl

theorem ite_apply' {α : Type} (c : Prop) [Decidable c] (x y : M R α) (h : Heap R) :
    (if c then x else y) h = if c then x h else y h := by split <;> rfl

section
variable {h : Heap R} {e : EId}

theorem node1_dang {n a} (hr : h.edge e = .dang n a) : node1 e h = (.ok n, h) := by
  simp [node1, hr]
theorem node1_conn {n a m b} (hr : h.edge e = .conn n a m b) : node1 e h = (.ok n, h) := by
  simp [node1, hr]
theorem node2_dang {n a} (hr : h.edge e = .dang n a) : node2 e h = (.ok none, h) := by
  simp [node2, hr]
theorem node2_conn {n a m b} (hr : h.edge e = .conn n a m b) : node2 e h = (.ok (some m), h) := by
  simp [node2, hr]
theorem axis1_dang {n a} (hr : h.edge e = .dang n a) : axis1 e h = (.ok a, h) := by
  simp [axis1, hr]
theorem axis1_conn {n a m b} (hr : h.edge e = .conn n a m b) : axis1 e h = (.ok a, h) := by
  simp [axis1, hr]
theorem axis2_dang {n a} (hr : h.edge e = .dang n a) : axis2 e h = (.ok none, h) := by
  simp [axis2, hr]
theorem axis2_conn {n a m b} (hr : h.edge e = .conn n a m b) : axis2 e h = (.ok (some b), h) := by
  simp [axis2, hr]
theorem nodeTensor_eq (n : NId) : nodeTensor n h = (.ok (h.node n).tensor, h) := rfl
theorem nodeEdges_eq (n : NId) : nodeEdges n h = (.ok (h.node n).edges, h) := rfl
theorem isDangling_eq : isDangling e h = (.ok (h.edge e).dangling, h) := rfl
end

theorem good_node1 {h : Heap R} {e : EId} (hg : (h.edge e).Good) :
    ∃ n, node1 e h = (.ok n, h) ∧ (h.edge e).node1 = some n := by
  rcases hg with ⟨n, a, hr⟩ | ⟨n, a, m, b, hr⟩
  · exact ⟨n, node1_dang hr, by rw [hr]⟩
  · exact ⟨n, node1_conn hr, by rw [hr]⟩

theorem good_node2 {h : Heap R} {e : EId} (hg : (h.edge e).Good) :
    node2 e h = (.ok (h.edge e).node2, h) := by
  rcases hg with ⟨n, a, hr⟩ | ⟨n, a, m, b, hr⟩
  · rw [node2_dang hr, hr]
  · rw [node2_conn hr, hr]

/-! ### `update_axis` -/

theorem updateAxis_good {h : Heap R} {e : EId} {old new : Slot} (hg : (h.edge e).Good)
    (ho : old ∈ (h.edge e).ends) :
    ∃ r', updateAxis e old.2 old.1 new.2 new.1 h = (.ok (), h.setEdge e r') ∧ r'.Good ∧
      r'.dangling = (h.edge e).dangling ∧ r'.ends = new ::ₘ (h.edge e).ends.erase old := by
  obtain ⟨on, oa⟩ := old
  obtain ⟨nn, na⟩ := new
  rcases hg with ⟨n, a, hr⟩ | ⟨n, a, m, b, hr⟩
  · rw [hr] at ho
    simp only [ends_dang, Multiset.mem_singleton, Prod.mk.injEq] at ho
    obtain ⟨rfl, rfl⟩ := ho
    refine ⟨.dang nn na, ?_, good_dang _ _, by rw [hr], by rw [hr]; simp⟩
    simp [updateAxis, axis1, node1, M.bind_apply, hr]
  · rw [hr] at ho
    by_cases h1 : (on, oa) = (n, a)
    · obtain ⟨rfl, rfl⟩ := Prod.mk.inj h1
      refine ⟨.conn nn na m b, ?_, good_conn _ _ _ _, by rw [hr], by rw [hr]; simp⟩
      simp [updateAxis, axis1, node1, M.bind_apply, hr]
    · have h2 : (on, oa) = (m, b) := by
        simp only [ends_conn, Multiset.insert_eq_cons, Multiset.mem_cons,
          Multiset.mem_singleton] at ho
        exact ho.resolve_left h1
      obtain ⟨rfl, rfl⟩ := Prod.mk.inj h2
      refine ⟨.conn n a nn na, ?_, good_conn _ _ _ _, by rw [hr], ?_⟩
      · by_cases h3 : a = oa
        · subst h3
          have h4 : n ≠ on := fun h => h1 (by rw [h])
          simp [updateAxis, axis1, axis2, node1, node2, M.bind_apply, hr, h4]
        · simp [updateAxis, axis1, axis2, node2, M.bind_apply, hr, h3]
      · rw [hr]
        simp only [ends_conn, Multiset.insert_eq_cons]
        rw [Multiset.erase_cons_tail _ (Ne.symm h1), Multiset.erase_singleton]
        exact Multiset.cons_swap _ _ _

/-- Move edge ends one after the other: `(edge, old axis, new axis)`. -/
def updAll (U : List (EId × Slot × Slot)) : M R Unit :=
  M.forEach U fun u => updateAxis u.1 u.2.1.2 u.2.1.1 u.2.2.2 u.2.2.1

/-- The old (new) axes of `e` in `U`. -/
def olds (U : List (EId × Slot × Slot)) (e : EId) : Multiset Slot :=
  ((U.filter (fun u => u.1 = e)).map (fun u => u.2.1) : List Slot)
def news (U : List (EId × Slot × Slot)) (e : EId) : Multiset Slot :=
  ((U.filter (fun u => u.1 = e)).map (fun u => u.2.2) : List Slot)

theorem olds_cons (u : EId × Slot × Slot) (U : List (EId × Slot × Slot)) (e : EId) :
    olds (u :: U) e = if u.1 = e then u.2.1 ::ₘ olds U e else olds U e := by
  unfold olds
  rw [List.filter_cons]
  by_cases h : u.1 = e <;> simp [h]

theorem news_cons (u : EId × Slot × Slot) (U : List (EId × Slot × Slot)) (e : EId) :
    news (u :: U) e = if u.1 = e then u.2.2 ::ₘ news U e else news U e := by
  unfold news
  rw [List.filter_cons]
  by_cases h : u.1 = e <;> simp [h]

theorem updAll_spec (U : List (EId × Slot × Slot)) {h : Heap R}
    (hg : ∀ u ∈ U, (h.edge u.1).Good) (ho : ∀ e, olds U e ≤ (h.edge e).ends) :
    ∃ h', updAll U h = (.ok (), h') ∧ h'.node = h.node ∧ h'.nn = h.nn ∧ h'.ne = h.ne ∧
      (∀ e, (∀ u ∈ U, u.1 ≠ e) → h'.edge e = h.edge e) ∧
      (∀ e, (h.edge e).Good → (h'.edge e).Good ∧ (h'.edge e).dangling = (h.edge e).dangling) ∧
      ∀ e, (h'.edge e).ends = (h.edge e).ends - olds U e + news U e := by
  induction U generalizing h with
  | nil =>
    refine ⟨h, rfl, rfl, rfl, rfl, fun _ _ => rfl, fun e he => ⟨he, rfl⟩, fun e => ?_⟩
    simp [olds, news]
  | cons u U ih =>
    obtain ⟨e0, o, n⟩ := u
    have h1 := ho e0
    rw [olds_cons, if_pos rfl] at h1
    simp only at h1
    have hmem : o ∈ (h.edge e0).ends := Multiset.mem_of_le h1 (Multiset.mem_cons_self _ _)
    have h2 : olds U e0 ≤ (h.edge e0).ends.erase o := by
      have := Multiset.erase_le_erase o h1
      simpa using this
    obtain ⟨r', hr1, hr2, hr3, hr4⟩ := updateAxis_good (new := n) (hg (e0, o, n) (by simp)) hmem
    obtain ⟨h', k1, k2, k3, k4, k5, k6, k7⟩ := ih (h := h.setEdge e0 r') (by
        intro u hu
        simp only [Heap.setEdge_edge, Function.update_apply]
        split
        · exact hr2
        · exact hg u (by simp [hu])) (by
        intro e
        simp only [Heap.setEdge_edge, Function.update_apply]
        by_cases he : e = e0
        · subst he
          rw [if_pos rfl, hr4]
          exact h2.trans (Multiset.le_cons_self _ _)
        · rw [if_neg he]
          have := ho e
          rwa [olds_cons, if_neg (by simpa using Ne.symm he)] at this)
    refine ⟨h', ?_, k2, k3, k4, ?_, ?_, ?_⟩
    · rw [updAll, M.forEach_cons, M.bind_ok hr1]; exact k1
    · intro e he
      have he0 : e ≠ e0 := fun h => he (e0, o, n) (by simp) h.symm
      rw [k5 e (fun u hu => he u (by simp [hu]))]
      simp [he0]
    · intro e he
      by_cases he0 : e = e0
      · subst he0
        have := k6 e (by simpa using hr2)
        simpa [hr3] using this
      · have := k6 e (by simpa [Function.update_apply, he0] using he)
        simpa [Function.update_apply, he0] using this
    · intro e
      rw [k7 e, olds_cons, news_cons]
      by_cases he0 : e = e0
      · subst he0
        simp only [Heap.setEdge_edge, Function.update_self, if_true, hr4]
        rw [Multiset.cons_sub_of_le _ h2, Multiset.sub_cons, Multiset.cons_add, Multiset.add_cons]
      · simp [he0, Ne.symm he0]

theorem sub_filter_map {α : Type} [DecidableEq α] (m : Multiset α) (p : α → Prop) [DecidablePred p]
    (φ : α → α) (hφ : ∀ a ∈ m, ¬ p a → φ a = a) :
    m - m.filter p + (m.filter p).map φ = m.map φ := by
  have h1 : m - m.filter p = m.filter (fun a => ¬ p a) := by
    conv_lhs => rw [← Multiset.filter_add_not p m]
    rw [Multiset.filter_add_not]
    conv_lhs => enter [1]; rw [← Multiset.filter_add_not p m]
    simp
  have h2 : m.filter (fun a => ¬ p a) = (m.filter (fun a => ¬ p a)).map φ := by
    conv_lhs => rw [← Multiset.map_id (m.filter (fun a => ¬ p a))]
    refine Multiset.map_congr rfl fun a ha => ?_
    rw [Multiset.mem_filter] at ha
    exact (hφ a ha.1 ha.2).symm
  rw [h1, h2, ← Multiset.map_add, add_comm, Multiset.filter_add_not]

/-- Moving a set of axes of a consistent graph. -/
theorem moveSlots' {h : Heap R} (w : Linked h) {U : List (EId × Slot × Slot)} {φ : Slot → Slot}
    (hU : (U.map (fun u => u.2.1)).Nodup) (hat : ∀ u ∈ U, At h u.2.1 u.1)
    (hφ : ∀ u ∈ U, u.2.2 = φ u.2.1)
    (hφ' : ∀ s e, At h s e → s ∉ U.map (fun u => u.2.1) → φ s = s) :
    ∃ h', updAll U h = (.ok (), h') ∧ h'.node = h.node ∧ h'.nn = h.nn ∧ h'.ne = h.ne ∧
      (∀ e, ¬ InUse h e → h'.edge e = h.edge e) ∧
      ∀ e, InUse h e → (h'.edge e).Good ∧ (h'.edge e).dangling = (h.edge e).dangling ∧
        (h'.edge e).ends = (h.edge e).ends.map φ := by
  have key : ∀ e, InUse h e → olds U e =
      (h.edge e).ends.filter (fun s => s ∈ U.map (fun u => u.2.1)) := by
    intro e hu
    rw [Multiset.Nodup.ext]
    · intro s
      rw [Multiset.mem_filter, (w e hu).2.2]
      simp only [olds, Multiset.mem_coe, List.mem_map, List.mem_filter, decide_eq_true_eq]
      constructor
      · rintro ⟨u, ⟨hu1, hu2⟩, rfl⟩
        exact ⟨hu2 ▸ hat u hu1, u, hu1, rfl⟩
      · rintro ⟨hs, u, hu1, rfl⟩
        exact ⟨u, ⟨hu1, (hat u hu1).unique hs⟩, rfl⟩
    · rw [olds, Multiset.coe_nodup]
      exact hU.sublist (List.Sublist.map _ List.filter_sublist)
    · exact (w e hu).2.1.filter _
  have hnews : ∀ e, news U e = (olds U e).map φ := by
    intro e
    simp only [news, olds, Multiset.map_coe, List.map_map]
    congr 1
    refine List.map_congr_left fun u hu => ?_
    exact hφ u (List.mem_of_mem_filter hu)
  have hnot : ∀ e, ¬ InUse h e → ∀ u ∈ U, u.1 ≠ e := by
    rintro e he u hu rfl
    exact he ⟨_, hat u hu⟩
  obtain ⟨h', k1, k2, k3, k4, k5, k6, k7⟩ := updAll_spec U (h := h)
    (fun u hu => (w _ ⟨_, hat u hu⟩).1) (by
      intro e
      by_cases hu : InUse h e
      · rw [key e hu]; exact Multiset.filter_le _ _
      · have : olds U e = 0 := by
          rw [olds, List.filter_eq_nil_iff.2]
          · rfl
          · intro u hu' ; simpa using hnot e hu u hu'
        rw [this]; exact Multiset.zero_le _)
  refine ⟨h', k1, k2, k3, k4, fun e he => k5 e (hnot e he), fun e hu => ?_⟩
  refine ⟨(k6 e (w e hu).1).1, (k6 e (w e hu).1).2, ?_⟩
  rw [k7 e, hnews, key e hu]
  exact sub_filter_map _ _ _ fun s hs hn => hφ' s e (((w e hu).2.2 s).1 hs) hn

/-- Moving a set of axes of a consistent graph. -/
theorem moveSlots {h : Heap R} (w : WF h) {U : List (EId × Slot × Slot)} {φ : Slot → Slot}
    (hU : (U.map (fun u => u.2.1)).Nodup) (hat : ∀ u ∈ U, At h u.2.1 u.1)
    (hφ : ∀ u ∈ U, u.2.2 = φ u.2.1)
    (hφ' : ∀ s e, At h s e → s ∉ U.map (fun u => u.2.1) → φ s = s) :
    ∃ h', updAll U h = (.ok (), h') ∧ h'.node = h.node ∧ h'.nn = h.nn ∧ h'.ne = h.ne ∧
      (∀ e, ¬ InUse h e → h'.edge e = h.edge e) ∧
      ∀ e, InUse h e → (h'.edge e).Good ∧ (h'.edge e).dangling = (h.edge e).dangling ∧
        (h'.edge e).ends = (h.edge e).ends.map φ :=
  moveSlots' w.linked hU hat hφ hφ'

/-! ### `add_edge` in a loop -/

theorem addEdge_ok {h : Heap R} {n : NId} {e : EId} {a : Nat} {ov : Bool}
    (ha : a < (h.node n).tensor.ndim) (hl : a < (h.node n).edges.length)
    (hov : ov = true ∨ (h.edge ((h.node n).edges[a])).dangling = true) :
    addEdge n e a ov h =
      (.ok (), h.setNode n { h.node n with edges := (h.node n).edges.set a e }) := by
  unfold addEdge
  rw [get_bind, ite_apply', if_neg (by
    have : (h.shape n).length = (h.node n).tensor.ndim := rfl
    omega), List.getElem?_eq_getElem hl]
  dsimp only
  rw [ite_apply', if_neg (by rcases hov with h | h <;> simp [h])]
  rfl

theorem addAll_aux {h : Heap R} {n : NId} {es pre suf : List EId} {ov : Bool}
    (hlen : suf.length = es.length)
    (hnd : (h.node n).tensor.ndim = pre.length + es.length)
    (hed : (h.node n).edges = pre ++ suf)
    (hdg : ov = true ∨ ∀ e ∈ suf, (h.edge e).dangling = true) :
    M.forEach (es.zipIdx pre.length) (fun p => addEdge n p.1 p.2 ov) h =
      (.ok (), h.setNode n { h.node n with edges := pre ++ es }) := by
  induction es generalizing h pre suf with
  | nil =>
    have : suf = [] := by simpa using hlen
    subst this
    simp only [List.zipIdx_nil, M.forEach_nil, List.append_nil]
    have : h.setNode n { h.node n with edges := pre } = h := by
      simp only [List.append_nil] at hed
      rw [← hed]
      simp [Heap.setNode]
    rw [this]
  | cons e es ih =>
    cases suf with
    | nil => simp at hlen
    | cons f suf =>
      rw [List.zipIdx_cons, M.forEach_cons]
      have h1 : addEdge n e pre.length ov h =
          (.ok (), h.setNode n { h.node n with edges := (pre ++ [e]) ++ suf }) := by
        rw [addEdge_ok (by rw [hnd]; simp) (by rw [hed]; simp) (by
          rcases hdg with h | h
          · exact .inl h
          · right; simpa [hed] using h f (by simp))]
        congr 2
        simp [hed]
      rw [M.bind_ok h1]
      have h2 := ih (h := h.setNode n { h.node n with edges := (pre ++ [e]) ++ suf })
        (pre := pre ++ [e]) (suf := suf) (by simpa using hlen)
        (by simp only [Heap.setNode_node, Function.update_self, hnd]; simp; omega)
        (by simp)
        (by
          rcases hdg with h | h
          · exact .inl h
          · right; intro x hx; simpa using h x (by simp [hx]))
      simp only [List.length_append, List.length_singleton] at h2
      rw [h2]
      simp [Heap.setNode]

theorem addAll {h : Heap R} {n : NId} {es : List EId} {ov : Bool}
    (hlen : (h.node n).edges.length = es.length)
    (hnd : (h.node n).tensor.ndim = es.length)
    (hdg : ov = true ∨ ∀ e ∈ (h.node n).edges, (h.edge e).dangling = true) :
    M.forEach es.zipIdx (fun p => addEdge n p.1 p.2 ov) h =
      (.ok (), h.setNode n { h.node n with edges := es }) := by
  have := addAll_aux (h := h) (n := n) (es := es) (pre := []) (suf := (h.node n).edges)
    (ov := ov) hlen (by simpa using hnd) (by simp) hdg
  simpa using this

/-! ### `fresh_edges` -/

/-- The heap after `fresh_edges`. -/
def freshHeap (h : Heap R) (n : NId) : Heap R :=
  { h with
    node := Function.update h.node n { h.node n with
      edges := (List.range (h.node n).edges.length).map (fun i => h.ne + i) }
    edge := fun e => if h.ne ≤ e ∧ e < h.ne + (h.node n).edges.length then
      .dang n (e - h.ne) else h.edge e
    ne := h.ne + (h.node n).edges.length }

theorem freshEdges_eq {h : Heap R} {n : NId}
    (hnd : (h.node n).tensor.ndim = (h.node n).edges.length) :
    freshEdges n h = (.ok (), freshHeap h n) := by
  have key : ∀ k ≤ (h.node n).edges.length,
      M.forEach (List.range k) (fun i => do
        let e ← newDangling n i
        addEdge n e i true) h = (.ok (), { h with
          node := Function.update h.node n { h.node n with
            edges := (List.range k).map (fun i => h.ne + i) ++ (h.node n).edges.drop k }
          edge := fun e => if h.ne ≤ e ∧ e < h.ne + k then .dang n (e - h.ne) else h.edge e
          ne := h.ne + k }) := by
    intro k hk
    induction k with
    | zero =>
      simp only [List.range_zero, M.forEach_nil, Nat.add_zero, List.map_nil, List.nil_append,
        List.drop_zero, Function.update_eq_self]
      have : (fun e => if h.ne ≤ e ∧ e < h.ne then EdgeRec.dang n (e - h.ne) else h.edge e) =
          h.edge := by
        funext e
        rw [if_neg (by omega)]
      rw [this]
    | succ k ih =>
      rw [List.range_succ, M.forEach_append, M.bind_ok (ih (by omega)), M.forEach_cons]
      have hk' : k < (h.node n).edges.length := by omega
      rw [M.bind_apply, M.bind_apply]
      simp only [newDangling]
      rw [addEdge_ok (by simp [hnd, hk']) (by simp; omega) (.inl rfl)]
      simp only [M.forEach_nil, Heap.setNode, Function.update_self, Function.update_idem]
      congr 2
      · congr 2
        rw [List.map_append, List.set_append_right _ _ (by simp)]
        simp only [List.length_map, List.length_range, Nat.sub_self, List.map_cons, List.map_nil,
          List.append_assoc]
        rw [List.drop_eq_getElem_cons hk']
        rfl
      · funext e
        simp only [Function.update_apply]
        by_cases he : e = h.ne + k
        · have h1 : h.ne ≤ e ∧ e < h.ne + (k + 1) := by omega
          rw [if_pos he, if_pos h1, he]
          simp
        · rw [if_neg he]
          by_cases h1 : h.ne ≤ e ∧ e < h.ne + k
          · have h2 : h.ne ≤ e ∧ e < h.ne + (k + 1) := by omega
            rw [if_pos h1, if_pos h2]
          · have h2 : ¬ (h.ne ≤ e ∧ e < h.ne + (k + 1)) := by omega
            rw [if_neg h1, if_neg h2]
  have := key (h.node n).edges.length le_rfl
  simp only [freshEdges, nodeEdges, M.bind_apply, M.get_apply, M.pure_apply]
  rw [this]
  simp [freshHeap]

/-- The heap after a loop of `disable`. -/
def disableHeap (h : Heap R) (l : List EId) : Heap R :=
  { h with edge := fun e => if e ∈ l then
      { h.edge e with node1 := none, node2 := none, disabled := true } else h.edge e }

theorem disableAll (h : Heap R) (l : List EId) :
    M.forEach l disable h = (.ok (), disableHeap h l) := by
  induction l generalizing h with
  | nil => simp [disableHeap]
  | cons a l ih =>
    rw [M.forEach_cons]
    have h1 : disable a h = (.ok (), h.setEdge a { h.edge a with
      node1 := none, node2 := none, disabled := true }) := rfl
    rw [M.bind_ok h1, ih]
    congr 1
    simp only [disableHeap, Heap.setEdge]
    congr 1
    funext e
    by_cases h1 : e = a
    · subst h1; simp
    · simp [h1]

end TN.Graph
