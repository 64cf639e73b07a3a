import Verif.QuAlgebra

/-!
# Copies of operators and disjoint unions of networks (C55)
-/

set_option linter.unusedSectionVars false

namespace TN.Graph

open TN Finset

variable {R : Type} [CommSemiring R]

section net
variable {L : Type*} [DecidableEq L] {dim : L → Nat}

/-- The value of two networks that share no label is the product. -/
theorem netVal_append {a b : List (NDArray R × List L)} (hc : Consistent dim (a ++ b))
    (hd : ∀ l ∈ flatL a, l ∉ flatL b) (σ : L → Nat) :
    netVal (a ++ b) σ = netVal a σ * netVal b σ := by
  have ha : Consistent dim a := fun p hp => hc p (List.mem_append_left _ hp)
  have hb : Consistent dim b := fun p hp => hc p (List.mem_append_right _ hp)
  have hsub : ∀ (x : List (NDArray R × List L)) l, l ∈ closedL x → l ∈ flatL x := fun x l hl =>
    List.count_pos_iff.1 (by rw [mem_closedL] at hl; omega)
  have hflat : flatL (a ++ b) = flatL a ++ flatL b := by simp [flatL]
  have hperm : (closedL (a ++ b)).Perm (closedL a ++ closedL b) := by
    rw [List.perm_ext_iff_of_nodup (closedL_nodup _)]
    · intro l
      rw [List.mem_append, mem_closedL, mem_closedL, mem_closedL, hflat, List.count_append]
      by_cases hl : l ∈ flatL a
      · rw [List.count_eq_zero_of_not_mem (hd l hl)]
        omega
      · rw [List.count_eq_zero_of_not_mem hl]
        omega
    · refine List.Nodup.append (closedL_nodup _) (closedL_nodup _) fun l h1 h2 => ?_
      exact hd l (hsub a l h1) (hsub b l h2)
  rw [netVal_eq hc, netVal_eq ha, netVal_eq hb, sumOver_perm hperm, sumOver_append]
  have h1 : sumOver dim (closedL b) (prodVal (a ++ b)) = fun τ => prodVal a τ *
      sumOver dim (closedL b) (prodVal b) τ := by
    funext τ
    rw [show prodVal (a ++ b) = fun τ => prodVal a τ * prodVal b τ by funext τ; simp [prodVal]]
    exact sumOver_mul_left (prodVal_dependsOn a) fun l hl hl' => hd l hl (hsub b l hl')
  rw [h1]
  refine sumOver_mul_right (sumOver_dependsOn (prodVal_dependsOn b)) fun l hl hl' => ?_
  exact hd l (hsub a l hl') (List.mem_filter.1 hl).1

end net

/-! ### The nodes of an operator -/

theorem getAllNodes_all {h : Heap R} (w : WF h) {N : List NId} : ∀ (es : List EId), (∀ e ∈ es, OpenEdge h N e) →
    ∃ l, getAllNodes es h = (.ok l, h) ∧ (∀ n ∈ l, n ∈ N) ∧
      ∀ e ∈ es, ∀ m < h.nn, e ∈ (h.node m).edges → m ∈ l
  | [], _ => ⟨[], rfl, by simp, by simp⟩
  | e :: es, he => by
    obtain ⟨l, h1, h2, h2'⟩ := getAllNodes_all w es fun e' h => he e' (by simp [h])
    obtain ⟨n, a, h3, h4, h5⟩ := open_dang w (he e (by simp))
    refine ⟨n :: l, ?_, by simpa using ⟨h3, h2⟩, ?_⟩
    · unfold getAllNodes
      rw [M.bind_ok (node1_dang h4), M.bind_ok (node2_dang h4), M.bind_ok h1]
      rfl
    · intro e' he' m hm hem
      rcases List.mem_cons.1 he' with rfl | he'
      · have := (at_dang w h5.inUse h4).1 (at_of_mem hm hem)
        have h6 : m = n := congrArg Prod.fst this
        simp [h6]
      · exact List.mem_cons_of_mem _ (h2' e' he' m hm hem)

theorem QuNet.mem {h : Heap R} {q : QuOp} {N : List NId} (x : QuNet h q N) {e : EId}
    (he : e ∈ q.ign ∨ e ∈ q.out ∨ e ∈ q.inn) : OpenEdge h N e := by
  rw [← x.edges]
  simp only [List.mem_append]
  tauto

/-- `nodes` gives all nodes of the operator. -/
theorem quNodes_net (r : Run R) (hq : ∀ l, (r.queue l).Perm l) {h : Heap R} (w : WF h) {q : QuOp}
    {N : List NId} (x : QuNet h q N) :
    ∃ fuel₀ ns, (∀ fuel ≥ fuel₀, quNodes { r with fuel := fuel } q h = (.ok (some ns), h)) ∧ ns.Perm N := by
  obtain ⟨l, h1, h2, h2'⟩ := getAllNodes_all w (N := N) (q.out ++ q.inn)
    (fun e he => x.mem (by simp only [List.mem_append] at he; tauto))
  have hsub : ∀ n ∈ l ++ q.refs, n ∈ N := by
    intro n hn
    rcases List.mem_append.1 hn with h3 | h3
    · exact h2 n h3
    · exact x.refs n h3
  have hstart : ∀ n ∈ N, ∃ m ∈ l ++ q.refs, Connected h m n := by
    intro n hn
    obtain ⟨m, h3, h4, h5⟩ := x.reach n hn
    refine ⟨m, List.mem_append.2 ?_, h5⟩
    rcases h3 with h3 | ⟨e, h3, h6⟩
    · exact .inr h3
    · exact .inl (h2' e h3 m (x.lt m h4) h6)
  obtain ⟨fuel₀, ns, h3, h4, h5⟩ := C15_reachable (graphOK_iff.2 w) (inputs := (l ++ q.refs).map .inl)
    (by
      obtain ⟨n, hn⟩ := List.exists_mem_of_ne_nil _ x.ne
      obtain ⟨m, hm, -⟩ := hstart n hn
      exact List.ne_nil_of_mem (a := .inl m) (List.mem_map_of_mem hm))
    hq (fun n hn => by
      obtain ⟨m, h6, h7⟩ := List.mem_map.1 hn
      simp only [Sum.inl.injEq] at h7
      subst h7
      exact x.lt _ (hsub _ h6)) (fun e hn => by simp at hn)
  refine ⟨fuel₀, ns, fun fuel hf => ?_, (List.perm_ext_iff_of_nodup h4 x.nodup).2 fun n => ?_⟩
  · unfold quNodes
    rw [M.bind_ok h1]
    exact h3 fuel hf
  · rw [h5]
    constructor
    · rintro ⟨i, h6, h7⟩
      obtain ⟨m, h8, rfl⟩ := List.mem_map.1 h6
      exact connected_closed x.closed (hsub m h8) h7
    · intro hn
      obtain ⟨m, hm, hc⟩ := hstart n hn
      exact ⟨.inl m, List.mem_map_of_mem hm, hc⟩

/-- The constructor accepts the operator. -/
theorem quantumConstructor_run (r : Run R) (hq : ∀ l, (r.queue l).Perm l) {h : Heap R} (w : WF h) {q : QuOp}
    {N : List NId} (x : QuNet h q N) :
    ∃ fuel₀, ∀ fuel ≥ fuel₀, quantumConstructor { r with fuel := fuel } q h = (.ok (some q), h) := by
  have hsw : ∀ e, e ∈ q.out ++ q.inn ++ q.ign ↔ OpenEdge h N e := by
    intro e
    rw [← x.edges]
    simp only [List.mem_append]
    tauto
  obtain ⟨fuel₀, ns, h1, h3⟩ := quNodes_net r hq w x
  refine ⟨fuel₀, fun fuel hf => ?_⟩
  have hcheck : checkNetwork { r with fuel := fuel } q h = (.ok (some ()), h) := by
    unfold checkNetwork
    rw [M.bind_ok (show M.get h = (.ok h, h) from rfl), if_neg, M.bind_ok (h1 fuel hf)]
    · simp only
      have hmem : ∀ e, e ∈ subgraphDangling h ns ↔ e ∈ q.out ++ q.inn ++ q.ign := by
        intro e
        rw [mem_dangling_closed w (fun n hn => x.lt n (h3.mem_iff.1 hn))
          (closed_congr (fun n => h3.mem_iff.symm) x.closed), dangling_congr (fun n => h3.mem_iff), hsw]
      rw [if_pos ⟨fun e he => (hmem e).2 he, fun e he => (hmem e).1 he⟩]
      rfl
    · rintro ⟨e, he, hd⟩
      rw [((hsw e).1 he).1] at hd
      simp at hd
  unfold quantumConstructor
  rw [M.bind_ok hcheck]
  rfl

/-! ### Copies -/

theorem Copied.perm {h h' : Heap R} {ns N : List NId} {c : NId → NId} {E : EId → EId} {φ : R → R}
    (hp : ns.Perm N) (x : Copied h h' ns c E φ) : Copied h h' N c E φ where
  ok := x.ok
  more := x.more
  old_node := x.old_node
  old_edge := x.old_edge
  new_node := by simpa only [hp.mem_iff] using x.new_node
  inj_node := by simpa only [hp.mem_iff] using x.inj_node
  new_edge := by simpa only [hp.mem_iff] using x.new_edge
  inj_edge := by simpa only [hp.mem_iff] using x.inj_edge
  shape := by simpa only [hp.mem_iff] using x.shape
  entry := by simpa only [hp.mem_iff] using x.entry
  edges := by simpa only [hp.mem_iff] using x.edges
  joined := by simpa only [hp.mem_iff] using x.joined
  cut := by simpa only [hp.mem_iff] using x.cut

theorem lookup_map_self {l : List NId} {c : NId → NId} {n : NId} (hn : n ∈ l) :
    (l.map fun n => (n, c n)).lookup n = some (c n) := by
  induction l with
  | nil => simp at hn
  | cons a l ih =>
    rw [List.map_cons, List.lookup_cons]
    by_cases h : n = a
    · subst h; simp
    · have h' : (n == a) = false := by simpa using h
      simp only [h']
      exact ih (by simpa [h] using hn)

theorem lookup_of_mem {d : List (EId × EId)} {e : EId} (he : e ∈ d.map Prod.fst) :
    ∃ f, d.lookup e = some f ∧ (e, f) ∈ d := by
  induction d with
  | nil => simp at he
  | cons p d ih =>
    obtain ⟨k, v⟩ := p
    rw [List.lookup_cons]
    by_cases h : e = k
    · subst h; exact ⟨v, by simp, by simp⟩
    · have h' : (e == k) = false := by simpa using h
      simp only [h']
      obtain ⟨f, h1, h2⟩ := ih (by simpa [h] using he)
      exact ⟨f, h1, by simp [h2]⟩

/-- The operator on the copied nodes. -/
def QuOp.image (q : QuOp) (c : NId → NId) (E : EId → EId) : QuOp :=
  ⟨q.out.map E, q.inn.map E, q.ign.map E, q.refs.map c⟩

/-- What `copy(self.nodes)` does. -/
theorem quCopy_run (r : Run R) (hq : ∀ l, (r.queue l).Perm l) (hv : ∀ l, (r.vis l).Perm l)
    (hie : ∀ l, (r.ie l).Perm l) (cj : R → R) (conjugate : Bool) {h : Heap R} (w : WF h) {q : QuOp}
    {N : List NId} (x : QuNet h q N) :
    ∃ fuel₀ nd d h' c E, (∀ fuel ≥ fuel₀,
        quCopy { r with fuel := fuel } cj conjugate q h = (.ok (some (nd, d)), h')) ∧
      Copied h h' N c E (if conjugate then cj else id) ∧ (nd.map Prod.snd).Perm (N.map c) ∧
      (∀ n ∈ N, nd.lookup n = some (c n)) ∧ ∀ e, OpenEdge h N e → d e = some (E e) := by
  obtain ⟨fuel₀, ns, h1, h2⟩ := quNodes_net r hq w x
  have hp : (r.vis ns).Perm N := (hv ns).trans h2
  obtain ⟨h', c, E, nd, ed, h3, h4, h5, h6, h7, h8⟩ := C14_copy_partial (nodes := r.vis ns)
    (graphOK_iff.2 w) cj conjugate (hp.nodup_iff.2 x.nodup) (fun n hn => x.lt n (hp.mem_iff.1 hn)) hie
  refine ⟨fuel₀, nd, fun e => ed.lookup e, h', c, E, fun fuel hf => ?_, h4.perm hp, ?_, ?_, ?_⟩
  · unfold quCopy
    rw [M.bind_ok (h1 fuel hf)]
    simp only
    rw [M.bind_ok h3]
    rfl
  · rw [h5, List.map_map]
    exact hp.map c
  · intro n hn
    rw [h5]
    exact lookup_map_self (hp.mem_iff.2 hn)
  · intro e he
    obtain ⟨n, a, g1, g2, g3⟩ := open_dang w he
    have hmem : e ∈ ed.map Prod.fst := (h7 e).2 ⟨n, hp.mem_iff.2 g1, g3.mem⟩
    obtain ⟨f, g4, g5⟩ := lookup_of_mem hmem
    show ed.lookup e = _
    rw [g4]
    rw [h8 e f g5]
    rintro ⟨n', a', b', g6⟩
    rw [g2] at g6
    simp [EdgeRec.dang, EdgeRec.conn] at g6

section copied
variable {h h' : Heap R} {N : List NId} {c : NId → NId} {E : EId → EId} {φ : R → R}

theorem Copied.at_iff (x : Copied h h' N c E φ) (hlt : ∀ n ∈ N, n < h.nn) {n : NId} (hn : n ∈ N) {k : Nat}
    {f : EId} : At h' (c n, k) f ↔ ∃ e, At h (n, k) e ∧ E e = f := by
  unfold At
  simp only []
  rw [x.edges n hn, List.getElem?_map, Option.map_eq_some_iff]
  constructor
  · rintro ⟨-, e, h1, h2⟩
    exact ⟨e, ⟨hlt n hn, h1⟩, h2⟩
  · rintro ⟨e, ⟨-, h1⟩, h2⟩
    exact ⟨((x.new_node _).2 ⟨n, hn, rfl⟩).2, e, h1, h2⟩

theorem Copied.edim (w : WF h) (x : Copied h h' N c E φ) {e : EId} {s : Slot} (hs : s.1 ∈ N) (ha : At h s e) :
    edim h' (E e) = edim h e := by
  have w' := graphOK_iff.1 x.ok
  have ha' : At h' (c s.1, s.2) (E e) := by
    refine ⟨((x.new_node _).2 ⟨s.1, hs, rfl⟩).2, ?_⟩
    rw [x.edges s.1 hs, List.getElem?_map, ha.2]
    rfl
  rw [w'.edim_eq ha', w.edim_eq ha]
  have := x.shape s.1 hs
  simp only [dimAt]
  rw [this]

theorem Copied.open_iff (w : WF h) (x : Copied h h' N c E φ) (hlt : ∀ n ∈ N, n < h.nn) (hc : ClosedNet h N)
    {f : EId} : OpenEdge h' (N.map c) f ↔ ∃ e, OpenEdge h N e ∧ E e = f := by
  constructor
  · rintro ⟨h1, ⟨m, k⟩, h2, h3⟩
    obtain ⟨n, hn, rfl⟩ := List.mem_map.1 h2
    obtain ⟨e, h4, rfl⟩ := (x.at_iff hlt hn).1 h3
    refine ⟨e, ⟨?_, (n, k), hn, h4⟩, rfl⟩
    rcases (x.cut n hn e h4.mem).1 h1 with h5 | ⟨n1, a, m, b, h5, h6⟩
    · exact h5
    · exfalso
      have g1 := (at_conn w h4.inUse h5).2 (.inl rfl)
      have g2 := (at_conn w h4.inUse h5).2 (.inr rfl)
      have g3 : n1 ∈ N := hc _ _ e h4 g1 hn
      have g4 : m ∈ N := hc _ _ e h4 g2 hn
      rcases h6 with h6 | h6
      · exact h6 g3
      · exact h6 g4
  · rintro ⟨e, ⟨h1, ⟨n, k⟩, h2, h3⟩, rfl⟩
    exact ⟨(x.cut n h2 e h3.mem).2 (.inl h1), (c n, k), List.mem_map_of_mem h2,
      (x.at_iff hlt h2).2 ⟨e, h3, rfl⟩⟩

theorem Copied.injE (x : Copied h h' N c E φ) {e f : EId} (he : OpenEdge h N e) (hf : OpenEdge h N f)
    (hef : E e = E f) : e = f := by
  obtain ⟨-, s, h1, h2⟩ := he
  obtain ⟨-, t, h3, h4⟩ := hf
  exact x.inj_edge s.1 h1 e h2.mem t.1 h3 f h4.mem hef

/-- The copy of an operator is an operator. -/
theorem Copied.quNet (w : WF h) {q : QuOp} (q0 : QuNet h q N) (x : Copied h h' N c E φ) :
    QuNet h' (q.image c E) (N.map c) where
  ne := by simpa using q0.ne
  nodup := q0.nodup.map_on fun n hn m hm => x.inj_node n hn m hm
  lt n hn := by
    obtain ⟨m, hm, rfl⟩ := List.mem_map.1 hn
    exact ((x.new_node _).2 ⟨m, hm, rfl⟩).2
  closed s s' e h1 h2 h3 := by
    obtain ⟨n, k⟩ := s
    obtain ⟨m, l⟩ := s'
    simp only at h3 ⊢
    obtain ⟨n, hn, rfl⟩ := List.mem_map.1 h3
    obtain ⟨e0, h4, rfl⟩ := (x.at_iff q0.lt hn).1 h1
    have hge := (x.new_edge n hn e0 h4.mem).1
    have hm : h.nn ≤ m := by
      by_contra hc
      have h5 := h2.mem
      simp only [x.old_node m (by omega)] at h5
      have := w.lt (inUse_of_mem (by omega) h5)
      omega
    obtain ⟨m, hm', rfl⟩ := (x.new_node m).1 ⟨hm, h2.1⟩
    exact List.mem_map_of_mem hm'
  refs n hn := by
    obtain ⟨m, hm, rfl⟩ := List.mem_map.1 hn
    exact List.mem_map_of_mem (q0.refs m hm)
  reach n hn := by
    obtain ⟨m, hm, rfl⟩ := List.mem_map.1 hn
    obtain ⟨s, h1, h2, h3⟩ := q0.reach m hm
    refine ⟨c s, ?_, List.mem_map_of_mem h2, ?_⟩
    · rcases h1 with h1 | ⟨e, h1, h4⟩
      · exact .inl (List.mem_map_of_mem h1)
      · refine .inr ⟨E e, ?_, ?_⟩
        · simp only [QuOp.image]
          rw [← List.map_append]
          exact List.mem_map_of_mem h1
        · rw [x.edges s h2]
          exact List.mem_map_of_mem h4
    · rw [C14_connected (graphOK_iff.2 w) x q0.lt h2 hm]
      have key : ∀ t, Connected h s t → Relation.ReflTransGen (fun p q => q ∈ N ∧ Adjacent h p q) s t := by
        intro t ht
        induction ht with
        | refl => exact .refl
        | @tail p q h5 a ih =>
          exact ih.tail ⟨connected_closed q0.closed h2 (h5.tail a), a⟩
      exact key m h3
  edup := by
    simp only [QuOp.image]
    rw [← List.map_append, ← List.map_append]
    exact q0.edup.map_on fun e he f hf hef => x.injE ((q0.edges e).1 he) ((q0.edges f).1 hf) hef
  edges f := by
    simp only [QuOp.image]
    rw [← List.map_append, ← List.map_append, x.open_iff w q0.lt q0.closed]
    constructor
    · intro hf
      obtain ⟨e, he, rfl⟩ := List.mem_map.1 hf
      exact ⟨e, (q0.edges e).1 he, rfl⟩
    · rintro ⟨e, he, rfl⟩
      exact List.mem_map_of_mem ((q0.edges e).2 he)

end copied

end TN.Graph
