import Verif.QuAlgebra3

/-!
# `reduced_density` of a network (C79)

Model of `reduced_density` (network_operations.py:754-791) and its properties.
-/

set_option linter.unusedSectionVars false

namespace TN.Graph

open TN Finset

variable {R : Type} [CommSemiring R]

/-! ### Model -/

/-- The loop of `reduced_density` (network_operations.py:787-789), with the dictionary of edges. -/
def densityLoop : List EId → (EId → Option EId) → M R (EId → Option EId)
  | [], d => pure d
  | t :: ts, d =>
    match d t with
    | none => M.throw .keyError
    | some f => do
      let new ← connect f t
      densityLoop ts (Function.update d t (some new))

/-- The copies of all nodes that can be reached (network_operations.py:781-785). -/
def densityCopy (r : Run R) (cj : R → R) (traced : List EId) :
    M R (Option (List (NId × NId) × (EId → Option EId))) := do
  let l ← getAllNodes traced
  let ns ← reachable r.fuel r.queue (l.map .inl)
  match ns with
  | none => pure none
  | some ns => do
    let (nd, ed) ← copyNodes r.ie cj true (r.vis ns)
    pure (some (nd, fun e => ed.lookup e))

/-- `reduced_density(traced_out_edges)` (network_operations.py:754-791): the two dictionaries; `none` if the loop of
`reachable` has not stopped.  Simplification: the edges are a list, and the nodes are plain nodes. -/
def reducedDensity (r : Run R) (cj : R → R) (traced : List EId) :
    M R (Option (List (NId × NId) × (EId → Option EId))) := do
  let h ← M.get
  if ∃ e ∈ traced, (h.edge e).dangling = false then M.throw .valueError
  else do
    let p ← densityCopy r cj traced
    match p with
    | none => pure none
    | some (nd, d) => do
      let d ← densityLoop traced d
      pure (some (nd, d))

/-! ### Proofs -/

theorem densityLoop_run {N : List NId} (hnd : N.Nodup) {E : EId → EId} : ∀ (ts : List EId) {d : EId → Option EId}
    {h : Heap R}, WF h → (∀ n ∈ N, n < h.nn) → ClosedNet h N →
    (∀ t ∈ ts, d t = some (E t) ∧ OpenEdge h N (E t) ∧ OpenEdge h N t ∧ edim h (E t) = edim h t) →
    (ts.map E ++ ts).Nodup →
    ∃ d' h', densityLoop ts d h = (.ok d', h') ∧ connectAll (ts.map fun t => (E t, t)) h = (.ok (), h') ∧
      h'.nn = h.nn ∧ h.ne ≤ h'.ne ∧ (∀ e < h.ne, h'.edge e = h.edge e) ∧
      (∀ n < h.nn, (h'.node n).tensor = (h.node n).tensor) ∧ (∀ e, e ∉ ts → d' e = d e) ∧
      ∀ t ∈ ts, ∃ f n x m y, d' t = some f ∧ f < h'.ne ∧ h.edge (E t) = .dang n x ∧ h.edge t = .dang m y ∧
        h'.edge f = .conn n x m y
  | [], d, h, _, _, _, _, _ => ⟨d, h, rfl, rfl, rfl, le_refl _, fun _ _ => rfl, fun _ _ => rfl, fun _ _ => rfl,
      by simp⟩
  | t :: ts, d, h, w, hlt, hc, hts, hn => by
    obtain ⟨hd, oE, ot, hdim⟩ := hts t (by simp)
    have hps : ∀ p ∈ [(E t, t)], OpenEdge h N p.1 ∧ OpenEdge h N p.2 ∧ edim h p.1 = edim h p.2 := by
      simpa using ⟨oE, ot, hdim⟩
    have hn1 : E t ∉ ts.map E := by
      intro hm
      rw [List.map_cons, List.cons_append, List.nodup_cons] at hn
      exact hn.1 (by simp only [List.mem_append]; exact .inl hm)
    have hn2 : E t ∉ t :: ts := by
      intro hm
      rw [List.map_cons, List.cons_append, List.nodup_cons] at hn
      exact hn.1 (by simp only [List.mem_append]; exact .inr hm)
    have hn3 : (ts.map E ++ t :: ts).Nodup := by
      rw [List.map_cons, List.cons_append, List.nodup_cons] at hn
      exact hn.2
    have hn4 : (t :: (ts.map E ++ ts)).Nodup := List.perm_middle.nodup_iff.1 hn3
    rw [List.nodup_cons, List.mem_append, not_or] at hn4
    have hEt : E t ≠ t := fun hh => hn2 (by rw [hh]; simp)
    obtain ⟨k, hk, J⟩ := connectAll_ok hnd [(E t, t)] w hlt hc hps (by simpa using hEt)
    obtain ⟨h1, hr, j, hne, hed⟩ := connect_ok w (openEdge_mem oE).1 (openEdge_mem ot).1 oE.1 ot.1 hEt hdim
    have hk1 : k = h1 := by
      unfold connectAll at hk
      rw [M.bind_ok hr] at hk
      exact (congrArg Prod.snd hk).symm
    subst hk1
    have hopen : ∀ e, OpenEdge h N e → e ≠ E t → e ≠ t → OpenEdge k N e := by
      intro e o h2 h3
      exact (J.opn e).2 ⟨o, by simpa using h2, by simpa using h3⟩
    obtain ⟨d', h', q1, q2, q3, q4, q5, q6, q7, q8⟩ := densityLoop_run hnd (E := E) ts
      (d := Function.update d t (some h.ne)) J.wf (fun n hn => by rw [J.nn]; exact hlt n hn) J.closed (by
        intro s hs
        obtain ⟨g1, g2, g3, g4⟩ := hts s (by simp [hs])
        have e1 : s ≠ t := fun hh => hn4.1.2 (hh ▸ hs)
        have e2 : E s ≠ t := fun hh => hn4.1.1 (hh ▸ List.mem_map_of_mem hs)
        have e3 : E s ≠ E t := fun hh => hn1 (hh ▸ List.mem_map_of_mem hs)
        have e4 : s ≠ E t := fun hh => hn2 (by rw [← hh]; simp [hs])
        have o1 := hopen _ g2 e3 e2
        have o2 := hopen _ g3 e4 e1
        exact ⟨by rw [Function.update_of_ne e1, g1], o1, o2, by rw [J.dim _ o1, J.dim _ o2, g4]⟩) hn4.2
    refine ⟨d', h', ?_, ?_, q3.trans J.nn, J.ne.trans q4, ?_, ?_, ?_, ?_⟩
    · unfold densityLoop
      rw [hd]
      simp only
      rw [M.bind_ok hr]
      exact q1
    · rw [List.map_cons]
      unfold connectAll
      rw [M.bind_ok hr]
      exact q2
    · intro e he
      rw [q5 e (he.trans_le J.ne), J.edge e he]
    · intro n hn
      rw [q6 n (by rw [J.nn]; exact hn), (j.nodes n hn).1]
    · intro e he
      simp only [List.mem_cons, not_or] at he
      rw [q7 e he.2, Function.update_of_ne he.1]
    · intro s hs
      rcases List.mem_cons.1 hs with rfl | hs'
      · obtain ⟨n, x, -, r1, a1⟩ := open_dang w oE
        obtain ⟨m, y, -, r2, a2⟩ := open_dang w ot
        obtain ⟨n', x', m', y', b1, b2, b3⟩ := j.joined
        have c1 := (at_dang w a1.inUse r1).1 b1
        have c2 := (at_dang w a2.inUse r2).1 b2
        simp only [Prod.mk.injEq] at c1 c2
        obtain ⟨rfl, rfl⟩ := c1
        obtain ⟨rfl, rfl⟩ := c2
        refine ⟨h.ne, n', x', m', y', ?_, by omega, r1, r2, ?_⟩
        · rw [q7 s hn4.1.2, Function.update_self]
        · rw [q5 h.ne (by omega), b3]
      · obtain ⟨f, n, x, m, y, g1, g2, g3, g4, g5⟩ := q8 s hs'
        obtain ⟨-, o1, o2, -⟩ := hts s (by simp [hs'])
        refine ⟨f, n, x, m, y, g1, g2, ?_, ?_, g5⟩
        · rw [← J.edge _ (w.lt (openEdge_mem o1).1)]; exact g3
        · rw [← J.edge _ (w.lt (openEdge_mem o2).1)]; exact g4

/-- The nodes that can be reached from edges are joined to no other nodes. -/
theorem closed_reach {h : Heap R} {N S : List NId} (hN : ∀ m, m ∈ N ↔ ∃ n ∈ S, Connected h n m) :
    ClosedNet h N := by
  intro s s' e h1 h2 h3
  obtain ⟨n, h4, h5⟩ := (hN _).1 h3
  exact (hN _).2 ⟨n, h4, h5.tail ⟨h1.1, h2.1, e, h1.mem, h2.mem⟩⟩

/-- What `reduced_density` makes: `N` are the nodes that can be reached from the traced edges `T`, `c` and `E` give the
copies of nodes and edges, and `d` is the returned dictionary of edges. -/
structure IsDensity (φ : R → R) (h h' : Heap R) (T : List EId) (N : List NId) (c : NId → NId) (E : EId → EId)
    (d : EId → Option EId) : Prop where
  ok : GraphOK h'
  nodup : (N ++ N.map c).Nodup
  /-- the nodes are those which are connected with a traced edge -/
  reach : ∀ m, m ∈ N ↔ ∃ e ∈ T, ∃ n, (h.edge e).node1 = some n ∧ Connected h n m
  /-- the new nodes are the copies -/
  new : ∀ m, h.nn ≤ m ∧ m < h'.nn ↔ ∃ n ∈ N, c n = m
  /-- the old tensors stay, the new ones are conjugated -/
  tensor : ∀ n < h.nn, (h'.node n).tensor = (h.node n).tensor
  copied : ∀ n ∈ N, (h'.node (c n)).tensor.shape = (h.node n).tensor.shape ∧
    ∀ i, (h'.node (c n)).tensor.get i = φ ((h.node n).tensor.get i)
  /-- other nodes are left alone -/
  others : ∀ n < h.nn, n ∉ N → h'.node n = h.node n
  /-- each traced edge is replaced by an edge between its axis and the same axis of the copy -/
  traced : ∀ t ∈ T, ∃ n a f, h.edge t = .dang n a ∧ d t = some f ∧ h'.edge f = .conn (c n) a n a
  /-- the dangling edges are the dangling edges which are not traced, and their copies -/
  dangling : ∀ e, OpenEdge h' (N ++ N.map c) e ↔
    (OpenEdge h N e ∧ e ∉ T) ∨ ∃ e', OpenEdge h N e' ∧ e' ∉ T ∧ E e' = e
  kept : ∀ e, OpenEdge h N e → e ∉ T → d e = some (E e) ∧ edim h' e = edim h e ∧ edim h' (E e) = edim h e
  /-- the value is the density matrix: the state times its conjugate, summed over the traced edges -/
  value : ∀ σ, netVal (netOf h' (N ++ N.map c)) σ = sumIdx (T.map (edim h)) fun x =>
    netVal (netOf h N) (assign σ T x) * φ (netVal (netOf h N) (assign (fun e => σ (E e)) T x))

theorem getAllNodes_dangling {h : Heap R} (w : WF h) : ∀ (es : List EId),
    (∀ e ∈ es, InUse h e ∧ (h.edge e).dangling = true) →
    ∃ l, getAllNodes es h = (.ok l, h) ∧ ∀ n, n ∈ l ↔ ∃ e ∈ es, (h.edge e).node1 = some n
  | [], _ => ⟨[], rfl, by simp⟩
  | e :: es, he => by
    obtain ⟨l, h1, h2⟩ := getAllNodes_dangling w es fun e' h => he e' (by simp [h])
    obtain ⟨hu, hd⟩ := he e (by simp)
    rcases w.good hu with ⟨n, a, hr⟩ | ⟨n, a, m, b, hr⟩
    · refine ⟨n :: l, ?_, fun m => ?_⟩
      · unfold getAllNodes
        rw [M.bind_ok (node1_dang hr), M.bind_ok (node2_dang hr), M.bind_ok h1]
        rfl
      · have : (h.edge e).node1 = some n := by rw [hr]
        simp only [List.mem_cons, h2, exists_eq_or_imp, this, Option.some.injEq]
        constructor
        · rintro (rfl | h3)
          · exact .inl rfl
          · exact .inr h3
        · rintro (rfl | h3)
          · exact .inl rfl
          · exact .inr h3
    · rw [hr] at hd; simp at hd

/-- **C79.**  `reduced_density` of distinct dangling edges, for every conjugation and every order in which sets are
visited: the two dictionaries, and a network whose value is the reduced density matrix. -/
theorem C79_reduced_density (φ : R →+* R) {h : Heap R} (g : GraphOK h) {T : List EId} (hT : T ≠ []) (hnd : T.Nodup)
    (hcur : ∀ e ∈ T, Current h e ∧ (h.edge e).dangling = true) (r : Run R) (hq : ∀ l, (r.queue l).Perm l)
    (hv : ∀ l, (r.vis l).Perm l) (hie : ∀ l, (r.ie l).Perm l) :
    ∃ fuel₀ N h' nd d c E, (∀ fuel ≥ fuel₀,
        reducedDensity { r with fuel := fuel } φ T h = (.ok (some (nd, d)), h')) ∧
      nd = (N.map fun n => (n, c n)) ∧ IsDensity φ h h' T N c E d := by
  have w := graphOK_iff.1 g
  have hT' : ∀ e ∈ T, InUse h e ∧ (h.edge e).dangling = true := fun e he =>
    ⟨current_iff.1 (hcur e he).1, (hcur e he).2⟩
  obtain ⟨l, k1, k2⟩ := getAllNodes_dangling w T hT'
  have hroot : ∀ e ∈ T, ∃ n a, h.edge e = .dang n a ∧ At h (n, a) e := by
    intro e he
    rcases w.good (hT' e he).1 with ⟨n, a, hr⟩ | ⟨n, a, m, b, hr⟩
    · exact ⟨n, a, hr, (at_dang w (hT' e he).1 hr).2 rfl⟩
    · have := (hT' e he).2
      rw [hr] at this; simp at this
  have hlt0 : ∀ n ∈ l, n < h.nn := by
    intro n hn
    obtain ⟨e, he, h1⟩ := (k2 n).1 hn
    obtain ⟨n', a, h2, h3⟩ := hroot e he
    rw [h2] at h1
    simp at h1
    subst h1
    exact h3.1
  obtain ⟨fuel₀, ns, q1, q2, q3⟩ := C15_reachable g (inputs := l.map .inl) (by
      obtain ⟨e, he⟩ := List.exists_mem_of_ne_nil _ hT
      obtain ⟨n, a, h2, h3⟩ := hroot e he
      have : n ∈ l := (k2 n).2 ⟨e, he, by rw [h2]⟩
      intro hh
      rw [List.map_eq_nil_iff] at hh
      rw [hh] at this
      simp at this) hq (fun n hn => by
      obtain ⟨m, h6, h7⟩ := List.mem_map.1 hn
      simp only [Sum.inl.injEq] at h7
      subst h7
      exact hlt0 _ h6) (fun e hn => by simp at hn)
  have q4 : ∀ m, m ∈ ns ↔ ∃ n ∈ l, Connected h n m := by
    intro m
    rw [q3]
    constructor
    · rintro ⟨i, h6, h7⟩
      obtain ⟨n, h8, rfl⟩ := List.mem_map.1 h6
      exact ⟨n, h8, h7⟩
    · rintro ⟨n, h6, h7⟩
      exact ⟨.inl n, List.mem_map_of_mem h6, h7⟩
  obtain ⟨N, hNe⟩ : ∃ N, N = r.vis ns := ⟨_, rfl⟩
  have hp : N.Perm ns := hNe ▸ hv ns
  have hN : N.Nodup := hp.nodup_iff.2 q2
  have hmem : ∀ m, m ∈ N ↔ ∃ n ∈ l, Connected h n m := fun m => by rw [hp.mem_iff, q4]
  have hlt : ∀ n ∈ N, n < h.nn := by
    intro n hn
    obtain ⟨m, h1, h2⟩ := (hmem n).1 hn
    cases h2 with
    | refl => exact hlt0 _ h1
    | tail _ a => exact a.2.1
  have hc := closed_reach hmem
  have hoT : ∀ t ∈ T, OpenEdge h N t := by
    intro t ht
    obtain ⟨n, a, h2, h3⟩ := hroot t ht
    exact ⟨(hT' t ht).2, (n, a), (hmem n).2 ⟨n, (k2 n).2 ⟨t, ht, by rw [h2]⟩, .refl⟩, h3⟩
  obtain ⟨k, c, E, nd, ed, c1, x, c3, c4, c5, c6⟩ := C14_copy_partial (nodes := N) g φ true hN hlt hie
  rw [if_pos rfl] at x
  have wk := graphOK_iff.1 x.ok
  have kp := x.kept
  have hd : ∀ e, OpenEdge h N e → ed.lookup e = some (E e) := by
    intro e he
    obtain ⟨n, a, g1, g2, g3⟩ := open_dang w he
    obtain ⟨f, g4, g5⟩ := lookup_of_mem ((c5 e).2 ⟨n, g1, g3.mem⟩)
    rw [g4, c6 e f g5]
    rintro ⟨n', a', b', g6⟩
    rw [g2] at g6
    simp [EdgeRec.dang, EdgeRec.conn] at g6
  have hEge : ∀ e, OpenEdge h N e → h.ne ≤ E e := by
    intro e he
    obtain ⟨n, a, g1, g2, g3⟩ := open_dang w he
    exact (x.new_edge n g1 e g3.mem).1
  have helt : ∀ e, OpenEdge h N e → e < h.ne := fun e he => w.lt (openEdge_mem he).1
  have hcge : ∀ n ∈ N, h.nn ≤ c n := fun n hn => ((x.new_node _).2 ⟨n, hn, rfl⟩).1
  have hclt : ∀ n ∈ N, c n < k.nn := fun n hn => ((x.new_node _).2 ⟨n, hn, rfl⟩).2
  have hNN : (N ++ N.map c).Nodup := by
    rw [List.nodup_append]
    refine ⟨hN, hN.map_on fun n hn m hm => x.inj_node n hn m hm, ?_⟩
    rintro a ha b hb rfl
    obtain ⟨m, hm, rfl⟩ := List.mem_map.1 hb
    have := hlt _ ha
    have := hcge m hm
    omega
  have hltk : ∀ n ∈ N, n < k.nn := fun n hn => (hlt n hn).trans_le kp.nn
  have hNNlt : ∀ n ∈ N ++ N.map c, n < k.nn := by
    intro n hn
    rcases List.mem_append.1 hn with hn | hn
    · exact hltk n hn
    · obtain ⟨m, hm, rfl⟩ := List.mem_map.1 hn
      exact hclt m hm
  have hck : ClosedNet k N := by
    intro s s' e h1 h2 h3
    have h4 := (kp.at_iff (hlt _ h3)).1 h1
    have h5 := kp.at_old (w.lt h4.inUse) h2
    exact hc s s' e h4 ((kp.at_iff h5).1 h2) h3
  have hck2 : ClosedNet k (N.map c) := by
    intro s s' e h1 h2 h3
    obtain ⟨n, hn, h4⟩ := List.mem_map.1 h3
    have h1' : At k (c n, s.2) e := by rw [h4]; exact h1
    obtain ⟨e0, h5, rfl⟩ := (x.at_iff hlt hn).1 h1'
    have hge := (x.new_edge n hn e0 h5.mem).1
    have hm : h.nn ≤ s'.1 := by
      by_contra hcc
      have h6 := h2.mem
      rw [x.old_node s'.1 (by omega)] at h6
      have := w.lt (inUse_of_mem (by omega) h6)
      omega
    obtain ⟨m, hm', h7⟩ := (x.new_node s'.1).1 ⟨hm, h2.1⟩
    exact List.mem_map.2 ⟨m, hm', h7⟩
  have hckk := closedNet_append hck hck2
  have hE : ∀ t, OpenEdge h N t → OpenEdge k (N.map c) (E t) := fun t ht =>
    (x.open_iff w hlt hc).2 ⟨t, ht, rfl⟩
  have hdimE : ∀ e, OpenEdge h N e → edim k (E e) = edim h e := by
    rintro e ⟨-, s, h2, h3⟩
    exact x.edim w h2 h3
  have hdimk : ∀ e, OpenEdge h N e → edim k e = edim h e := fun e he =>
    kp.edim w wk (openEdge_mem he).1
  have hinjT : ∀ a ∈ T, ∀ b ∈ T, E a = E b → a = b := fun a ha b hb => x.injE (hoT a ha) (hoT b hb)
  have hTE : (T.map E).Nodup := hnd.map_on hinjT
  have hdis : ∀ e, OpenEdge h N e → e ∉ T.map E := by
    intro e he hm
    obtain ⟨t, ht, rfl⟩ := List.mem_map.1 hm
    have := helt _ he
    have := hEge t (hoT t ht)
    omega
  have hdis2 : ∀ e, OpenEdge h N e → E e ∉ T := by
    intro e he hm
    have := helt _ (hoT _ hm)
    have := hEge e he
    omega
  have hTT : (T.map E ++ T).Nodup := by
    rw [List.nodup_append]
    refine ⟨hTE, hnd, ?_⟩
    rintro a ha b hb rfl
    exact hdis a (hoT a hb) ha
  have hstart : ∀ t ∈ T, (fun e => ed.lookup e) t = some (E t) ∧ OpenEdge k (N ++ N.map c) (E t) ∧
      OpenEdge k (N ++ N.map c) t ∧ edim k (E t) = edim k t := by
    intro t ht
    have ho := hoT t ht
    exact ⟨hd t ho, openEdge_append.2 (.inr (hE t ho)), openEdge_append.2 (.inl ((kp.open_iff w hlt).2 ho)),
      by rw [hdimE t ho, hdimk t ho]⟩
  obtain ⟨d', h', l1, l2, l3, l4, l5, l6, l7, l8⟩ := densityLoop_run hNN T wk hNNlt hckk hstart hTT
  obtain ⟨h'', m1, J⟩ := connectAll_ok hNN (T.map fun t => (E t, t)) wk hNNlt hckk (by
    intro p hp
    obtain ⟨t, ht, rfl⟩ := List.mem_map.1 hp
    exact (hstart t ht).2) (by simpa [List.map_map, Function.comp_def] using hTT)
  have hh : h'' = h' := by rw [l2] at m1; exact (congrArg Prod.snd m1).symm
  subst hh
  have f1 : (T.map fun t => (E t, t)).map Prod.fst = T.map E := by simp [List.map_map, Function.comp_def]
  have f2 : (T.map fun t => (E t, t)).map Prod.snd = T := by simp [List.map_map, Function.comp_def]
  have hopen : ∀ e, OpenEdge h'' (N ++ N.map c) e ↔
      (OpenEdge h N e ∧ e ∉ T) ∨ ∃ e', OpenEdge h N e' ∧ e' ∉ T ∧ E e' = e := by
    intro e
    rw [J.opn, f1, f2, openEdge_append, kp.open_iff w hlt, x.open_iff w hlt hc]
    constructor
    · rintro ⟨h1 | ⟨e', h1, rfl⟩, h2, h3⟩
      · exact .inl ⟨h1, h3⟩
      · exact .inr ⟨e', h1, fun hm => h2 (List.mem_map_of_mem hm), rfl⟩
    · rintro (⟨h1, h2⟩ | ⟨e', h1, h2, rfl⟩)
      · exact ⟨.inl h1, hdis e h1, h2⟩
      · refine ⟨.inr ⟨e', h1, rfl⟩, ?_, hdis2 e' h1⟩
        intro hm
        obtain ⟨t, ht, h3⟩ := List.mem_map.1 hm
        exact h2 (x.injE (hoT t ht) h1 h3 ▸ ht)
  refine ⟨fuel₀, N, h'', nd, d', c, E, fun fuel hf => ?_, c3, graphOK_iff.2 J.wf, hNN, ?_, ?_, ?_, ?_, ?_, ?_, hopen,
    ?_, ?_⟩
  · unfold reducedDensity
    rw [M.bind_ok (show M.get h = (.ok h, h) from rfl), if_neg (by
      rintro ⟨e, he, h1⟩
      rw [(hT' e he).2] at h1
      simp at h1)]
    have : densityCopy { r with fuel := fuel } φ T h = (.ok (some (nd, fun e => ed.lookup e)), k) := by
      unfold densityCopy
      rw [M.bind_ok k1, M.bind_ok (q1 fuel hf)]
      simp only
      rw [← hNe, M.bind_ok c1]
      rfl
    rw [M.bind_ok this]
    simp only
    rw [M.bind_ok l1]
    rfl
  · intro m
    rw [hmem]
    constructor
    · rintro ⟨n, h1, h2⟩
      obtain ⟨e, h3, h4⟩ := (k2 n).1 h1
      exact ⟨e, h3, n, h4, h2⟩
    · rintro ⟨e, h3, n, h4, h2⟩
      exact ⟨n, (k2 n).2 ⟨e, h3, h4⟩, h2⟩
  · intro m
    rw [l3, x.new_node]
  · intro n hn
    rw [l6 n (hn.trans_le kp.nn), kp.node n hn]
  · intro n hn
    rw [l6 _ (hclt n hn)]
    exact ⟨x.shape n hn, x.entry n hn⟩
  · intro n hn hnN
    rw [J.outside n (hn.trans_le kp.nn) (by
      intro hm
      rcases List.mem_append.1 hm with hm | hm
      · exact hnN hm
      · obtain ⟨m, hm', rfl⟩ := List.mem_map.1 hm
        have := hcge m hm'
        omega), kp.node n hn]
  · intro t ht
    obtain ⟨f, n, a, m, b, g1, g2, g3, g4, g5⟩ := l8 t ht
    rw [kp.edge t (helt t (hoT t ht))] at g4
    obtain ⟨n0, a0, j1, j2, j3⟩ := open_dang w (hoT t ht)
    have h8 := (at_dang w j3.inUse g4).1 j3
    simp only [Prod.mk.injEq] at h8
    have hat : At k (c n0, a0) (E t) := (x.at_iff hlt j1).2 ⟨t, j3, rfl⟩
    have := (at_dang wk hat.inUse g3).1 hat
    simp only [Prod.mk.injEq] at this
    refine ⟨n0, a0, f, j2, g1, ?_⟩
    rw [g5, ← this.1, ← this.2, ← h8.1, ← h8.2]
  · intro e he hT2
    refine ⟨?_, ?_, ?_⟩
    · rw [l7 e hT2]; exact hd e he
    · rw [J.dim _ ((hopen e).2 (.inl ⟨he, hT2⟩)), hdimk e he]
    · rw [J.dim _ ((hopen _).2 (.inr ⟨e, he, hT2, rfl⟩)), hdimE e he]
  · intro σ
    rw [J.value, f1, f2, sumOver_eq_sumIdx]
    have hds : (T.map E).map (edim k) = T.map (edim h) := by
      rw [List.map_map]
      exact List.map_congr_left fun t ht => hdimE t (hoT t ht)
    rw [hds]
    refine sumIdx_congr fun y hy => ?_
    have hy' : y.length = T.length := by simpa using hy.length
    rw [assign_map_self hTE (by simpa using hy')]
    rw [netVal_beside wk hltk (fun n hn => hNNlt n (List.mem_append.2 (.inr hn))) hck (by
      intro n hn hm
      obtain ⟨m, hm', rfl⟩ := List.mem_map.1 hm
      have := hcge m hm'
      have := hlt _ hn
      omega), kp.netOf hlt, C14_value φ g x hlt (fun n hn => hn)]
    congr 1
    · refine netVal_congr' w hN hlt hc fun e he => ?_
      by_cases hm : e ∈ T
      · rw [assign_mem hm hnd hy', assign_mem hm hnd hy']
      · rw [assign_not_mem hm, assign_not_mem hm, assign_not_mem (hdis e he)]
    · congr 1
      refine netVal_congr' w hN hlt hc fun e he => ?_
      rw [assign_not_mem (hdis2 e he)]
      exact assign_through hy' (fun a ha hae => x.injE (hoT a ha) he hae) (fun _ => rfl)

/-- **C79.**  An edge that is not dangling is refused, and so is an empty list; nothing is changed. -/
theorem C79_rejects (r : Run R) (cj : R → R) (h : Heap R) {T : List EId}
    (hT : T = [] ∨ ∃ e ∈ T, (h.edge e).dangling = false) :
    reducedDensity r cj T h = (.error .valueError, h) := by
  unfold reducedDensity
  rw [M.bind_ok (show M.get h = (.ok h, h) from rfl)]
  by_cases hd : ∃ e ∈ T, (h.edge e).dangling = false
  · rw [if_pos hd]
    rfl
  · rcases hT with rfl | hT
    · rw [if_neg hd]
      rfl
    · exact absurd hT hd

/-! ### Concrete cases -/

/-- Two of the three dangling edges of the triangle are traced out. -/
example := C79_reduced_density (RingHom.id Nat) triangle_ok (T := [5, 2]) (by simp) (by simp) (by
    intro e he
    have : e = 5 ∨ e = 2 := by simpa using he
    rcases this with rfl | rfl
    · exact ⟨⟨1, by decide, by decide⟩, by decide⟩
    · exact ⟨⟨0, by decide, by decide⟩, by decide⟩)
  ⟨fun _ => false, 0, id, id, ⟨false, ⟨id, fun _ => .refl _⟩⟩, id, id, fun _ _ => []⟩ (fun _ => .refl _) (fun _ => .refl _) (fun _ => .refl _)

/-- A state of two sites of dimensions two and three, with the entries `3 i + k`. -/
def exState : Heap Nat := runOps [.node ⟨[2, 3], fun i => 3 * i.getD 0 0 + i.getD 1 0⟩] Heap.empty

/-- The run of the examples. -/
def exRun : Run Nat := ⟨fun _ => false, 5, id, id, ⟨false, ⟨id, fun _ => .refl _⟩⟩, id, id, fun _ _ => []⟩

/-- The second site is traced out; the copy is node 1. -/
example : (reducedDensity exRun id [1] exState).1.toOption.map (fun o => o.map (fun p => p.1)) =
    some (some [((0 : Nat), (1 : Nat))]) := by decide +kernel

/-- `ρ[0][1] = 0 * 3 + 1 * 4 + 2 * 5`. -/
example : netVal (netOf (reducedDensity exRun id [1] exState).2 [0, 1]) (fun e => if e = 0 then 0 else 1) = 14 := by
  decide +kernel

end TN.Graph
