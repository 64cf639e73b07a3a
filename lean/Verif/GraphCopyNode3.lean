import Verif.GraphCopyNode2

/-!
# What `contract_copy_node` returns (C44)
-/

set_option linter.unusedSectionVars false

namespace TN.Graph

open TN Finset

variable {R : Type}

/-! ### Specification -/

/-- `h'` is `h` after the copy node `cn` was contracted with its neighbours to the node `new`. -/
structure CopyContracted [CommSemiring R] (h h' : Heap R) (cn new : NId) : Prop where
  new_eq : new = h.nn
  nn : h'.nn = h.nn + 1
  ne : h.ne ≤ h'.ne
  /-- all other nodes, the neighbours too, keep their tensor and their list of edges -/
  other : ∀ n < h.nn, n ≠ cn → h'.node n = h.node n
  /-- the new node has the neighbours' remaining edges, in order -/
  edges : (h'.node new).edges =
    ((neighbours h cn).flatMap fun n => (h.node n).edges).filter fun e => e ∉ (h.node cn).edges
  /-- the entries of the new tensor: all axes at the copy node have the same index, which is
  summed -/
  entry : ∀ τ : EId → Nat, (∀ e ∈ (h'.node new).edges, τ e < edim h e) →
    val (h'.node new).tensor (h'.node new).edges τ =
      ∑ i ∈ range ((h.shape cn).headD 0), ((neighbours h cn).map fun n => (h.node n).tensor.get
        ((h.node n).edges.map fun e => if e ∈ (h.node cn).edges then i else τ e)).prod
  /-- the copy node is detached -/
  detached : (h'.node cn).tensor = (h.node cn).tensor ∧
    ∀ e ∈ (h'.node cn).edges, h.ne ≤ e ∧ (h'.edge e).dangling = true
  /-- remaining edges stay dangling or connected -/
  dangling : ∀ e, InUse h e → e ∉ (h.node cn).edges → (h'.edge e).dangling = (h.edge e).dangling
  /-- remaining edges keep their dimension -/
  live : ∀ e, InUse h e → e ∉ (h.node cn).edges → edim h' e = edim h e
  /-- without the neighbours, the graph is correct: every node has one edge per axis, every
  edge fits and no edge ends at a former neighbour -/
  ok : ∀ n < h'.nn, n ∉ neighbours h cn →
    (h'.node n).edges.length = (h'.shape n).length ∧
    ∀ (k : Nat) (e : EId), (h'.node n).edges[k]? = some e → Fits h' n k e ∧
      ∀ p ∈ neighbours h cn, (h'.edge e).node1 ≠ some p ∧ (h'.edge e).node2 ≠ some p
  /-- the value of every network with the copy node and its neighbours is unchanged -/
  value : ∀ rest : List NId, ((neighbours h cn ++ [cn]) ++ rest).Nodup → (∀ n ∈ rest, n < h.nn) →
    ∀ σ : EId → Nat,
    (∀ e ∈ flatL (netOf h ((neighbours h cn ++ [cn]) ++ rest)),
      (flatL (netOf h ((neighbours h cn ++ [cn]) ++ rest))).count e ≠ 2 → σ e < edim h e) →
    netVal (netOf h' (new :: rest)) σ = netVal (netOf h ((neighbours h cn ++ [cn]) ++ rest)) σ

/-! ### Lemmas -/

theorem movedRec_ends {r : EdgeRec} (hg : r.Good) {tgt : Slot → Slot} {src : List (EId × Slot)}
    (hout : ∀ s, s ∉ src.map Prod.snd → tgt s = s)
    (hboth : ∀ s ∈ r.ends, ∀ s' ∈ r.ends, s.1 = s'.1 →
      (s ∈ src.map Prod.snd ↔ s' ∈ src.map Prod.snd)) :
    (movedRec (visited tgt src) r).Good ∧
      (movedRec (visited tgt src) r).dangling = r.dangling ∧
      (movedRec (visited tgt src) r).ends = r.ends.map tgt := by
  have hv : ∀ s, (visited tgt src s).getD s = tgt s := by
    intro s
    unfold visited
    by_cases h : s ∈ src.map Prod.snd
    · rw [if_pos h]; rfl
    · rw [if_neg h]; exact (hout s h).symm
  rcases hg with ⟨n, a, rfl⟩ | ⟨n, a, m, b, rfl⟩
  · rw [movedRec_dang, hv]
    exact ⟨good_dang _ _, rfl, by simp⟩
  · by_cases hc : n = m ∧ b < a
    · obtain ⟨rfl, hlt⟩ := hc
      rw [movedRec_crossed _ hlt]
      refine ⟨good_conn _ _ _ _, rfl, ?_⟩
      have h1 := hboth (n, a) (by simp) (n, b) (by simp) rfl
      by_cases h : (n, a) ∈ src.map Prod.snd
      · have h2 := h1.1 h
        simp only [visited, if_pos h, if_pos h2, Option.getD_some, ends_conn]
        simp only [Multiset.insert_eq_cons, Multiset.map_cons, Multiset.map_singleton, Prod.mk.eta]
        exact Multiset.cons_swap _ _ _
      · have h2 := fun x => h (h1.2 x)
        simp only [visited, if_neg h, if_neg h2, Option.getD_none, ends_conn]
        simp [hout _ h, hout _ h2]
    · rw [movedRec_conn _ hc, hv, hv]
      exact ⟨good_conn _ _ _ _, rfl, by simp⟩

theorem Freshened.congr {h h' : Heap R} {A B : List NId} (x : Freshened h h' A)
    (hAB : ∀ n, n ∈ A ↔ n ∈ B) : Freshened h h' B :=
  ⟨x.nn, x.ne, fun n hn => x.other n (fun h => hn ((hAB n).1 h)), x.tensor, x.len,
    fun n hn => x.fresh n ((hAB n).2 hn), x.old⟩

theorem Freshened.refl (h : Heap R) : Freshened h h [] :=
  ⟨rfl, le_refl _, fun _ _ => rfl, fun _ => rfl, fun _ => rfl, fun _ hn => by simp at hn,
    fun _ _ => rfl⟩

theorem freshAll (P : List NId) : ∀ h : Heap R, Freshened h (P.foldl freshHeap h) P := by
  induction P with
  | nil => exact Freshened.refl
  | cons p P ih =>
    intro h
    exact (freshHeap_freshened h p).trans (ih (freshHeap h p))

section
variable {h : Heap R} {cn : NId}

theorem otherEnd_iff (w : WF h) (hcn : cn < h.nn) {e : EId} (he : e ∈ (h.node cn).edges)
    (hd : (h.edge e).dangling = false) {p : NId} :
    otherEnd h cn e = some p ↔ p ≠ cn ∧ ∃ k, At h (p, k) e := by
  have hat := at_of_mem hcn he
  have hu := hat.inUse
  rcases w.good hu with ⟨n, a, hr⟩ | ⟨n, a, m, b, hr⟩
  · rw [hr] at hd; simp at hd
  have hiff := fun s => at_conn w hu hr (s := s)
  unfold otherEnd
  rw [hr]
  by_cases h1 : n = cn
  · rw [if_pos (by rw [h1])]
    by_cases h2 : m = cn
    · rw [if_pos (by rw [h2])]
      constructor
      · intro h; simp at h
      · rintro ⟨h3, k, h4⟩
        rcases (hiff _).1 h4 with h5 | h5
        · exact absurd ((Prod.mk.inj h5).1.trans h1) h3
        · exact absurd ((Prod.mk.inj h5).1.trans h2) h3
    · rw [if_neg (by simpa using h2)]
      constructor
      · intro h
        obtain rfl : m = p := by simpa using h
        exact ⟨h2, b, (hiff _).2 (.inr rfl)⟩
      · rintro ⟨h3, k, h4⟩
        rcases (hiff _).1 h4 with h5 | h5
        · exact absurd ((Prod.mk.inj h5).1.trans h1) h3
        · rw [(Prod.mk.inj h5).1]
  · rw [if_neg (by simpa using h1)]
    have h2 : m = cn := by
      rcases (hiff _).1 hat with z | z
      · exact absurd (Prod.mk.inj z).1.symm h1
      · exact (Prod.mk.inj z).1.symm
    constructor
    · intro h
      obtain rfl : n = p := by simpa using h
      exact ⟨h1, a, (hiff _).2 (.inl rfl)⟩
    · rintro ⟨h3, k, h4⟩
      rcases (hiff _).1 h4 with h5 | h5
      · rw [(Prod.mk.inj h5).1]
      · exact absurd ((Prod.mk.inj h5).1.trans h2) h3

theorem mem_neighbours (w : WF h) (hcn : cn < h.nn)
    (hd : ∀ e ∈ (h.node cn).edges, (h.edge e).dangling = false) {p : NId} :
    p ∈ neighbours h cn ↔ p ≠ cn ∧ ∃ e ∈ (h.node cn).edges, ∃ k, At h (p, k) e := by
  unfold neighbours
  rw [List.mem_eraseDups, List.mem_filterMap]
  constructor
  · rintro ⟨e, h1, h2⟩
    obtain ⟨h3, h4⟩ := (otherEnd_iff w hcn h1 (hd e h1)).1 h2
    exact ⟨h3, e, h1, h4⟩
  · rintro ⟨h1, e, h2, h3⟩
    exact ⟨e, h2, (otherEnd_iff w hcn h2 (hd e h2)).2 ⟨h1, h3⟩⟩

theorem nodup_eraseDups' (l : List Nat) : l.eraseDups.Nodup := by
  induction hl : l.length using Nat.strong_induction_on generalizing l with
  | _ n ih =>
    cases l with
    | nil => simp
    | cons a l =>
      rw [List.eraseDups_cons, List.nodup_cons]
      constructor
      · rw [List.mem_eraseDups]; simp
      · refine ih _ ?_ _ rfl
        rw [← hl, List.length_cons]
        exact Nat.lt_succ_of_le (List.length_filter_le _ _)

theorem neighbours_nodup : (neighbours h cn).Nodup := nodup_eraseDups' _

theorem partners_shared {ps : List (NId × List Nat)}
    (hp : PartnersOf h cn (h.node cn).edges ps) (hlt : ∀ p ∈ neighbours h cn, p < h.nn)
    (hcn : cn ∉ neighbours h cn) :
    ∀ p ∈ ps, Copy.Shared (h.node cn).edges.dedup (h.node p.1).edges p.2 := by
  intro p hpm k e hk
  have hpn : p.1 ∈ neighbours h cn := by
    unfold neighbours; rw [← hp.fst]; exact List.mem_map.2 ⟨p, hpm, rfl⟩
  have hat : At h (p.1, k) e := ⟨hlt _ hpn, hk⟩
  have hne : p.1 ≠ cn := fun h => hcn (h ▸ hpn)
  rw [List.mem_dedup]
  constructor
  · intro hka
    obtain ⟨_, e', he', hat'⟩ := (hp.axes p.1 k).1 ⟨p.2, hpm, hka⟩
    rw [hat.unique hat']
    exact he'
  · intro he
    obtain ⟨ax, h1, h2⟩ := (hp.axes p.1 k).2 ⟨hne, e, he, hat⟩
    have hn : (ps.map Prod.fst).Nodup := by
      rw [hp.fst]; exact nodup_eraseDups' _
    have := List.inj_on_of_nodup_map hn h1 hpm rfl
    rw [← this]
    exact h2

theorem sumOver_copyNode [CommSemiring R] {P : List NId} {r d : Nat}
    (ht : (h.node cn).tensor = Copy.makeCopyTensor r d)
    (hdim : ∀ e ∈ (h.node cn).edges, edim h e = d) (hne : (h.node cn).edges ≠ [])
    (τ : EId → Nat) :
    sumOver (edim h) (h.node cn).edges.dedup (prodVal (netOf h (P ++ [cn]))) τ =
      ∑ i ∈ range d, prodVal (netOf h P) (Copy.setAll (h.node cn).edges.dedup i τ) := by
  obtain ⟨a, S, hS⟩ : ∃ a S, (h.node cn).edges.dedup = a :: S := by
    rcases hx : (h.node cn).edges.dedup with _ | ⟨a, S⟩
    · rw [List.dedup_eq_nil] at hx; exact absurd hx hne
    · exact ⟨a, S, rfl⟩
  have hmem : ∀ e, e ∈ (h.node cn).edges ↔ e ∈ a :: S := by
    intro e; rw [← hS, List.mem_dedup]
  rw [hS]
  rw [← Copy.sumOver_copy (prodVal (netOf h P)) τ (hS ▸ List.nodup_dedup _)
    (fun e he => hdim e ((hmem e).2 he))]
  congr 1
  funext σ
  unfold netOf prodVal
  rw [List.map_append, List.map_append, List.prod_append]
  congr 1
  simp only [List.map_cons, List.map_nil, List.prod_cons, List.prod_nil, mul_one]
  rw [ht]
  unfold val Copy.makeCopyTensor
  simp only
  congr 1
  rcases hx : (h.node cn).edges with _ | ⟨b, es⟩
  · exact absurd hx hne
  · rw [hx] at hmem
    simp only [List.map_cons, List.headD_cons, eq_iff_iff]
    constructor
    · intro hall e he
      have h1 : ∀ e ∈ b :: es, σ e = σ b := by
        intro e he
        exact hall (σ e) (by rw [← List.map_cons]; exact List.mem_map.2 ⟨e, he, rfl⟩)
      rw [h1 e ((hmem e).2 he), h1 a ((hmem a).2 (by simp))]
    · intro hall x hx'
      rw [← List.map_cons (f := σ)] at hx'
      obtain ⟨e, he, rfl⟩ := List.mem_map.1 hx'
      rw [hall e ((hmem e).1 he), hall b ((hmem b).1 (by simp))]

/-- The copy node's edges all have dimension `d`. -/
theorem copy_edim [CommSemiring R] (w : WF h) (hcn : cn < h.nn) {r d : Nat}
    (ht : (h.node cn).tensor = Copy.makeCopyTensor r d) :
    ∀ e ∈ (h.node cn).edges, edim h e = d := by
  intro e he
  have hat := at_of_mem hcn he
  rw [w.edim_eq hat]
  have hl := hat.lt_len
  have hlen : (h.node cn).edges.length = r := by
    rw [w.len cn hcn, ht]; simp [Copy.makeCopyTensor, NDArray.ndim]
  simp only at hl
  simp only [dimAt, Heap.shape, ht, Copy.makeCopyTensor]
  rw [List.getD_eq_getElem _ _ (by rw [List.length_replicate]; omega), List.getElem_replicate]

/-- `compute_contracted_tensor`. -/
theorem computeContracted_ok [CommSemiring R] (w : WF h) (hcn : cn < h.nn) {r d : Nat}
    (ht : (h.node cn).tensor = Copy.makeCopyTensor r d)
    (hd : ∀ e ∈ (h.node cn).edges, (h.edge e).dangling = false)
    (hP : neighbours h cn ≠ [])
    (hlen : (((neighbours h cn).flatMap fun n => (h.node n).edges).filter
      fun e => e ∉ (h.node cn).edges).length < 52) :
    ∃ t, computeContracted cn h = (.ok t, h) ∧
      Shaped (edim h) t (((neighbours h cn).flatMap fun n => (h.node n).edges).filter
        fun e => e ∉ (h.node cn).edges.dedup) ∧
      ∀ τ : EId → Nat, val t (((neighbours h cn).flatMap fun n => (h.node n).edges).filter
        fun e => e ∉ (h.node cn).edges.dedup) τ =
          ∑ i ∈ range d, prodVal (netOf h (neighbours h cn))
            (Copy.setAll (h.node cn).edges.dedup i τ) := by
  have hmem := fun p => mem_neighbours w hcn hd (p := p)
  have hlt : ∀ p ∈ neighbours h cn, p < h.nn := by
    intro p hp
    obtain ⟨_, e, _, k, hk⟩ := (hmem p).1 hp
    exact hk.1
  have hcnP : cn ∉ neighbours h cn := fun hm => ((hmem cn).1 hm).1 rfl
  obtain ⟨ps, g1, g2⟩ := getPartners_ok w hcn hd
  have hfst : ps.map Prod.fst = neighbours h cn := g2.fst
  have hsh := partners_shared g2 hlt hcnP
  obtain ⟨S, hS⟩ : ∃ S, S = (h.node cn).edges.dedup := ⟨_, rfl⟩
  have hnet : netOf h (neighbours h cn) =
      ps.map fun p => ((h.node p.1).tensor, (h.node p.1).edges) := by
    rw [netOf, ← hfst, List.map_map]; rfl
  have hess : (netOf h (neighbours h cn)).map Prod.snd = ps.map fun p => (h.node p.1).edges := by
    rw [hnet, List.map_map]; rfl
  have hts : (netOf h (neighbours h cn)).map Prod.fst = ps.map fun p => (h.node p.1).tensor := by
    rw [hnet, List.map_map]; rfl
  have hflat : ((netOf h (neighbours h cn)).map Prod.snd).flatten =
      (neighbours h cn).flatMap fun n => (h.node n).edges := by
    rw [netOf, List.map_map, List.flatMap_def]; rfl
  have hrest : Copy.rest S ((netOf h (neighbours h cn)).map Prod.snd).flatten =
      ((neighbours h cn).flatMap fun n => (h.node n).edges).filter fun e => e ∉ S := by
    rw [hflat]; rfl
  have hfil : (((neighbours h cn).flatMap fun n => (h.node n).edges).filter fun e => e ∉ S) =
      ((neighbours h cn).flatMap fun n => (h.node n).edges).filter
        fun e => e ∉ (h.node cn).edges := by
    refine List.filter_congr fun e _ => ?_
    simp [hS]
  have hex := Copy.einsumExpression_eq (S := S)
    (ps := ps.map fun p => ((h.node p.1).edges, p.2)) (by
      intro q hq
      obtain ⟨p, hp, rfl⟩ := List.mem_map.1 hq
      rw [hS]
      exact hsh p hp) (by
      have h1 : ((ps.map fun p => ((h.node p.1).edges, p.2)).map Prod.fst) =
          (netOf h (neighbours h cn)).map Prod.snd := by
        rw [hess, List.map_map]; rfl
      rw [h1, hrest, hfil]
      omega)
  have h1 : ((ps.map fun p => ((h.node p.1).edges, p.2)).map Prod.fst) =
      (netOf h (neighbours h cn)).map Prod.snd := by
    rw [hess, List.map_map]; rfl
  rw [h1, List.map_map] at hex
  have h2 : (ps.map ((fun p : List Nat × List Nat => (p.1.length, p.2)) ∘
      fun p : NId × List Nat => ((h.node p.1).edges, p.2))) =
      ps.map fun p => ((h.shape p.1).length, p.2) := by
    refine List.map_congr_left fun p hp => ?_
    simp only [Function.comp]
    rw [w.len p.1 (hlt _ (by rw [← hfst]; exact List.mem_map.2 ⟨p, hp, rfl⟩))]
    rfl
  rw [h2] at hex
  obtain ⟨t, e1, e2, e3⟩ := Copy.einsum_terms (net := netOf h (neighbours h cn)) (S := S)
    (dim := edim h) (d := d) (w.consistent hlt)
    (fun e he => copy_edim w hcn ht e (by rw [hS] at he; simpa using he)) (by
      rw [hflat]
      obtain ⟨p, hp⟩ := List.exists_mem_of_ne_nil _ hP
      obtain ⟨_, e, he, k, hk⟩ := (hmem p).1 hp
      exact ⟨e, List.mem_flatMap.2 ⟨p, hp, List.mem_of_getElem? hk.2⟩, by rw [hS]; simpa using he⟩)
    (by rw [hrest, hfil]; exact hlen)
  rw [← hS]
  rw [hrest] at e2 e3
  refine ⟨t, ?_, e2, e3⟩
  unfold computeContracted
  refine (M.bind_ok g1).trans ?_
  rw [get_bind]
  refine (M.bind_ok (a := (Copy.termsOf S ((netOf h (neighbours h cn)).map Prod.snd) 1,
    List.range' 1 (Copy.rest S ((netOf h (neighbours h cn)).map Prod.snd).flatten).length))
    (h' := h) (by rw [M.lift_apply, hex])).trans ?_
  rw [M.lift_apply]
  simp only
  rw [← hts, e1]

end

end TN.Graph
