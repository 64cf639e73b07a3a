import Verif.QuAlgebra3

/-!
# The algebra of `QuOperator`s (C55): the theorems

`elem h N q g o i` is the element of the operator `q` on the nodes `N` at the positions `o` of its outputs,
`i` of its inputs and `g` of its ignored edges.
-/

set_option linter.unusedSectionVars false

namespace TN.Graph

open TN Finset

variable {R : Type} [CommSemiring R]

/-- The orders in which sets are visited are orders of their elements. -/
structure Run.Fair (r : Run R) : Prop where
  queue : ∀ l, (r.queue l).Perm l
  vis : ∀ l, (r.vis l).Perm l
  ie : ∀ l, (r.ie l).Perm l

theorem QuNet.swap {h : Heap R} {q : QuOp} {N : List NId} (x : QuNet h q N) :
    QuNet h ⟨q.inn, q.out, q.ign, q.refs⟩ N :=
  { x with
    reach := fun n hn => by
      obtain ⟨m, h1, h2⟩ := x.reach n hn
      refine ⟨m, ?_, h2⟩
      rcases h1 with h1 | ⟨e, h1, h3⟩
      · exact .inl h1
      · exact .inr ⟨e, by simp only [List.mem_append] at h1 ⊢; tauto, h3⟩
    edup := by
      refine (List.Perm.nodup_iff ?_).1 x.edup
      rw [List.append_assoc, List.append_assoc]
      exact List.Perm.append_left _ List.perm_append_comm
    edges := fun e => by
      rw [← x.edges]
      simp only [List.mem_append]
      tauto }

theorem elem_swap {h : Heap R} (w : WF h) {q : QuOp} {N : List NId} (x : QuNet h q N) {g o i : List Nat}
    (hg : g.length = q.ign.length) (ho : o.length = q.inn.length) (hi : i.length = q.out.length) :
    elem h N ⟨q.inn, q.out, q.ign, q.refs⟩ g o i = elem h N q g i o := by
  have y := x.swap
  obtain ⟨h1, h2, h3⟩ := assign_parts (σ := fun _ => 0) y.edup (x := g) (y := o) (z := i) hg ho hi
  obtain ⟨σ, hσ⟩ : ∃ σ : EId → Nat, σ = assign (fun _ => 0) (q.ign ++ q.inn ++ q.out) (g ++ o ++ i) := ⟨_, rfl⟩
  simp only [] at h1 h2 h3
  rw [← hσ] at h1 h2 h3
  have e1 := y.elem_eq w σ
  have e2 := x.elem_eq w σ
  simp only [] at e1
  rw [h1, h2, h3] at e1 e2
  rw [e1, e2]

/-- `adjoint()`: a new operator with the conjugate elements, inputs and outputs exchanged; everything that
existed is unchanged. -/
theorem C55_adjoint {r : Run R} (fr : r.Fair) (cj : R →+* R) {h : Heap R} (gr : GraphOK h) {q : QuOp}
    {N : List NId} (x : QuNet h q N) :
    ∃ fuel₀ q' h' N', (∀ fuel ≥ fuel₀, quAdjoint { r with fuel := fuel } cj q h = (.ok (some q'), h')) ∧
      GraphOK h' ∧ Kept h h' ∧ QuNet h' q' N' ∧
      dims h' q'.out = dims h q.inn ∧ dims h' q'.inn = dims h q.out ∧ dims h' q'.ign = dims h q.ign ∧
      ∀ g o i, g.length = q.ign.length → o.length = q.inn.length → i.length = q.out.length →
        elem h' N' q' g o i = cj (elem h N q g i o) := by
  have w := graphOK_iff.1 gr
  obtain ⟨f1, nd, d, h', c, E, h1, h2, h3, h4, h5⟩ := quCopy_run r fr.queue fr.vis fr.ie cj true w x
  rw [if_pos rfl] at h2
  have w' := graphOK_iff.1 h2.ok
  have y := (h2.quNet w x).swap
  obtain ⟨f2, h6⟩ := quantumConstructor_run r fr.queue w' y
  have hl : ∀ (es : List EId), (∀ e ∈ es, OpenEdge h N e) → lookups d es h' = (.ok (es.map E), h') := fun es he =>
    lookups_run es fun e h7 => h5 e (he e h7)
  have ho : ∀ e ∈ q.out, OpenEdge h N e := fun e he => x.mem (.inr (.inl he))
  have hi : ∀ e ∈ q.inn, OpenEdge h N e := fun e he => x.mem (.inr (.inr he))
  have hg : ∀ e ∈ q.ign, OpenEdge h N e := fun e he => x.mem (.inl he)
  refine ⟨max f1 f2, _, h', N.map c, fun fuel hf => ?_, h2.ok, h2.kept, y, h2.dims w hi, h2.dims w ho,
    h2.dims w hg, ?_⟩
  · unfold quAdjoint
    rw [M.bind_ok (h1 fuel (le_trans (le_max_left _ _) hf))]
    simp only
    rw [M.bind_ok (hl _ hi), M.bind_ok (hl _ ho),
      M.bind_ok (lookups_run (ρ := c) q.refs fun n hn => h4 n (x.refs n hn)), M.bind_ok (hl _ hg)]
    exact h6 fuel (le_trans (le_max_right _ _) hf)
  · intro g o i l1 l2 l3
    rw [elem_swap w' (h2.quNet w x) (by simpa [QuOp.image] using l1) (by simpa [QuOp.image] using l2)
      (by simpa [QuOp.image] using l3)]
    exact h2.elem cj w x l1 l3 l2

/-- Two copies one after the other. -/
theorem quCopy_two {r : Run R} (fr : r.Fair) (cj : R → R) {h : Heap R} (w : WF h) {a b : QuOp}
    {N P : List NId} (x : QuNet h a N) (y : QuNet h b P) :
    ∃ fuel₀ nd1 d1 nd2 d2 h1 h2 c1 E1 c2 E2,
      (∀ fuel ≥ fuel₀, quCopy { r with fuel := fuel } cj false a h = (.ok (some (nd1, d1)), h1) ∧
        quCopy { r with fuel := fuel } cj false b h1 = (.ok (some (nd2, d2)), h2)) ∧
      WF h2 ∧ Kept h h2 ∧ QuNet h2 (a.image c1 E1) (N.map c1) ∧ QuNet h2 (b.image c2 E2) (P.map c2) ∧
      (∀ n ∈ N.map c1, n ∉ P.map c2) ∧ (∀ n ∈ N.map c1 ++ P.map c2, h.nn ≤ n) ∧
      (nd1.map Prod.snd).Perm (N.map c1) ∧ (nd2.map Prod.snd).Perm (P.map c2) ∧
      (∀ e, OpenEdge h N e → d1 e = some (E1 e)) ∧ (∀ e, OpenEdge h P e → d2 e = some (E2 e)) ∧
      (∀ es : List EId, (∀ e ∈ es, OpenEdge h N e) → dims h2 (es.map E1) = dims h es) ∧
      (∀ es : List EId, (∀ e ∈ es, OpenEdge h P e) → dims h2 (es.map E2) = dims h es) ∧
      (∀ g o i, g.length = a.ign.length → o.length = a.out.length → i.length = a.inn.length →
        elem h2 (N.map c1) (a.image c1 E1) g o i = elem h N a g o i) ∧
      (∀ g o i, g.length = b.ign.length → o.length = b.out.length → i.length = b.inn.length →
        elem h2 (P.map c2) (b.image c2 E2) g o i = elem h P b g o i) := by
  obtain ⟨f1, nd1, d1, h1, c1, E1, p1, p2, p3, p4, p5⟩ := quCopy_run r fr.queue fr.vis fr.ie cj false w x
  rw [if_neg (by simp)] at p2
  have w1 := graphOK_iff.1 p2.ok
  have k1 := p2.kept
  have y1 := k1.quNet w y
  obtain ⟨f2, nd2, d2, h2, c2, E2, q1, q2, q3, q4, q5⟩ := quCopy_run r fr.queue fr.vis fr.ie cj false w1 y1
  rw [if_neg (by simp)] at q2
  have w2 := graphOK_iff.1 q2.ok
  have k2 := q2.kept
  have xa := p2.quNet w x
  have p2' : Copied h h1 N c1 E1 (RingHom.id R) := p2
  have q2' : Copied h1 h2 P c2 E2 (RingHom.id R) := q2
  have hop : ∀ e, OpenEdge h P e → OpenEdge h1 P e := fun e he => (k1.open_iff w y.lt).2 he
  refine ⟨max f1 f2, nd1, d1, nd2, d2, h1, h2, c1, E1, c2, E2, fun fuel hf =>
    ⟨p1 fuel (le_trans (le_max_left _ _) hf), q1 fuel (le_trans (le_max_right _ _) hf)⟩, w2, k1.trans k2,
    k2.quNet w1 xa, q2.quNet w1 y1, ?_, ?_, p3, q3, p5, fun e he => q5 e (hop e he), ?_, ?_, ?_, ?_⟩
  · intro n hn hm
    have := xa.lt n hn
    obtain ⟨m, hm', rfl⟩ := List.mem_map.1 hm
    have := ((q2.new_node (c2 m)).2 ⟨m, hm', rfl⟩).1
    omega
  · intro n hn
    rcases List.mem_append.1 hn with hn | hn
    · obtain ⟨m, hm, rfl⟩ := List.mem_map.1 hn
      exact ((p2.new_node (c1 m)).2 ⟨m, hm, rfl⟩).1
    · obtain ⟨m, hm, rfl⟩ := List.mem_map.1 hn
      exact k1.nn.trans ((q2.new_node (c2 m)).2 ⟨m, hm, rfl⟩).1
  · intro es he
    rw [k2.dims w1 w2 (N := N.map c1), p2.dims w he]
    intro e h3
    obtain ⟨e', h4, rfl⟩ := List.mem_map.1 h3
    exact (p2.open_iff w x.lt x.closed).2 ⟨e', he e' h4, rfl⟩
  · intro es he
    rw [q2.dims w1 fun e h3 => hop e (he e h3)]
    exact k1.dims w w1 he
  · intro g o i l1 l2 l3
    rw [k2.elem xa, p2'.elem (RingHom.id R) w x l1 l2 l3]
    rfl
  · intro g o i l1 l2 l3
    rw [q2'.elem (RingHom.id R) w1 y1 l1 l2 l3, RingHom.id_apply, k1.elem y]

/-- `A.tensor_product(B)`: the elements are the products of the elements of `A` and `B`. -/
theorem C55_tensor_product {r : Run R} (fr : r.Fair) (cj : R → R) {h : Heap R} (gr : GraphOK h) {a b : QuOp}
    {N P : List NId} (x : QuNet h a N) (y : QuNet h b P) :
    ∃ fuel₀ q h' L, (∀ fuel ≥ fuel₀, quTensor { r with fuel := fuel } cj a b h = (.ok (some q), h')) ∧
      GraphOK h' ∧ Kept h h' ∧ QuNet h' q L ∧
      dims h' q.out = dims h (a.out ++ b.out) ∧ dims h' q.inn = dims h (a.inn ++ b.inn) ∧
      dims h' q.ign = dims h (a.ign ++ b.ign) ∧
      ∀ ga gb oa ob ia ib, ga.length = a.ign.length → gb.length = b.ign.length → oa.length = a.out.length →
        ob.length = b.out.length → ia.length = a.inn.length → ib.length = b.inn.length →
        elem h' L q (ga ++ gb) (oa ++ ob) (ia ++ ib) = elem h N a ga oa ia * elem h P b gb ob ib := by
  have w := graphOK_iff.1 gr
  obtain ⟨f1, nd1, d1, nd2, d2, h1, h2, c1, E1, c2, E2, p1, w2, k, xa, yb, hd, -, r1, r2, e1, e2, m1, m2, v1, v2⟩ :=
    quCopy_two fr cj w x y
  have z := xa.beside yb hd (r1.append r2)
  obtain ⟨f2, p2⟩ := quantumConstructor_run r fr.queue w2 z
  have hla : ∀ (es : List EId), (∀ e ∈ es, OpenEdge h N e) → lookups d1 es h2 = (.ok (es.map E1), h2) :=
    fun es he => lookups_run es fun e h7 => e1 e (he e h7)
  have hlb : ∀ (es : List EId), (∀ e ∈ es, OpenEdge h P e) → lookups d2 es h2 = (.ok (es.map E2), h2) :=
    fun es he => lookups_run es fun e h7 => e2 e (he e h7)
  have ao : ∀ e ∈ a.out, OpenEdge h N e := fun e he => x.mem (.inr (.inl he))
  have ai : ∀ e ∈ a.inn, OpenEdge h N e := fun e he => x.mem (.inr (.inr he))
  have ag : ∀ e ∈ a.ign, OpenEdge h N e := fun e he => x.mem (.inl he)
  have bo : ∀ e ∈ b.out, OpenEdge h P e := fun e he => y.mem (.inr (.inl he))
  have bi : ∀ e ∈ b.inn, OpenEdge h P e := fun e he => y.mem (.inr (.inr he))
  have bg : ∀ e ∈ b.ign, OpenEdge h P e := fun e he => y.mem (.inl he)
  have hdapp : ∀ (k : Heap R) (s t : List EId), dims k (s ++ t) = dims k s ++ dims k t := by
    intro k s t; simp [dims]
  refine ⟨max f1 f2, _, h2, _, fun fuel hf => ?_, graphOK_iff.2 w2, k, z, ?_, ?_, ?_, ?_⟩
  · obtain ⟨s1, s2⟩ := p1 fuel (le_trans (le_max_left _ _) hf)
    unfold quTensor
    rw [M.bind_ok s1]
    simp only
    rw [M.bind_ok s2]
    simp only
    rw [M.bind_ok (hla _ ai), M.bind_ok (hlb _ bi), M.bind_ok (hla _ ao), M.bind_ok (hlb _ bo),
      M.bind_ok (hla _ ag), M.bind_ok (hlb _ bg)]
    exact p2 fuel (le_trans (le_max_right _ _) hf)
  · simp only [QuOp.beside, QuOp.image]
    rw [hdapp, hdapp, m1 _ ao, m2 _ bo]
  · simp only [QuOp.beside, QuOp.image]
    rw [hdapp, hdapp, m1 _ ai, m2 _ bi]
  · simp only [QuOp.beside, QuOp.image]
    rw [hdapp, hdapp, m1 _ ag, m2 _ bg]
  · intro ga gb oa ob ia ib l1 l2 l3 l4 l5 l6
    obtain ⟨t1, t2, t3⟩ := assign_parts (σ := fun _ => 0) z.edup (x := ga ++ gb) (y := oa ++ ob) (z := ia ++ ib)
      (by simp [QuOp.beside, QuOp.image, l1, l2]) (by simp [QuOp.beside, QuOp.image, l3, l4])
      (by simp [QuOp.beside, QuOp.image, l5, l6])
    unfold elem at v1 v2 ⊢
    obtain ⟨σ, hσ⟩ : ∃ σ : EId → Nat, σ = assign (fun _ => 0)
      (((a.image c1 E1).beside (b.image c2 E2) (nd1.map Prod.snd ++ nd2.map Prod.snd)).ign ++
        ((a.image c1 E1).beside (b.image c2 E2) (nd1.map Prod.snd ++ nd2.map Prod.snd)).out ++
        ((a.image c1 E1).beside (b.image c2 E2) (nd1.map Prod.snd ++ nd2.map Prod.snd)).inn)
      (ga ++ gb ++ (oa ++ ob) ++ (ia ++ ib)) := ⟨_, rfl⟩
    rw [← hσ] at t1 t2 t3 ⊢
    simp only [QuOp.beside, List.map_append] at t1 t2 t3
    obtain ⟨t1a, t1b⟩ := List.append_inj t1 (by simp [QuOp.image, l1])
    obtain ⟨t2a, t2b⟩ := List.append_inj t2 (by simp [QuOp.image, l3])
    obtain ⟨t3a, t3b⟩ := List.append_inj t3 (by simp [QuOp.image, l5])
    rw [xa.elem_beside w2 yb hd, t1a, t1b, t2a, t2b, t3a, t3b]
    unfold elem
    rw [v1 _ _ _ l1 l3 l5, v2 _ _ _ l2 l4 l6]

/-- `A @ B`: the elements are the elements of the product of the matrices. -/
theorem C55_matmul {r : Run R} (fr : r.Fair) (cj : R → R) {h : Heap R} (gr : GraphOK h) {a b : QuOp}
    {N P : List NId} (x : QuNet h a N) (y : QuNet h b P) (hsp : dims h a.inn = dims h b.out) :
    ∃ fuel₀ q h' L, (∀ fuel ≥ fuel₀, quMatmul { r with fuel := fuel } cj a b h = (.ok (some q), h')) ∧
      GraphOK h' ∧ Kept h h' ∧ QuNet h' q L ∧
      dims h' q.out = dims h a.out ∧ dims h' q.inn = dims h b.inn ∧ dims h' q.ign = dims h (a.ign ++ b.ign) ∧
      ∀ ga gb o i, ga.length = a.ign.length → gb.length = b.ign.length → o.length = a.out.length →
        i.length = b.inn.length →
        elem h' L q (ga ++ gb) o i = sumIdx (dims h a.inn) fun k => elem h N a ga o k * elem h P b gb k i := by
  have w := graphOK_iff.1 gr
  obtain ⟨f1, nd1, d1, nd2, d2, h1, h2, c1, E1, c2, E2, p1, w2, k, xa, yb, hd, hnew, r1, r2, e1, e2, m1, m2, v1, v2⟩ :=
    quCopy_two fr cj w x y
  have z := xa.beside yb hd (List.Perm.refl _)
  have ao : ∀ e ∈ a.out, OpenEdge h N e := fun e he => x.mem (.inr (.inl he))
  have ai : ∀ e ∈ a.inn, OpenEdge h N e := fun e he => x.mem (.inr (.inr he))
  have ag : ∀ e ∈ a.ign, OpenEdge h N e := fun e he => x.mem (.inl he)
  have bo : ∀ e ∈ b.out, OpenEdge h P e := fun e he => y.mem (.inr (.inl he))
  have bi : ∀ e ∈ b.inn, OpenEdge h P e := fun e he => y.mem (.inr (.inr he))
  have bg : ∀ e ∈ b.ign, OpenEdge h P e := fun e he => y.mem (.inl he)
  have hlen : a.inn.length = b.out.length := by simpa [dims] using congrArg List.length hsp
  -- the pairs
  obtain ⟨ps, hps⟩ : ∃ ps, ps = (a.inn.zip b.out).map fun p => (E1 p.1, E2 p.2) := ⟨_, rfl⟩
  have hps' : ps = (a.inn.map E1).zip (b.out.map E2) := by
    rw [hps, List.zip_map]
    rfl
  have hfst : ps.map Prod.fst = a.inn.map E1 := by
    rw [hps', List.map_fst_zip]; simp [hlen]
  have hsnd : ps.map Prod.snd = b.out.map E2 := by
    rw [hps', List.map_snd_zip]; simp [hlen]
  have zd := z.edup
  simp only [QuOp.beside, QuOp.image] at zd
  have hpn : (ps.map Prod.fst ++ ps.map Prod.snd).Nodup := by
    rw [hfst, hsnd, List.nodup_iff_count_le_one]
    rw [List.nodup_iff_count_le_one] at zd
    intro e
    have := zd e
    simp only [List.count_append] at this ⊢
    omega
  have hopen : ∀ p ∈ ps, OpenEdge h2 (N.map c1 ++ P.map c2) p.1 ∧ OpenEdge h2 (N.map c1 ++ P.map c2) p.2 ∧
      edim h2 p.1 = edim h2 p.2 := by
    intro p hp
    rw [hps'] at hp
    obtain ⟨t, ht, hp⟩ := List.getElem_of_mem hp
    rw [List.getElem_zip] at hp
    have t1 : t < (a.inn.map E1).length := by simp at ht ⊢; omega
    have t2 : t < (b.out.map E2).length := by simp at ht ⊢; omega
    have hh : dims h2 (a.inn.map E1) = dims h2 (b.out.map E2) := by rw [m1 _ ai, m2 _ bo, hsp]
    have := congrArg (fun l => l[t]?) hh
    simp only [dims, List.getElem?_map, List.getElem?_eq_getElem (show t < a.inn.length by simpa using t1),
      List.getElem?_eq_getElem (show t < b.out.length by simpa using t2), Option.map_some, Option.some.injEq] at this
    rw [← hp]
    refine ⟨openEdge_append.2 (.inl (xa.mem (.inr (.inr (List.getElem_mem t1))))),
      openEdge_append.2 (.inr (yb.mem (.inr (.inl (List.getElem_mem t2))))), by simpa using this⟩
  obtain ⟨h3, p3, j⟩ := connectAll_ok z.nodup ps w2 z.lt z.closed hopen hpn
  have hkept : Kept h h3 := j.kept k hnew
  -- the new operator
  obtain ⟨q, hq⟩ : ∃ q : QuOp, q = ⟨a.out.map E1, b.inn.map E2, a.ign.map E1 ++ b.ign.map E2,
    nd1.map Prod.snd ++ nd2.map Prod.snd⟩ := ⟨_, rfl⟩
  have qn : QuNet h3 q (N.map c1 ++ P.map c2) := by
    refine j.quNet z ?_ ?_ ?_
    · intro n
      rw [hq]
      exact (r1.append r2).mem_iff
    · rw [hq]
      simp only
      rw [List.nodup_iff_count_le_one] at zd ⊢
      intro e
      have := zd e
      simp only [List.count_append] at this ⊢
      omega
    · intro e
      rw [hfst, hsnd, hq]
      simp only [QuOp.beside, QuOp.image]
      rw [List.nodup_iff_count_le_one] at zd
      have h0 := zd e
      simp only [← List.count_pos_iff, List.count_append] at h0 ⊢
      omega
  obtain ⟨f2, p4⟩ := quantumConstructor_run r fr.queue j.wf qn
  have hla : ∀ (es : List EId), (∀ e ∈ es, OpenEdge h N e) → lookups d1 es h3 = (.ok (es.map E1), h3) :=
    fun es he => lookups_run es fun e h7 => e1 e (he e h7)
  have hlb : ∀ (es : List EId), (∀ e ∈ es, OpenEdge h P e) → lookups d2 es h3 = (.ok (es.map E2), h3) :=
    fun es he => lookups_run es fun e h7 => e2 e (he e h7)
  have hdapp : ∀ (k : Heap R) (s t : List EId), dims k (s ++ t) = dims k s ++ dims k t := by
    intro k s t; simp [dims]
  refine ⟨max f1 f2, q, h3, _, fun fuel hf => ?_, graphOK_iff.2 j.wf, hkept, qn, ?_, ?_, ?_, ?_⟩
  · obtain ⟨s1, s2⟩ := p1 fuel (le_trans (le_max_left _ _) hf)
    have s3 : joinLoop d1 d2 (a.inn.zip b.out) h2 = (.ok (), h3) := by
      rw [joinLoop_run (E := E1) (F := E2) _ fun p hp => ?_, ← hps, p3]
      obtain ⟨t1, t2⟩ := List.of_mem_zip hp
      exact ⟨e1 _ (ai _ t1), e2 _ (bo _ t2)⟩
    unfold quMatmul
    rw [M.bind_ok (checkSpaces_ok w (fun e he => (openEdge_mem (ai e he)).1)
      (fun e he => (openEdge_mem (bo e he)).1) hsp), M.bind_ok s1]
    simp only
    rw [M.bind_ok s2]
    simp only
    rw [M.bind_ok s3, M.bind_ok (hlb _ bi), M.bind_ok (hla _ ao), M.bind_ok (hla _ ag), M.bind_ok (hlb _ bg), ← hq]
    exact p4 fuel (le_trans (le_max_right _ _) hf)
  · rw [j.dims (es := q.out) fun e he => qn.mem (.inr (.inl he)), hq, m1 _ ao]
  · rw [j.dims (es := q.inn) fun e he => qn.mem (.inr (.inr he)), hq, m2 _ bi]
  · rw [j.dims (es := q.ign) fun e he => qn.mem (.inl he), hq]
    simp only
    rw [hdapp, hdapp, m1 _ ag, m2 _ bg]
  · intro ga gb o i l1 l2 l3 l4
    obtain ⟨t1, t2, t3⟩ := assign_parts (σ := fun _ => 0) qn.edup (x := ga ++ gb) (y := o) (z := i)
      (by simp [hq, l1, l2]) (by simp [hq, l3]) (by simp [hq, l4])
    unfold elem
    obtain ⟨σ, hσ⟩ : ∃ σ : EId → Nat, σ = assign (fun _ => 0) (q.ign ++ q.out ++ q.inn) (ga ++ gb ++ o ++ i) :=
      ⟨_, rfl⟩
    rw [← hσ] at t1 t2 t3 ⊢
    rw [hq] at t1 t2 t3
    simp only [List.map_append] at t1 t2 t3
    obtain ⟨t1a, t1b⟩ := List.append_inj t1 (by simp [l1])
    rw [j.value σ, hfst, hsnd, sumOver_eq_sumIdx, show (a.inn.map E1).map (edim h2) = dims h a.inn from m1 _ ai]
    refine sumIdx_congr fun kk hkk => ?_
    have lk : kk.length = (a.inn.map E1).length := by simpa [dims] using hkk.length
    have lk' : kk.length = a.inn.length := by simpa using lk
    have nda : (a.inn.map E1).Nodup := hfst ▸ (List.nodup_append.1 hpn).1
    have ndb : (b.out.map E2).Nodup := hsnd ▸ (List.nodup_append.1 hpn).2.1
    rw [assign_map_self nda lk]
    obtain ⟨τ, hτ⟩ : ∃ τ : EId → Nat, τ = assign (assign σ (a.inn.map E1) kk) (b.out.map E2) kk := ⟨_, rfl⟩
    rw [← hτ, xa.elem_beside w2 yb hd]
    -- the four kinds of edges
    have hdisj : ∀ s t : List EId, (∀ e, s.count e + t.count e ≤ 1) → ∀ e ∈ s, e ∉ t := by
      intro s t hst e h5 h6
      have := hst e
      have := List.count_pos_iff.2 h5
      have := List.count_pos_iff.2 h6
      omega
    rw [List.nodup_iff_count_le_one] at zd
    have keep : ∀ s : List EId, (∀ e, s.count e + (a.inn.map E1).count e ≤ 1) →
        (∀ e, s.count e + (b.out.map E2).count e ≤ 1) → s.map τ = s.map σ := by
      intro s s1 s2
      rw [hτ, map_assign_of_disjoint (hdisj _ _ s2), map_assign_of_disjoint (hdisj _ _ s1)]
    have g1 : (a.ign.map E1).map τ = ga := by
      rw [keep, t1a] <;> intro e <;> have := zd e <;> simp only [List.count_append] at this <;> omega
    have g2 : (b.ign.map E2).map τ = gb := by
      rw [keep, t1b] <;> intro e <;> have := zd e <;> simp only [List.count_append] at this <;> omega
    have g3 : (a.out.map E1).map τ = o := by
      rw [keep, t2] <;> intro e <;> have := zd e <;> simp only [List.count_append] at this <;> omega
    have g4 : (b.inn.map E2).map τ = i := by
      rw [keep, t3] <;> intro e <;> have := zd e <;> simp only [List.count_append] at this <;> omega
    have g5 : (b.out.map E2).map τ = kk := by
      rw [hτ, assign_map_self ndb (by simpa using lk'.trans hlen)]
    have g6 : (a.inn.map E1).map τ = kk := by
      rw [hτ, map_assign_of_disjoint (hdisj _ _ fun e => by
        have := zd e
        simp only [List.count_append] at this
        omega), assign_map_self nda lk]
    simp only [QuOp.image] at v1 v2 ⊢
    rw [g1, g2, g3, g4, g5, g6, v1 _ _ _ l1 l3 lk', v2 _ _ _ l2 (lk'.trans hlen) l4]
    rfl

/-- `A @ B` of operators whose spaces do not fit raises `ValueError`, and nothing happened. -/
theorem C55_matmul_raises (r : Run R) (cj : R → R) {h : Heap R} (gr : GraphOK h) {a b : QuOp} {N P : List NId}
    (x : QuNet h a N) (y : QuNet h b P) (hsp : dims h a.inn ≠ dims h b.out) :
    quMatmul r cj a b h = (.error .valueError, h) := by
  unfold quMatmul
  exact M.bind_error (checkSpaces_err (graphOK_iff.1 gr) (fun e he => (openEdge_mem (x.mem (.inr (.inr he)))).1)
    (fun e he => (openEdge_mem (y.mem (.inr (.inl he)))).1) hsp)

end TN.Graph
