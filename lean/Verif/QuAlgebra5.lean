import Verif.QuAlgebra4

/-!
# The algebra of `QuOperator`s (C55): traces, norm, reduced density matrices
-/

set_option linter.unusedSectionVars false

namespace TN.Graph

open TN Finset

variable {R : Type} [CommSemiring R]

/-- The subsystems that stay. -/
def stay (n : Nat) (subs : List Nat) : List Nat := (List.range n).filter fun j => j ∉ subs

/-- The edges of the subsystems. -/
def edgesAt (es : List EId) (js : List Nat) : List EId := js.map fun j => es.getD j 0

theorem edgesAt_mem {es : List EId} {js : List Nat} (hj : ∀ j ∈ js, j < es.length) : ∀ e ∈ edgesAt es js, e ∈ es := by
  intro e he
  obtain ⟨j, h1, rfl⟩ := List.mem_map.1 he
  simp only [List.getD_eq_getElem es 0 (hj j h1)]
  exact List.getElem_mem _

theorem getD_inj {es : List EId} (hn : es.Nodup) {i j : Nat} (hi : i < es.length) (hj : j < es.length)
    (h : es.getD i 0 = es.getD j 0) : i = j := by
  rw [List.getD_eq_getElem _ _ hi, List.getD_eq_getElem _ _ hj] at h
  exact (hn.getElem_inj_iff).1 h

theorem edgesAt_nodup {es : List EId} (hn : es.Nodup) {js : List Nat} (hj : ∀ j ∈ js, j < es.length)
    (hjn : js.Nodup) : (edgesAt es js).Nodup :=
  hjn.map_on fun _ hi _ hk h => getD_inj hn (hj _ hi) (hj _ hk) h

theorem edgesAt_range (es : List EId) : edgesAt es (List.range es.length) = es := by
  refine List.ext_getElem (by simp [edgesAt]) fun k h1 h2 => ?_
  simp only [edgesAt, List.getElem_map, List.getElem_range]
  exact List.getD_eq_getElem _ _ h2

theorem filter_edgesAt {es : List EId} (hn : es.Nodup) {js : List Nat} (hj : ∀ j ∈ js, j < es.length) :
    (es.filter fun e => e ∉ edgesAt es js) = edgesAt es (stay es.length js) := by
  conv_lhs => rw [show es.filter (fun e => e ∉ edgesAt es js) =
    (edgesAt es (List.range es.length)).filter (fun e => e ∉ edgesAt es js) by rw [edgesAt_range]]
  rw [stay]
  unfold edgesAt
  rw [List.filter_map]
  congr 1
  refine List.filter_congr fun j hjr => ?_
  have hjl : j < es.length := List.mem_range.1 hjr
  simp only [Function.comp, decide_eq_decide]
  refine not_congr ⟨fun h => ?_, fun h => List.mem_map_of_mem h⟩
  obtain ⟨k, h1, h2⟩ := List.mem_map.1 h
  rw [← getD_inj hn (hj k h1) hjl h2]
  exact h1

/-- The positions of all subsystems, given those of the subsystems that stay and those that are summed. -/
def fill (n : Nat) (o : Nat → Nat) (subs k : List Nat) : List Nat := (List.range n).map (assign o subs k)

theorem map_positions (es : List EId) (F : EId → Nat) :
    es.map F = (List.range es.length).map fun j => F (es.getD j 0) := by
  refine List.ext_getElem (by simp) fun k h1 h2 => ?_
  simp only [List.getElem_map, List.getElem_range]
  rw [List.getD_eq_getElem _ _ (by simpa using h1)]

/-- If `τ` has the positions `k` at the edges of `subs` and `o` at the others. -/
theorem map_fill {es : List EId} (hn : es.Nodup) {js : List Nat} (hj : ∀ j ∈ js, j < es.length) {k : List Nat}
    (hk : k.length = js.length) {o : Nat → Nat} {σ : EId → Nat}
    (hs : (edgesAt es (stay es.length js)).map σ = (stay es.length js).map o) :
    es.map (assign σ (edgesAt es js) k) = fill es.length o js k := by
  rw [map_positions]
  unfold fill
  refine List.map_congr_left fun j hjr => ?_
  have hjl : j < es.length := List.mem_range.1 hjr
  refine assign_through hk (fun a ha hf => getD_inj hn (hj a ha) hjl hf) fun hnj => ?_
  unfold edgesAt at hs
  rw [List.map_map] at hs
  exact (List.map_inj_left.1 hs) j (by simp [stay, hjl, hnj])

theorem edgesAt_map {E : EId → EId} {es : List EId} {js : List Nat} (hj : ∀ j ∈ js, j < es.length) :
    edgesAt (es.map E) js = (edgesAt es js).map E := by
  unfold edgesAt
  rw [List.map_map]
  refine List.map_congr_left fun j h1 => ?_
  rw [List.getD_eq_getElem _ _ (by simpa using hj j h1)]
  simp only [Function.comp, List.getD_eq_getElem es 0 (hj j h1), List.getElem_map]

theorem stay_lt {n : Nat} {subs : List Nat} : ∀ j ∈ stay n subs, j < n := fun _ hj =>
  List.mem_range.1 (List.mem_filter.1 hj).1

/-- `partial_trace(subs)`: the elements are summed over equal positions of the outputs and inputs of the
given subsystems; the others keep their order. -/
theorem C55_partial_trace {r : Run R} (fr : r.Fair) (cj : R → R) {h : Heap R} (gr : GraphOK h) {q : QuOp}
    {N : List NId} (x : QuNet h q N) {subs : List Nat} (hsn : subs.Nodup)
    (hso : ∀ j ∈ subs, j < q.out.length) (hsi : ∀ j ∈ subs, j < q.inn.length)
    (hsp : dims h (edgesAt q.out subs) = dims h (edgesAt q.inn subs)) :
    ∃ fuel₀ q' h' L, (∀ fuel ≥ fuel₀,
        quPartialTrace { r with fuel := fuel } cj q subs h = (.ok (some q'), h')) ∧
      GraphOK h' ∧ Kept h h' ∧ QuNet h' q' L ∧
      dims h' q'.out = dims h (edgesAt q.out (stay q.out.length subs)) ∧
      dims h' q'.inn = dims h (edgesAt q.inn (stay q.inn.length subs)) ∧ dims h' q'.ign = dims h q.ign ∧
      ∀ (g : List Nat) (o i : Nat → Nat), g.length = q.ign.length →
        elem h' L q' g ((stay q.out.length subs).map o) ((stay q.inn.length subs).map i) =
          sumIdx (dims h (edgesAt q.out subs)) fun k =>
            elem h N q g (fill q.out.length o subs k) (fill q.inn.length i subs k) := by
  have w := graphOK_iff.1 gr
  obtain ⟨f1, nd, d, h1, c, E, p1, p2, p3, p4, p5⟩ := quCopy_run r fr.queue fr.vis fr.ie cj false w x
  rw [if_neg (by simp)] at p2
  have p2' : Copied h h1 N c E (RingHom.id R) := p2
  have w1 := graphOK_iff.1 p2.ok
  have z := p2.quNet w x
  have ao : ∀ e ∈ q.out, OpenEdge h N e := fun e he => x.mem (.inr (.inl he))
  have ai : ∀ e ∈ q.inn, OpenEdge h N e := fun e he => x.mem (.inr (.inr he))
  have ag : ∀ e ∈ q.ign, OpenEdge h N e := fun e he => x.mem (.inl he)
  have xd := x.edup
  have ndo : q.out.Nodup := (List.nodup_append.1 (List.nodup_append.1 xd).1).2.1
  have ndi : q.inn.Nodup := (List.nodup_append.1 xd).2.1
  have hot := edgesAt_mem hso
  have hit := edgesAt_mem hsi
  obtain ⟨ot, eot⟩ : ∃ ot, ot = edgesAt q.out subs := ⟨_, rfl⟩
  obtain ⟨it, eit⟩ : ∃ it, it = edgesAt q.inn subs := ⟨_, rfl⟩
  have lot : ot.length = subs.length := by rw [eot]; simp [edgesAt]
  have lit : it.length = subs.length := by rw [eit]; simp [edgesAt]
  have noti : (ot ++ it).Nodup := by
    refine List.Nodup.append (eot ▸ edgesAt_nodup ndo hso hsn) (eit ▸ edgesAt_nodup ndi hsi hsn) fun e h3 h4 => ?_
    rw [eot] at h3
    rw [eit] at h4
    exact (List.nodup_append.1 xd).2.2 e (List.mem_append_right _ (hot e h3)) e (hit e h4) rfl
  rw [← eot] at hot
  rw [← eit] at hit
  -- the pairs
  obtain ⟨ps, hps⟩ : ∃ ps, ps = (ot.zip it).map fun p => (E p.1, E p.2) := ⟨_, rfl⟩
  have hps' : ps = (ot.map E).zip (it.map E) := by
    rw [hps, List.zip_map]
    rfl
  have hfst : ps.map Prod.fst = ot.map E := by
    rw [hps', List.map_fst_zip]; simp [lot, lit]
  have hsnd : ps.map Prod.snd = it.map E := by
    rw [hps', List.map_snd_zip]; simp [lot, lit]
  have hopenoi : ∀ e ∈ ot ++ it, OpenEdge h N e := by
    intro e he
    rcases List.mem_append.1 he with he | he
    · exact ao e (hot e he)
    · exact ai e (hit e he)
  have hpn : (ps.map Prod.fst ++ ps.map Prod.snd).Nodup := by
    rw [hfst, hsnd, ← List.map_append]
    exact noti.map_on fun e he f hf hef => p2.injE (hopenoi e he) (hopenoi f hf) hef
  have hopen : ∀ p ∈ ps, OpenEdge h1 (N.map c) p.1 ∧ OpenEdge h1 (N.map c) p.2 ∧ edim h1 p.1 = edim h1 p.2 := by
    intro p hp
    rw [hps'] at hp
    obtain ⟨t, ht, hp⟩ := List.getElem_of_mem hp
    rw [List.getElem_zip] at hp
    have t1 : t < (ot.map E).length := by simp at ht ⊢; omega
    have t2 : t < (it.map E).length := by simp at ht ⊢; omega
    have t1' : t < ot.length := by simpa using t1
    have t2' : t < it.length := by simpa using t2
    have hh : dims h1 (ot.map E) = dims h1 (it.map E) := by
      rw [p2.dims w fun e he => ao e (hot e he), p2.dims w fun e he => ai e (hit e he), eot, eit, hsp]
    have := congrArg (fun l => l[t]?) hh
    simp only [dims, List.getElem?_map, List.getElem?_eq_getElem t1', List.getElem?_eq_getElem t2',
      Option.map_some, Option.some.injEq] at this
    rw [← hp]
    refine ⟨(p2.open_iff w x.lt x.closed).2 ⟨ot[t], ao _ (hot _ (List.getElem_mem t1')), by simp⟩,
      (p2.open_iff w x.lt x.closed).2 ⟨it[t], ai _ (hit _ (List.getElem_mem t2')), by simp⟩, by simpa using this⟩
  obtain ⟨h3, p6, j⟩ := connectAll_ok z.nodup ps w1 z.lt z.closed hopen hpn
  have hkept : Kept h h3 := j.kept p2.kept fun n hn => by
    obtain ⟨m, hm, rfl⟩ := List.mem_map.1 hn
    exact ((p2.new_node _).2 ⟨m, hm, rfl⟩).1
  obtain ⟨d', p7, p8⟩ := ptraceLoop_run (E := E) (ot.zip it) (d := d) (h := h1) (h' := h3) (fun p hp => by
      obtain ⟨t1, t2⟩ := List.of_mem_zip hp
      exact ⟨p5 _ (ao _ (hot _ t1)), p5 _ (ai _ (hit _ t2))⟩)
    (by rw [List.map_fst_zip (by omega), List.map_snd_zip (by omega)]; exact noti) (by rw [← hps]; exact p6)
  rw [List.map_fst_zip (by omega)] at p8
  -- the new operator
  obtain ⟨ro, ero⟩ : ∃ ro, ro = q.out.filter (fun e => e ∉ ot) := ⟨_, rfl⟩
  obtain ⟨ri, eri⟩ : ∃ ri, ri = q.inn.filter (fun e => e ∉ it) := ⟨_, rfl⟩
  have ero' : ro = edgesAt q.out (stay q.out.length subs) := by rw [ero, eot, filter_edgesAt ndo hso]
  have eri' : ri = edgesAt q.inn (stay q.inn.length subs) := by rw [eri, eit, filter_edgesAt ndi hsi]
  obtain ⟨q', hq⟩ : ∃ q' : QuOp, q' = ⟨ro.map E, ri.map E, q.ign.map E, nd.map Prod.snd⟩ := ⟨_, rfl⟩
  have sro : ∀ e ∈ ro, e ∈ q.out := fun e he => by rw [ero] at he; exact (List.mem_filter.1 he).1
  have sri : ∀ e ∈ ri, e ∈ q.inn := fun e he => by rw [eri] at he; exact (List.mem_filter.1 he).1
  have hmemE : ∀ (l : List EId) e, (∀ f ∈ l, OpenEdge h N f) → OpenEdge h N e → (E e ∈ l.map E ↔ e ∈ l) := by
    intro l e hl he
    refine ⟨fun hm => ?_, fun hm => List.mem_map_of_mem hm⟩
    obtain ⟨f, hf, hfe⟩ := List.mem_map.1 hm
    rw [← p2.injE (hl f hf) he hfe]
    exact hf
  have qn : QuNet h3 q' (N.map c) := by
    refine j.quNet z ?_ ?_ ?_
    · intro n
      rw [hq]
      exact p3.mem_iff
    · rw [hq]
      simp only
      rw [← List.map_append, ← List.map_append]
      refine List.Nodup.map_on (fun e he f hf hef => p2.injE ?_ ?_ hef) ?_
      · refine x.mem ?_
        simp only [List.mem_append] at he
        rcases he with (he | he) | he
        · exact .inl he
        · exact .inr (.inl (sro e he))
        · exact .inr (.inr (sri e he))
      · refine x.mem ?_
        simp only [List.mem_append] at hf
        rcases hf with (he | he) | he
        · exact .inl he
        · exact .inr (.inl (sro f he))
        · exact .inr (.inr (sri f he))
      · refine xd.sublist ?_
        rw [ero, eri]
        exact ((List.Sublist.refl _).append List.filter_sublist).append List.filter_sublist
    · intro f
      rw [hfst, hsnd, hq]
      simp only [QuOp.image]
      rw [← List.map_append, ← List.map_append, ← List.map_append, ← List.map_append]
      have hdis : ∀ e, e ∈ q.ign → e ∉ ot ∧ e ∉ it := by
        intro e he
        refine ⟨fun h5 => ?_, fun h5 => ?_⟩
        · exact (List.nodup_append.1 (List.nodup_append.1 xd).1).2.2 e he e (hot e h5) rfl
        · exact (List.nodup_append.1 xd).2.2 e (List.mem_append_left _ he) e (hit e h5) rfl
      have hoi : ∀ e, e ∈ q.out → e ∉ q.inn := fun e h5 h6 =>
        (List.nodup_append.1 xd).2.2 e (List.mem_append_right _ h5) e h6 rfl
      constructor
      · intro hf
        obtain ⟨e, he, rfl⟩ := List.mem_map.1 hf
        have hq0 : e ∈ q.ign ++ q.out ++ q.inn ∧ e ∉ ot ∧ e ∉ it := by
          simp only [List.mem_append] at he ⊢
          rcases he with (he | he) | he
          · exact ⟨.inl (.inl he), hdis e he⟩
          · rw [ero] at he
            obtain ⟨h5, h6⟩ := List.mem_filter.1 he
            exact ⟨.inl (.inr h5), by simpa using h6, fun h7 => hoi e h5 (hit e h7)⟩
          · rw [eri] at he
            obtain ⟨h5, h6⟩ := List.mem_filter.1 he
            exact ⟨.inr h5, fun h7 => hoi e (hot e h7) h5, by simpa using h6⟩
        have heo := (x.edges e).1 hq0.1
        refine ⟨List.mem_map_of_mem hq0.1, ?_, ?_⟩
        · rw [hmemE _ _ (fun f hf => ao f (hot f hf)) heo]; exact hq0.2.1
        · rw [hmemE _ _ (fun f hf => ai f (hit f hf)) heo]; exact hq0.2.2
      · rintro ⟨hf, h5, h6⟩
        obtain ⟨e, he, rfl⟩ := List.mem_map.1 hf
        have heo := (x.edges e).1 he
        rw [hmemE _ _ (fun f hf => ao f (hot f hf)) heo] at h5
        rw [hmemE _ _ (fun f hf => ai f (hit f hf)) heo] at h6
        refine List.mem_map_of_mem ?_
        simp only [List.mem_append] at he ⊢
        rcases he with (he | he) | he
        · exact .inl (.inl he)
        · exact .inl (.inr (by rw [ero]; exact List.mem_filter.2 ⟨he, by simpa using h5⟩))
        · exact .inr (by rw [eri]; exact List.mem_filter.2 ⟨he, by simpa using h6⟩)
  obtain ⟨f2, p9⟩ := quantumConstructor_run r fr.queue j.wf qn
  have hl : ∀ (es : List EId), (∀ e ∈ es, OpenEdge h N e ∧ e ∉ ot) → lookups d' es h3 = (.ok (es.map E), h3) :=
    fun es he => lookups_run es fun e h7 => by rw [p8 e (he e h7).2]; exact p5 e (he e h7).1
  have hro : ∀ e ∈ ro, OpenEdge h N e ∧ e ∉ ot := fun e he => ⟨ao e (sro e he), by
    rw [ero] at he; simpa using (List.mem_filter.1 he).2⟩
  have hri : ∀ e ∈ ri, OpenEdge h N e ∧ e ∉ ot := fun e he => ⟨ai e (sri e he), fun h5 =>
    (List.nodup_append.1 xd).2.2 e (List.mem_append_right _ (hot e h5)) e (sri e he) rfl⟩
  have hgi : ∀ e ∈ q.ign, OpenEdge h N e ∧ e ∉ ot := fun e he => ⟨ag e he, fun h5 =>
    (List.nodup_append.1 (List.nodup_append.1 xd).1).2.2 e he e (hot e h5) rfl⟩
  refine ⟨max f1 f2, q', h3, _, fun fuel hf => ?_, graphOK_iff.2 j.wf, hkept, qn, ?_, ?_, ?_, ?_⟩
  · unfold quPartialTrace
    have c0 : checkSpaces it ot h = (.ok (), h) := checkSpaces_ok w
      (fun e he => (openEdge_mem (ai e (hit e he))).1) (fun e he => (openEdge_mem (ao e (hot e he))).1)
      (by rw [eot, eit, hsp])
    have k1 : pick q.out subs h = (.ok ot, h) := by rw [eot]; exact pick_run subs hso
    have k2 : pick q.inn subs h = (.ok it, h) := by rw [eit]; exact pick_run subs hsi
    rw [M.bind_ok k1, M.bind_ok k2, M.bind_ok c0, M.bind_ok (p1 fuel (le_trans (le_max_left _ _) hf))]
    simp only
    rw [M.bind_ok p7, ← ero, ← eri, M.bind_ok (hl _ hro), M.bind_ok (hl _ hri), M.bind_ok (hl _ hgi), ← hq]
    exact p9 fuel (le_trans (le_max_right _ _) hf)
  · rw [j.dims (es := q'.out) fun e he => qn.mem (.inr (.inl he)), hq]
    simp only
    rw [p2.dims w fun e he => (hro e he).1, ero']
  · rw [j.dims (es := q'.inn) fun e he => qn.mem (.inr (.inr he)), hq]
    simp only
    rw [p2.dims w fun e he => (hri e he).1, eri']
  · rw [j.dims (es := q'.ign) fun e he => qn.mem (.inl he), hq]
    simp only
    rw [p2.dims w fun e he => (hgi e he).1]
  · intro g o i lg
    obtain ⟨t1, t2, t3⟩ := assign_parts (σ := fun _ => 0) qn.edup (x := g) (y := (stay q.out.length subs).map o)
      (z := (stay q.inn.length subs).map i) (by simp [hq, lg]) (by rw [hq, ero']; simp [edgesAt])
      (by rw [hq, eri']; simp [edgesAt])
    conv_lhs => unfold elem
    obtain ⟨σ, hσ⟩ : ∃ σ : EId → Nat, σ = assign (fun _ => 0) (q'.ign ++ q'.out ++ q'.inn)
      (g ++ (stay q.out.length subs).map o ++ (stay q.inn.length subs).map i) := ⟨_, rfl⟩
    rw [← hσ] at t1 t2 t3 ⊢
    rw [hq, ero', eri'] at t1 t2 t3
    simp only at t1 t2 t3
    rw [j.value σ, hfst, hsnd, sumOver_eq_sumIdx, ← eot,
      show (ot.map E).map (edim h1) = dims h ot from p2.dims w fun e he => ao e (hot e he)]
    refine sumIdx_congr fun k hk => ?_
    have lk : k.length = subs.length := by
      have := hk.length
      simp only [dims, List.length_map] at this
      omega
    have nda : (ot.map E).Nodup := hfst ▸ (List.nodup_append.1 hpn).1
    have hdoi : ∀ e ∈ ot.map E, e ∉ it.map E := fun e h5 h6 => by
      rw [hfst, hsnd] at hpn
      exact (List.nodup_append.1 hpn).2.2 e h5 e h6 rfl
    rw [assign_map_self nda (by simp [lot, lk])]
    obtain ⟨τ, hτ⟩ : ∃ τ : EId → Nat, τ = assign (assign σ (ot.map E) k) (it.map E) k := ⟨_, rfl⟩
    rw [← hτ, ← z.elem_eq w1]
    have zd := z.edup
    simp only [QuOp.image] at zd ⊢
    have zo : (q.out.map E).Nodup := (List.nodup_append.1 (List.nodup_append.1 zd).1).2.1
    have zi : (q.inn.map E).Nodup := (List.nodup_append.1 zd).2.1
    have soE : ∀ e ∈ ot.map E, e ∈ q.out.map E := fun e he => by
      obtain ⟨e', he', rfl⟩ := List.mem_map.1 he
      exact List.mem_map_of_mem (hot e' he')
    have siE : ∀ e ∈ it.map E, e ∈ q.inn.map E := fun e he => by
      obtain ⟨e', he', rfl⟩ := List.mem_map.1 he
      exact List.mem_map_of_mem (hit e' he')
    have g1 : (q.ign.map E).map τ = g := by
      rw [hτ, map_assign_of_disjoint, map_assign_of_disjoint, t1]
      · intro e h5 h6
        exact (List.nodup_append.1 (List.nodup_append.1 zd).1).2.2 e h5 e (soE e h6) rfl
      · intro e h5 h6
        exact (List.nodup_append.1 zd).2.2 e (List.mem_append_left _ h5) e (siE e h6) rfl
    have g2 : (q.out.map E).map τ = fill q.out.length o subs k := by
      have e1 : (q.out.map E).map τ = (q.out.map E).map (assign σ (ot.map E) k) := by
        rw [hτ]
        refine map_assign_of_disjoint fun e h5 h6 => ?_
        exact (List.nodup_append.1 zd).2.2 e (List.mem_append_right _ h5) e (siE e h6) rfl
      rw [e1, eot, ← edgesAt_map hso]
      have := map_fill (es := q.out.map E) zo (js := subs) (fun j hj => by simpa using hso j hj) lk (o := o) (σ := σ)
        (by rw [List.length_map, edgesAt_map stay_lt]; exact t2)
      rw [this, List.length_map]
    have g3 : (q.inn.map E).map τ = fill q.inn.length i subs k := by
      rw [hτ, eit, ← edgesAt_map hsi]
      have := map_fill (es := q.inn.map E) zi (js := subs) (fun j hj => by simpa using hsi j hj) lk (o := i)
        (σ := assign σ (ot.map E) k)
        (by
          rw [List.length_map, edgesAt_map stay_lt, map_assign_of_disjoint, t3]
          intro e h5 h6
          obtain ⟨e', h7, rfl⟩ := List.mem_map.1 h5
          exact (List.nodup_append.1 zd).2.2 _ (List.mem_append_right _ (soE _ h6)) _
            (List.mem_map_of_mem (edgesAt_mem stay_lt e' h7)) rfl)
      rw [this, List.length_map]
    rw [g1, g2, g3]
    have := p2'.elem (RingHom.id R) w x (g := g) (o := fill q.out.length o subs k) (i := fill q.inn.length i subs k)
      lg (by simp [fill]) (by simp [fill])
    exact this

end TN.Graph
