import Verif.QuAlgebra2

/-!
# Elements of sums, products and traces of operators (C55): lemmas
-/

set_option linter.unusedSectionVars false

namespace TN.Graph

open TN Finset

variable {R : Type} [CommSemiring R]

theorem assign_parts {L : Type*} [DecidableEq L] {σ : L → Nat} {a b c : List L} {x y z : List Nat}
    (hn : (a ++ b ++ c).Nodup) (hx : x.length = a.length) (hy : y.length = b.length) (hz : z.length = c.length) :
    a.map (assign σ (a ++ b ++ c) (x ++ y ++ z)) = x ∧ b.map (assign σ (a ++ b ++ c) (x ++ y ++ z)) = y ∧
      c.map (assign σ (a ++ b ++ c) (x ++ y ++ z)) = z := by
  have h := assign_map_self (σ := σ) (c := x ++ y ++ z) hn (by simp [hx, hy, hz])
  rw [List.map_append, List.map_append] at h
  obtain ⟨h1, h2⟩ := List.append_inj h (by simp [hx, hy])
  obtain ⟨h3, h4⟩ := List.append_inj h1 (by simp [hx])
  exact ⟨h3, h4, h2⟩

theorem map_assign_of_disjoint {L : Type*} [DecidableEq L] {σ : L → Nat} {a C : List L} {c : List Nat}
    (hd : ∀ l ∈ a, l ∉ C) : a.map (assign σ C c) = a.map σ :=
  List.map_congr_left fun l hl => assign_not_mem (hd l hl)

theorem assign_through {L K : Type*} [DecidableEq L] [DecidableEq K] {f : K → L} {l : K} :
    ∀ {C : List K} {σ : L → Nat} {σ' : K → Nat} {c : List Nat}, c.length = C.length →
    (∀ a ∈ C, f a = f l → a = l) → (l ∉ C → σ (f l) = σ' l) → assign σ (C.map f) c (f l) = assign σ' C c l
  | [], σ, σ', c, _, _, hb => by simpa [assign] using hb
  | a :: C, σ, σ', [], hc, _, _ => by simp at hc
  | a :: C, σ, σ', i :: c, hc, hi, hb => by
    simp only [List.map_cons, assign]
    refine assign_through (by simpa using hc) (fun b hb' => hi b (by simp [hb'])) fun hl => ?_
    by_cases h : l = a
    · subst h; simp
    · have h' : f l ≠ f a := fun hh => h (hi a (by simp) hh.symm).symm
      rw [Function.update_of_ne h, Function.update_of_ne h']
      exact hb (by simp [h, hl])

/-! ### Operators next to each other -/

/-- The operators side by side. -/
def QuOp.beside (a b : QuOp) (refs : List NId) : QuOp :=
  ⟨a.out ++ b.out, a.inn ++ b.inn, a.ign ++ b.ign, refs⟩

theorem closedNet_append {h : Heap R} {N M : List NId} (hN : ClosedNet h N) (hM : ClosedNet h M) :
    ClosedNet h (N ++ M) := by
  intro s s' e h1 h2 h3
  rcases List.mem_append.1 h3 with h3 | h3
  · exact List.mem_append_left _ (hN s s' e h1 h2 h3)
  · exact List.mem_append_right _ (hM s s' e h1 h2 h3)

theorem openEdge_append {h : Heap R} {N M : List NId} {e : EId} :
    OpenEdge h (N ++ M) e ↔ OpenEdge h N e ∨ OpenEdge h M e := by
  constructor
  · rintro ⟨h1, s, h2, h3⟩
    rcases List.mem_append.1 h2 with h2 | h2
    · exact .inl ⟨h1, s, h2, h3⟩
    · exact .inr ⟨h1, s, h2, h3⟩
  · rintro (⟨h1, s, h2, h3⟩ | ⟨h1, s, h2, h3⟩)
    · exact ⟨h1, s, List.mem_append_left _ h2, h3⟩
    · exact ⟨h1, s, List.mem_append_right _ h2, h3⟩

theorem open_disjoint {h : Heap R} {N M : List NId} (hN : ClosedNet h N) (hd : ∀ n ∈ N, n ∉ M) {e : EId}
    (h1 : OpenEdge h N e) (h2 : OpenEdge h M e) : False := by
  obtain ⟨-, s, h3, h4⟩ := h1
  obtain ⟨-, t, h5, h6⟩ := h2
  exact hd _ (hN s t e h4 h6 h3) h5

theorem QuNet.beside {h : Heap R} {a b : QuOp} {N M refs : List NId} (x : QuNet h a N) (y : QuNet h b M)
    (hd : ∀ n ∈ N, n ∉ M) (hr : refs.Perm (N ++ M)) : QuNet h (a.beside b refs) (N ++ M) where
  ne := by simp [x.ne]
  nodup := List.Nodup.append x.nodup y.nodup fun n h1 h2 => hd n h1 h2
  lt n hn := by
    rcases List.mem_append.1 hn with hn | hn
    · exact x.lt n hn
    · exact y.lt n hn
  closed := closedNet_append x.closed y.closed
  refs n hn := hr.mem_iff.1 hn
  reach n hn := ⟨n, .inl (hr.mem_iff.2 hn), hn, .refl⟩
  edup := by
    have key : (a.ign ++ a.out ++ a.inn ++ (b.ign ++ b.out ++ b.inn)).Nodup :=
      List.Nodup.append x.edup y.edup fun e h1 h2 => open_disjoint x.closed hd ((x.edges e).1 h1) ((y.edges e).1 h2)
    refine (List.Perm.nodup_iff ?_).1 key
    simp only [QuOp.beside]
    rw [List.perm_iff_count]
    intro e
    simp only [List.count_append]
    omega
  edges e := by
    rw [openEdge_append, ← x.edges, ← y.edges]
    simp only [QuOp.beside, List.mem_append]
    tauto

theorem netVal_beside {h : Heap R} (w : WF h) {N M : List NId} (hN : ∀ n ∈ N, n < h.nn) (hM : ∀ n ∈ M, n < h.nn)
    (hc : ClosedNet h N) (hd : ∀ n ∈ N, n ∉ M) (σ : EId → Nat) :
    netVal (netOf h (N ++ M)) σ = netVal (netOf h N) σ * netVal (netOf h M) σ := by
  have happ : netOf h (N ++ M) = netOf h N ++ netOf h M := by simp [netOf]
  rw [happ]
  refine netVal_append (dim := edim h) ?_ ?_ σ
  · rw [← happ]
    refine w.consistent fun n hn => ?_
    rcases List.mem_append.1 hn with hn | hn
    · exact hN n hn
    · exact hM n hn
  · intro e h1 h2
    obtain ⟨n, h3, h4⟩ := mem_flat_netOf.1 h1
    obtain ⟨m, h5, h6⟩ := mem_flat_netOf.1 h2
    exact hd m (hc _ _ e (at_of_mem (hN n h3) h4) (at_of_mem (hM m h5) h6) h3) h5

/-- The elements of two operators side by side. -/
theorem QuNet.elem_beside {h : Heap R} (w : WF h) {a b : QuOp} {N M : List NId} (x : QuNet h a N)
    (y : QuNet h b M) (hd : ∀ n ∈ N, n ∉ M) (τ : EId → Nat) :
    netVal (netOf h (N ++ M)) τ = elem h N a (a.ign.map τ) (a.out.map τ) (a.inn.map τ) *
      elem h M b (b.ign.map τ) (b.out.map τ) (b.inn.map τ) := by
  rw [netVal_beside w x.lt y.lt x.closed hd, x.elem_eq w, y.elem_eq w]

/-! ### Copies -/

theorem Copied.dims {h h' : Heap R} {N : List NId} {c : NId → NId} {E : EId → EId} {φ : R → R} (w : WF h)
    (x : Copied h h' N c E φ) {es : List EId} (he : ∀ e ∈ es, OpenEdge h N e) : dims h' (es.map E) = dims h es := by
  unfold Graph.dims
  rw [List.map_map]
  refine List.map_congr_left fun e h1 => ?_
  obtain ⟨-, s, h2, h3⟩ := he e h1
  exact x.edim w h2 h3

theorem Kept.dims {h h' : Heap R} (w : WF h) (w' : WF h') (k : Kept h h') {N : List NId} {es : List EId}
    (he : ∀ e ∈ es, OpenEdge h N e) : dims h' es = dims h es := by
  unfold Graph.dims
  refine List.map_congr_left fun e h1 => ?_
  obtain ⟨-, s, h2, h3⟩ := he e h1
  exact k.edim w w' h3.inUse

theorem Copied.elem {h h' : Heap R} {N : List NId} {c : NId → NId} {E : EId → EId} (φ : R →+* R) (w : WF h)
    {q : QuOp} (q0 : QuNet h q N) (x : Copied h h' N c E φ) {g o i : List Nat} (hg : g.length = q.ign.length)
    (ho : o.length = q.out.length) (hi : i.length = q.inn.length) :
    elem h' (N.map c) (q.image c E) g o i = φ (elem h N q g o i) := by
  have y := x.quNet w q0
  obtain ⟨h1, h2, h3⟩ := assign_parts (σ := fun _ => 0) y.edup (x := g) (y := o) (z := i)
    (by simpa [QuOp.image] using hg) (by simpa [QuOp.image] using ho) (by simpa [QuOp.image] using hi)
  unfold Graph.elem
  rw [C14_value φ (graphOK_iff.2 w) x q0.lt (fun n hn => hn)]
  congr 1
  obtain ⟨σ, hσ⟩ : ∃ σ : EId → Nat, σ = assign (fun _ => 0) ((q.image c E).ign ++ (q.image c E).out ++
    (q.image c E).inn) (g ++ o ++ i) := ⟨_, rfl⟩
  rw [← hσ] at h1 h2 h3 ⊢
  rw [← q0.elem_eq w]
  unfold Graph.elem
  simp only [QuOp.image, List.map_map] at h1 h2 h3
  have e1 : q.ign.map (fun e => σ (E e)) = g := h1
  have e2 : q.out.map (fun e => σ (E e)) = o := h2
  have e3 : q.inn.map (fun e => σ (E e)) = i := h3
  rw [e1, e2, e3]

/-! ### Joining edges of an operator -/

theorem JoinedAll.quNet {h h' : Heap R} {N : List NId} {ps : List (EId × EId)} {q p : QuOp}
    (x : QuNet h q N) (j : JoinedAll h h' N ps) (hr : ∀ n, n ∈ p.refs ↔ n ∈ N)
    (hn : (p.ign ++ p.out ++ p.inn).Nodup) (he : ∀ e, e ∈ p.ign ++ p.out ++ p.inn ↔
      e ∈ q.ign ++ q.out ++ q.inn ∧ e ∉ ps.map Prod.fst ∧ e ∉ ps.map Prod.snd) : QuNet h' p N where
  ne := x.ne
  nodup := x.nodup
  lt n hn := by rw [j.nn]; exact x.lt n hn
  closed := j.closed
  refs n hn := (hr n).1 hn
  reach n hn := ⟨n, .inl ((hr n).2 hn), hn, .refl⟩
  edup := hn
  edges e := by rw [he, j.opn, x.edges]

theorem JoinedAll.kept {h k l : Heap R} {N : List NId} {ps : List (EId × EId)} (a : Kept h k)
    (hN : ∀ n ∈ N, h.nn ≤ n) (j : JoinedAll k l N ps) : Kept h l where
  nn := by rw [j.nn]; exact a.nn
  ne := a.ne.trans j.ne
  node n hn := by
    rw [j.outside n (hn.trans_le a.nn) fun hm => by have := hN n hm; omega]
    exact a.node n hn
  edge e he := (j.edge e (he.trans_le a.ne)).trans (a.edge e he)
  apart n h1 h2 e he := by
    rw [j.nn] at h2
    rcases j.new n h2 e he with h3 | h3
    · exact a.apart n h1 h2 e h3
    · exact a.ne.trans h3

theorem JoinedAll.dims {h h' : Heap R} {N : List NId} {ps : List (EId × EId)} (j : JoinedAll h h' N ps)
    {es : List EId} (he : ∀ e ∈ es, OpenEdge h' N e) : dims h' es = dims h es := by
  unfold Graph.dims
  exact List.map_congr_left fun e h1 => j.dim e (he e h1)

/-! ### The loops and checks -/

theorem ptraceLoop_run {E : EId → EId} : ∀ (ps : List (EId × EId)) {d : EId → Option EId} {h h' : Heap R},
    (∀ p ∈ ps, d p.1 = some (E p.1) ∧ d p.2 = some (E p.2)) →
    (ps.map Prod.fst ++ ps.map Prod.snd).Nodup →
    connectAll (ps.map fun p => (E p.1, E p.2)) h = (.ok (), h') →
    ∃ d', ptraceLoop ps d h = (.ok d', h') ∧ ∀ e, e ∉ ps.map Prod.fst → d' e = d e
  | [], d, h, h', _, _, hr => by
    have : h = h' := congrArg Prod.snd hr
    subst this
    exact ⟨d, rfl, fun _ _ => rfl⟩
  | (a, b) :: ps, d, h, h', hd, hn, hr => by
    obtain ⟨h1, h2⟩ := hd (a, b) (by simp)
    simp only [] at h1 h2
    simp only [List.map_cons, List.cons_append, List.nodup_cons, List.mem_append, List.mem_cons, not_or] at hn
    obtain ⟨⟨ha1, hab, ha2⟩, hn⟩ := hn
    have hn2 : (b :: (ps.map Prod.fst ++ ps.map Prod.snd)).Nodup := List.perm_middle.nodup_iff.1 hn
    rw [List.nodup_cons, List.mem_append, not_or] at hn2
    rw [List.map_cons] at hr
    unfold connectAll at hr
    rcases hc : connect (E a) (E b) h with ⟨_ | f, k⟩
    · rw [M.bind_error hc] at hr
      simp at hr
    · rw [M.bind_ok hc] at hr
      obtain ⟨d', h3, h4⟩ := ptraceLoop_run (E := E) ps (d := Function.update d a (some f)) (fun p hp => by
        have m1 : p.1 ≠ a := fun hh => ha1 (hh ▸ List.mem_map_of_mem hp)
        have m2 : p.2 ≠ a := fun hh => ha2 (hh ▸ List.mem_map_of_mem hp)
        rw [Function.update_of_ne m1, Function.update_of_ne m2]
        exact hd p (by simp [hp])) hn2.2 hr
      refine ⟨d', ?_, ?_⟩
      · unfold ptraceLoop
        rw [h1, h2]
        simp only
        rw [M.bind_ok hc]
        exact h3
      · intro e he
        simp only [List.map_cons, List.mem_cons, not_or] at he
        rw [h4 e he.2, Function.update_of_ne he.1]

theorem joinLoop_run {E F : EId → EId} {d1 d2 : EId → Option EId} : ∀ (ps : List (EId × EId)) {h : Heap R},
    (∀ p ∈ ps, d1 p.1 = some (E p.1) ∧ d2 p.2 = some (F p.2)) →
    joinLoop d1 d2 ps h = connectAll (ps.map fun p => (E p.1, F p.2)) h
  | [], h, _ => rfl
  | (a, b) :: ps, h, hd => by
    obtain ⟨h1, h2⟩ := hd (a, b) (by simp)
    simp only [] at h1 h2
    rw [List.map_cons]
    unfold joinLoop connectAll
    rw [h1, h2]
    simp only
    rcases hc : connect (E a) (F b) h with ⟨_ | f, k⟩
    · rw [M.bind_error hc, M.bind_error hc]
    · rw [M.bind_ok hc, M.bind_ok hc]
      exact joinLoop_run ps fun p hp => hd p (by simp [hp])

theorem checkSpaces_ok {h : Heap R} (w : WF h) {a b : List EId} (ha : ∀ e ∈ a, InUse h e)
    (hb : ∀ e ∈ b, InUse h e) (hd : dims h a = dims h b) : checkSpaces a b h = (.ok (), h) := by
  have hlen : a.length = b.length := by simpa [dims] using congrArg List.length hd
  unfold checkSpaces
  rw [if_neg (by simp [hlen])]
  refine forEach_ok fun p hp => ?_
  obtain ⟨h1, h2⟩ := List.of_mem_zip hp
  rw [M.bind_ok (dimension_eq w (ha _ h1)), M.bind_ok (dimension_eq w (hb _ h2)), if_neg]
  · rfl
  · obtain ⟨k, hk, hp⟩ := List.getElem_of_mem hp
    rw [List.getElem_zip] at hp
    have hk1 : k < a.length := by simp at hk; omega
    have hk2 : k < b.length := by simp at hk; omega
    have := congrArg (fun l => l[k]?) hd
    simp only [dims, List.getElem?_map, List.getElem?_eq_getElem hk1, List.getElem?_eq_getElem hk2,
      Option.map_some, Option.some.injEq] at this
    rw [← hp]
    simpa using this

/-- Spaces that do not fit are rejected, and nothing happened. -/
theorem checkSpaces_err {h : Heap R} (w : WF h) {a b : List EId} (ha : ∀ e ∈ a, InUse h e)
    (hb : ∀ e ∈ b, InUse h e) (hd : dims h a ≠ dims h b) : checkSpaces a b h = (.error .valueError, h) := by
  unfold checkSpaces
  by_cases hlen : a.length = b.length
  · rw [if_neg (by simp [hlen])]
    induction a generalizing b with
    | nil =>
      cases b with
      | nil => simp [dims] at hd
      | cons _ _ => simp at hlen
    | cons x a ih =>
      cases b with
      | nil => simp at hlen
      | cons y b =>
        rw [List.zip_cons_cons, M.forEach_cons]
        by_cases hxy : edim h x = edim h y
        · have hstep : (do
              let d1 ← dimension x
              let d2 ← dimension y
              if d1 ≠ d2 then M.throw .valueError else pure () : M R Unit) h = (.ok (), h) := by
            rw [M.bind_ok (dimension_eq w (ha x (by simp))), M.bind_ok (dimension_eq w (hb y (by simp))),
              if_neg (by simpa using hxy)]
            rfl
          rw [M.bind_ok hstep]
          refine ih (fun e he => ha e (by simp [he])) (fun e he => hb e (by simp [he])) ?_ (by simpa using hlen)
          intro hh
          exact hd (by simp only [dims, List.map_cons] at hh ⊢; rw [hxy, hh])
        · have hstep : (do
              let d1 ← dimension x
              let d2 ← dimension y
              if d1 ≠ d2 then M.throw .valueError else pure () : M R Unit) h = (.error .valueError, h) := by
            rw [M.bind_ok (dimension_eq w (ha x (by simp))), M.bind_ok (dimension_eq w (hb y (by simp))),
              if_pos (by simpa using hxy)]
            rfl
          rw [M.bind_error hstep]
  · rw [if_pos hlen]
    rfl

theorem pick_run {l : List EId} {h : Heap R} : ∀ (is : List Nat), (∀ i ∈ is, i < l.length) →
    pick l is h = (.ok (is.map fun i => l.getD i 0), h)
  | [], _ => rfl
  | i :: is, hi => by
    have h1 := hi i (by simp)
    unfold pick
    rw [List.getElem?_eq_getElem h1]
    simp only
    rw [M.bind_ok (pick_run is fun j hj => hi j (by simp [hj]))]
    simp only [List.map_cons, List.getD_eq_getElem l 0 h1]
    rfl

end TN.Graph
