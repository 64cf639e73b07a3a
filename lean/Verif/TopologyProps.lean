import Verif.Topology

/-!
# C87: the network of `from_topology`
-/

set_option linter.unusedSectionVars false

namespace TN.Graph

open TN

variable {R : Type} [CommSemiring R]

/-- What `from_topology` asks for: as many groups of names as tensors, one name for each axis, no name twice in
a group and no name more than twice in all, and axes of the same name have the same dimension. -/
structure TopoOK (parts : List (List Nat)) (tensors : List (NDArray R)) : Prop where
  number : parts.length = tensors.length
  rank : ∀ p ∈ tensors.zip parts, p.2.length = p.1.shape.length
  distinct : ∀ l ∈ parts, l.Nodup
  twice : ∀ c, parts.flatten.count c ≤ 2
  dims : ∃ dim : Nat → Nat, ∀ p ∈ tensors.zip parts, p.1.shape = p.2.map dim

theorem lab_mono {B : Nat} {L : List (List Nat)} {p : List Nat} (q : List Nat) (rest : List (List Nat)) {s : Slot} {c : Nat}
    (h : lab B (L ++ [p]) s = some c) : lab B (L ++ [p ++ q] ++ rest) s = some c := by
  have hB := lab_ge h
  rw [lab, if_pos hB] at h ⊢
  rw [List.getD_eq_getElem?_getD] at h ⊢
  rcases lt_trichotomy (s.1 - B) L.length with h1 | h1 | h1
  · rw [List.append_assoc, List.getElem?_append_left h1]
    rwa [List.getElem?_append_left h1] at h
  · rw [h1] at h ⊢
    simp only [List.getElem?_append_right (Nat.le_refl _), Nat.sub_self, List.getElem?_cons_zero, Option.getD_some,
      List.append_assoc, List.cons_append, List.nil_append] at h ⊢
    rw [List.getElem?_append_left (List.getElem?_eq_some_iff.1 h).1]
    exact h
  · have e1 : (L ++ [p])[s.1 - B]? = none := List.getElem?_eq_none (by simp; omega)
    rw [e1] at h
    simp at h

/-- The dimension of an axis with a name. -/
theorem TInv.dimAt_lab {h0 h : Heap R} {ts : List (NDArray R)} {L : List (List Nat)} {d : EdgeDict} (x : TInv h0 h ts L d)
    {full : List (List Nat)} {all : List (NDArray R)} {dim : Nat → Nat} (hd : ∀ p ∈ (ts ++ all).zip full, p.1.shape = p.2.map dim)
    {s : Slot} {c : Nat} (hlt : s.1 < h.nn) (hs : lab h0.nn full s = some c) : dimAt h s = dim c := by
  have hB := lab_ge hs
  have hi : s.1 - h0.nn < ts.length := by have := x.nn; omega
  have ht := x.tens _ hi
  rw [show h0.nn + (s.1 - h0.nn) = s.1 from by omega] at ht
  rw [lab, if_pos hB, List.getD_eq_getElem?_getD] at hs
  rcases h1 : full[s.1 - h0.nn]? with _ | l
  · rw [h1] at hs; simp at hs
  · rw [h1, Option.getD_some] at hs
    obtain ⟨h2, h3⟩ := List.getElem?_eq_some_iff.1 h1
    have hz : (ts[s.1 - h0.nn], l) ∈ (ts ++ all).zip full := by
      refine List.mem_of_getElem? (i := s.1 - h0.nn) ?_
      rw [List.getElem?_zip_eq_some]
      exact ⟨by rw [List.getElem?_append_left hi, List.getElem?_eq_getElem hi], h1⟩
    have hsh := hd _ hz
    simp only at hsh
    rw [dimAt, Heap.shape, ht, hsh, List.getD_eq_getElem?_getD, List.getElem?_map, hs]
    rfl

/-- The axes of the node under construction that have not been dealt with are dangling. -/
def Waiting (h : Heap R) (n : NId) (k : Nat) : Prop := ∀ j e, k ≤ j → At h (n, j) e → (h.edge e).dangling = true

theorem lab_later {B : Nat} {L : List (List Nat)} {p : List Nat} {j : Nat} (hj : p.length ≤ j) :
    lab B (L ++ [p]) (B + L.length, j) = none := by
  simp [lab, List.getD_eq_getElem?_getD, hj]

theorem topoAxes_spec {h0 : Heap R} (w0 : WF h0) {ts : List (NDArray R)} {L : List (List Nat)} (names : List Nat) (hnd : names.Nodup)
    (all : List (NDArray R)) (rest : List (List Nat)) :
    ∀ (cs p : List Nat) (d : EdgeDict) (h : Heap R), names = p ++ cs → TInv h0 h ts (L ++ [p]) d →
      Waiting h (h0.nn + L.length) p.length → (h.node (h0.nn + L.length)).edges.length = names.length →
      ∃ h', (∃ d', topoAxes (h0.nn + L.length) names cs d h = (.ok d', h') ∧ TInv h0 h' ts (L ++ [names]) d') ∨
        (topoAxes (h0.nn + L.length) names cs d h = (.error .valueError, h') ∧ Untouched h0 h' ∧
          ¬ TopoOK (L ++ [names] ++ rest) (ts ++ all)) := by
  intro cs
  induction cs with
  | nil =>
    intro p d h hp x _ _
    rw [List.append_nil] at hp
    subst hp
    exact ⟨h, .inl ⟨d, rfl, x⟩⟩
  | cons c cs ih =>
    intro p d h hp x hw hlen
    have hlt : h0.nn + L.length < h.nn := by
      have h1 := x.len; have h2 := x.nn
      simp at h1; omega
    have hidx : names.idxOf c = p.length := by
      rw [hp, List.idxOf_append_of_notMem]
      · simp
      · rw [hp, List.nodup_append] at hnd
        intro hc
        exact hnd.2.2 c hc c (by simp) rfl
    have hk : p.length < (h.node (h0.nn + L.length)).edges.length := by rw [hlen, hp]; simp
    have hat : At h (h0.nn + L.length, p.length) (h.node (h0.nn + L.length)).edges[p.length] := ⟨hlt, by simp⟩
    set e := (h.node (h0.nn + L.length)).edges[p.length] with he
    have hde := hw _ _ (Nat.le_refl _) hat
    have hstep : topoAxes (h0.nn + L.length) names (c :: cs) d h = (match d c with
        | some a => (connect a e >>= fun new => topoAxes (h0.nn + L.length) names cs (Function.update d c (some new)) : M R EdgeDict) h
        | none => topoAxes (h0.nn + L.length) names cs (Function.update d c (some e)) h) := by
      simp only [topoAxes]
      rw [M.bind_ok (x := nodeEdges (h0.nn + L.length)) (a := (h.node (h0.nn + L.length)).edges) (h' := h) rfl, hidx, List.getElem?_eq_getElem hk]
      simp only
      rcases d c with _ | a <;> rfl
    have hp' : names = (p ++ [c]) ++ cs := by rw [hp]; simp
    rcases hdc : d c with _ | a
    · rw [hdc] at hstep
      rw [hstep]
      exact ih (p ++ [c]) _ h hp' (x.add hdc hat hde) (fun j e' hj => hw j e' (by simp at hj; omega)) hlen
    · rw [hdc] at hstep
      simp only at hstep
      obtain ⟨s0, l0, a0⟩ := (x.dict c a).1 hdc
      have hB : h0.nn ≤ (h0.nn + L.length, p.length).1 := Nat.le_add_right _ _
      have hcur : lab h0.nn (L ++ [p ++ [c]]) (h0.nn + L.length, p.length) = some c := by rw [lab_step, if_pos rfl]
      by_cases hok : (h.edge a).dangling = true ∧ (h.edge e).dangling = true ∧ a ≠ e ∧ edim h a = edim h e
      · obtain ⟨h', hc, hj, hne, hedge⟩ := connect_ok x.old.wf a0.inUse hat.inUse hok.1 hok.2.1 hok.2.2.1 hok.2.2.2
        rw [hstep, M.bind_ok hc]
        have x' := x.join w0 hdc hat hj rfl hne hedge
        refine ih (p ++ [c]) _ h' hp' x' ?_ ?_
        · intro j e' hj' hat'
          rw [List.length_append, List.length_singleton] at hj'
          have h2 := hat'.2
          rw [(hj.nodes _ hlt).2, List.getElem?_map, Option.map_eq_some_iff] at h2
          obtain ⟨e1, h3, h4⟩ := h2
          have h5 : At h (h0.nn + L.length, j) e1 := ⟨hlt, h3⟩
          have hlj : lab h0.nn (L ++ [p]) (h0.nn + L.length, j) = none := lab_later (by omega)
          rw [glue, if_neg] at h4
          · subst h4
            rw [hedge _ (x.old.wf.lt h5.inUse).ne]
            exact hw j _ (by omega) h5
          · rintro (rfl | rfl)
            · rcases x.pair (h0.nn + L.length, j) s0 _ hB (lab_ge l0) h5 a0 with h6 | ⟨c', h6, _⟩
              · rw [← h6, hlj] at l0; cases l0
              · rw [hlj] at h6; cases h6
            · rcases x.pair (h0.nn + L.length, j) _ _ hB hB h5 hat with h6 | ⟨c', h6, _⟩
              · simp only [Prod.mk.injEq, true_and] at h6; omega
              · rw [hlj] at h6; cases h6
        · rw [(hj.nodes _ hlt).2, List.length_map, hlen]
      · rw [hstep, M.bind_error (connect_err x.old.wf a0.inUse hat.inUse hok)]
        refine ⟨h, .inr ⟨rfl, x.old, fun T => hok ⟨?_, hde, ?_, ?_⟩⟩⟩
        · by_contra hnd'
          have h1 := x.dang c a hdc (by simpa using hnd')
          have h2 := T.twice c
          rw [hp'] at h2
          simp only [List.flatten_append, List.count_append, List.flatten_cons, List.flatten_nil, List.append_nil,
            List.count_singleton_self] at h1 h2
          omega
        · intro hae
          rcases x.pair s0 _ e (lab_ge l0) hB (hae ▸ a0) hat with h6 | ⟨c', _, h6⟩
          · rw [h6, lab_cur] at l0; cases l0
          · rw [lab_cur] at h6; cases h6
        · obtain ⟨dim, hdim⟩ := T.dims
          have g1 := lab_mono (c :: cs) rest l0
          have g2 := lab_mono cs rest hcur
          rw [← hp] at g1
          rw [← hp'] at g2
          rw [x.old.wf.edim_eq a0, x.old.wf.edim_eq hat, x.dimAt_lab hdim a0.1 g1, x.dimAt_lab hdim hlt g2]

/-- Adding a node. -/
theorem TInv.node {h0 h : Heap R} {ts : List (NDArray R)} {L : List (List Nat)} {d : EdgeDict} (x : TInv h0 h ts L d)
    (t : NDArray R) : TInv h0 (addNode h t) (ts ++ [t]) (L ++ [[]]) d ∧ Waiting (addNode h t) h.nn 0 := by
  have hlab : ∀ s c, lab h0.nn L s = some c → s.1 ≠ h.nn := by
    intro s c hs
    obtain ⟨e, he⟩ := x.listed s c hs
    exact he.1.ne
  refine ⟨⟨⟨addNode_wf x.old.wf t, ?_, ?_, ?_, ?_⟩, ?_, ?_, ?_, ?_, ?_, ?_, ?_, ?_, ?_⟩, ?_⟩
  · have := x.old.nn; simp only [addNode]; omega
  · have := x.old.ne; simp only [addNode]; omega
  · intro n hn
    rw [addNode_node_old (lt_of_lt_of_le hn x.old.nn), x.old.node n hn]
  · intro e he
    rw [addNode_edge_old (lt_of_lt_of_le he x.old.ne), x.old.edge e he]
  · have := x.nn; simp [addNode]; omega
  · simp [x.len]
  · intro i hi
    rw [List.length_append, List.length_singleton] at hi
    rcases Nat.lt_succ_iff_lt_or_eq.1 hi with h1 | h1
    · rw [addNode_node_old (by rw [x.nn]; omega), x.tens i h1, List.getElem_append_left h1]
    · subst h1
      rw [← x.nn, addNode_node_new]
      simp
  · intro s e hs h1
    by_cases hn : s.1 = h.nn
    · rcases s with ⟨n, k⟩
      simp only at hn
      subst hn
      obtain ⟨-, rfl⟩ := addNode_at_new.1 h1
      have := x.old.ne; omega
    · exact x.fresh s e hs ((addNode_at_old hn).1 h1)
  · intro s s' e h1 h2 h3 h4
    simp only [lab_new]
    by_cases hn : s.1 = h.nn <;> by_cases hn' : s'.1 = h.nn
    · rcases s with ⟨n, k⟩; rcases s' with ⟨n', k'⟩
      simp only at hn hn'
      subst hn; subst hn'
      obtain ⟨-, g1⟩ := addNode_at_new.1 h3
      obtain ⟨-, g2⟩ := addNode_at_new.1 h4
      left
      rw [Prod.mk.injEq]
      exact ⟨rfl, by omega⟩
    · rcases s with ⟨n, k⟩
      simp only at hn
      subst hn
      obtain ⟨-, g1⟩ := addNode_at_new.1 h3
      have := x.old.wf.lt ((addNode_at_old hn').1 h4).inUse
      omega
    · rcases s' with ⟨n, k⟩
      simp only at hn'
      subst hn'
      obtain ⟨-, g1⟩ := addNode_at_new.1 h4
      have := x.old.wf.lt ((addNode_at_old hn).1 h3).inUse
      omega
    · exact x.pair s s' e h1 h2 ((addNode_at_old hn).1 h3) ((addNode_at_old hn').1 h4)
  · intro s s' c e h1 h2 h3
    rw [lab_new] at h1 h2
    exact (addNode_at_old (hlab s' c h2)).2 (x.same s s' c e h1 h2 ((addNode_at_old (hlab s c h1)).1 h3))
  · intro c e
    rw [x.dict]
    refine exists_congr fun s => ?_
    rw [lab_new]
    exact and_congr_right fun hs => (addNode_at_old (hlab s c hs)).symm
  · intro s c hs
    rw [lab_new] at hs
    obtain ⟨e, he⟩ := x.listed s c hs
    exact ⟨e, (addNode_at_old (hlab s c hs)).2 he⟩
  · intro c e h1 h2
    obtain ⟨s, g1, g2⟩ := (x.dict c e).1 h1
    rw [addNode_edge_old (x.old.wf.lt g2.inUse)] at h2
    simpa using x.dang c e h1 h2
  · intro j e _ h1
    obtain ⟨h2, rfl⟩ := addNode_at_new.1 h1
    rw [addNode_edge_new h2]

theorem zip_mem_of_append {α β : Type} {a : List α} {b : List β} (hab : a.length = b.length) {x : α} {y : β} (a' : List α) (b' : List β) :
    (x, y) ∈ (a ++ x :: a').zip (b ++ y :: b') := by
  rw [List.zip_append hab]; simp

theorem topoNodes_spec {h0 : Heap R} (w0 : WF h0) :
    ∀ (rest : List (List Nat × NDArray R)) (ts : List (NDArray R)) (L : List (List Nat)) (d : EdgeDict) (h : Heap R),
      TInv h0 h ts L d → (∀ p ∈ ts.zip L, p.2.length = p.1.ndim) → (∀ l ∈ L, l.Nodup) →
      ∃ h', (∃ d', topoNodes rest d (List.range' h0.nn ts.length) h = (.ok (List.range' h0.nn (ts.length + rest.length)), h') ∧
          TInv h0 h' (ts ++ rest.map Prod.snd) (L ++ rest.map Prod.fst) d' ∧
          (∀ p ∈ (ts ++ rest.map Prod.snd).zip (L ++ rest.map Prod.fst), p.2.length = p.1.ndim) ∧
          ∀ l ∈ L ++ rest.map Prod.fst, l.Nodup) ∨
        (topoNodes rest d (List.range' h0.nn ts.length) h = (.error .valueError, h') ∧ Untouched h0 h' ∧
          ¬ TopoOK (L ++ rest.map Prod.fst) (ts ++ rest.map Prod.snd)) := by
  intro rest
  induction rest with
  | nil =>
    intro ts L d h x hr hn
    exact ⟨h, .inl ⟨d, by simp [topoNodes, pure, M.pure], by simpa using x, by simpa using hr, by simpa using hn⟩⟩
  | cons q rest ih =>
    rcases q with ⟨ls, t⟩
    intro ts L d h x hr hn
    by_cases h1 : ls.length ≠ t.ndim
    · refine ⟨h, .inr ⟨by rw [topoNodes, if_pos h1]; rfl, x.old, fun T => h1 ?_⟩⟩
      exact T.rank (t, ls) (by simpa using zip_mem_of_append x.len.symm _ _)
    by_cases h2 : ¬ ls.Nodup
    · refine ⟨h, .inr ⟨by rw [topoNodes, if_neg h1, if_pos h2]; rfl, x.old, fun T => h2 ?_⟩⟩
      exact T.distinct ls (by simp)
    rw [not_not] at h1 h2
    obtain ⟨x1, hw⟩ := x.node t
    have hnn : h.nn = h0.nn + L.length := by rw [x.nn, x.len]
    have hstep : topoNodes ((ls, t) :: rest) d (List.range' h0.nn ts.length) h =
        (topoAxes (h0.nn + L.length) ls ls d >>= fun d => topoNodes rest d (List.range' h0.nn (ts.length + 1))) (addNode h t) := by
      rw [topoNodes, if_neg (by simpa using h1), if_neg (by simpa using h2), M.bind_ok (newNode_eq h t), hnn, List.range'_concat, x.len]
      simp
    rw [hstep]
    rw [hnn] at hw
    obtain ⟨h', ⟨d', e1, x2⟩ | ⟨e1, u, bad⟩⟩ := topoAxes_spec w0 ls h2 (rest.map Prod.snd) (rest.map Prod.fst) ls [] d (addNode h t) rfl x1 hw
      (by rw [← hnn, addNode_node_new]; simp [h1])
    · rw [M.bind_ok e1]
      have := ih (ts ++ [t]) (L ++ [ls]) d' h' x2 (by
        intro p hp
        rw [List.zip_append x.len.symm] at hp
        rcases List.mem_append.1 hp with hp | hp
        · exact hr p hp
        · simp only [List.zip_cons_cons, List.zip_nil_left, List.mem_singleton] at hp
          subst hp; exact h1) (by
        intro l hl
        rcases List.mem_append.1 hl with hl | hl
        · exact hn l hl
        · rw [List.mem_singleton] at hl; subst hl; exact h2)
      simpa [List.append_assoc, Nat.add_assoc, Nat.add_comm 1] using this
    · rw [M.bind_error e1]
      exact ⟨h', .inr ⟨rfl, u, by simpa [List.append_assoc] using bad⟩⟩

/-- The edges of the new nodes. -/
theorem TInv.net {h0 h : Heap R} {ts : List (NDArray R)} {L : List (List Nat)} {d : EdgeDict} (x : TInv h0 h ts L d)
    (hr : ∀ p ∈ ts.zip L, p.2.length = p.1.ndim) :
    netOf h (List.range' h0.nn ts.length) = (ts.zip L).map fun p => (p.1, p.2.map fun c => (d c).getD 0) := by
  have hl := x.len
  apply List.ext_getElem
  · simp [netOf, hl]
  · intro i h1 h2
    have hi : i < ts.length := by simpa [netOf] using h1
    have hi' : i < L.length := by omega
    have hn : h0.nn + i < h.nn := by rw [x.nn]; omega
    simp only [netOf, List.getElem_map, List.getElem_range', List.getElem_zip, Nat.one_mul, Prod.mk.injEq]
    refine ⟨x.tens i hi, ?_⟩
    have hlen : L[i].length = (h.node (h0.nn + i)).edges.length := by
      rw [x.old.wf.len _ hn, x.tens i hi]
      refine hr (ts[i], L[i]) (List.mem_of_getElem? (i := i) ?_)
      rw [List.getElem?_zip_eq_some]
      exact ⟨by simp [hi], by simp [hi']⟩
    apply List.ext_getElem
    · simp [hlen]
    · intro j g1 g2
      rw [List.getElem_map]
      have hj : j < L[i].length := by omega
      have hlab : lab h0.nn L (h0.nn + i, j) = some L[i][j] := by
        simp [lab, List.getD_eq_getElem?_getD, hi', hj]
      rw [(x.dict L[i][j] _).2 ⟨_, hlab, ⟨hn, List.getElem?_eq_getElem g1⟩⟩]
      rfl

theorem lab_of_mem {B : Nat} {L : List (List Nat)} {c : Nat} (h : c ∈ L.flatten) : ∃ s, lab B L s = some c := by
  obtain ⟨l, h1, h2⟩ := List.mem_flatten.1 h
  obtain ⟨i, hi, rfl⟩ := List.getElem_of_mem h1
  obtain ⟨j, hj, rfl⟩ := List.getElem_of_mem h2
  exact ⟨(B + i, j), by simp [lab, List.getD_eq_getElem?_getD, hi, hj]⟩

theorem TInv.inj {h0 h : Heap R} {ts : List (NDArray R)} {L : List (List Nat)} {d : EdgeDict} (x : TInv h0 h ts L d)
    {a b : Nat} (ha : a ∈ L.flatten) (hb : b ∈ L.flatten) (hab : (d a).getD 0 = (d b).getD 0) : a = b := by
  obtain ⟨s, hs⟩ := lab_of_mem (B := h0.nn) ha
  obtain ⟨s', hs'⟩ := lab_of_mem (B := h0.nn) hb
  obtain ⟨e, he⟩ := x.listed s a hs
  obtain ⟨e', he'⟩ := x.listed s' b hs'
  rw [(x.dict a e).2 ⟨s, hs, he⟩, (x.dict b e').2 ⟨s', hs', he'⟩] at hab
  simp only [Option.getD_some] at hab
  subst hab
  rcases x.pair s s' e (lab_ge hs) (lab_ge hs') he he' with rfl | ⟨c, h1, h2⟩
  · rw [hs] at hs'; exact Option.some.inj hs'
  · rw [hs] at h1; rw [hs'] at h2
    rw [Option.some.inj h1, Option.some.inj h2]

theorem flatL_zip {ts : List (NDArray R)} {L : List (List Nat)} (hl : L.length = ts.length) : flatL (ts.zip L) = L.flatten := by
  rw [flatL, List.flatMap_def, List.map_snd_zip (by omega)]

/-- What is known of the edges of a successful run. -/
theorem TInv.count {h0 h : Heap R} (w0 : WF h0) {ts : List (NDArray R)} {L : List (List Nat)} {d : EdgeDict} (x : TInv h0 h ts L d)
    (hr : ∀ p ∈ ts.zip L, p.2.length = p.1.ndim) {c : Nat} (hc : c ∈ L.flatten) :
    L.flatten.count c = if (h.edge ((d c).getD 0)).dangling then 1 else 2 := by
  obtain ⟨s, hs⟩ := lab_of_mem (B := h0.nn) hc
  obtain ⟨e, he⟩ := x.listed s c hs
  have hd := (x.dict c e).2 ⟨s, hs, he⟩
  have hmem : ∀ n ∈ List.range' h0.nn ts.length, n < h.nn := by
    intro n hn
    rw [List.mem_range'_1] at hn
    rw [x.nn]; omega
  have h1 := x.old.wf.count_flat he.inUse (List.nodup_range' (s := h0.nn) (n := ts.length)) hmem
  have h2 : flatL (netOf h (List.range' h0.nn ts.length)) = L.flatten.map fun c => (d c).getD 0 := by
    rw [x.net hr, ← flatL_zip x.len]
    simp [flatL, List.flatMap_map, List.map_flatMap]
  rw [h2] at h1
  have h3 := count_map_inj (ρ := fun c => (d c).getD 0) (ls := L.flatten) (l := c) fun a ha hab => x.inj ha hc hab
  rw [← h3, hd, Option.getD_some, h1, ← (x.old.wf.good he.inUse).card, Multiset.countP_eq_card]
  intro s' hs'
  have h4 := (x.old.wf.mem_ends he.inUse).1 hs'
  have h5 := x.only w0 (lab_ge hs) he h4
  have h6 := h4.1
  rw [List.mem_range'_1]
  rw [x.nn] at h6
  omega

theorem tinv_start {h : Heap R} (w : WF h) : TInv h h [] [] (fun _ => none) := by
  have hl : ∀ s : Slot, lab h.nn [] s = none := by intro s; simp [lab]
  refine ⟨⟨w, Nat.le_refl _, Nat.le_refl _, fun _ _ => rfl, fun _ _ => rfl⟩, rfl, rfl, fun i hi => by simp at hi, ?_, ?_, ?_, ?_, ?_, ?_⟩
  · intro s e h1 h2; have := h2.1; omega
  · intro s s' e h1 h2 h3; have := h3.1; omega
  · intro s s' c e h1; rw [hl] at h1; cases h1
  · intro c e; simp [hl]
  · intro s c h1; rw [hl] at h1; cases h1
  · intro c e h1; cases h1

/-- **C87.**  `from_topology(topology, tensors)`.  If the string fits the tensors, the result is one new node for
each tensor, in order; the axes of equal names share an edge, axes of different names do not, an edge is dangling
exactly if its name occurs once, and the value of the new network is the sum, over the names that occur twice, of the
product of the entries.  If the string does not fit, it is a `ValueError`.  In both cases the nodes and edges that
were there before are as they were. -/
theorem C87_from_topology {h : Heap R} (g : GraphOK h) (topology : List Nat) (tensors : List (NDArray R)) :
    ∃ h', GraphOK h' ∧ (∀ n < h.nn, h'.node n = h.node n) ∧ (∀ e < h.ne, h'.edge e = h.edge e) ∧
      (¬ TopoOK (topology.splitOn 44) tensors → fromTopology topology tensors h = (.error .valueError, h')) ∧
      (TopoOK (topology.splitOn 44) tensors → ∃ ρ : Nat → EId,
        fromTopology topology tensors h = (.ok (List.range' h.nn tensors.length), h') ∧ h'.nn = h.nn + tensors.length ∧
        netOf h' (List.range' h.nn tensors.length) = (tensors.zip (topology.splitOn 44)).map (fun p => (p.1, p.2.map ρ)) ∧
        (∀ a ∈ (topology.splitOn 44).flatten, ∀ b ∈ (topology.splitOn 44).flatten, ρ a = ρ b → a = b) ∧
        (∀ a ∈ (topology.splitOn 44).flatten, ((h'.edge (ρ a)).dangling = true ↔ (topology.splitOn 44).flatten.count a = 1)) ∧
        ∀ σ, netVal (netOf h' (List.range' h.nn tensors.length)) σ =
          netVal (tensors.zip (topology.splitOn 44)) (fun a => σ (ρ a))) := by
  have w := g.wf
  set parts := topology.splitOn 44 with hparts
  by_cases hnum : parts.length ≠ tensors.length
  · refine ⟨h, g, fun _ _ => rfl, fun _ _ => rfl, fun _ => ?_, fun T => absurd T.number hnum⟩
    simp only [fromTopology, comma, ← hparts, if_pos hnum]
    rfl
  have hnum' : parts.length = tensors.length := not_not.1 hnum
  have e1 : (parts.zip tensors).map Prod.snd = tensors := List.map_snd_zip (by omega)
  have e2 : (parts.zip tensors).map Prod.fst = parts := List.map_fst_zip (by omega)
  have hrun : fromTopology topology tensors h = topoNodes (parts.zip tensors) (fun _ => none) (List.range' h.nn 0) h := by
    simp only [fromTopology, comma, ← hparts, if_neg hnum, List.range'_zero]
  obtain ⟨h', ⟨d', r1, x, hr, hn⟩ | ⟨r1, u, bad⟩⟩ := topoNodes_spec w (parts.zip tensors) [] [] _ h (tinv_start w) (by simp) (by simp)
  · simp only [List.nil_append, e1, e2, List.length_nil, Nat.zero_add, List.length_zip, hnum', Nat.min_self] at r1 x hr hn
    rw [← hrun] at r1
    have hmem : ∀ n ∈ List.range' h.nn tensors.length, n < h'.nn := by
      intro n hn
      rw [List.mem_range'_1] at hn
      rw [x.nn]; omega
    have hnet := x.net hr
    have hcons := x.old.wf.consistent hmem
    have hinj : ∀ a ∈ parts.flatten, ∀ b ∈ parts.flatten, (d' a).getD 0 = (d' b).getD 0 → a = b :=
      fun a ha b hb hab => x.inj ha hb hab
    have hdims : ∀ p ∈ tensors.zip parts, p.1.shape = p.2.map fun c => edim h' ((d' c).getD 0) := by
      intro p hp
      have := hcons (p.1, p.2.map fun c => (d' c).getD 0) (by rw [hnet]; exact List.mem_map_of_mem hp)
      simpa [Shaped, Function.comp_def] using this
    have T : TopoOK parts tensors := by
      refine ⟨hnum', hr, hn, fun c => ?_, ⟨_, hdims⟩⟩
      by_cases hc : c ∈ parts.flatten
      · rw [x.count w hr hc]; split_ifs <;> omega
      · rw [List.count_eq_zero_of_not_mem hc]; omega
    refine ⟨h', x.old.wf.graphOK, x.old.node, x.old.edge, fun hT => absurd T hT, fun _ => ⟨fun c => (d' c).getD 0, r1, x.nn, hnet, hinj, ?_, ?_⟩⟩
    · intro a ha
      have := x.count w hr ha
      rw [this]
      split_ifs with h1
      · simp [h1]
      · simp [h1]
    · intro σ
      refine netVal_relabel (RingHom.id R) (by rw [hnet]; rfl) ?_ (dim := fun c => edim h' ((d' c).getD 0)) hdims hcons σ
      rw [flatL_zip hnum']
      exact hinj
  · simp only [List.nil_append, e1, e2, List.length_nil] at r1 bad
    rw [← hrun] at r1
    exact ⟨h', u.wf.graphOK, u.node, u.edge, fun _ => r1, fun T => absurd T bad⟩

/-- The triangle `"xy,yz,zx"` fits tensors of fitting shapes. -/
example (a b c : NDArray ℤ) (ha : a.shape = [2, 3]) (hb : b.shape = [3, 5]) (hc : c.shape = [5, 2]) :
    ∃ h', (fromTopology [120, 121, 44, 121, 122, 44, 122, 120] [a, b, c] (Heap.empty : Heap ℤ)) = (.ok [0, 1, 2], h') := by
  have T : TopoOK ([120, 121, 44, 121, 122, 44, 122, 120].splitOn 44) [a, b, c] := by
    have e : [120, 121, 44, 121, 122, 44, 122, 120].splitOn 44 = [[120, 121], [121, 122], [122, 120]] := by decide
    rw [e]
    refine ⟨rfl, by simp [ha, hb, hc], by decide, fun x => ?_, ⟨fun x => if x = 120 then 2 else if x = 121 then 3 else 5, by simp [ha, hb, hc]⟩⟩
    simp only [List.flatten_cons, List.flatten_nil, List.append_nil, List.cons_append, List.nil_append, List.count_cons, List.count_nil,
      beq_iff_eq]
    split_ifs <;> omega
  obtain ⟨h', -, -, -, -, hok⟩ := C87_from_topology (graphOK_empty (R := ℤ)) [120, 121, 44, 121, 122, 44, 122, 120] [a, b, c]
  obtain ⟨ρ, h1, -⟩ := hok T
  exact ⟨h', h1⟩

/-- **C87**, the left side of an einsum expression may repeat a name in one group (a trace) or use a name three times;
`from_topology` refuses both, and the empty string for no tensors. -/
theorem C87_einsum_false {h : Heap R} (g : GraphOK h) (a b c : NDArray R) :
    (fromTopology [120, 120] [a] h).1 = .error .valueError ∧
    (fromTopology [120, 44, 120, 44, 120] [a, b, c] h).1 = .error .valueError ∧
    (fromTopology [] [] h).1 = .error .valueError := by
  refine ⟨?_, ?_, ?_⟩
  · obtain ⟨h', -, -, -, hbad, -⟩ := C87_from_topology g [120, 120] [a]
    rw [hbad fun T => absurd (T.distinct [120, 120] (by decide)) (by decide)]
  · obtain ⟨h', -, -, -, hbad, -⟩ := C87_from_topology g [120, 44, 120, 44, 120] [a, b, c]
    rw [hbad fun T => absurd (T.twice 120) (by decide)]
  · obtain ⟨h', -, -, -, hbad, -⟩ := C87_from_topology g [] []
    rw [hbad fun T => absurd T.number (by simp)]

end TN.Graph
