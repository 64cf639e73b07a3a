import Verif.GraphSplit2

/-!
# Removing a node
-/

namespace TN.Graph

open TN

variable {R : Type}

/-- `disconnect`, axis by axis. -/
theorem disconnect_at [CommSemiring R] {h : Heap R} (w : WF h) {e : EId} (hu : InUse h e)
    {n1 a1 n2 a2 : Nat} (hr : h.edge e = .conn n1 a1 n2 a2) :
    ∃ h', disconnect e h = (.ok (h.ne, h.ne + 1), h') ∧ WF h' ∧ h'.nn = h.nn ∧
      (∀ n < h.nn, (h'.node n).tensor = (h.node n).tensor) ∧ h'.ne = h.ne + 2 ∧
      (∀ f, f < h.ne → h'.edge f = h.edge f) ∧
      h'.edge h.ne = .dang n1 a1 ∧ h'.edge (h.ne + 1) = .dang n2 a2 ∧
      ∀ s f, At h' s f ↔ if s = (n1, a1) then f = h.ne else
        if s = (n2, a2) then f = h.ne + 1 else At h s f := by
  obtain ⟨h', k1, k2, k3, k4, k5, k6, k7⟩ := disconnect_ok w hu (by rw [hr])
  have hnn : h'.nn = h.nn := k7.nn.symm
  obtain ⟨n, x, m, y, j1, j2, j3⟩ := k7.joined
  rw [hr] at j3
  simp only [EdgeRec.mk.injEq, Option.some.injEq, and_true] at j3
  obtain ⟨rfl, rfl, rfl, rfl⟩ := j3
  have dg : ∀ f s, At h' s f → (h'.edge f).dangling = true → h'.edge f = .dang s.1 s.2 := by
    intro f s hs hd
    rcases k2.good hs.inUse with ⟨n', a', hr'⟩ | ⟨_, _, _, _, hr'⟩
    · have := (at_dang k2 hs.inUse hr').1 hs
      rw [this, hr']
    · rw [hr'] at hd; simp at hd
  have hat := fun s => at_conn w hu hr (s := s)
  refine ⟨h', k1, k2, hnn, fun n' hn' => ((k7.nodes n' (by rw [hnn]; exact hn')).1).symm, k3, k4,
    dg _ _ j1 k5, dg _ _ j2 k6, ?_⟩
  intro s f
  by_cases s1 : s = (n1, a1)
  · rw [if_pos s1, s1]
    exact ⟨fun h1 => h1.unique j1, fun h1 => h1 ▸ j1⟩
  rw [if_neg s1]
  by_cases s2 : s = (n2, a2)
  · rw [if_pos s2, s2]
    exact ⟨fun h1 => h1.unique j2, fun h1 => h1 ▸ j2⟩
  rw [if_neg s2]
  have hmap : ∀ g, At h s g ↔ s.1 < h.nn ∧ ∃ f, (h'.node s.1).edges[s.2]? = some f ∧
      glue h.ne (h.ne + 1) e f = g := by
    intro g
    unfold At
    constructor
    · rintro ⟨h1, h2⟩
      refine ⟨h1, ?_⟩
      rw [(k7.nodes s.1 (by rw [hnn]; exact h1)).2, List.getElem?_map, Option.map_eq_some_iff] at h2
      exact h2
    · rintro ⟨h1, h2⟩
      refine ⟨h1, ?_⟩
      rw [(k7.nodes s.1 (by rw [hnn]; exact h1)).2, List.getElem?_map, Option.map_eq_some_iff]
      exact h2
  have hnot : ¬ At h s e := by
    rw [hat]; tauto
  constructor
  · intro h1
    have h2 : At h s (glue h.ne (h.ne + 1) e f) :=
      (hmap _).2 ⟨by rw [← hnn]; exact h1.1, f, h1.2, rfl⟩
    unfold glue at h2
    split_ifs at h2 with h3
    · exact absurd h2 hnot
    · exact h2
  · intro h1
    obtain ⟨h2, g, h3, h4⟩ := (hmap f).1 h1
    refine ⟨by rw [hnn]; exact h2, ?_⟩
    unfold glue at h4
    split_ifs at h4 with h5
    · rw [← h4] at h1; exact absurd h1 hnot
    · rw [← h4]; exact h3

/-- `e` joins axis `i` of `n` to axis `k` of another node `m`. -/
def Crosses (h : Heap R) (n i m k : Nat) (e : EId) : Prop :=
  m ≠ n ∧ (h.edge e = .conn n i m k ∨ h.edge e = .conn m k n i)

/-- `h'` is `h` after the edges from the axes below `j` of `n` to other nodes were cut;
`l` lists the new dangling edges of the neighbours. -/
structure CutAt (h h' : Heap R) (n j : Nat) (l : List (Option (Nat × EId))) : Prop where
  wf : WF h'
  nn : h'.nn = h.nn
  ne : h.ne ≤ h'.ne
  tensor : ∀ m < h.nn, (h'.node m).tensor = (h.node m).tensor
  /-- an axis whose edge is cut gets its own new dangling edge -/
  cut : ∀ i < j, ∀ m k e, At h (n, i) e → Crosses h n i m k e → ∃ f g, At h' (n, i) f ∧
    At h' (m, k) g ∧ h.ne ≤ f ∧ h.ne ≤ g ∧ h'.edge f = .dang n i ∧ h'.edge g = .dang m k ∧
    l[i]? = some (some (i, g))
  /-- all other axes keep their edge -/
  keep : ∀ s e, At h s e → (∀ i < j, ∀ m k, At h (n, i) e → ¬ Crosses h n i m k e) →
    At h' s e ∧ h'.edge e = h.edge e
  len : l.length = j
  none : ∀ i < j, ∀ e, At h (n, i) e → (∀ m k, ¬ Crosses h n i m k e) → l[i]? = some none
  /-- old records stay -/
  record : ∀ e < h.ne, h'.edge e = h.edge e

theorem crosses_or {h : Heap R} (w : WF h) {n i : Nat} {e : EId} (hs : At h (n, i) e) :
    (∃ m k, Crosses h n i m k e) ∨ (h.edge e).dangling = true ∨
      ∃ a b, h.edge e = .conn n a n b := by
  rcases w.good hs.inUse with ⟨m, a, hr⟩ | ⟨m, a, m', b, hr⟩
  · right; left; rw [hr]
  · have h1 := (at_conn w hs.inUse hr).1 hs
    by_cases hm : m = m'
    · right; right
      refine ⟨a, b, ?_⟩
      rcases h1 with h2 | h2 <;> (obtain ⟨rfl, rfl⟩ := Prod.mk.inj h2)
      · rw [hr, ← hm]
      · rw [hr, hm]
    · left
      rcases h1 with h2 | h2 <;> obtain ⟨rfl, rfl⟩ := Prod.mk.inj h2
      · exact ⟨m', b, fun h3 => hm h3.symm, .inl hr⟩
      · exact ⟨m, a, hm, .inr hr⟩

theorem Crosses.at {h : Heap R} (w : WF h) {n i m k : Nat} {e : EId} (hu : InUse h e)
    (c : Crosses h n i m k e) {s : Slot} : At h s e ↔ s = (n, i) ∨ s = (m, k) := by
  rcases c.2 with hr | hr
  · exact at_conn w hu hr
  · rw [at_conn w hu hr, or_comm]

/-- The loop of `remove_node`. -/
theorem removeLoop [CommSemiring R] {h : Heap R} (w : WF h) {n : NId} (hn : n < h.nn) :
    ∀ j ≤ (h.node n).edges.length, ∃ h' l, M.mapEach (List.range j) (fun i => do
      let cur ← nodeEdges n
      match cur[i]? with
      | none => M.throw .indexError
      | some e => do
        let d ← isDangling e
        if d then pure none
        else do
          let t ← isTrace e
          if t then pure none
          else do
            let (f1, f2) ← disconnect e
            let m ← node1 f1
            pure (some (i, if m ≠ n then f1 else f2))) h = (.ok l, h') ∧
      CutAt h h' n j l := by
  intro j
  induction j with
  | zero =>
    intro _
    refine ⟨h, [], by simp, ⟨w, rfl, le_rfl, fun _ _ => rfl, fun i hi => by omega,
      fun s e hs _ => ⟨hs, rfl⟩, rfl, fun i hi => by omega, fun _ _ => rfl⟩⟩
  | succ j ih =>
    intro hj
    obtain ⟨g, l, r1, r2⟩ := ih (by omega)
    obtain ⟨e, he⟩ : ∃ e, e = (h.node n).edges[j] := ⟨_, rfl⟩
    have hat : At h (n, j) e := ⟨hn, by simp only; rw [List.getElem?_eq_getElem hj, he]⟩
    -- an edge that crosses at another axis is a different edge
    have hsame : ∀ i < j, ∀ m k, At h (n, i) e → ¬ Crosses h n i m k e := by
      intro i hi m k h1 c
      rcases (c.at w hat.inUse).1 hat with h2 | h2
      · have := (Prod.mk.inj h2).2; omega
      · exact c.1 (Prod.mk.inj h2).1.symm
    obtain ⟨k1, k2⟩ := r2.keep (n, j) e hat hsame
    have hcur : (g.node n).edges[j]? = some e := k1.2
    rw [List.range_succ]
    -- an axis that is not cut
    have stay : (∀ m k, ¬ Crosses h n j m k e) →
        CutAt h g n (j + 1) (l ++ [none]) := by
      intro hno
      refine ⟨r2.wf, r2.nn, r2.ne, r2.tensor, ?_, ?_, by simp [r2.len], ?_, r2.record⟩
      · intro i hi m k e' h1 c
        by_cases hij : i = j
        · subst hij
          have := h1.unique hat
          subst this
          exact absurd c (hno m k)
        · obtain ⟨f, f', q1, q2, q3, q4, q5, q6, q7⟩ := r2.cut i (by omega) m k e' h1 c
          refine ⟨f, f', q1, q2, q3, q4, q5, q6, ?_⟩
          rw [List.getElem?_append_left (by rw [r2.len]; omega)]; exact q7
      · intro s e' hs hno'
        exact r2.keep s e' hs fun i hi m k h1 => hno' i (by omega) m k h1
      · intro i hi e' h1 hno'
        by_cases hij : i = j
        · subst hij
          rw [List.getElem?_append_right (by rw [r2.len]), r2.len]; simp
        · rw [List.getElem?_append_left (by rw [r2.len]; omega)]
          exact r2.none i (by omega) e' h1 hno'
    rcases crosses_or w hat with ⟨m, k, c⟩ | hd | ⟨a, b, hr⟩
    · -- the edge is cut
      obtain ⟨n1, a1, n2, a2, hr, hsl⟩ : ∃ n1 a1 n2 a2, h.edge e = .conn n1 a1 n2 a2 ∧
          (((n1, a1) = (n, j) ∧ (n2, a2) = (m, k)) ∨ ((n1, a1) = (m, k) ∧ (n2, a2) = (n, j))) := by
        rcases c.2 with hr | hr
        · exact ⟨_, _, _, _, hr, .inl ⟨rfl, rfl⟩⟩
        · exact ⟨_, _, _, _, hr, .inr ⟨rfl, rfl⟩⟩
      have hn12 : n1 ≠ n2 := by
        rcases hsl with ⟨h1, h2⟩ | ⟨h1, h2⟩
        · rw [(Prod.mk.inj h1).1, (Prod.mk.inj h2).1]; exact c.1.symm
        · rw [(Prod.mk.inj h1).1, (Prod.mk.inj h2).1]; exact c.1
      obtain ⟨h', d1, d2, d3, d4, d5, d6, d7, d8, d9⟩ := disconnect_at r2.wf k1.inUse
        (by rw [k2]; exact hr)
      have hne' := r2.ne
      -- the new edges of `n` and of the neighbour
      obtain ⟨f, f', hf1, hf2, hf3, hf4, hf5, hf6, hf7⟩ : ∃ f f', At h' (n, j) f ∧ At h' (m, k) f' ∧
          h.ne ≤ f ∧ h.ne ≤ f' ∧ h'.edge f = .dang n j ∧ h'.edge f' = .dang m k ∧
          (if n1 ≠ n then g.ne else g.ne + 1) = f' := by
        rcases hsl with ⟨h1, h2⟩ | ⟨h1, h2⟩
        · obtain ⟨rfl, rfl⟩ := Prod.mk.inj h1
          obtain ⟨rfl, rfl⟩ := Prod.mk.inj h2
          refine ⟨g.ne, g.ne + 1, by rw [d9, if_pos rfl], ?_, by omega, by omega, d7, d8, by simp⟩
          rw [d9, if_neg (fun h3 => hn12 (Prod.mk.inj h3).1.symm), if_pos rfl]
        · obtain ⟨rfl, rfl⟩ := Prod.mk.inj h1
          obtain ⟨rfl, rfl⟩ := Prod.mk.inj h2
          refine ⟨g.ne + 1, g.ne, ?_, by rw [d9, if_pos rfl], by omega, by omega, d8, d7, ?_⟩
          · rw [d9, if_neg (fun h3 => hn12 (Prod.mk.inj h3).1.symm), if_pos rfl]
          · rw [if_pos c.1]
      have rest : ∀ s f, s ≠ (n, j) → s ≠ (m, k) → (At h' s f ↔ At g s f) := by
        intro s f h1 h2
        rw [d9]
        rcases hsl with ⟨h3, h4⟩ | ⟨h3, h4⟩
        · rw [h3, h4, if_neg h1, if_neg h2]
        · rw [h3, h4, if_neg h2, if_neg h1]
      have hlt : ∀ s f, At g s f → f < g.ne := fun s f hs => r2.wf.lt hs.inUse
      refine ⟨h', l ++ [some (j, f')], mapEach_concat _ _ _ r1 ?_, ?_⟩
      · rw [M.bind_ok (nodeEdges_eq n), hcur]
        dsimp only
        rw [M.bind_ok isDangling_eq, k2, hr]
        have htr : isTrace e g = (.ok false, g) := by
          unfold isTrace
          rw [M.bind_ok (node1_conn (k2.trans hr)), M.bind_ok (node2_conn (k2.trans hr))]
          simp [hn12]
        rw [if_neg (by simp), M.bind_ok htr, if_neg (by simp)]
        refine (M.bind_ok d1).trans ?_
        refine (M.bind_ok (node1_dang d7)).trans ?_
        rw [← hf7]
        rfl
      · refine ⟨d2, d3.trans r2.nn, by omega, ?_, ?_, ?_, by simp [r2.len], ?_, ?_⟩
        · intro x hx
          rw [d4 x (by rw [r2.nn]; exact hx), r2.tensor x hx]
        · intro i hi m' k' e' h1 c'
          by_cases hij : i = j
          · subst hij
            have := h1.unique hat
            subst this
            have hmk : (m', k') = (m, k) := by
              have hm' := (c'.at w h1.inUse).2 (.inr rfl)
              rcases (c.at w h1.inUse).1 hm' with h3 | h3
              · exact absurd (Prod.mk.inj h3).1 c'.1
              · exact h3
            obtain ⟨rfl, rfl⟩ := Prod.mk.inj hmk
            refine ⟨f, f', hf1, hf2, hf3, hf4, hf5, hf6, ?_⟩
            rw [List.getElem?_append_right (by rw [r2.len]), r2.len]; simp
          · obtain ⟨b, b', q1, q2, q3, q4, q5, q6, q7⟩ := r2.cut i (by omega) m' k' e' h1 c'
            have hne2 : (m', k') ≠ (m, k) := by
              intro h3
              have h4 := (c'.at w h1.inUse).2 (.inr rfl)
              rw [h3] at h4
              have h5 := h4.unique ((c.at w hat.inUse).2 (.inr rfl))
              subst h5
              rcases (c.at w hat.inUse).1 h1 with h6 | h6
              · exact hij (Prod.mk.inj h6).2
              · exact c.1 (Prod.mk.inj h6).1.symm
            refine ⟨b, b', ?_, ?_, q3, q4, ?_, ?_, ?_⟩
            · rw [rest]
              · exact q1
              · intro h3; exact hij (Prod.mk.inj h3).2
              · intro h3; exact c.1 (Prod.mk.inj h3).1.symm
            · rw [rest]
              · exact q2
              · intro h3; exact c'.1 (Prod.mk.inj h3).1
              · exact hne2
            · rw [d6 _ (hlt _ _ q1)]; exact q5
            · rw [d6 _ (hlt _ _ q2)]; exact q6
            · rw [List.getElem?_append_left (by rw [r2.len]; omega)]; exact q7
        · intro s e' hs hno'
          obtain ⟨q1, q2⟩ := r2.keep s e' hs fun i hi m k h1 => hno' i (by omega) m k h1
          have hee : e' ≠ e := by
            rintro rfl
            exact hno' j (by omega) m k hat c
          refine ⟨?_, by rw [d6 _ (hlt _ _ q1)]; exact q2⟩
          rw [rest]
          · exact q1
          · rintro rfl; exact hee (hs.unique hat)
          · rintro rfl; exact hee (hs.unique ((c.at w hat.inUse).2 (.inr rfl)))
        · intro i hi e' h1 hno'
          by_cases hij : i = j
          · subst hij
            have := h1.unique hat
            subst this
            exact absurd c (hno' m k)
          · rw [List.getElem?_append_left (by rw [r2.len]; omega)]
            exact r2.none i (by omega) e' h1 hno'
        · intro f'' hf''
          rw [d6 f'' (by omega), r2.record f'' hf'']
    · refine ⟨g, l ++ [none], mapEach_concat _ _ _ r1 ?_, stay ?_⟩
      · rw [M.bind_ok (nodeEdges_eq n), hcur]
        dsimp only
        rw [M.bind_ok isDangling_eq, k2, hd]
        rfl
      · rintro m k ⟨_, hr | hr⟩ <;> (rw [hr] at hd; simp at hd)
    · refine ⟨g, l ++ [none], mapEach_concat _ _ _ r1 ?_, stay ?_⟩
      · rw [M.bind_ok (nodeEdges_eq n), hcur]
        dsimp only
        rw [M.bind_ok isDangling_eq, k2, hr]
        have htr : isTrace e g = (.ok true, g) := by
          unfold isTrace
          rw [M.bind_ok (node1_conn (k2.trans hr)), M.bind_ok (node2_conn (k2.trans hr))]
          simp
        rw [if_neg (by simp), M.bind_ok htr, if_pos rfl]
        rfl
      · rintro m k ⟨h1, h2 | h2⟩ <;>
        · rw [hr] at h2
          simp only [EdgeRec.mk.injEq, Option.some.injEq] at h2
          omega

/-- What `remove_node` does. -/
theorem removeNode_ok [CommSemiring R] {h : Heap R} (w : WF h) {n : NId} (hn : n < h.nn) :
    ∃ h' l, removeNode n h = (.ok (l.filterMap id), h') ∧
      CutAt h h' n (h.node n).edges.length l := by
  obtain ⟨h', l, r1, r2⟩ := removeLoop w hn _ le_rfl
  refine ⟨h', l, ?_, r2⟩
  unfold removeNode
  rw [M.bind_ok (nodeEdges_eq n)]
  exact (M.bind_ok r1).trans rfl

end TN.Graph
