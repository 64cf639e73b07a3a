import Verif.AxisNames7
import Verif.GraphProps3

/-!
# The names after `flatten_edges` and `split_edge`
-/

namespace TN.Graph

open TN

set_option linter.unusedSectionVars false

variable {R α β : Type}

/-- Axis `i` of a node with the edges `es` and the names `ns` holds the edge `f` and has the name `s`, for some `i`. -/
def Labelled (es : List EId) (ns : List String) (f : EId) (s : String) : Prop :=
  ∃ i : Nat, es[i]? = some f ∧ ns[i]? = some s

theorem labelled_append {es es' : List EId} {ns : List String} {f : EId} {s : String} (hf : f ∉ es') :
    Labelled (es ++ es') ns f s ↔ Labelled es ns f s := by
  constructor
  · rintro ⟨i, h1, h2⟩
    rcases Nat.lt_or_ge i es.length with hi | hi
    · exact ⟨i, by rwa [List.getElem?_append_left hi] at h1, h2⟩
    · rw [List.getElem?_append_right hi] at h1
      exact absurd (List.mem_of_getElem? h1) hf
  · rintro ⟨i, h1, h2⟩
    have hi : i < es.length := by
      by_contra hc
      rw [List.getElem?_eq_none (by omega)] at h1; cases h1
    exact ⟨i, by rw [List.getElem?_append_left hi]; exact h1, h2⟩

theorem labelled_take {es : List EId} {ns : List String} {f : EId} {s : String} {k : Nat} (hk : es.length ≤ k)
    {l : List String} : Labelled es (ns.take k ++ l) f s ↔ Labelled es ns f s ∨
      (ns.length < k ∧ ∃ i : Nat, es[i]? = some f ∧ ns.length ≤ i ∧ l[i - ns.length]? = some s) := by
  constructor
  · rintro ⟨i, h1, h2⟩
    have hi : i < es.length := by
      by_contra hc
      rw [List.getElem?_eq_none (by omega)] at h1; cases h1
    by_cases h3 : i < ns.length
    · rw [List.getElem?_append_left (by rw [List.length_take]; omega), List.getElem?_take_of_lt (by omega)] at h2
      exact .inl ⟨i, h1, h2⟩
    · refine .inr ⟨by omega, i, h1, by omega, ?_⟩
      rw [List.getElem?_append_right (by rw [List.length_take]; omega), List.length_take, Nat.min_eq_right (by omega)] at h2
      exact h2
  · rintro (⟨i, h1, h2⟩ | ⟨h0, i, h1, h2, h3⟩)
    · have hi : i < es.length := by
        by_contra hc
        rw [List.getElem?_eq_none (by omega)] at h1; cases h1
      have hi2 : i < ns.length := by
        by_contra hc
        rw [List.getElem?_eq_none (by omega)] at h2; cases h2
      refine ⟨i, h1, ?_⟩
      rw [List.getElem?_append_left (by rw [List.length_take]; omega), List.getElem?_take_of_lt (by omega)]
      exact h2
    · refine ⟨i, h1, ?_⟩
      rw [List.getElem?_append_right (by rw [List.length_take]; omega), List.length_take, Nat.min_eq_right (by omega)]
      exact h3

/-- Where an element of a filtered list was before. -/
theorem filter_index (p : EId → Bool) : ∀ (l : List EId) (j : Nat) (f : EId), (l.filter p)[j]? = some f →
    ∃ i, l[i]? = some f ∧ j ≤ i ∧ (j = i → ∀ k ≤ i, ∀ g, l[k]? = some g → p g = true)
  | [], j, f, h => by simp at h
  | a :: l, j, f, h => by
    by_cases ha : p a = true
    · rw [List.filter_cons_of_pos ha] at h
      rcases j with _ | j
      · refine ⟨0, by simpa using h, le_refl _, fun _ k hk g hg => ?_⟩
        obtain rfl : k = 0 := by omega
        simp only [List.getElem?_cons_zero, Option.some.injEq] at hg
        rw [← hg]; exact ha
      · obtain ⟨i, h1, h2, h3⟩ := filter_index p l j f (by simpa using h)
        refine ⟨i + 1, by simpa using h1, by omega, fun he k hk g hg => ?_⟩
        rcases k with _ | k
        · simp only [List.getElem?_cons_zero, Option.some.injEq] at hg
          rw [← hg]; exact ha
        · exact h3 (by omega) k (by omega) g (by simpa using hg)
    · rw [List.filter_cons_of_neg ha] at h
      obtain ⟨i, h1, h2, _⟩ := filter_index p l j f h
      exact ⟨i + 1, by simpa using h1, by omega, fun he => by omega⟩

theorem exists_last {l : List EId} {f : EId} (hf : f ∈ l) :
    ∃ i : Nat, l[i]? = some f ∧ ∀ j : Nat, l[j]? = some f → j ≤ i := by
  obtain ⟨i, hi⟩ := List.mem_iff_getElem?.1 hf
  have hb : ∀ j, l[j]? = some f → j ≤ l.length := fun j hj => by
    by_contra hc
    rw [List.getElem?_eq_none (by omega)] at hj; cases hj
  exact ⟨_, Nat.findGreatest_spec (P := fun j => l[j]? = some f) (hb i hi) hi,
    fun j hj => Nat.le_findGreatest (hb j hj) hj⟩

/-- The first names stay, the edges behind a dropped edge move forward: they lose their names. -/
theorem labelled_shift {es : List EId} {p : EId → Bool} {ns : List String} (hns : ns.Nodup) (hl : ns.length = es.length)
    {f g : EId} {i k : Nat} (hi : es[i]? = some f) (hk : es[k]? = some g) (hki : k < i) (hg : p g = false) :
    ∃ s, Labelled es ns f s ∧ ¬ Labelled (es.filter p) ns f s := by
  obtain ⟨m, hm, hmax⟩ := exists_last (List.mem_of_getElem? hi)
  have hml : m < ns.length := by
    rw [hl]
    by_contra hc
    rw [List.getElem?_eq_none (by omega)] at hm; cases hm
  refine ⟨ns[m], ⟨m, hm, List.getElem?_eq_getElem hml⟩, ?_⟩
  rintro ⟨j, hj, hs⟩
  obtain ⟨i', h1, h2, h3⟩ := filter_index p es j f hj
  have hjm : j = m := by
    have hjl : j < ns.length := by
      by_contra hc
      rw [List.getElem?_eq_none (by omega)] at hs; cases hs
    rw [List.getElem?_eq_getElem hjl, Option.some.injEq] at hs
    exact (List.Nodup.getElem_inj_iff hns).1 hs
  have h4 := hmax i' h1
  have h5 := hmax i hi
  have := h3 (by omega) k (by omega) g hk
  rw [hg] at this
  cases this

/-- The first names stay, and nothing moves if the dropped edges are the last ones. -/
theorem labelled_front {es : List EId} {p : EId → Bool} {ns : List String} {f : EId} {s : String} (hf : p f = true)
    (hlast : ∀ (i k : Nat) (g : EId), es[i]? = some f → es[k]? = some g → k < i → p g = true) :
    Labelled (es.filter p) ns f s ↔ Labelled es ns f s := by
  have key : ∀ (es : List EId) (j0 : Nat), (∀ (i k : Nat) (g : EId), es[i]? = some f → es[k]? = some g → k < i → p g = true) →
      ∀ i : Nat, (es.filter p)[i]? = some f ↔ es[i]? = some f := by
    intro es
    induction es with
    | nil => intro _ _ i; simp
    | cons a l ih =>
      intro j0 hl i
      by_cases ha : p a = true
      · rw [List.filter_cons_of_pos ha]
        rcases i with _ | i
        · simp
        · simp only [List.getElem?_cons_succ]
          exact ih j0 (fun i k g h1 h2 h3 => hl (i + 1) (k + 1) g (by simpa using h1) (by simpa using h2) (by omega)) i
      · have hno : ∀ i : Nat, (a :: l)[i]? ≠ some f := by
          intro i hi
          rcases i with _ | i
          · simp only [List.getElem?_cons_zero, Option.some.injEq] at hi
            rw [hi] at ha; exact ha hf
          · exact ha (hl (i + 1) 0 a hi (by simp) (by omega))
        refine ⟨fun h => ?_, fun h => absurd h (hno i)⟩
        obtain ⟨i', h1, _⟩ := filter_index p (a :: l) i f h
        exact absurd h1 (hno i')
  constructor
  · rintro ⟨i, h1, h2⟩
    exact ⟨i, (key es 0 hlast i).1 h1, h2⟩
  · rintro ⟨i, h1, h2⟩
    exact ⟨i, (key es 0 hlast i).2 h1, h2⟩

/-! ### `flatten_edges` -/

theorem flattenCheck_heap (l : List EId) (h : Heap R) : (M.forEach l (fun e => do
      let _ ← node1 e
      let _ ← node2 e
      pure ()) h).2 = h := by
  induction l with
  | nil => rfl
  | cons a l ih =>
    have h1 : (node1 a h).2 = h := by
      unfold node1; simp only [M.bind_apply, M.get_apply]; split
      · rfl
      · cases (h.edge a).node1 <;> rfl
    have h2 : (node2 a h).2 = h := by
      unfold node2; simp only [M.bind_apply, M.get_apply]; split
      · rfl
      · split
        · rfl
        · cases (h.edge a).node2 <;> rfl
    rw [M.forEach_cons, M.bind_apply, M.bind_apply]
    rcases hx : node1 a h with ⟨_ | _, k⟩
    · rw [hx] at h1; exact h1
    rw [hx] at h1; simp only at h1 ⊢; subst h1
    rw [M.bind_apply]
    rcases hy : node2 a k with ⟨_ | _, k'⟩
    · rw [hy] at h2; exact h2
    rw [hy] at h2; simp only at h2 ⊢; subst h2
    exact ih

/-- The names of the nodes after `flatten_edges` of edges that are not traces. -/
theorem flattenEdgesN_names {h h' : Heap R} {swap : Bool} {e0 new : EId} {rest : List EId} (hrest : rest ≠ [])
    (hr : flattenEdges swap (e0 :: rest) h = (.ok new, h')) {nm : AxTab} (hn : Named (h, nm))
    (htr : (h.edge e0).node1 ≠ (h.edge e0).node2) :
    ∃ nm', flattenEdgesN swap (e0 :: rest) (h, nm) = (.ok new, (h', nm')) ∧
      ∀ n, nm' n = if (h.edge e0).node1 = some n ∨ (h.edge e0).node2 = some n then
        (nm n).take ((h.node n).edges.length - rest.length) else nm n := by
  unfold flattenEdges at hr
  simp only at hr
  rw [M.bind_apply] at hr
  unfold flattenEdgesN
  simp only
  rw [NM.bind_apply]
  simp only [NM.lift]
  rcases hf : M.forEach (e0 :: rest) (fun e => do
      let _ ← node1 e
      let _ ← node2 e
      pure ()) h with ⟨x | u, h0⟩
  · rw [hf] at hr; cases hr
  rw [hf] at hr
  have hh : h0 = h := by
    have := flattenCheck_heap (e0 :: rest) h
    rw [hf] at this; exact this
  subst hh
  simp only at hr ⊢
  rw [if_neg hrest] at hr ⊢
  rw [M.bind_ok (M.get_apply h0)] at hr
  rw [NM.bind_ok (x := NM.lift M.get) (a := h0) (s' := (h0, nm)) rfl]
  by_cases c : ∃ e ∈ e0 :: rest, ¬ (((h0.edge e).node1 = (h0.edge e0).node1 ∧ (h0.edge e).node2 = (h0.edge e0).node2) ∨
          ((h0.edge e).node1 = (h0.edge e0).node2 ∧ (h0.edge e).node2 = (h0.edge e0).node1))
  · rw [if_pos c] at hr; cases hr
  rw [if_neg c, if_neg htr] at hr ⊢
  rcases h1 : (h0.edge e0).node1 with _ | n1
  · rw [h1] at hr; cases hr
  rcases h2 : (h0.edge e0).node2 with _ | n2
  · rw [h1, h2] at hr
    simp only at hr ⊢
    rw [M.bind_apply] at hr
    rcases ha : flattenAt (e0 :: rest) n1 h0 with ⟨x | e, hb⟩
    · rw [ha] at hr; cases hr
    rw [ha] at hr
    simp only at hr
    obtain ⟨k1, k2, k3⟩ := flattenAtN_run (by simp) ha (hn n1)
    rw [NM.bind_ok k1]
    rw [M.bind_ok (disableAll hb _)] at hr
    rw [NM.bind_ok (NM.lift_ok (disableAll hb _) _)]
    obtain ⟨r1, r2⟩ := Prod.mk.inj hr
    refine ⟨_, by rw [← r2, ← Except.ok.inj r1]; rfl, fun n => ?_⟩
    simp only [List.length_cons] at k2
    by_cases hnn : n = n1
    · subst hnn
      rw [Function.update_self, if_pos (by simp)]
      congr 1; omega
    · rw [Function.update_of_ne hnn, if_neg (by simpa using fun h => hnn h.symm)]
  · rw [h1, h2] at hr
    rw [h1, h2] at htr
    have hne : n1 ≠ n2 := fun hc => htr (by rw [hc])
    simp only at hr ⊢
    have key : ∀ m1 m2 : NId, m1 ≠ m2 →
        (do
          let f1 ← flattenAt (e0 :: rest) m1
          let f2 ← flattenAt (e0 :: rest) m2
          M.forEach (e0 :: rest) disable
          connect f1 f2) h0 = (.ok new, h') →
        ∃ nm', (do
          let f1 ← flattenAtN (e0 :: rest) m1
          let f2 ← flattenAtN (e0 :: rest) m2
          NM.lift (M.forEach (e0 :: rest) disable)
          NM.lift (connect f1 f2)) (h0, nm) = (.ok new, (h', nm')) ∧
          ∀ n, nm' n = if m1 = n ∨ m2 = n then (nm n).take ((h0.node n).edges.length - rest.length) else nm n := by
      intro m1 m2 hm hr
      rw [M.bind_apply] at hr
      rcases ha : flattenAt (e0 :: rest) m1 h0 with ⟨x | e, hb⟩
      · rw [ha] at hr; cases hr
      rw [ha] at hr
      simp only at hr
      obtain ⟨k1, k2, k3⟩ := flattenAtN_run (by simp) ha (hn m1)
      rw [NM.bind_ok k1]
      rw [M.bind_apply] at hr
      rcases ha2 : flattenAt (e0 :: rest) m2 hb with ⟨x | e', hb2⟩
      · rw [ha2] at hr; cases hr
      rw [ha2] at hr
      simp only at hr
      obtain ⟨j1, j2, j3⟩ := flattenAtN_run (by simp) ha2 (nm := Function.update nm m1 ((nm m1).take (hb.node m1).edges.length))
        (by rw [k3 m2 hm.symm, Function.update_of_ne hm.symm]; exact hn m2)
      rw [NM.bind_ok j1]
      rw [M.bind_ok (disableAll hb2 _)] at hr
      rw [NM.bind_ok (NM.lift_ok (disableAll hb2 _) _)]
      refine ⟨_, NM.lift_ok hr _, fun n => ?_⟩
      rw [k3 m2 hm.symm] at j2
      simp only [List.length_cons] at k2 j2
      by_cases hn2 : n = m2
      · subst hn2
        rw [Function.update_self, Function.update_of_ne hm.symm, if_pos (by simp)]
        congr 1; omega
      · rw [Function.update_of_ne hn2]
        by_cases hn1 : n = m1
        · subst hn1
          rw [Function.update_self, if_pos (by simp)]
          congr 1; omega
        · rw [Function.update_of_ne hn1, if_neg (by rintro (rfl | rfl) <;> simp_all)]
    cases swap
    · obtain ⟨nm', q1, q2⟩ := key n1 n2 hne hr
      exact ⟨nm', q1, fun n => by rw [q2 n]; simp⟩
    · obtain ⟨nm', q1, q2⟩ := key n2 n1 hne.symm hr
      exact ⟨nm', q1, fun n => by rw [q2 n]; simp [or_comm]⟩

end TN.Graph
