import Verif.GraphHistory
import Verif.GraphProps6

/-!
# `from_topology`

utils.py:127-158.  A label is the number of a character.
-/

set_option linter.unusedSectionVars false

namespace TN.Graph

open TN

variable {R : Type}

/-- `edge_dict` -/
abbrev EdgeDict := Nat → Option EId

/-- The loop over the axes of a new node (utils.py:152-156); `new_node[c]` looks for the name of the axis
(network_components.py:302-331). -/
def topoAxes (n : NId) (names : List Nat) : List Nat → EdgeDict → M R EdgeDict
  | [], d => pure d
  | c :: cs, d => do
    let es ← nodeEdges n
    match es[names.idxOf c]? with
    | none => M.throw .indexError
    | some e =>
      match d c with
      | some a => do
        let new ← connect a e
        topoAxes n names cs (Function.update d c (some new))
      | none => topoAxes n names cs (Function.update d c (some e))

/-- The loop over the tensors (utils.py:147-157).  `Node` refuses repeated names (network_components.py:142-143). -/
def topoNodes : List (List Nat × NDArray R) → EdgeDict → List NId → M R (List NId)
  | [], _, nodes => pure nodes
  | (ls, t) :: rest, d, nodes =>
    if ls.length ≠ t.ndim then M.throw .valueError
    else if ¬ ls.Nodup then M.throw .valueError
    else do
      let n ← newNode t
      let d ← topoAxes n ls ls d
      topoNodes rest d (nodes ++ [n])

/-- The character `,`. -/
def comma : Nat := 44

/-- `from_topology` (utils.py:127-158) -/
def fromTopology (topology : List Nat) (tensors : List (NDArray R)) : M R (List NId) :=
  let split := topology.splitOn comma
  if split.length ≠ tensors.length then M.throw .valueError
  else topoNodes (split.zip tensors) (fun _ => none) []

/-! ### The invariant -/

/-- The label of an axis that has been dealt with; the new nodes have numbers from `B` on. -/
def lab (B : Nat) (L : List (List Nat)) (s : Slot) : Option Nat :=
  if B ≤ s.1 then (L.getD (s.1 - B) [])[s.2]? else none

/-- The old part of the graph is as it was. -/
structure Untouched (h0 h : Heap R) : Prop where
  wf : WF h
  nn : h0.nn ≤ h.nn
  ne : h0.ne ≤ h.ne
  node : ∀ n < h0.nn, h.node n = h0.node n
  edge : ∀ e < h0.ne, h.edge e = h0.edge e

structure TInv (h0 h : Heap R) (ts : List (NDArray R)) (L : List (List Nat)) (d : EdgeDict) : Prop where
  old : Untouched h0 h
  nn : h.nn = h0.nn + ts.length
  len : L.length = ts.length
  tens : ∀ i (hi : i < ts.length), (h.node (h0.nn + i)).tensor = ts[i]
  fresh : ∀ s e, h0.nn ≤ s.1 → At h s e → h0.ne ≤ e
  pair : ∀ s s' e, h0.nn ≤ s.1 → h0.nn ≤ s'.1 → At h s e → At h s' e → s = s' ∨
    ∃ c, lab h0.nn L s = some c ∧ lab h0.nn L s' = some c
  same : ∀ s s' c e, lab h0.nn L s = some c → lab h0.nn L s' = some c → At h s e → At h s' e
  dict : ∀ c e, d c = some e ↔ ∃ s, lab h0.nn L s = some c ∧ At h s e
  listed : ∀ s c, lab h0.nn L s = some c → ∃ e, At h s e
  dang : ∀ c e, d c = some e → (h.edge e).dangling = false → 2 ≤ L.flatten.count c

theorem lab_ge {B : Nat} {L : List (List Nat)} {s : Slot} {c : Nat} (h : lab B L s = some c) : B ≤ s.1 := by
  rw [lab] at h
  by_contra hn
  rw [if_neg hn] at h
  cases h

theorem lab_new {B : Nat} {L : List (List Nat)} (s : Slot) : lab B (L ++ [[]]) s = lab B L s := by
  rw [lab, lab]
  split_ifs with h
  · rcases lt_trichotomy (s.1 - B) L.length with h1 | h1 | h1
    · simp [List.getD_eq_getElem?_getD, List.getElem?_append_left h1]
    · simp [List.getD_eq_getElem?_getD, h1]
    · have e1 : (L ++ [[]])[s.1 - B]? = none := List.getElem?_eq_none (by simp; omega)
      have e2 : L[s.1 - B]? = none := List.getElem?_eq_none (by omega)
      simp [List.getD_eq_getElem?_getD, e1, e2]
  · rfl

theorem lab_step {B : Nat} {L : List (List Nat)} {p : List Nat} {c : Nat} (s : Slot) :
    lab B (L ++ [p ++ [c]]) s = if s = (B + L.length, p.length) then some c else lab B (L ++ [p]) s := by
  rcases s with ⟨n, k⟩
  simp only [lab, Prod.mk.injEq]
  by_cases h : B ≤ n
  · rw [if_pos h, if_pos h]
    rcases lt_trichotomy (n - B) L.length with h1 | h1 | h1
    · rw [if_neg (by omega)]
      simp [List.getD_eq_getElem?_getD, List.getElem?_append_left h1]
    · have hn : n = B + L.length := by omega
      subst hn
      simp only [true_and, List.getD_eq_getElem?_getD, h1]
      simp only [List.getElem?_append_right (Nat.le_refl _), Nat.sub_self, List.getElem?_cons_zero, Option.getD_some]
      rcases lt_trichotomy k p.length with h2 | h2 | h2
      · rw [if_neg (by omega), List.getElem?_append_left h2]
      · subst h2; simp
      · rw [if_neg (by omega), List.getElem?_eq_none (by simp; omega), List.getElem?_eq_none (by omega)]
    · rw [if_neg (by omega)]
      have e1 : (L ++ [p ++ [c]])[n - B]? = none := List.getElem?_eq_none (by simp; omega)
      have e2 : (L ++ [p])[n - B]? = none := List.getElem?_eq_none (by simp; omega)
      simp [List.getD_eq_getElem?_getD, e1, e2]
  · rw [if_neg h, if_neg (by omega), if_neg h]

theorem lab_cur {B : Nat} {L : List (List Nat)} {p : List Nat} : lab B (L ++ [p]) (B + L.length, p.length) = none := by
  simp [lab, List.getD_eq_getElem?_getD]

theorem lab_mem {B : Nat} {L : List (List Nat)} {s : Slot} {c : Nat} (h : lab B L s = some c) : c ∈ L.flatten := by
  have hB := lab_ge h
  rw [lab, if_pos hB, List.getD_eq_getElem?_getD] at h
  rcases h1 : L[s.1 - B]? with _ | l
  · rw [h1] at h; simp at h
  · rw [h1, Option.getD_some] at h
    exact List.mem_flatten.2 ⟨l, List.mem_of_getElem? h1, List.mem_of_getElem? h⟩

theorem Untouched.at_old {h0 h : Heap R} (u : Untouched h0 h) {s : Slot} {e : EId} (hs : At h s e) (hlt : s.1 < h0.nn) :
    At h0 s e := ⟨hlt, by have := hs.2; rw [u.node _ hlt] at this; exact this⟩

section step

variable [CommSemiring R] {h0 h : Heap R} {ts : List (NDArray R)} {L : List (List Nat)} {p : List Nat} {d : EdgeDict} {c : Nat}

/-- A new name: nothing happens to the graph. -/
theorem TInv.add (x : TInv h0 h ts (L ++ [p]) d) (hd : d c = none) {e : EId} (he : At h (h0.nn + L.length, p.length) e)
    (hdang : (h.edge e).dangling = true) :
    TInv h0 h ts (L ++ [p ++ [c]]) (Function.update d c (some e)) := by
  have hno : ∀ s, lab h0.nn (L ++ [p]) s ≠ some c := by
    intro s hs
    obtain ⟨e', he'⟩ := x.listed s c hs
    have := (x.dict c e').2 ⟨s, hs, he'⟩
    rw [hd] at this
    cases this
  have key : ∀ s, lab h0.nn (L ++ [p ++ [c]]) s = some c ↔ s = (h0.nn + L.length, p.length) := by
    intro s
    rw [lab_step]
    split_ifs with h1
    · simp [h1]
    · simp [h1, hno s]
  have key' : ∀ s c', c' ≠ c → (lab h0.nn (L ++ [p ++ [c]]) s = some c' ↔ lab h0.nn (L ++ [p]) s = some c') := by
    intro s c' hc
    rw [lab_step]
    split_ifs with h1
    · rw [h1, lab_cur]; simp [Ne.symm hc]
    · rfl
  refine ⟨x.old, x.nn, by have := x.len; simpa using this, x.tens, x.fresh, ?_, ?_, ?_, ?_, ?_⟩
  · intro s s' e' h1 h2 h3 h4
    rcases x.pair s s' e' h1 h2 h3 h4 with h5 | ⟨c', h5, h6⟩
    · exact .inl h5
    · have hc : c' ≠ c := fun hc => hno s (hc ▸ h5)
      exact .inr ⟨c', (key' s c' hc).2 h5, (key' s' c' hc).2 h6⟩
  · intro s s' c' e' h1 h2 h3
    by_cases hc : c' = c
    · subst hc
      rw [(key s).1 h1] at h3
      rw [(key s').1 h2]
      exact h3
    · exact x.same s s' c' e' ((key' s c' hc).1 h1) ((key' s' c' hc).1 h2) h3
  · intro c' e'
    by_cases hc : c' = c
    · subst hc
      rw [Function.update_self, Option.some.injEq]
      constructor
      · rintro rfl; exact ⟨_, (key _).2 rfl, he⟩
      · rintro ⟨s, h1, h2⟩
        rw [(key s).1 h1] at h2
        exact he.unique h2
    · rw [Function.update_of_ne hc, x.dict]
      exact exists_congr fun s => by rw [key' s c' hc]
  · intro s c' h1
    by_cases hc : c' = c
    · subst hc; exact ⟨e, by rw [(key s).1 h1]; exact he⟩
    · exact x.listed s c' ((key' s c' hc).1 h1)
  · intro c' e' h1 h2
    by_cases hc : c' = c
    · subst hc
      rw [Function.update_self, Option.some.injEq] at h1
      subst h1
      rw [hdang] at h2
      cases h2
    · rw [Function.update_of_ne hc] at h1
      have := x.dang c' e' h1 h2
      simp only [List.flatten_append, List.count_append, List.flatten_cons, List.flatten_nil, List.append_nil] at this ⊢
      omega

theorem TInv.only (x : TInv h0 h ts L d) (w0 : WF h0) {s s' : Slot} {e : EId} (hs : h0.nn ≤ s.1) (h1 : At h s e) (h2 : At h s' e) :
    h0.nn ≤ s'.1 := by
  by_contra hn
  have h3 := x.old.at_old h2 (by omega)
  have h4 := w0.lt h3.inUse
  have h5 := x.fresh s e hs h1
  omega

/-- A name that has been seen: the two edges are connected. -/
theorem TInv.join (w0 : WF h0) (x : TInv h0 h ts (L ++ [p]) d) {a : EId} (hd : d c = some a) {e : EId}
    (he : At h (h0.nn + L.length, p.length) e) {h' : Heap R} {new : EId} (hj : Joined h h' a e new) (hnew : new = h.ne)
    (hne : h'.ne = h.ne + 1) (hedge : ∀ e, e ≠ h.ne → h'.edge e = h.edge e) :
    TInv h0 h' ts (L ++ [p ++ [c]]) (Function.update d c (some new)) := by
  obtain ⟨s0, l0, a0⟩ := (x.dict c a).1 hd
  have hB : h0.nn ≤ (h0.nn + L.length, p.length).1 := Nat.le_add_right _ _
  have F1 : ∀ s, At h s a → lab h0.nn (L ++ [p]) s = some c := by
    intro s hs
    rcases x.pair s s0 a (x.only w0 (lab_ge l0) a0 hs) (lab_ge l0) hs a0 with rfl | ⟨c', h1, h2⟩
    · exact l0
    · rw [l0, Option.some.injEq] at h2; rw [h1, h2]
  have F2 : ∀ s, At h s e → s = (h0.nn + L.length, p.length) := by
    intro s hs
    rcases x.pair s _ e (x.only w0 hB he hs) hB hs he with h1 | ⟨c', h1, h2⟩
    · exact h1
    · rw [lab_cur] at h2; cases h2
  have hae : a ≠ e := by
    rintro rfl
    have := F2 s0 a0
    rw [this, lab_cur] at l0
    cases l0
  have hat : ∀ s e', At h' s e' ↔ ∃ e1, At h s e1 ∧ glue a e new e1 = e' := by
    intro s e'
    unfold At
    rw [hj.nn]
    constructor
    · rintro ⟨h1, h2⟩
      rw [(hj.nodes _ h1).2, List.getElem?_map, Option.map_eq_some_iff] at h2
      obtain ⟨e1, h3, h4⟩ := h2
      exact ⟨e1, ⟨h1, h3⟩, h4⟩
    · rintro ⟨e1, ⟨h1, h3⟩, h4⟩
      exact ⟨h1, by rw [(hj.nodes _ h1).2, List.getElem?_map, h3, Option.map_some, h4]⟩
  have hlt : ∀ s e1, At h s e1 → e1 ≠ new := by
    intro s e1 h1 h2
    have := x.old.wf.lt h1.inUse
    omega
  have key : ∀ s, lab h0.nn (L ++ [p ++ [c]]) s = some c ↔ At h' s new := by
    intro s
    rw [hat, lab_step]
    constructor
    · intro hs
      split_ifs at hs with h1
      · exact ⟨e, h1 ▸ he, by simp [glue]⟩
      · obtain ⟨e1, h2⟩ := x.listed s c hs
        have : e1 = a := h2.unique (x.same s0 s c a l0 hs a0)
        subst this
        exact ⟨e1, h2, by simp [glue]⟩
    · rintro ⟨e1, h1, h2⟩
      by_cases h3 : e1 = a
      · subst h3
        have := F1 s h1
        split_ifs with h4
        · rfl
        · exact this
      · by_cases h4 : e1 = e
        · subst h4
          rw [if_pos (F2 s h1)]
        · rw [glue, if_neg (by tauto)] at h2
          exact absurd h2 (hlt s e1 h1)
  have key' : ∀ s c', c' ≠ c → (lab h0.nn (L ++ [p ++ [c]]) s = some c' ↔ lab h0.nn (L ++ [p]) s = some c') := by
    intro s c' hc
    rw [lab_step]
    split_ifs with h1
    · rw [h1, lab_cur]; simp [Ne.symm hc]
    · rfl
  have hother : ∀ s c' e', c' ≠ c → lab h0.nn (L ++ [p]) s = some c' → (At h' s e' ↔ At h s e') := by
    intro s c' e' hc hs
    rw [hat]
    have hg : ∀ e1, At h s e1 → glue a e new e1 = e1 := by
      intro e1 h1
      rw [glue, if_neg]
      rintro (rfl | rfl)
      · rw [F1 s h1, Option.some.injEq] at hs; exact hc hs.symm
      · rw [F2 s h1, lab_cur] at hs; cases hs
    constructor
    · rintro ⟨e1, h1, h2⟩
      rw [hg e1 h1] at h2
      exact h2 ▸ h1
    · intro h1
      exact ⟨e', h1, hg e' h1⟩
  refine ⟨⟨hj.wf, by rw [hj.nn]; exact x.old.nn, by have := x.old.ne; omega, ?_, ?_⟩, by rw [hj.nn, x.nn], by have := x.len; simpa using this,
    ?_, ?_, ?_, ?_, ?_, ?_, ?_⟩
  · intro n hn
    have hn' : n < h.nn := lt_of_lt_of_le hn x.old.nn
    obtain ⟨g1, g2⟩ := hj.nodes n hn'
    rw [← x.old.node n hn]
    have g3 : (h'.node n).edges = (h.node n).edges := by
      rw [g2]
      conv_rhs => rw [← List.map_id (h.node n).edges]
      refine List.map_congr_left fun e1 h1 => ?_
      have h2 := at_of_mem hn' h1
      rw [glue, if_neg, id]
      rintro (rfl | rfl)
      · have := lab_ge (F1 _ h2); simp at this; omega
      · have := F2 _ h2
        simp only [Prod.mk.injEq] at this
        omega
    rcases hr : h'.node n with ⟨t1, e1⟩
    rcases hr2 : h.node n with ⟨t2, e2⟩
    rw [hr, hr2] at g1 g3
    simp only at g1 g3
    rw [g1, g3]
  · intro e1 h1
    have := x.old.ne
    rw [hedge e1 (by omega), x.old.edge e1 h1]
  · intro i hi
    rw [(hj.nodes _ (by rw [x.nn]; omega)).1]
    exact x.tens i hi
  · intro s e' h1 h2
    obtain ⟨e1, h3, h4⟩ := (hat s e').1 h2
    have h5 := x.fresh s e1 h1 h3
    rw [glue] at h4
    have := x.old.ne
    split_ifs at h4
    · omega
    · omega
  · intro s s' e' h1 h2 h3 h4
    by_cases hn : e' = new
    · subst hn
      exact .inr ⟨c, (key s).2 h3, (key s').2 h4⟩
    · have back : ∀ s, At h' s e' → At h s e' := by
        intro s hs
        obtain ⟨e1, g1, g2⟩ := (hat s e').1 hs
        rw [glue] at g2
        split_ifs at g2
        · exact absurd g2.symm hn
        · exact g2 ▸ g1
      rcases x.pair s s' e' h1 h2 (back s h3) (back s' h4) with h5 | ⟨c', h5, h6⟩
      · exact .inl h5
      · by_cases hc : c' = c
        · subst hc
          have h7 : e' = a := (back s h3).unique (x.same s0 s c' a l0 h5 a0)
          obtain ⟨e1, g1, g2⟩ := (hat s e').1 h3
          have g3 := g1.unique (back s h3)
          rw [g3, h7, glue, if_pos (.inl rfl)] at g2
          exact absurd (h7.trans g2.symm) hn
        · exact .inr ⟨c', (key' s c' hc).2 h5, (key' s' c' hc).2 h6⟩
  · intro s s' c' e' h1 h2 h3
    by_cases hc : c' = c
    · subst hc
      rw [h3.unique ((key s).1 h1)]
      exact (key s').1 h2
    · have g1 := (key' s c' hc).1 h1
      have g2 := (key' s' c' hc).1 h2
      rw [hother s c' e' hc g1] at h3
      rw [hother s' c' e' hc g2]
      exact x.same s s' c' e' g1 g2 h3
  · intro c' e'
    by_cases hc : c' = c
    · subst hc
      rw [Function.update_self, Option.some.injEq]
      constructor
      · rintro rfl
        exact ⟨s0, (key s0).2 ((hat s0 new).2 ⟨a, a0, by simp [glue]⟩), (hat s0 new).2 ⟨a, a0, by simp [glue]⟩⟩
      · rintro ⟨s, h1, h2⟩
        exact ((key s).1 h1).unique h2
    · rw [Function.update_of_ne hc, x.dict]
      refine exists_congr fun s => ?_
      rw [key' s c' hc]
      exact and_congr_right fun hs => (hother s c' e' hc hs).symm
  · intro s c' h1
    by_cases hc : c' = c
    · subst hc; exact ⟨new, (key s).1 h1⟩
    · have g1 := (key' s c' hc).1 h1
      obtain ⟨e1, g2⟩ := x.listed s c' g1
      exact ⟨e1, (hother s c' e1 hc g1).2 g2⟩
  · intro c' e' h1 h2
    by_cases hc : c' = c
    · subst hc
      have := List.count_pos_iff.2 (lab_mem l0)
      simp only [List.flatten_append, List.count_append, List.flatten_cons, List.flatten_nil, List.append_nil,
        List.count_singleton_self] at this ⊢
      omega
    · rw [Function.update_of_ne hc] at h1
      have hu : e' ≠ h.ne := by
        obtain ⟨s, _, g2⟩ := (x.dict c' e').1 h1
        have := hlt s e' g2
        rwa [hnew] at this
      rw [hedge e' hu] at h2
      have := x.dang c' e' h1 h2
      simp only [List.flatten_append, List.count_append, List.flatten_cons, List.flatten_nil, List.append_nil] at this ⊢
      omega

end step

end TN.Graph
