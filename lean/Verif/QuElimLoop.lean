import Verif.QuElim

/-!
# The loop of `eliminate_identities`

The network of the remaining nodes always is the same network with some dangling edges renamed.  The
dictionary of the dangling edges knows the new names if no identity with a dangling edge is joined to
another identity (`NoChain`).
-/

set_option linter.unusedSectionVars false

namespace TN.Graph

open TN Finset

variable {R : Type} [CommSemiring R]

/-- The node is a `CopyNode` of rank two. -/
def Ident (copy : NId → Bool) (h : Heap R) (n : NId) : Prop :=
  copy n = true ∧ (h.node n).tensor.ndim = 2

/-- The loop eliminates the node: an identity with an edge that does not dangle. -/
def Drops (copy : NId → Bool) (h : Heap R) (n : NId) : Prop :=
  Ident copy h n ∧ ∃ i e, At h (n, i) e ∧ (h.edge e).dangling = false

/-- No identity among `N` with a dangling edge is joined to an identity that is joined to a further
node. -/
def NoChain (copy : NId → Bool) (h : Heap R) (N : List NId) : Prop :=
  ∀ n ∈ N, Ident copy h n → ∀ i a, At h (n, i) a → (h.edge a).dangling = true →
    ∀ j b, At h (n, j) b → ∀ t : Slot, At h t b → t.1 ≠ n → Ident copy h t.1 →
      ∀ k c, At h (t.1, k) c → c = b ∨ (h.edge c).dangling = true

/-- What the dictionary of the dangling edges says while the nodes `rem` are not yet visited. -/
def DictOK (copy : NId → Bool) (h0 : Heap R) (N0 : List NId) (h : Heap R) (rem : List NId)
    (dd : EId → Option EId) (ρ : EId → EId) : Prop :=
  ∀ x, OpenEdge h0 N0 x →
    (dd x = some (ρ x) ∧ ∃ t, At h t (ρ x) ∧ ¬ (t.1 ∈ rem ∧ Drops copy h t.1)) ∨
    (dd x = none ∧ ρ x = x ∧ ∃ t, At h t x ∧ t.1 ∈ rem)

/-- The invariant of the loop. -/
structure ElimInv (copy : NId → Bool) (h0 : Heap R) (N0 : List NId) (h : Heap R) (rem : List NId)
    (s : ElimState) (ρ : EId → EId) : Prop where
  same : SameNet h0 h N0 (s.nodes.map Prod.snd ++ rem) ρ
  old : ∀ n ∈ rem, n ∈ N0
  some : s.nodes.map Prod.snd ++ rem ≠ []
  dict : NoChain copy h0 N0 → NoChain copy h rem ∧ DictOK copy h0 N0 h rem s.edges ρ

theorem ident_congr {copy : NId → Bool} {h h' : Heap R} {n : NId}
    (ht : (h'.node n).tensor = (h.node n).tensor) : Ident copy h' n ↔ Ident copy h n := by
  unfold Ident
  rw [ht]

/-- A node whose edges all dangle is left alone. -/
theorem Dropped.drops {copy : NId → Bool} {h h' : Heap R} (w : WF h) {n : NId} {S : Slot → Prop} {c : EId}
    (d : Dropped h h' n S c) (ht : ∀ m < h.nn, (h'.node m).tensor = (h.node m).tensor)
    (hl : ∀ m < h.nn, (h.node m).edges.length = (h'.node m).edges.length)
    {m : NId} (hm : m < h.nn) (hmn : m ≠ n) (hd : Drops copy h' m) : Drops copy h m := by
  obtain ⟨h1, i, e, h2, h3⟩ := hd
  refine ⟨(ident_congr (ht m hm)).1 h1, ?_⟩
  rcases (d.slots (m, i) e hmn).1 h2 with ⟨h4, _⟩ | ⟨_, h4⟩
  · have hil := h2.lt_len
    simp only at hil
    rw [← hl m hm] at hil
    have h5 : At h (m, i) (h.node m).edges[i] := ⟨hm, List.getElem?_eq_getElem hil⟩
    exact ⟨i, _, h5, (d.closed _ _ h4 h5).1⟩
  · exact ⟨i, e, h4, by rw [← d.record e (w.lt h4.inUse)]; exact h3⟩

theorem Dropped.noChain {copy : NId → Bool} {h h' : Heap R} (w : WF h) (w' : WF h') {n : NId} {S : Slot → Prop} {c : EId}
    {rem : List NId} (d : Dropped h h' n S c) (hnr : n ∉ rem) (hnc : NoChain copy h (n :: rem))
    (hlt : ∀ m ∈ rem, m < h.nn) (hnn : ∀ t f, At h' t f → t.1 < h.nn)
    (ht : ∀ m < h.nn, (h'.node m).tensor = (h.node m).tensor)
    (hl : ∀ m < h.nn, (h.node m).edges.length = (h'.node m).edges.length)
    (hall : ∀ t i e, At h (n, i) e → At h t e → t.1 ≠ n → S t) (hid : Ident copy h n)
    (hS : (∀ t e, S t → At h t e → (h'.edge c).dangling = false ∧
        ∃ j f, At h (n, j) f ∧ f ≠ e ∧ (h.edge f).dangling = false) ∨
      ((h'.edge c).dangling = true ∧ (∀ t f, At h' t c → At h' f c → t = f) ∧
        ∃ j f, At h (n, j) f ∧ (h.edge f).dangling = true)) :
    NoChain copy h' rem := by
  intro n' hn' hidn i a hia hda j b hjb t htb htn hidt k c' hk
  have hne : n' ≠ n := fun h1 => hnr (h1 ▸ hn')
  have hidn' : Ident copy h n' := (ident_congr (ht n' (hlt n' hn'))).1 hidn
  have htlt := hnn t b htb
  have hidt' : Ident copy h t.1 := (ident_congr (ht _ htlt)).1 hidt
  have hf := d.fresh
  have hold : ∀ m q x, m < h.nn → At h' (m, q) x → ∃ e, At h (m, q) e := by
    intro m q x hm hx
    have hil := hx.lt_len
    simp only at hil
    rw [← hl m hm] at hil
    exact ⟨_, hm, List.getElem?_eq_getElem hil⟩
  -- a dangling old edge is at one slot
  have hone : ∀ x, x < h.ne → (h.edge x).dangling = true → ∀ s s', At h' s x → At h' s' x → s = s' := by
    intro x hx hxd s s' h1 h2
    rcases w'.good h1.inUse with ⟨n', a', hr⟩ | ⟨n', a', m', b', hr⟩
    · rw [(at_dang w' h1.inUse hr).1 h1, (at_dang w' h1.inUse hr).1 h2]
    · rw [← d.record x hx, hr] at hxd; simp at hxd
  rcases (d.slots (n', i) a hne).1 hia with ⟨h1, rfl⟩ | ⟨_, hia'⟩
  · -- the dangling edge is new
    obtain ⟨e, he⟩ := hold n' i _ (hlt n' hn') hia
    rcases hS with h2 | ⟨h2, h3, j', f, h4, h5⟩
    · rw [(h2 _ _ h1 he).1] at hda; simp at hda
    exfalso
    obtain ⟨h6, i', h7⟩ := d.closed _ _ h1 he
    have h8 := hnc n (by simp) hid j' f h4 h5 i' e h7 (n', i) he hne hidn'
    rcases (d.slots (n', j) b hne).1 hjb with ⟨_, rfl⟩ | ⟨h9, h10⟩
    · exact htn (congrArg Prod.fst (h3 _ _ hjb htb)).symm
    · rcases h8 j b h10 with rfl | h11
      · exact h9 (hall _ _ _ h7 h10 hne)
      · exact htn (congrArg Prod.fst (hone b (w.lt h10.inUse) h11 _ _ hjb htb)).symm
  have hda' : (h.edge a).dangling = true := by rw [← d.record a (w.lt hia'.inUse)]; exact hda
  have hmem := List.mem_cons_of_mem n hn'
  rcases (d.slots (n', j) b hne).1 hjb with ⟨h1, rfl⟩ | ⟨hnS, h2⟩
  · exfalso
    rcases hS with h3 | ⟨_, h3, _⟩
    · obtain ⟨e, he⟩ := hold n' j _ (hlt n' hn') hjb
      obtain ⟨_, i', h5⟩ := d.closed _ e h1 he
      obtain ⟨_, j', f, h6, h7, h8⟩ := h3 _ _ h1 he
      rcases hnc n' hmem hidn' i a hia' hda' j e he (n, i') h5 (Ne.symm hne) hid j' f h6 with h9 | h9
      · exact h7 h9
      · rw [h8] at h9; simp at h9
    · exact htn (congrArg Prod.fst (h3 _ _ hjb htb)).symm
  · have hb := w.lt h2.inUse
    have htn' : t.1 ≠ n := by
      intro h3
      have h4 : t = (n, t.2) := by rw [← h3]
      rw [h4] at htb
      rcases d.own _ _ htb with h5 | h5
      · omega
      · exact hnS (hall _ _ _ h5 h2 hne)
    have htb' : At h t b := by
      rcases (d.slots t b htn').1 htb with ⟨_, h4⟩ | ⟨_, h4⟩
      · omega
      · exact h4
    have hfin := hnc n' hmem hidn' i a hia' hda' j b h2 t htb' htn hidt' k
    rcases (d.slots (t.1, k) c' htn').1 hk with ⟨h3, rfl⟩ | ⟨_, h3⟩
    · rcases hS with _ | ⟨h4, _⟩
      · obtain ⟨e, he⟩ := hold t.1 k _ htlt hk
        obtain ⟨h5, i', h6⟩ := d.closed _ e h3 he
        rcases hfin e he with rfl | h7
        · exact absurd (hall _ _ _ h6 h2 hne) hnS
        · rw [h5] at h7; simp at h7
      · exact .inr h4
    · rcases hfin c' h3 with h4 | h4
      · exact .inl h4
      · right
        rw [d.record c' (w.lt h3.inUse)]
        exact h4

/-- The node is kept. -/
theorem keep_inv {copy : NId → Bool} {h0 h : Heap R} {N0 : List NId} (w0 : WF h0)
    {n : NId} {rem : List NId}
    {s : ElimState} {ρ : EId → EId} (inv : ElimInv copy h0 N0 h (n :: rem) s ρ) :
    ∃ s', keepStep n s h = (.ok s', h) ∧ ElimInv copy h0 N0 h rem s' ρ := by
  refine ⟨_, rfl, ?_, fun m hm => inv.old m (by simp [hm]), by simp, fun hnc => ?_⟩
  · have := inv.same
    simpa using this
  obtain ⟨h1, h2⟩ := inv.dict hnc
  refine ⟨fun m hm => h1 m (by simp [hm]), fun x hx => ?_⟩
  have hnd := inv.same.nodup
  have hnr : n ∉ rem := by
    have := (List.nodup_append.1 hnd).2.1
    exact (List.nodup_cons.1 this).1
  have hnN : n ∈ s.nodes.map Prod.snd ++ n :: rem := by simp
  have hnlt := inv.same.lt n hnN
  have hxlt : x < h0.ne := by
    obtain ⟨_, t, _, h3⟩ := hx
    exact w0.lt h3.inUse
  -- an original edge still listed has kept its name
  have hname : x ∈ (h.node n).edges → (h.edge x).dangling = true → ρ x = x := by
    intro h3 h4
    obtain ⟨x', h5, h6⟩ := inv.same.onto x ⟨h4, _, hnN, at_of_mem hnlt h3⟩
    rcases inv.same.old x' h5 with h7 | h7
    · rw [← h6, h7]; rw [h7]
    · omega
  simp only
  by_cases hc : x ∈ (h.node n).edges ∧ (h.edge x).dangling = true
  · rw [if_pos hc]
    have h3 := hname hc.1 hc.2
    left
    rw [h3]
    exact ⟨rfl, _, at_of_mem hnlt hc.1, fun h4 => hnr h4.1⟩
  · rw [if_neg hc]
    rcases h2 x hx with ⟨h3, t, h4, h5⟩ | ⟨h3, h4, t, h5, h6⟩
    · exact .inl ⟨h3, t, h4, fun h6 => h5 ⟨by simp [h6.1], h6.2⟩⟩
    · refine .inr ⟨h3, h4, t, h5, ?_⟩
      rcases List.mem_cons.1 h6 with h7 | h7
      · exfalso
        apply hc
        refine ⟨h7 ▸ h5.mem, ?_⟩
        have := (inv.same.maps x hx).1.1
        rwa [h4] at this
      · exact h7

/-- A round that drops a node without renaming. -/
theorem drop_inv {copy : NId → Bool} {h0 h h' : Heap R} {N0 : List NId}
    {n : NId} {rem : List NId} {s s' : ElimState} {ρ : EId → EId} {S : Slot → Prop} {c : EId}
    (inv : ElimInv copy h0 N0 h (n :: rem) s ρ)
    (sn : SameNet h h' (s.nodes.map Prod.snd ++ n :: rem) (s'.nodes.map Prod.snd ++ rem) id)
    (d : Dropped h h' n S c) (hed : s'.edges = s.edges) (hsome : s'.nodes.map Prod.snd ++ rem ≠ [])
    (hnn : ∀ t f, At h' t f → t.1 < h.nn)
    (hdn : ∀ i e, At h (n, i) e → (h.edge e).dangling = false)
    (hall : ∀ t i e, At h (n, i) e → At h t e → t.1 ≠ n → S t) (hid : Ident copy h n)
    (hS : ∀ t e, S t → At h t e → (h'.edge c).dangling = false ∧
        ∃ j f, At h (n, j) f ∧ f ≠ e ∧ (h.edge f).dangling = false) :
    ElimInv copy h0 N0 h' rem s' ρ := by
  have w := inv.same.wf
  have hnr : n ∉ rem := by
    have := (List.nodup_append.1 inv.same.nodup).2.1
    exact (List.nodup_cons.1 this).1
  refine ⟨?_, fun m hm => inv.old m (by simp [hm]), hsome, fun hnc => ?_⟩
  · have := inv.same.trans sn
    simpa using this
  obtain ⟨h1, h2⟩ := inv.dict hnc
  have hl : ∀ m < h.nn, (h.node m).edges.length = (h'.node m).edges.length := fun m hm => by
    rw [w.len m hm, sn.wf.len m (lt_of_lt_of_le hm sn.nn), sn.tensor m hm]
  refine ⟨d.noChain w sn.wf hnr h1 (fun m hm => inv.same.lt m (by simp [hm])) hnn sn.tensor hl hall hid
    (.inl hS), fun x hx => ?_⟩
  have hdx := (inv.same.maps x hx).1.1
  have hstay : ∀ t, At h t (ρ x) → At h' t (ρ x) := by
    intro t ht
    have htn : t.1 ≠ n := by
      intro h3
      have h4 : t = (n, t.2) := by rw [← h3]
      rw [h4] at ht
      rw [hdn _ _ ht] at hdx
      simp at hdx
    refine (d.slots t _ htn).2 (.inr ⟨fun h3 => ?_, ht⟩)
    rw [(d.closed t _ h3 ht).1] at hdx
    simp at hdx
  rw [hed]
  rcases h2 x hx with ⟨h3, t, h4, h5⟩ | ⟨h3, h4, t, h5, h6⟩
  · refine .inl ⟨h3, t, hstay t h4, fun h6 => h5 ⟨by simp [h6.1],
      d.drops w sn.tensor hl h4.1 (fun h7 => hnr (h7 ▸ h6.1)) h6.2⟩⟩
  · rw [h4] at hstay
    refine .inr ⟨h3, h4, t, hstay t h5, ?_⟩
    rcases List.mem_cons.1 h6 with h7 | h7
    · exfalso
      have h8 : t = (n, t.2) := by rw [← h7]
      rw [h8] at h5
      rw [h4, hdn _ _ h5] at hdx
      simp at hdx
    · exact h7

/-- A round that renames the dangling edge `e` of the identity to the edge `g` of its neighbour. -/
theorem rename_inv {copy : NId → Bool} {h0 h h' : Heap R} {N0 : List NId} (w0 : WF h0)
    {n m k i j : Nat} {rem : List NId} {s : ElimState} {ρ : EId → EId} {e f g : EId}
    (inv : ElimInv copy h0 N0 h (n :: rem) s ρ) (hsome : s.nodes.map Prod.snd ++ rem ≠ [])
    (sn : SameNet h h' (s.nodes.map Prod.snd ++ n :: rem) (s.nodes.map Prod.snd ++ rem) (Function.update id e g))
    (d : Dropped h h' n (fun t => t = (m, k)) g) (hg : At h' (m, k) g) (hnn : ∀ t f, At h' t f → t.1 < h.nn)
    (he : At h (n, j) e) (re : (h.edge e).dangling = true) (hf : At h (n, i) f) (hmf : At h (m, k) f) (hmn : m ≠ n)
    (hown : ∀ q x, At h (n, q) x → x = e ∨ x = f) (hfd : (h.edge f).dangling = false)
    (hid : Ident copy h n) :
    ElimInv copy h0 N0 h' rem ⟨s.nodes, Function.update s.edges e (some g)⟩
      (fun x => Function.update id e g (ρ x)) := by
  have w := inv.same.wf
  have hnr : n ∉ rem := by
    have := (List.nodup_append.1 inv.same.nodup).2.1
    exact (List.nodup_cons.1 this).1
  refine ⟨inv.same.trans sn, fun m hm => inv.old m (by simp [hm]), hsome, fun hnc => ?_⟩
  obtain ⟨h1, h2⟩ := inv.dict hnc
  have hl : ∀ m < h.nn, (h.node m).edges.length = (h'.node m).edges.length := fun m hm => by
    rw [w.len m hm, sn.wf.len m (lt_of_lt_of_le hm sn.nn), sn.tensor m hm]
  have hmid : Ident copy h m → ∀ k' c, At h (m, k') c → c = f ∨ (h.edge c).dangling = true :=
    h1 n (by simp) hid j e he re i f hf (m, k) hmf hmn
  have hgo : OpenEdge h' (s.nodes.map Prod.snd ++ rem) g := by
    have := (sn.maps e ⟨re, (n, j), by simp, he⟩).1
    rwa [Function.update_self] at this
  have hgone : ∀ t f, At h' t g → At h' f g → t = f := by
    intro t f' h3 h4
    rcases sn.wf.good h3.inUse with ⟨n', a', hr⟩ | ⟨n', a', m', b', hr⟩
    · rw [(at_dang sn.wf h3.inUse hr).1 h3, (at_dang sn.wf h3.inUse hr).1 h4]
    · have := hgo.1
      rw [hr] at this; simp at this
  have hall : ∀ t i' e', At h (n, i') e' → At h t e' → t.1 ≠ n → t = (m, k) := by
    intro t i' e' h3 h4 h5
    rcases hown _ _ h3 with rfl | rfl
    · rcases w.good he.inUse with ⟨n', a', hr⟩ | ⟨n', a', m', b', hr⟩
      · have q1 := (at_dang w he.inUse hr).1 he
        have q2 := (at_dang w he.inUse hr).1 h4
        rw [q2, ← q1] at h5
        exact absurd rfl h5
      · rw [hr] at re; simp at re
    · rcases w.good hf.inUse with ⟨n', a', hr⟩ | ⟨n', a', m', b', hr⟩
      · rw [hr] at hfd; simp at hfd
      · have q1 := (at_conn w hf.inUse hr).1 hf
        have q2 := (at_conn w hf.inUse hr).1 h4
        have q3 := (at_conn w hf.inUse hr).1 hmf
        rcases q1 with q1 | q1
        · rcases q2 with q2 | q2
          · rw [q2, ← q1] at h5; exact absurd rfl h5
          · rcases q3 with q3 | q3
            · rw [← q1] at q3; exact absurd (congrArg Prod.fst q3) hmn
            · rw [q2, q3]
        · rcases q2 with q2 | q2
          · rcases q3 with q3 | q3
            · rw [q2, q3]
            · rw [← q1] at q3; exact absurd (congrArg Prod.fst q3) hmn
          · rw [q2, ← q1] at h5; exact absurd rfl h5
  refine ⟨d.noChain w sn.wf hnr h1 (fun m hm => inv.same.lt m (by simp [hm])) hnn sn.tensor hl hall hid
    (.inr ⟨hgo.1, hgone, j, e, he, re⟩), fun x hx => ?_⟩
  have hdx := (inv.same.maps x hx).1.1
  by_cases hxe : ρ x = e
  · -- the renamed edge
    have hxx : x = e := by
      rcases h2 x hx with ⟨_, t, h4, h5⟩ | ⟨_, h4, _⟩
      · exfalso
        rw [hxe] at h4
        apply h5
        have : t.1 = n := by
          rcases w.good he.inUse with ⟨n', a', hr⟩ | ⟨n', a', m', b', hr⟩
          · have q1 := (at_dang w he.inUse hr).1 he
            have q2 := (at_dang w he.inUse hr).1 h4
            rw [q2, ← q1]
          · rw [hr] at re; simp at re
        rw [this]
        exact ⟨by simp, hid, i, f, hf, hfd⟩
      · rw [← hxe, h4]
    left
    simp only
    rw [hxe, Function.update_self, hxx, Function.update_self]
    refine ⟨rfl, (m, k), hg, fun h3 => ?_⟩
    obtain ⟨_, h4, k', c, h5, h6⟩ := h3
    rcases (d.slots (m, k') c hmn).1 h5 with ⟨_, rfl⟩ | ⟨h7, h8⟩
    · rw [hgo.1] at h6; simp at h6
    · rcases hmid ((ident_congr (sn.tensor m hmf.1)).1 h4) k' c h8 with rfl | h9
      · exact h7 (hall _ _ _ hf h8 hmn)
      · rw [d.record c (w.lt h8.inUse), h9] at h6; simp at h6
  · have hxe' : x ≠ e := by
      rintro rfl
      rcases h2 x hx with ⟨_, t, h4, h5⟩ | ⟨_, h4, _⟩
      · -- the name was taken by another edge
        obtain ⟨x', h6, h7⟩ := inv.same.onto x ⟨re, (n, j), by simp, he⟩
        rcases inv.same.old x' h6 with h8 | h8
        · rw [h8] at h7
          subst h7
          exact hxe h8
        · obtain ⟨_, t', _, h9⟩ := hx
          have := w0.lt h9.inUse
          omega
      · exact hxe h4
    have hstay : ∀ t, At h t (ρ x) → At h' t (ρ x) ∧ t.1 ≠ n := by
      intro t ht
      have htn : t.1 ≠ n := by
        intro h3
        have h4 : t = (n, t.2) := by rw [← h3]
        rw [h4] at ht
        rcases hown _ _ ht with h5 | h5
        · exact hxe h5
        · rw [h5, hfd] at hdx; simp at hdx
      refine ⟨(d.slots t _ htn).2 (.inr ⟨fun h3 => ?_, ht⟩), htn⟩
      rw [(d.closed t _ h3 ht).1] at hdx
      simp at hdx
    simp only
    rw [Function.update_of_ne hxe, id, Function.update_of_ne hxe']
    rcases h2 x hx with ⟨h3, t, h4, h5⟩ | ⟨h3, h4, t, h5, h6⟩
    · exact .inl ⟨h3, t, (hstay t h4).1, fun h6 => h5 ⟨by simp [h6.1],
        d.drops w sn.tensor hl h4.1 (hstay t h4).2 h6.2⟩⟩
    · rw [h4] at hstay
      refine .inr ⟨h3, h4, t, (hstay t h5).1, ?_⟩
      rcases List.mem_cons.1 h6 with h7 | h7
      · exact absurd h7 (hstay t h5).2
      · exact h7

theorem Dropped.below {h h' : Heap R} {n : NId} {S : Slot → Prop} {c : EId} (d : Dropped h h' n S c)
    (hn : n < h.nn) (hS : ∀ t, S t → t.1 < h.nn) (t : Slot) (f : EId) (ht : At h' t f) : t.1 < h.nn := by
  by_cases h1 : t.1 = n
  · omega
  · rcases (d.slots t f h1).1 ht with ⟨h2, _⟩ | ⟨_, h2⟩
    · exact hS t h2
    · exact h2.1

/-- A connected edge of a node leads back to the node or to another node. -/
theorem crosses_or_loop {h : Heap R} (w : WF h) {n i : Nat} {e : EId} (he : At h (n, i) e)
    (hd : (h.edge e).dangling = false) :
    (∃ m k, Crosses h n i m k e) ∨ ∃ j, j ≠ i ∧ At h (n, j) e := by
  rcases w.good he.inUse with ⟨n', a', hr⟩ | ⟨n', a', m', b', hr⟩
  · rw [hr] at hd; simp at hd
  · have h0 := (at_conn w he.inUse hr).1 he
    have hne : ((n', a') : Slot) ≠ (m', b') := by
      have := w.nodup he.inUse
      rw [hr] at this
      simpa using this
    by_cases h1 : n' = m'
    · right
      rcases h0 with h0 | h0
      · obtain ⟨rfl, rfl⟩ := Prod.mk.inj h0
        refine ⟨b', fun h2 => hne (by rw [h1, h2]), ?_⟩
        exact (at_conn w he.inUse hr).2 (.inr (by rw [h1]))
      · obtain ⟨rfl, rfl⟩ := Prod.mk.inj h0
        refine ⟨a', fun h2 => hne (by rw [h1, h2]), ?_⟩
        exact (at_conn w he.inUse hr).2 (.inl (by rw [h1]))
    · left
      rcases h0 with h0 | h0
      · obtain ⟨rfl, rfl⟩ := Prod.mk.inj h0
        exact ⟨m', b', Ne.symm h1, .inl hr⟩
      · obtain ⟨rfl, rfl⟩ := Prod.mk.inj h0
        exact ⟨n', a', h1, .inr hr⟩

/-- One round of the loop keeps the invariant. -/
theorem elimStep_inv {copy : NId → Bool} {h0 h : Heap R} {N0 : List NId} (w0 : WF h0)
    (hN0 : ∀ n ∈ N0, n < h0.nn)
    (hdel : ∀ n ∈ N0, Ident copy h0 n → ∃ d, IsDelta (h0.node n).tensor d)
    {n : NId} {rem : List NId} {s : ElimState} {ρ : EId → EId}
    (inv : ElimInv copy h0 N0 h (n :: rem) s ρ) :
    ∃ s' h' ρ', elimStep copy n s h = (.ok s', h') ∧ ElimInv copy h0 N0 h' rem s' ρ' := by
  have hkeep : (∃ s' h' ρ', keepStep n s h = (.ok s', h') ∧ ElimInv copy h0 N0 h' rem s' ρ') := by
    obtain ⟨s', h1, h2⟩ := keep_inv w0 inv
    exact ⟨s', h, ρ, h1, h2⟩
  have hget : elimStep copy n s h = (match copy n, (h.node n).edges with
      | true, [a, b] =>
        if (h.edge a).dangling = true ∧ (h.edge b).dangling = true then keepStep n s
        else dropStep n a b s
      | _, _ => keepStep n s : M R ElimState) h := rfl
  rw [hget]
  by_cases hc : copy n = true ∧ (h.node n).edges.length = 2
  swap
  · have : (match copy n, (h.node n).edges with
      | true, [a, b] =>
        if (h.edge a).dangling = true ∧ (h.edge b).dangling = true then keepStep n s
        else dropStep n a b s
      | _, _ => keepStep n s : M R ElimState) = keepStep n s := by
      split
      · rename_i h1 h2
        exact absurd ⟨h1, by rw [h2]; rfl⟩ hc
      · rfl
    rw [this]
    exact hkeep
  obtain ⟨hcp, hlen⟩ := hc
  obtain ⟨a, b, hab⟩ := List.length_eq_two.1 hlen
  rw [hcp, hab]
  simp only
  split_ifs with hdd
  · exact hkeep
  have w := inv.same.wf
  have hnN : n ∈ s.nodes.map Prod.snd ++ n :: rem := by simp
  have hnlt := inv.same.lt n hnN
  have hn0 : n ∈ N0 := inv.old n (by simp)
  have hten := inv.same.tensor n (hN0 n hn0)
  have hndim : (h.node n).tensor.ndim = 2 := by rw [← w.len n hnlt, hlen]
  have hid : Ident copy h n := ⟨hcp, hndim⟩
  obtain ⟨d, hd0⟩ := hdel n hn0 ((ident_congr hten).1 hid)
  have hd : IsDelta (h.node n).tensor d := by rw [hten]; exact hd0
  have ha : At h (n, 0) a := ⟨hnlt, by simp only [hab]; rfl⟩
  have hb : At h (n, 1) b := ⟨hnlt, by simp only [hab]; rfl⟩
  have hp : (s.nodes.map Prod.snd ++ n :: rem).Perm (n :: (s.nodes.map Prod.snd ++ rem)) := List.perm_middle
  have hrest : ∀ {m}, m ≠ n → m ∈ s.nodes.map Prod.snd ++ n :: rem → s.nodes.map Prod.snd ++ rem ≠ [] := by
    intro m h1 h2
    refine List.ne_nil_of_mem (a := m) ?_
    rcases List.mem_append.1 h2 with h3 | h3
    · exact List.mem_append_left _ h3
    · rcases List.mem_cons.1 h3 with h4 | h4
      · exact absurd h4 h1
      · exact List.mem_append_right _ h4
  have hown : ∀ q x, At h (n, q) x → (q = 0 ∧ x = a) ∨ (q = 1 ∧ x = b) := by
    intro q x hx
    have := hx.2
    simp only [hab] at this
    match q with
    | 0 => simp at this; exact .inl ⟨rfl, this.symm⟩
    | 1 => simp at this; exact .inr ⟨rfl, this.symm⟩
    | q + 2 => simp at this
  by_cases hda : (h.edge a).dangling = true
  · -- axis 0 dangles
    have hdb : (h.edge b).dangling = false := by
      rcases hq : (h.edge b).dangling with _ | _
      · rfl
      · exact absurd ⟨hda, hq⟩ hdd
    have hne : a ≠ b := by rintro rfl; rw [hda] at hdb; simp at hdb
    obtain ⟨m, k, c⟩ : ∃ m k, Crosses h n 1 m k b := by
      rcases crosses_or_loop w hb hdb with h1 | ⟨j, h1, h2⟩
      · exact h1
      · rcases hown _ _ h2 with ⟨_, h3⟩ | ⟨h3, _⟩
        · exact absurd h3.symm hne
        · exact absurd h3 h1
    have hmb : At h (m, k) b := (c.at w hb.inUse).2 (.inr rfl)
    obtain ⟨h', g, h1, h2, h3, h4⟩ := drop_one w (.inr ⟨rfl, rfl⟩) inv.same.lt inv.same.nodup inv.same.closed hp
      ha hda hb hd c
    refine ⟨_, h', _, ?_, rename_inv w0 inv (hrest c.1 (inv.same.closed _ _ _ hb hmb hnN)) h2 h3 h4 (h3.below hnlt fun t ht => ht ▸ hmb.1) ha hda hb hmb c.1
      (fun q x hx => (hown q x hx).imp And.right And.right) hdb hid⟩
    unfold dropStep
    rw [M.bind_ok h1]
    rfl
  by_cases hdb : (h.edge b).dangling = true
  · have hda' : (h.edge a).dangling = false := by simpa using hda
    have hne : a ≠ b := by rintro rfl; exact hda hdb
    obtain ⟨m, k, c⟩ : ∃ m k, Crosses h n 0 m k a := by
      rcases crosses_or_loop w ha hda' with h1 | ⟨j, h1, h2⟩
      · exact h1
      · rcases hown _ _ h2 with ⟨h3, _⟩ | ⟨_, h3⟩
        · exact absurd h3 h1
        · exact absurd h3 hne
    have hma : At h (m, k) a := (c.at w ha.inUse).2 (.inr rfl)
    obtain ⟨h', g, h1, h2, h3, h4⟩ := drop_one w (.inl ⟨rfl, rfl⟩) inv.same.lt inv.same.nodup inv.same.closed hp
      hb hdb ha hd c
    refine ⟨_, h', _, ?_, rename_inv w0 inv (hrest c.1 (inv.same.closed _ _ _ ha hma hnN)) h2 h3 h4 (h3.below hnlt fun t ht => ht ▸ hma.1) hb hdb ha hma c.1
      (fun q x hx => ((hown q x hx).imp And.right And.right).symm) hda' hid⟩
    unfold dropStep
    rw [M.bind_ok h1]
    rfl
  have hda' : (h.edge a).dangling = false := by simpa using hda
  have hdb' : (h.edge b).dangling = false := by simpa using hdb
  have hdn : ∀ i e, At h (n, i) e → (h.edge e).dangling = false := by
    intro i e he
    rcases hown _ _ he with ⟨_, rfl⟩ | ⟨_, rfl⟩
    · exact hda'
    · exact hdb'
  by_cases hne : a = b
  · subst hne
    have hp'' : ((s.nodes ++ [(n, h.nn)]).map Prod.snd ++ rem).Perm (h.nn :: (s.nodes.map Prod.snd ++ rem)) := by
      simp
    obtain ⟨h', h1, h2, h3, h4⟩ := drop_loop w inv.same.lt inv.same.nodup inv.same.closed hp hab hd s hp''
    refine ⟨_, h', ρ, h1, drop_inv inv h2 h3 rfl (by simp) (h3.below hnlt fun t ht => ht.elim) hdn ?_ hid fun t e ht => ht.elim⟩
    intro t i e h5 h6 h7
    have h8 : e = a := by rcases hown _ _ h5 with ⟨_, h8⟩ | ⟨_, h8⟩ <;> exact h8
    subst h8
    rcases w.good ha.inUse with ⟨n', x, hr⟩ | ⟨n', x, m', y, hr⟩
    · rw [hr] at hda'; simp at hda'
    · have q1 := (at_conn w ha.inUse hr).1 ha
      have q2 := (at_conn w ha.inUse hr).1 hb
      have q3 := (at_conn w ha.inUse hr).1 h6
      have hnn : n' = n ∧ m' = n := by
        simp only [Prod.mk.injEq] at q1 q2
        omega
      rcases q3 with q3 | q3 <;> rw [q3] at h7 <;> simp [hnn] at h7
  · obtain ⟨m0, k0, c0⟩ : ∃ m k, Crosses h n 0 m k a := by
      rcases crosses_or_loop w ha hda' with h1 | ⟨j, h1, h2⟩
      · exact h1
      · rcases hown _ _ h2 with ⟨h3, _⟩ | ⟨_, h3⟩
        · exact absurd h3 h1
        · exact absurd h3 hne
    obtain ⟨m1, k1, c1⟩ : ∃ m k, Crosses h n 1 m k b := by
      rcases crosses_or_loop w hb hdb' with h1 | ⟨j, h1, h2⟩
      · exact h1
      · rcases hown _ _ h2 with ⟨_, h3⟩ | ⟨h3, _⟩
        · exact absurd h3.symm hne
        · exact absurd h3 h1
    have hma : At h (m0, k0) a := (c0.at w ha.inUse).2 (.inr rfl)
    have hmb : At h (m1, k1) b := (c1.at w hb.inUse).2 (.inr rfl)
    obtain ⟨h', c, h1, h2, h3, h4⟩ := drop_both w inv.same.lt inv.same.nodup inv.same.closed hp ha hb hd c0 c1 s
    refine ⟨_, h', ρ, h1, drop_inv inv h2 h3 rfl
      (hrest c0.1 (inv.same.closed _ _ _ ha hma hnN)) (h3.below hnlt ?_) hdn ?_ hid ?_⟩
    · rintro t (rfl | rfl)
      · exact hma.1
      · exact hmb.1
    · intro t i e h5 h6 h7
      rcases hown _ _ h5 with ⟨rfl, rfl⟩ | ⟨rfl, rfl⟩
      · rcases (c0.at w ha.inUse).1 h6 with h8 | h8
        · rw [h8] at h7; exact absurd rfl h7
        · exact .inl h8
      · rcases (c1.at w hb.inUse).1 h6 with h8 | h8
        · rw [h8] at h7; exact absurd rfl h7
        · exact .inr h8
    · rintro t e (rfl | rfl) h5
      · exact ⟨h4, 1, b, hb, by rw [h5.unique hma]; exact Ne.symm hne, hdb'⟩
      · exact ⟨h4, 0, a, ha, by rw [h5.unique hmb]; exact hne, hda'⟩

theorem elimLoop_inv {copy : NId → Bool} {h0 : Heap R} {N0 : List NId} (w0 : WF h0)
    (hN0 : ∀ n ∈ N0, n < h0.nn)
    (hdel : ∀ n ∈ N0, Ident copy h0 n → ∃ d, IsDelta (h0.node n).tensor d) :
    ∀ (rem : List NId) (h : Heap R) (s : ElimState) (ρ : EId → EId), ElimInv copy h0 N0 h rem s ρ →
      ∃ s' h' ρ', elimLoop copy rem s h = (.ok s', h') ∧ ElimInv copy h0 N0 h' [] s' ρ'
  | [], h, s, ρ, inv => ⟨s, h, ρ, rfl, inv⟩
  | n :: rem, h, s, ρ, inv => by
    obtain ⟨s1, h1, ρ1, hr, inv1⟩ := elimStep_inv w0 hN0 hdel inv
    obtain ⟨s2, h2, ρ2, hr2, inv2⟩ := elimLoop_inv w0 hN0 hdel rem h1 s1 ρ1 inv1
    refine ⟨s2, h2, ρ2, ?_, inv2⟩
    unfold elimLoop
    rw [M.bind_ok hr]
    exact hr2

/-- `eliminate_identities` leaves the network the same, with some dangling edges renamed, and its
dictionary knows the new names if no identity with a dangling edge is joined to another identity. -/
theorem eliminate_run {copy : NId → Bool} {h : Heap R} {N : List NId} (w : WF h) (hne : N ≠ [])
    (hN : ∀ n ∈ N, n < h.nn) (hnd : N.Nodup) (hcl : ClosedNet h N)
    (hdel : ∀ n ∈ N, Ident copy h n → ∃ d, IsDelta (h.node n).tensor d) :
    ∃ s h' ρ, eliminateIdentities copy N h = (.ok s, h') ∧ SameNet h h' N (s.nodes.map Prod.snd) ρ ∧
      s.nodes ≠ [] ∧
      (NoChain copy h N → ∀ x, OpenEdge h N x → s.edges x = some (ρ x)) := by
  obtain ⟨s, h', ρ, hr, inv⟩ := elimLoop_inv (copy := copy) w hN hdel N h ⟨[], fun _ => none⟩ id
    ⟨by simpa using SameNet.refl w hN hnd hcl, fun _ h1 => h1, by simpa using hne, fun hnc => ⟨hnc, fun x hx => by
      obtain ⟨_, t, h1, h2⟩ := hx
      exact .inr ⟨rfl, rfl, t, h2, h1⟩⟩⟩
  refine ⟨s, h', ρ, hr, by simpa using inv.same, by simpa using inv.some, fun hnc x hx => ?_⟩
  rcases (inv.dict hnc).2 x hx with ⟨h1, _⟩ | ⟨_, _, t, _, h2⟩
  · exact h1
  · simp at h2

/-! ### The keys of the dictionary of nodes -/

theorem elimStep_nodes {copy : NId → Bool} {n : NId} {s s' : ElimState} {h h' : Heap R}
    (hr : elimStep copy n s h = (.ok s', h')) :
    s'.nodes = s.nodes ∨ ∃ v, s'.nodes = s.nodes ++ [(n, v)] := by
  have hkeep : keepStep n s h = (.ok s', h') → s'.nodes = s.nodes ∨ ∃ v, s'.nodes = s.nodes ++ [(n, v)] := by
    intro h1
    have h2 : (Except.ok (⟨s.nodes ++ [(n, n)],
      fun e => if e ∈ (h.node n).edges ∧ (h.edge e).dangling = true then some e else s.edges e⟩ : ElimState), h)
      = ((.ok s', h') : Py ElimState × Heap R) := h1
    have h3 := Except.ok.inj (Prod.mk.inj h2).1
    exact .inr ⟨n, by rw [← h3]⟩
  have hget : elimStep copy n s h = (match copy n, (h.node n).edges with
      | true, [a, b] =>
        if (h.edge a).dangling = true ∧ (h.edge b).dangling = true then keepStep n s
        else dropStep n a b s
      | _, _ => keepStep n s : M R ElimState) h := rfl
  rw [hget] at hr
  by_cases hc : copy n = true ∧ (h.node n).edges.length = 2
  · obtain ⟨hcp, hlen⟩ := hc
    obtain ⟨a, b, hab⟩ := List.length_eq_two.1 hlen
    rw [hcp, hab] at hr
    simp only at hr
    split_ifs at hr with hd
    · exact hkeep hr
    · unfold dropStep at hr
      rcases hq : removeNode n h with ⟨_ | new, k⟩
      · rw [M.bind_error hq] at hr
        simp at hr
      rw [M.bind_ok hq] at hr
      rcases h0 : new.lookup 0 with _ | e0 <;> rcases h1 : new.lookup 1 with _ | e1 <;> simp only [h0, h1] at hr
      · have hg : (do
          let h ← M.get
          match ((h.node n).tensor.shape)[0]? with
          | none => M.throw .indexError
          | some d => do
            let m ← newNode ⟨[], fun _ => ((d : Nat) : R)⟩
            pure { s with nodes := s.nodes ++ [(n, m)] } : M R ElimState) k =
          (match ((k.node n).tensor.shape)[0]? with
          | none => M.throw .indexError
          | some d => do
            let m ← newNode ⟨[], fun _ => ((d : Nat) : R)⟩
            pure { s with nodes := s.nodes ++ [(n, m)] } : M R ElimState) k := rfl
        replace hr := hg.symm.trans hr
        rcases hz : ((k.node n).tensor.shape)[0]? with _ | d <;> simp only [hz] at hr
        · have := (Prod.mk.inj hr).1
          simp at this
        · rcases hm : newNode (⟨[], fun _ => ((d : Nat) : R)⟩ : NDArray R) k with ⟨_ | m, k'⟩
          · rw [M.bind_error hm] at hr
            have := (Prod.mk.inj hr).1
            simp at this
          · rw [M.bind_ok hm] at hr
            have h3 := Except.ok.inj (Prod.mk.inj hr).1
            exact .inr ⟨m, by rw [← h3]⟩
      · exact .inl (by rw [← Except.ok.inj (Prod.mk.inj hr).1])
      · exact .inl (by rw [← Except.ok.inj (Prod.mk.inj hr).1])
      · rcases hm : connect e0 e1 k with ⟨_ | m, k'⟩
        · rw [M.bind_error hm] at hr
          have := (Prod.mk.inj hr).1
          simp at this
        · rw [M.bind_ok hm] at hr
          exact .inl (by rw [← Except.ok.inj (Prod.mk.inj hr).1])
  · have : (match copy n, (h.node n).edges with
      | true, [a, b] =>
        if (h.edge a).dangling = true ∧ (h.edge b).dangling = true then keepStep n s
        else dropStep n a b s
      | _, _ => keepStep n s : M R ElimState) = keepStep n s := by
      split
      · rename_i h1 h2
        exact absurd ⟨h1, by rw [h2]; rfl⟩ hc
      · rfl
    rw [this] at hr
    exact hkeep hr

theorem elimLoop_nodes {copy : NId → Bool} : ∀ (ns : List NId) {s s' : ElimState} {h h' : Heap R},
    elimLoop copy ns s h = (.ok s', h') → ∃ l, s'.nodes = s.nodes ++ l ∧ (l.map Prod.fst).Sublist ns
  | [], s, s', h, h', hr => ⟨[], by
      have : (Except.ok s, h) = ((.ok s', h') : Py ElimState × Heap R) := hr
      rw [← Except.ok.inj (Prod.mk.inj this).1]; simp, by simp⟩
  | n :: ns, s, s', h, h', hr => by
    unfold elimLoop at hr
    rcases hq : elimStep copy n s h with ⟨_ | s1, k⟩
    · rw [M.bind_error hq] at hr
      have := (Prod.mk.inj hr).1
      simp at this
    rw [M.bind_ok hq] at hr
    obtain ⟨l, h1, h2⟩ := elimLoop_nodes ns hr
    rcases elimStep_nodes hq with h3 | ⟨v, h3⟩
    · exact ⟨l, by rw [h1, h3], h2.trans (List.sublist_cons_self _ _)⟩
    · exact ⟨(n, v) :: l, by rw [h1, h3]; simp, by simpa using h2⟩

/-- The keys of the dictionary of nodes are among the nodes, each once. -/
theorem eliminate_keys {copy : NId → Bool} {N : List NId} {s : ElimState} {h h' : Heap R}
    (hr : eliminateIdentities copy N h = (.ok s, h')) : (s.nodes.map Prod.fst).Sublist N := by
  obtain ⟨l, h1, h2⟩ := elimLoop_nodes N hr
  simp at h1
  rw [h1]
  exact h2

end TN.Graph
