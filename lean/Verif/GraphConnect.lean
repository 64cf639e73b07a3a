import Verif.GraphReorder

/-!
# Connecting and disconnecting edges
-/

namespace TN

open Finset

set_option linter.unusedSectionVars false

variable {R : Type*} {L : Type*} [DecidableEq L]

/-- The labels `a` and `b` become the label `c`. -/
def glue (a b c : L) (l : L) : L := if l = a ∨ l = b then c else l

theorem val_map (t : NDArray R) (ls : List L) (ρ : L → L) (τ : L → Nat) :
    val t (ls.map ρ) τ = val t ls (fun l => τ (ρ l)) := by
  simp [val, List.map_map, Function.comp_def]

variable [CommSemiring R]

theorem prodVal_map (net : List (NDArray R × List L)) (ρ : L → L) (τ : L → Nat) :
    prodVal (net.map fun p => (p.1, p.2.map ρ)) τ = prodVal net (fun l => τ (ρ l)) := by
  simp only [prodVal, List.map_map]
  congr 1
  refine List.map_congr_left fun p _ => ?_
  simp [val_map]

theorem flatL_map (net : List (NDArray R × List L)) (ρ : L → L) :
    flatL (net.map fun p => (p.1, p.2.map ρ)) = (flatL net).map ρ := by
  simp [flatL, List.flatMap_map, List.map_flatMap]

/-- Sums of relabelled functions. -/
theorem sumOver_relabel {dim dim' : L → Nat} {C : List L} {ρ : L → L} {g : (L → Nat) → R}
    (hρ : ∀ c ∈ C, ∀ l, ρ l = c ↔ l = c) (hd : ∀ c ∈ C, dim' c = dim c) (σ : L → Nat) :
    sumOver dim' C (fun τ => g (fun l => τ (ρ l))) σ = sumOver dim C g (fun l => σ (ρ l)) := by
  induction C generalizing σ with
  | nil => rfl
  | cons a C ih =>
    simp only [sumOver]
    rw [hd a (by simp)]
    refine Finset.sum_congr rfl fun i _ => ?_
    rw [ih (fun c hc => hρ c (by simp [hc])) (fun c hc => hd c (by simp [hc]))]
    congr 1
    funext l
    by_cases hl : l = a
    · subst hl
      rw [(hρ l (by simp) l).2 rfl]; simp
    · rw [Function.update_of_ne hl, Function.update_of_ne]
      intro h
      exact hl ((hρ a (by simp) l).1 h)

theorem count_map_glue {a b c : L} (hab : a ≠ b) {ls : List L} (hc : c ∉ ls) (l : L) :
    (ls.map (glue a b c)).count l =
      if l = c then ls.count a + ls.count b
      else if l = a ∨ l = b then 0 else ls.count l := by
  induction ls with
  | nil => simp
  | cons x ls ih =>
    simp only [List.mem_cons, not_or] at hc
    rw [List.map_cons, List.count_cons, ih hc.2]
    simp only [List.count_cons, glue, beq_iff_eq]
    have hxc : x ≠ c := fun h => hc.1 h.symm
    by_cases h1 : l = c
    · subst h1
      by_cases hxa : x = a
      · subst hxa; simp [hab]; omega
      · by_cases hxb : x = b
        · subst hxb; simp [hxa]; omega
        · simp [hxa, hxb, hxc]
    · by_cases hxa : x = a
      · subst hxa
        have : c ≠ l := fun h => h1 h.symm
        simp only [true_or, if_true, this, if_false, h1, Nat.add_zero]
        by_cases h2 : l = x
        · simp [h2]
        · simp [h2, Ne.symm h2]
      · by_cases hxb : x = b
        · subst hxb
          have : c ≠ l := fun h => h1 h.symm
          simp only [or_true, if_true, this, if_false, h1, Nat.add_zero]
          by_cases h2 : l = x
          · simp [h2]
          · simp [h2, Ne.symm h2]
        · simp only [hxa, hxb, or_self, if_false, h1]
          by_cases h2 : l = a ∨ l = b
          · have : x ≠ l := by rintro rfl; rcases h2 with h | h; exacts [hxa h, hxb h]
            simp [h2, this]
          · simp [h2]

/-- Gluing two open labels sums over their common position. -/
theorem netVal_glue {dim dim' : L → Nat} {net : List (NDArray R × List L)} {a b c : L}
    (hc : Consistent dim net)
    (hc' : Consistent dim' (net.map fun p => (p.1, p.2.map (glue a b c))))
    (hab : a ≠ b) (ha : (flatL net).count a = 1) (hb : (flatL net).count b = 1)
    (hcn : c ∉ flatL net) (hca : c ≠ a) (hcb : c ≠ b) (σ : L → Nat) :
    netVal (net.map fun p => (p.1, p.2.map (glue a b c))) σ =
      ∑ i ∈ range (dim a), netVal net (Function.update (Function.update σ a i) b i) := by
  have hdim : ∀ l ∈ flatL net, dim' (glue a b c l) = dim l := by
    intro l hl
    obtain ⟨p, hp, hl⟩ := mem_flatL.1 hl
    have h1 := hc p hp
    have h2 := hc' _ (List.mem_map_of_mem (f := fun p : NDArray R × List L =>
      (p.1, p.2.map (glue a b c))) hp)
    unfold Shaped at h1 h2
    simp only at h2
    rw [h1, List.map_map] at h2
    exact (List.map_inj_left.1 h2 l hl).symm
  have hma : a ∈ flatL net := List.count_pos_iff.1 (by omega)
  have hda : dim' c = dim a := by
    have := hdim a hma
    simpa [glue] using this
  rw [netVal_eq hc']
  have hperm : (closedL (net.map fun p => (p.1, p.2.map (glue a b c)))).Perm
      (c :: closedL net) := by
    rw [List.perm_ext_iff_of_nodup (closedL_nodup _)]
    · intro l
      rw [mem_closedL, flatL_map, count_map_glue hab hcn, List.mem_cons, mem_closedL]
      by_cases h1 : l = c
      · simp [h1, ha, hb]
      · by_cases h2 : l = a ∨ l = b
        · rcases h2 with rfl | rfl <;> simp [h1, ha, hb]
        · simp [h1, h2]
    · rw [List.nodup_cons]
      refine ⟨?_, closedL_nodup _⟩
      rw [mem_closedL, List.count_eq_zero.2 hcn]
      omega
  rw [sumOver_perm hperm]
  simp only [sumOver]
  rw [hda]
  refine Finset.sum_congr rfl fun i _ => ?_
  rw [netVal_eq hc]
  have hmem : ∀ l ∈ closedL net, l ≠ a ∧ l ≠ b ∧ l ≠ c ∧ l ∈ flatL net := by
    intro l hl
    rw [mem_closedL] at hl
    have hm : l ∈ flatL net := List.count_pos_iff.1 (by omega)
    refine ⟨?_, ?_, ?_, hm⟩
    · rintro rfl; omega
    · rintro rfl; omega
    · rintro rfl; exact hcn hm
  have h1 : prodVal (net.map fun p => (p.1, p.2.map (glue a b c))) =
      fun τ => prodVal net (fun l => τ (glue a b c l)) := by
    funext τ; exact prodVal_map _ _ _
  rw [h1, sumOver_relabel (dim := dim)]
  · refine sumOver_dependsOn (prodVal_dependsOn net) _ _ fun l hl => ?_
    rw [List.mem_filter] at hl
    have hlc : l ≠ c := by rintro rfl; exact hcn hl.1
    unfold glue
    by_cases h2 : l = b
    · subst h2; simp
    · by_cases h3 : l = a
      · subst h3
        simp [Function.update_of_ne hab]
      · simp [h2, h3, hlc]
  · intro x hx l
    obtain ⟨h2, h3, h4, _⟩ := hmem x hx
    unfold glue
    by_cases h5 : l = a ∨ l = b
    · rw [if_pos h5]
      constructor
      · intro h; exact absurd h.symm h4
      · rintro rfl; rcases h5 with h | h; exacts [absurd h h2, absurd h h3]
    · rw [if_neg h5]
  · intro x hx
    obtain ⟨h2, h3, h4, h5⟩ := hmem x hx
    have := hdim x h5
    simpa [glue, h2, h3] using this

end TN

namespace TN.Graph

open TN

variable {R : Type}

/-- Replacing the edges at some axes keeps the graph consistent. -/
theorem rewire_wf {h h' : Heap R} (w : WF h) {dead : EId → Prop}
    (hnn : h'.nn = h.nn) (hne : h.ne ≤ h'.ne)
    (ht : ∀ n < h.nn, (h'.node n).tensor = (h.node n).tensor)
    (hl : ∀ n < h.nn, (h'.node n).edges.length = (h.node n).edges.length)
    (hlive : ∀ s e, At h s e → ¬ dead e → At h' s e ∧ h'.edge e = h.edge e)
    (hnew : ∀ s e, At h' s e → (At h s e ∧ ¬ dead e) ∨ EdgeOK h' s e) : WF h' := by
  have sur : Surgery h h' id dead := by
    refine ⟨?_, hne, ?_, fun _ _ _ _ _ _ h => h, ?_⟩
    · intro n hn
      rw [hnn] at hn
      rw [hl n hn, ht n hn, w.len n hn]
    · intro s e hs hd
      obtain ⟨h1, h2⟩ := hlive s e hs hd
      refine ⟨h1, ?_, ?_, ?_⟩
      · simp only [dimAt, Heap.shape, id]
        rw [ht _ hs.1]
      · rw [h2]; exact w.good hs.inUse
      · rw [h2, Multiset.map_id]
    · intro s e hs
      rcases hnew s e hs with ⟨h1, h2⟩ | h1
      · exact .inl ⟨s, h1, h2, rfl⟩
      · exact .inr h1
  exact sur.wf w

/-- `h'` is `h` after the edges `a` and `b` were joined to the edge `c`. -/
structure Joined [CommSemiring R] (h h' : Heap R) (a b c : EId) : Prop where
  wf : WF h'
  nn : h'.nn = h.nn
  /-- tensors stay, the new edge takes the place of the two old ones -/
  nodes : ∀ n < h.nn, (h'.node n).tensor = (h.node n).tensor ∧
    (h'.node n).edges = (h.node n).edges.map (glue a b c)
  /-- the joined edge joins the two axes -/
  joined : ∃ n x m y, At h (n, x) a ∧ At h (m, y) b ∧ h'.edge c = .conn n x m y
  /-- all other edges stay -/
  other : ∀ e, InUse h e → e ≠ a → e ≠ b → h'.edge e = h.edge e
  /-- the two positions are summed together -/
  value : ∀ ns : List NId, ns.Nodup → (∀ n ∈ ns, n < h.nn) →
    a ∈ flatL (netOf h ns) → b ∈ flatL (netOf h ns) → ∀ σ : EId → Nat,
    netVal (netOf h' ns) σ = ∑ i ∈ Finset.range (edim h a),
      netVal (netOf h ns) (Function.update (Function.update σ a i) b i)

theorem joined_value [CommSemiring R] {h h' : Heap R} (w : WF h) (w' : WF h')
    {a b c : EId} (hab : a ≠ b) (hda : (h.edge a).dangling = true)
    (hdb : (h.edge b).dangling = true) (hc : ¬ InUse h c) (hnn : h'.nn = h.nn)
    (hnode : ∀ n < h.nn, (h'.node n).tensor = (h.node n).tensor ∧
      (h'.node n).edges = (h.node n).edges.map (glue a b c))
    {ns : List NId} (hns : ns.Nodup) (hlt : ∀ n ∈ ns, n < h.nn)
    (ha : a ∈ flatL (netOf h ns)) (hb : b ∈ flatL (netOf h ns)) (σ : EId → Nat) :
    netVal (netOf h' ns) σ = ∑ i ∈ Finset.range (edim h a),
      netVal (netOf h ns) (Function.update (Function.update σ a i) b i) := by
  have hnet : netOf h' ns = (netOf h ns).map fun p => (p.1, p.2.map (glue a b c)) := by
    simp only [netOf, List.map_map]
    refine List.map_congr_left fun n hn => ?_
    obtain ⟨h1, h2⟩ := hnode n (hlt n hn)
    simp [h1, h2]
  have hca := w'.consistent (ns := ns) (by rw [hnn]; exact hlt)
  rw [hnet] at hca ⊢
  have hone : ∀ e, (h.edge e).dangling = true → e ∈ flatL (netOf h ns) →
      (flatL (netOf h ns)).count e = 1 := by
    intro e hd he
    have hu := inUse_of_flat hlt he
    have h1 := w.count_flat hu hns hlt
    have h2 := (w.good hu).card
    rw [hd, if_pos rfl] at h2
    have h3 := Multiset.countP_le_card (fun s : Slot => s.1 ∈ ns) (h.edge e).ends
    have h4 := List.count_pos_iff.2 he
    omega
  have hcf : c ∉ flatL (netOf h ns) := fun h1 => hc (inUse_of_flat hlt h1)
  exact netVal_glue (w.consistent hlt) hca hab (hone a hda ha) (hone b hdb hb) hcf
    (fun h1 => hcf (h1 ▸ ha)) (fun h1 => hcf (h1 ▸ hb)) σ

theorem at_dang {h : Heap R} (w : WF h) {e : EId} (hu : InUse h e) {n : NId} {a : Nat}
    (hr : h.edge e = .dang n a) {s : Slot} : At h s e ↔ s = (n, a) := by
  rw [← w.mem_ends hu, hr]; simp

theorem at_conn {h : Heap R} (w : WF h) {e : EId} (hu : InUse h e) {n : NId} {a : Nat}
    {m : NId} {b : Nat} (hr : h.edge e = .conn n a m b) {s : Slot} :
    At h s e ↔ s = (n, a) ∨ s = (m, b) := by
  rw [← w.mem_ends hu, hr]; simp

theorem dimension_eq {h : Heap R} (w : WF h) {e : EId} (hu : InUse h e) :
    dimension e h = (.ok (edim h e), h) := by
  have key : ∀ n a, node1 e h = (.ok n, h) → axis1 e h = (.ok a, h) → At h (n, a) e →
      dimension e h = (.ok (edim h e), h) := by
    intro n a h1 h2 hs
    unfold dimension
    rw [M.bind_ok h1, M.bind_ok h2, get_bind]
    have hlt : a < (h.shape n).length := by
      have h3 := hs.lt_len
      rw [w.len n hs.1] at h3
      exact h3
    rw [List.getElem?_eq_getElem hlt, w.edim_eq hs]
    simp only [dimAt]
    rw [List.getD_eq_getElem _ _ hlt]
    rfl
  rcases w.good hu with ⟨n, a, hr⟩ | ⟨n, a, m, b, hr⟩
  · exact key n a (node1_dang hr) (axis1_dang hr) ((at_dang w hu hr).2 rfl)
  · exact key n a (node1_conn hr) (axis1_conn hr) ((at_conn w hu hr).2 (.inl rfl))

/-- The lists of edges after two axes got new edges. -/
theorem set_node_getElem? (f : NId → NodeRec R) (n1 n2 : NId) (a1 a2 : Nat) (e1 e2 : EId)
    (hn : (n1, a1) ≠ (n2, a2))
    (h1 : a1 < (f n1).edges.length) (h2 : a2 < (f n2).edges.length) (m : NId) (k : Nat) :
    let g := Function.update f n1 { f n1 with edges := (f n1).edges.set a1 e1 }
    let g' := Function.update g n2 { g n2 with edges := (g n2).edges.set a2 e2 }
    (g' m).tensor = (f m).tensor ∧ (g' m).edges.length = (f m).edges.length ∧
    (g' m).edges[k]? = if (m, k) = (n2, a2) then some e2
      else if (m, k) = (n1, a1) then some e1 else (f m).edges[k]? := by
  intro g g'
  by_cases hm2 : m = n2
  · subst hm2
    by_cases hm1 : m = n1
    · subst hm1
      simp only [g', g, Function.update_self, List.length_set, true_and, Prod.mk.injEq]
      have hne : a1 ≠ a2 := fun h => hn (by rw [h])
      rw [List.getElem?_set, List.getElem?_set, List.length_set]
      by_cases hk2 : k = a2
      · subst hk2; simp [h2]
      · by_cases hk1 : k = a1
        · subst hk1; simp [Ne.symm hk2, hk2, h1]
        · simp [Ne.symm hk1, Ne.symm hk2, hk1, hk2]
    · simp only [g', g, Function.update_self, Function.update_of_ne hm1, List.length_set,
        true_and, Prod.mk.injEq, hm1, false_and, if_false]
      rw [List.getElem?_set]
      by_cases hk2 : k = a2
      · subst hk2; simp [h2]
      · simp [Ne.symm hk2, hk2]
  · by_cases hm1 : m = n1
    · subst hm1
      simp only [g', g, Function.update_self, Function.update_of_ne hm2, List.length_set,
        true_and, Prod.mk.injEq, hm2, false_and, if_false]
      rw [List.getElem?_set]
      by_cases hk1 : k = a1
      · subst hk1; simp [h1]
      · simp [Ne.symm hk1, hk1]
    · simp [g', g, hm1, hm2]

/-- What `connect` does to two dangling edges. -/
theorem connect_ok [CommSemiring R] {h : Heap R} (w : WF h) {e1 e2 : EId} (hu1 : InUse h e1)
    (hu2 : InUse h e2) (hd1 : (h.edge e1).dangling = true) (hd2 : (h.edge e2).dangling = true)
    (hne : e1 ≠ e2) (hdim : edim h e1 = edim h e2) :
    ∃ h', connect e1 e2 h = (.ok h.ne, h') ∧ Joined h h' e1 e2 h.ne ∧ h'.ne = h.ne + 1 ∧
      ∀ e, e ≠ h.ne → h'.edge e = h.edge e := by
  obtain ⟨n1, a1, hr1⟩ : ∃ n a, h.edge e1 = .dang n a := by
    rcases w.good hu1 with h1 | ⟨n, a, m, b, hr⟩
    · exact h1
    · rw [hr] at hd1; simp at hd1
  obtain ⟨n2, a2, hr2⟩ : ∃ n a, h.edge e2 = .dang n a := by
    rcases w.good hu2 with h1 | ⟨n, a, m, b, hr⟩
    · exact h1
    · rw [hr] at hd2; simp at hd2
  have hs1 : At h (n1, a1) e1 := (at_dang w hu1 hr1).2 rfl
  have hs2 : At h (n2, a2) e2 := (at_dang w hu2 hr2).2 rfl
  have hsne : (n1, a1) ≠ (n2, a2) := by
    intro h1
    rw [h1] at hs1
    exact hne (hs1.unique hs2)
  have hl1 := hs1.lt_len
  have hl2 := hs2.lt_len
  simp only at hl1 hl2
  have hset := set_node_getElem? h.node n1 n2 a1 a2 h.ne h.ne hsne hl1 hl2
  simp only at hset
  obtain ⟨g, hg⟩ : ∃ g, g = Function.update h.node n1
    { h.node n1 with edges := (h.node n1).edges.set a1 h.ne } := ⟨_, rfl⟩
  obtain ⟨g', hg'⟩ : ∃ g', g' = Function.update g n2
    { g n2 with edges := (g n2).edges.set a2 h.ne } := ⟨_, rfl⟩
  rw [← hg] at hset
  rw [← hg'] at hset
  obtain ⟨h', hh'⟩ : ∃ h' : Heap R, h' = ⟨g', Function.update h.edge h.ne (.conn n1 a1 n2 a2), h.nn,
    h.ne + 1⟩ := ⟨_, rfl⟩
  have hrun : connect e1 e2 h = (.ok h.ne, h') := by
    unfold connect
    rw [M.bind_ok (a := ()) (h' := h) (forEach_skip (by
      intro e he
      rw [M.bind_ok isDangling_eq]
      have : (h.edge e).dangling = true := by
        simp only [List.mem_cons, List.not_mem_nil, or_false] at he
        rcases he with rfl | rfl
        exacts [hd1, hd2]
      rw [this]; rfl))]
    rw [if_neg hne, M.bind_ok (dimension_eq w hu1), M.bind_ok (dimension_eq w hu2),
      if_neg (by rw [hdim]; simp), M.bind_ok (node1_dang hr1), M.bind_ok (node1_dang hr2),
      M.bind_ok (axis1_dang hr1), M.bind_ok (axis1_dang hr2)]
    have hnew : newConnected n1 a1 n2 a2 h = (.ok h.ne, { h with
      edge := Function.update h.edge h.ne (.conn n1 a1 n2 a2)
      ne := h.ne + 1 }) := rfl
    rw [M.bind_ok hnew, M.bind_ok (addEdge_ok (h := { h with
      edge := Function.update h.edge h.ne (.conn n1 a1 n2 a2)
      ne := h.ne + 1 }) (by simp only; rw [← w.len n1 hs1.1]; exact hl1) hl1 (.inl rfl))]
    rw [M.bind_ok (addEdge_ok (ov := true) ?_ ?_ (.inl rfl))]
    · rw [hh', hg', hg]; rfl
    · simp only [Heap.setNode_node]
      by_cases h1 : n2 = n1
      · subst h1
        rw [Function.update_self, ← w.len n2 hs1.1]; exact hl2
      · rw [Function.update_of_ne h1, ← w.len n2 hs2.1]; exact hl2
    · simp only [Heap.setNode_node]
      by_cases h1 : n2 = n1
      · subst h1
        rw [Function.update_self, List.length_set]; exact hl2
      · rw [Function.update_of_ne h1]; exact hl2
  have hat : ∀ s e, At h' s e ↔ if s = (n2, a2) ∨ s = (n1, a1) then e = h.ne else At h s e := by
    intro s e
    obtain ⟨m, k⟩ := s
    simp only [At, hh', (hset m k).2.2]
    by_cases h2 : (m, k) = (n2, a2)
    · have : m < h.nn := by rw [Prod.mk.inj h2 |>.1]; exact hs2.1
      simp [h2, eq_comm, this]
    · by_cases h1 : (m, k) = (n1, a1)
      · have : m < h.nn := by rw [Prod.mk.inj h1 |>.1]; exact hs1.1
        simp [h1, eq_comm, this]
      · simp [h1, h2]
  have hnu : ∀ e, InUse h e → e ≠ h.ne := by
    intro e hu h1
    have := w.lt hu
    omega
  have hedge : ∀ e, e ≠ h.ne → h'.edge e = h.edge e := by
    intro e he; rw [hh']; simp [Function.update_of_ne he]
  have hedgen : h'.edge h.ne = .conn n1 a1 n2 a2 := by rw [hh']; simp
  have w' : WF h' := by
    refine rewire_wf w (dead := fun e => e = e1 ∨ e = e2) (by rw [hh']) (by rw [hh']; simp)
      (fun n hn => by rw [hh']; exact (hset n 0).1)
      (fun n hn => by rw [hh']; exact (hset n 0).2.1) ?_ ?_
    · intro s e hs hd
      rw [not_or] at hd
      refine ⟨?_, hedge e (hnu e hs.inUse)⟩
      rw [hat, if_neg]
      · exact hs
      · rintro (rfl | rfl)
        · exact hd.2 (hs.unique hs2)
        · exact hd.1 (hs.unique hs1)
    · intro s e hs
      have hs0 := hs
      rw [hat] at hs
      split_ifs at hs with hc
      · right
        subst hs
        have hmem : ∀ s', s' ∈ (h'.edge h.ne).ends ↔ s' = (n2, a2) ∨ s' = (n1, a1) := by
          intro s'
          rw [hedgen]
          simp only [ends_conn, Multiset.insert_eq_cons, Multiset.mem_cons,
            Multiset.mem_singleton]
          exact or_comm
        have hdat : ∀ s', s' = (n2, a2) ∨ s' = (n1, a1) → dimAt h' s' = edim h e1 := by
          intro s' hs'
          have : dimAt h' s' = dimAt h s' := by
            simp only [dimAt, Heap.shape, hh', (hset s'.1 0).1]
          rw [this]
          rcases hs' with rfl | rfl
          · rw [hdim, w.edim_eq hs2]
          · rw [w.edim_eq hs1]
        refine ⟨by rw [hh']; simp, by rw [hedgen]; exact good_conn _ _ _ _, ?_,
          (hmem s).2 hc, ?_, ?_⟩
        · rw [hedgen]; simpa using hsne
        · intro s' hs'
          rw [hmem] at hs'
          rw [hat, if_pos hs']
        · intro s' hs'
          rw [hmem] at hs'
          rw [hdat s' hs', hdat s hc]
      · left
        refine ⟨hs, ?_⟩
        rintro (rfl | rfl)
        · exact hc (.inr ((at_dang w hu1 hr1).1 hs))
        · exact hc (.inl ((at_dang w hu2 hr2).1 hs))
  have hnodes : ∀ n < h.nn, (h'.node n).tensor = (h.node n).tensor ∧
      (h'.node n).edges = (h.node n).edges.map (glue e1 e2 h.ne) := by
    intro n hn
    refine ⟨by rw [hh']; exact (hset n 0).1, ?_⟩
    apply List.ext_getElem?
    intro k
    rw [List.getElem?_map]
    have h1 := (hset n k).2.2
    have h1' : (h'.node n).edges[k]? = (g' n).edges[k]? := by rw [hh']
    rw [h1', h1]
    by_cases h2 : (n, k) = (n2, a2)
    · obtain ⟨rfl, rfl⟩ := Prod.mk.inj h2
      rw [if_pos rfl]
      have := hs2.2
      simp only at this
      rw [this]; simp [glue]
    · rw [if_neg h2]
      by_cases h3 : (n, k) = (n1, a1)
      · obtain ⟨rfl, rfl⟩ := Prod.mk.inj h3
        rw [if_pos rfl]
        have := hs1.2
        simp only at this
        rw [this]; simp [glue]
      · rw [if_neg h3]
        rcases h4 : (h.node n).edges[k]? with _ | e
        · rfl
        · have hs : At h (n, k) e := ⟨hn, h4⟩
          have h5 : e ≠ e1 := by
            rintro rfl; exact h3 ((at_dang w hu1 hr1).1 hs)
          have h6 : e ≠ e2 := by
            rintro rfl; exact h2 ((at_dang w hu2 hr2).1 hs)
          simp [glue, h5, h6]
  refine ⟨h', hrun, ⟨w', by rw [hh'], hnodes, ⟨n1, a1, n2, a2, hs1, hs2, hedgen⟩,
    fun e hu _ _ => hedge e (hnu e hu), ?_⟩, by rw [hh'], hedge⟩
  intro ns hns hlt ha hb σ
  exact joined_value w w' hne hd1 hd2 (fun hu => hnu _ hu rfl) (by rw [hh']) hnodes hns hlt ha hb σ

/-- `connect` rejects connected edges, equal edges and different dimensions without changing
anything. -/
theorem connect_err {h : Heap R} (w : WF h) {e1 e2 : EId} (hu1 : InUse h e1)
    (hu2 : InUse h e2) (hbad : ¬ ((h.edge e1).dangling = true ∧ (h.edge e2).dangling = true ∧
      e1 ≠ e2 ∧ edim h e1 = edim h e2)) :
    connect e1 e2 h = (.error .valueError, h) := by
  unfold connect
  by_cases hd1 : (h.edge e1).dangling = true
  · by_cases hd2 : (h.edge e2).dangling = true
    · rw [M.bind_ok (a := ()) (h' := h) (forEach_skip (by
        intro e he
        rw [M.bind_ok isDangling_eq]
        have : (h.edge e).dangling = true := by
          simp only [List.mem_cons, List.not_mem_nil, or_false] at he
          rcases he with rfl | rfl
          exacts [hd1, hd2]
        rw [this]; rfl))]
      by_cases hne : e1 = e2
      · rw [if_pos hne]; rfl
      · rw [if_neg hne, M.bind_ok (dimension_eq w hu1), M.bind_ok (dimension_eq w hu2),
          if_pos (fun hd => hbad ⟨hd1, hd2, hne, hd⟩)]
        rfl
    · refine M.bind_error ?_
      rw [M.forEach_cons, M.bind_ok (a := ()) (h' := h), M.forEach_cons]
      · refine M.bind_error ?_
        rw [M.bind_ok isDangling_eq, if_pos hd2]; rfl
      · rw [M.bind_ok isDangling_eq, hd1]; rfl
  · refine M.bind_error ?_
    rw [M.forEach_cons]
    refine M.bind_error ?_
    rw [M.bind_ok isDangling_eq, if_pos hd1]; rfl

/-- What `disconnect` does: joining the two new edges again gives the old graph back. -/
theorem disconnect_ok [CommSemiring R] {h : Heap R} (w : WF h) {e : EId} (hu : InUse h e)
    (hd : (h.edge e).dangling = false) :
    ∃ h', disconnect e h = (.ok (h.ne, h.ne + 1), h') ∧ WF h' ∧ h'.ne = h.ne + 2 ∧
      (∀ f, f < h.ne → h'.edge f = h.edge f) ∧
      (h'.edge h.ne).dangling = true ∧ (h'.edge (h.ne + 1)).dangling = true ∧
      Joined h' h h.ne (h.ne + 1) e := by
  obtain ⟨n1, a1, n2, a2, hr⟩ : ∃ n a m b, h.edge e = .conn n a m b := by
    rcases w.good hu with ⟨n, a, hr⟩ | h1
    · rw [hr] at hd; simp at hd
    · exact h1
  have hs1 : At h (n1, a1) e := (at_conn w hu hr).2 (.inl rfl)
  have hs2 : At h (n2, a2) e := (at_conn w hu hr).2 (.inr rfl)
  have hsne : (n1, a1) ≠ (n2, a2) := by
    have := w.nodup hu
    rw [hr] at this
    simpa using this
  have hl1 := hs1.lt_len
  have hl2 := hs2.lt_len
  simp only at hl1 hl2
  have hset := set_node_getElem? h.node n1 n2 a1 a2 h.ne (h.ne + 1) hsne hl1 hl2
  simp only at hset
  obtain ⟨g, hg⟩ : ∃ g, g = Function.update h.node n1
    { h.node n1 with edges := (h.node n1).edges.set a1 h.ne } := ⟨_, rfl⟩
  obtain ⟨g', hg'⟩ : ∃ g', g' = Function.update g n2
    { g n2 with edges := (g n2).edges.set a2 (h.ne + 1) } := ⟨_, rfl⟩
  rw [← hg] at hset
  rw [← hg'] at hset
  obtain ⟨h', hh'⟩ : ∃ h' : Heap R, h' = ⟨g', Function.update
    (Function.update h.edge h.ne (.dang n1 a1)) (h.ne + 1) (.dang n2 a2), h.nn,
    h.ne + 1 + 1⟩ := ⟨_, rfl⟩
  have hrun : disconnect e h = (.ok (h.ne, h.ne + 1), h') := by
    unfold disconnect
    rw [M.bind_ok isDangling_eq, hd, if_neg (by simp), M.bind_ok (node1_conn hr),
      M.bind_ok (node2_conn hr), M.bind_ok (axis1_conn hr), M.bind_ok (axis2_conn hr)]
    simp only
    have hnew : newDangling n1 a1 h = (.ok h.ne, { h with
      edge := Function.update h.edge h.ne (.dang n1 a1)
      ne := h.ne + 1 }) := rfl
    rw [M.bind_ok hnew]
    have hnew2 : newDangling n2 a2 { h with
        edge := Function.update h.edge h.ne (.dang n1 a1)
        ne := h.ne + 1 } = (.ok (h.ne + 1), { h with
        edge := Function.update (Function.update h.edge h.ne (.dang n1 a1)) (h.ne + 1)
          (.dang n2 a2)
        ne := h.ne + 1 + 1 }) := rfl
    rw [M.bind_ok hnew2, M.bind_ok (addEdge_ok (h := { h with
        edge := Function.update (Function.update h.edge h.ne (.dang n1 a1)) (h.ne + 1)
          (.dang n2 a2)
        ne := h.ne + 1 + 1 }) (by simp only; rw [← w.len n1 hs1.1]; exact hl1) hl1 (.inl rfl))]
    rw [M.bind_ok (addEdge_ok (ov := true) ?_ ?_ (.inl rfl))]
    · rw [hh', hg', hg]; rfl
    · simp only [Heap.setNode_node]
      by_cases h1 : n2 = n1
      · subst h1
        rw [Function.update_self, ← w.len n2 hs1.1]; exact hl2
      · rw [Function.update_of_ne h1, ← w.len n2 hs2.1]; exact hl2
    · simp only [Heap.setNode_node]
      by_cases h1 : n2 = n1
      · subst h1
        rw [Function.update_self, List.length_set]; exact hl2
      · rw [Function.update_of_ne h1]; exact hl2
  have hat : ∀ s f, At h' s f ↔ if s = (n2, a2) then f = h.ne + 1 else
      if s = (n1, a1) then f = h.ne else At h s f := by
    intro s f
    obtain ⟨m, k⟩ := s
    simp only [At, hh', (hset m k).2.2]
    by_cases h2 : (m, k) = (n2, a2)
    · have : m < h.nn := by rw [Prod.mk.inj h2 |>.1]; exact hs2.1
      simp [h2, eq_comm, this]
    · by_cases h1 : (m, k) = (n1, a1)
      · have : m < h.nn := by rw [Prod.mk.inj h1 |>.1]; exact hs1.1
        simp [h1, hsne, eq_comm, this]
      · simp [h1, h2]
  have hlt : ∀ f, InUse h f → f < h.ne := fun f hf => w.lt hf
  have hedge : ∀ f, f < h.ne → h'.edge f = h.edge f := by
    intro f hf
    rw [hh']
    have h1 : f ≠ h.ne := by omega
    have h2 : f ≠ h.ne + 1 := by omega
    simp [Function.update_of_ne h1, Function.update_of_ne h2]
  have hedge1 : h'.edge h.ne = .dang n1 a1 := by
    rw [hh']
    simp only
    rw [Function.update_of_ne (by omega), Function.update_self]
  have hedge2 : h'.edge (h.ne + 1) = .dang n2 a2 := by rw [hh']; simp
  have w' : WF h' := by
    refine rewire_wf w (dead := fun f => f = e) (by rw [hh']) (by rw [hh']; simp; omega)
      (fun n hn => by rw [hh']; exact (hset n 0).1)
      (fun n hn => by rw [hh']; exact (hset n 0).2.1) ?_ ?_
    · intro s f hs hdd
      refine ⟨?_, hedge f (hlt f hs.inUse)⟩
      rw [hat, if_neg, if_neg]
      · exact hs
      · rintro rfl; exact hdd (hs.unique hs1)
      · rintro rfl; exact hdd (hs.unique hs2)
    · intro s f hs
      have hs0 := hs
      rw [hat] at hs
      split_ifs at hs with hc2 hc1
      · right
        subst hs hc2
        refine ⟨by rw [hh']; simp, by rw [hedge2]; exact good_dang _ _, by rw [hedge2]; simp,
          by rw [hedge2]; simp, ?_, ?_⟩
        · intro s' hs'
          rw [hedge2] at hs'
          simp only [ends_dang, Multiset.mem_singleton] at hs'
          rw [hs']; exact hs0
        · intro s' hs'
          rw [hedge2] at hs'
          simp only [ends_dang, Multiset.mem_singleton] at hs'
          rw [hs']
      · right
        subst hs hc1
        refine ⟨by rw [hh']; simp, by rw [hedge1]; exact good_dang _ _,
          by rw [hedge1]; simp, by rw [hedge1]; simp, ?_, ?_⟩
        · intro s' hs'
          rw [hedge1] at hs'
          simp only [ends_dang, Multiset.mem_singleton] at hs'
          rw [hs']; exact hs0
        · intro s' hs'
          rw [hedge1] at hs'
          simp only [ends_dang, Multiset.mem_singleton] at hs'
          rw [hs']
      · left
        refine ⟨hs, ?_⟩
        rintro rfl
        rcases (at_conn w hu hr).1 hs with h1 | h1
        exacts [hc1 h1, hc2 h1]
  have hnn : h'.nn = h.nn := by rw [hh']
  have hnodes : ∀ n < h'.nn, (h.node n).tensor = (h'.node n).tensor ∧
      (h.node n).edges = (h'.node n).edges.map (glue h.ne (h.ne + 1) e) := by
    intro n hn
    rw [hnn] at hn
    refine ⟨by rw [hh']; exact (hset n 0).1.symm, ?_⟩
    apply List.ext_getElem?
    intro k
    rw [List.getElem?_map]
    have h1 := (hset n k).2.2
    have h1' : (h'.node n).edges[k]? = (g' n).edges[k]? := by rw [hh']
    rw [h1', h1]
    by_cases h2 : (n, k) = (n2, a2)
    · obtain ⟨rfl, rfl⟩ := Prod.mk.inj h2
      rw [if_pos rfl]
      have := hs2.2
      simp only at this
      rw [this]; simp [glue]
    · rw [if_neg h2]
      by_cases h3 : (n, k) = (n1, a1)
      · obtain ⟨rfl, rfl⟩ := Prod.mk.inj h3
        rw [if_pos rfl]
        have := hs1.2
        simp only at this
        rw [this]; simp [glue]
      · rw [if_neg h3]
        rcases h4 : (h.node n).edges[k]? with _ | f
        · rfl
        · have hs : At h (n, k) f := ⟨hn, h4⟩
          have := hlt f hs.inUse
          have h5 : f ≠ h.ne := by omega
          have h6 : f ≠ h.ne + 1 := by omega
          simp [glue, h5, h6]
  have hat1 : At h' (n1, a1) h.ne := by rw [hat, if_neg hsne, if_pos rfl]
  have hat2 : At h' (n2, a2) (h.ne + 1) := by rw [hat, if_pos rfl]
  refine ⟨h', hrun, w', by rw [hh'], hedge, by rw [hedge1], by rw [hedge2],
    ⟨w, hnn.symm, hnodes, ⟨n1, a1, n2, a2, hat1, hat2, hr⟩, ?_, ?_⟩⟩
  · intro f hf h1 h2
    refine (hedge f ?_).symm
    obtain ⟨s, hs⟩ := hf
    have hs' := hs
    rw [hat] at hs
    split_ifs at hs with hc2 hc1
    · exact absurd hs h2
    · exact absurd hs h1
    · exact hlt f hs.inUse
  · intro ns hns hltn ha hb σ
    refine joined_value w' w (by omega) (by rw [hedge1]) (by rw [hedge2]) ?_ hnn.symm hnodes
      hns hltn ha hb σ
    rintro ⟨s, hs⟩
    have hs0 := hs
    rw [hat] at hs
    have := hlt e hu
    split_ifs at hs with hc2 hc1
    · omega
    · omega
    · rcases (at_conn w hu hr).1 hs with h1 | h1
      exacts [hc1 h1, hc2 h1]

/-- `disconnect` of a dangling edge raises and changes nothing. -/
theorem disconnect_err {h : Heap R} {e : EId} (hd : (h.edge e).dangling = true) :
    disconnect e h = (.error .valueError, h) := by
  unfold disconnect
  rw [M.bind_ok isDangling_eq, hd]; rfl

end TN.Graph
