import Verif.GraphCopyNode

/-!
# The loop of `contract_copy_node` over the partners' edges
-/

set_option linter.unusedSectionVars false

namespace TN.Graph

open TN Finset

variable {R : Type}

/-- All axes of the nodes `P`, with their edges. -/
def allSlots (h : Heap R) (P : List NId) : List (EId × Slot) :=
  P.flatMap fun n => (h.node n).edges.zipIdx.map fun p => (p.1, (n, p.2))

theorem srcOf_filter (h : Heap R) (P : List NId) (S : List EId) :
    srcOf h P S = (allSlots h P).filter fun x => x.1 ∉ S := by
  unfold srcOf allSlots
  rw [List.filter_flatMap]
  refine List.flatMap_congr fun n _ => ?_
  rw [List.filter_map]
  rfl

theorem mem_allSlots {h : Heap R} {P : List NId} (hP : ∀ n ∈ P, n < h.nn) {e : EId} {s : Slot} :
    (e, s) ∈ allSlots h P ↔ At h s e ∧ s.1 ∈ P := by
  have h1 : allSlots h P = srcOf h P [] := by
    rw [srcOf_filter]; simp
  rw [h1, mem_srcOf hP]; simp

theorem allSlots_pairwise {h : Heap R} {P : List NId} (hP : P.Nodup) :
    (allSlots h P).Pairwise fun x y => x.2.1 = y.2.1 → x.2.2 < y.2.2 := by
  unfold allSlots
  rw [List.pairwise_flatMap]
  constructor
  · intro n _
    rw [List.pairwise_map]
    have h1 : ((h.node n).edges.zipIdx.map Prod.snd).Pairwise (· < ·) := by
      rw [List.zipIdx_map_snd]; exact List.pairwise_lt_range'
    rw [List.pairwise_map] at h1
    exact h1.imp fun {a b} hab (_ : n = n) => hab
  · refine hP.imp ?_
    intro a b hab x hx y hy hxy
    exfalso
    obtain ⟨p, _, rfl⟩ := List.mem_map.1 hx
    obtain ⟨q, _, rfl⟩ := List.mem_map.1 hy
    exact hab hxy

/-- The axes moved so far. -/
def visited (tgt : Slot → Slot) (done : List (EId × Slot)) (s : Slot) : Option Slot :=
  if s ∈ done.map Prod.snd then some (tgt s) else none

theorem visited_snoc {tgt : Slot → Slot} {done : List (EId × Slot)} {e : EId} {s v : Slot}
    (hv : tgt s = v) : visited tgt (done ++ [(e, s)]) = Function.update (visited tgt done) s (some v) := by
  funext x
  by_cases hx : x = s
  · subst hx; simp [visited, hv]
  · rw [Function.update_of_ne hx]
    simp only [visited, List.map_append, List.map_cons, List.map_nil, List.mem_append,
      List.mem_singleton, hx, or_false]

/-- The heap `k` in the loop, after the axes `done` were moved to the node `new` of `h`. -/
structure LoopInv (h k : Heap R) (new : NId) (tgt : Slot → Slot) (done : List (EId × Slot)) :
    Prop where
  nn : k.nn = h.nn
  ne : k.ne = h.ne
  node : ∀ n, n ≠ new → k.node n = h.node n
  tensor : (k.node new).tensor = (h.node new).tensor
  edges : (k.node new).edges = done.map Prod.fst ++ (h.node new).edges.drop done.length
  used : ∀ e, InUse h e → k.edge e = movedRec (visited tgt done) (h.edge e)
  dead : ∀ e, ¬ InUse h e → k.edge e = h.edge e

theorem movedRec_none (r : EdgeRec) (hg : r.Good) {f : Slot → Option Slot}
    (h : ∀ s ∈ r.ends, f s = none) : movedRec f r = r := by
  rcases hg with ⟨n, a, rfl⟩ | ⟨n, a, m, b, rfl⟩
  · rw [movedRec_dang, h (n, a) (by simp)]; rfl
  · by_cases hc : n = m ∧ b < a
    · obtain ⟨rfl, hlt⟩ := hc
      rw [movedRec_crossed f hlt, h (n, a) (by simp), h (n, b) (by simp)]; rfl
    · rw [movedRec_conn f hc, h (n, a) (by simp), h (m, b) (by simp)]; rfl

theorem movedRec_congr (r : EdgeRec) (hg : r.Good) {f g : Slot → Option Slot}
    (h : ∀ s ∈ r.ends, f s = g s) : movedRec f r = movedRec g r := by
  rcases hg with ⟨n, a, rfl⟩ | ⟨n, a, m, b, rfl⟩
  · rw [movedRec_dang, movedRec_dang, h (n, a) (by simp)]
  · by_cases hc : n = m ∧ b < a
    · obtain ⟨rfl, hlt⟩ := hc
      rw [movedRec_crossed f hlt, movedRec_crossed g hlt, h (n, a) (by simp), h (n, b) (by simp)]
    · rw [movedRec_conn f hc, movedRec_conn g hc, h (n, a) (by simp), h (m, b) (by simp)]

/-- The loop over all axes of the partners. -/
theorem moveEdges_ok {h : Heap R} (w : WF h) {cn new : NId} {P : List NId} {S : List EId}
    (hP : P.Nodup) (hPlt : ∀ n ∈ P, n < h.nn) (hcnew : cn ≠ new) (hnewP : new ∉ P)
    (hS : ∀ e, InUse h e → (e ∈ S ↔ ∃ s, At h s e ∧ s.1 = cn))
    (hSd : ∀ e ∈ S, (h.edge e).dangling = false)
    (hnewd : ∀ e ∈ (h.node new).edges, ∃ k, h.edge e = .dang new k)
    (hnewlen : (h.node new).edges.length = (srcOf h P S).length)
    (hnewnd : (h.node new).tensor.ndim = (srcOf h P S).length)
    (hnewlt : new < h.nn) {tgt : Slot → Slot}
    (htgt : ∀ (j : Nat) (x : EId × Slot), (srcOf h P S)[j]? = some x → tgt x.2 = (new, j))
    (suf : List (EId × Slot)) : ∀ (pre : List (EId × Slot)) (k : Heap R),
    allSlots h P = pre ++ suf → LoopInv h k new tgt (pre.filter fun x => x.1 ∉ S) →
    ∃ k', moveEdges cn new (suf.map fun x => (x.2.1, x.1))
        (pre.filter fun x => x.1 ∉ S).length k = (.ok (srcOf h P S).length, k') ∧
      LoopInv h k' new tgt (srcOf h P S) := by
  induction suf with
  | nil =>
    intro pre k hpre hk
    rw [List.append_nil] at hpre
    rw [srcOf_filter, hpre]
    exact ⟨k, rfl, hk⟩
  | cons x suf ih =>
    intro pre k hpre hk
    obtain ⟨e, s⟩ := x
    have hmem : (e, s) ∈ allSlots h P := by rw [hpre]; simp
    obtain ⟨hat, hsP⟩ := (mem_allSlots hPlt).1 hmem
    have hu := hat.inUse
    have hg := w.good hu
    have hends := fun x => w.mem_ends hu (s := x)
    have hnew_ends : ∀ x ∈ (h.edge e).ends, x.1 ≠ new := by
      intro y hy hyn
      have hy' := (hends y).1 hy
      have h1 : e ∈ (h.node new).edges := by
        rw [← hyn]; exact List.mem_of_getElem? hy'.2
      obtain ⟨j, hj⟩ := hnewd e h1
      have := (at_dang w hu hj).1 hat
      exact hnewP (by rw [this] at hsP; exact hsP)
    have hsplit : allSlots h P = (pre ++ [(e, s)]) ++ suf := by rw [hpre]; simp
    rw [List.map_cons]
    unfold moveEdges
    by_cases heS : e ∈ S
    · -- an edge of the copy node
      have hpf : (pre ++ [(e, s)]).filter (fun x => x.1 ∉ S) = pre.filter fun x => x.1 ∉ S := by
        simp [heS]
      obtain ⟨k', g1, g2⟩ := ih (pre ++ [(e, s)]) k hsplit (by rw [hpf]; exact hk)
      rw [hpf] at g1
      refine ⟨k', ?_, g2⟩
      have hrec : k.edge e = h.edge e := by
        rw [hk.used e hu]
        refine movedRec_none _ hg ?_
        intro y hy
        unfold visited
        rw [if_neg]
        intro hm
        obtain ⟨⟨e', y'⟩, h1, h2⟩ := List.mem_map.1 hm
        simp only at h2
        subst h2
        obtain ⟨h3, h4⟩ := List.mem_filter.1 h1
        have h5 : (e', y') ∈ allSlots h P := by rw [hpre]; exact List.mem_append_left _ h3
        have h6 := ((mem_allSlots hPlt).1 h5).1
        have := h6.unique ((hends y').1 hy)
        subst this
        simp [heS] at h4
      rcases hg with ⟨n, a, hr⟩ | ⟨n, a, m, b, hr⟩
      · have := hSd e heS
        rw [hr] at this; simp at this
      · obtain ⟨y, hy, hycn⟩ := (hS e hu).1 heS
        have : n = cn ∨ m = cn := by
          rcases (at_conn w hu hr).1 hy with h1 | h1
          · left; rw [← hycn, h1]
          · right; rw [← hycn, h1]
        exact (M.bind_ok (moveOne_skip (hrec.trans hr) this)).trans g1
    · have hpf : (pre ++ [(e, s)]).filter (fun x => x.1 ∉ S) =
          (pre.filter fun x => x.1 ∉ S) ++ [(e, s)] := by
        simp [heS]
      obtain ⟨done, hdone⟩ : ∃ d, d = pre.filter fun x => x.1 ∉ S := ⟨_, rfl⟩
      rw [← hdone] at hpf hk ⊢
      have hsrc : srcOf h P S = done ++ (e, s) :: suf.filter fun x => x.1 ∉ S := by
        rw [srcOf_filter, hpre, List.filter_append, List.filter_cons, hdone]
        simp [heS]
      have htg : tgt s = (new, done.length) :=
        htgt done.length (e, s) (by rw [hsrc]; simp)
      have hpw := allSlots_pairwise (h := h) hP
      rw [hpre] at hpw
      have hmdone : ∀ y : Slot, y ∈ done.map Prod.snd ↔ ∃ e', (e', y) ∈ pre ∧ e' ∉ S := by
        intro y
        rw [hdone]
        constructor
        · intro hm
          obtain ⟨⟨e', y'⟩, h1, h2⟩ := List.mem_map.1 hm
          simp only at h2
          subst h2
          obtain ⟨h3, h4⟩ := List.mem_filter.1 h1
          exact ⟨e', h3, by simpa using h4⟩
        · rintro ⟨e', h1, h2⟩
          exact List.mem_map.2 ⟨(e', y), List.mem_filter.2 ⟨h1, by simpa using h2⟩, rfl⟩
      have hsnot : visited tgt done s = none := by
        unfold visited
        rw [if_neg]
        rw [hmdone]
        rintro ⟨e', h1, _⟩
        have := (List.pairwise_append.1 hpw).2.2 (e', s) h1 (e, s) (by simp) rfl
        exact lt_irrefl _ this
      have hord : ∀ y ∈ (h.edge e).ends, y.1 = s.1 → y ≠ s →
          ((visited tgt done y).isSome ↔ y.2 < s.2) := by
        intro y hy hys hne
        have hyat := (hends y).1 hy
        have hyall : (e, y) ∈ pre ++ (e, s) :: suf := by
          rw [← hpre]; exact (mem_allSlots hPlt).2 ⟨hyat, by rw [hys]; exact hsP⟩
        have hiff : (visited tgt done y).isSome ↔ y ∈ done.map Prod.snd := by
          unfold visited
          by_cases hm : y ∈ done.map Prod.snd <;> simp [hm]
        rw [hiff, hmdone]
        constructor
        · rintro ⟨e', h1, _⟩
          exact (List.pairwise_append.1 hpw).2.2 (e', y) h1 (e, s) (by simp) hys
        · intro hlt
          rcases List.mem_append.1 hyall with h1 | h1
          · exact ⟨e, h1, heS⟩
          · exfalso
            rcases List.mem_cons.1 h1 with h1 | h1
            · exact hne (Prod.mk.inj h1).2
            · have := (List.pairwise_cons.1 (List.pairwise_append.1 hpw).2.1).1 (e, y) h1 hys.symm
              simp only at this
              omega
      have hcn : ∀ y ∈ (h.edge e).ends, y.1 ≠ cn := by
        intro y hy hycn
        exact heS ((hS e hu).2 ⟨y, (hends y).1 hy, hycn⟩)
      have hlen : done.length < (h.node new).edges.length := by
        rw [hnewlen, hsrc]; simp
      have hedl : (k.node new).edges.length = (h.node new).edges.length := by
        rw [hk.edges]; simp; omega
      have hset : (k.node new).edges.set done.length e =
          (done ++ [(e, s)]).map Prod.fst ++ (h.node new).edges.drop (done ++ [(e, s)]).length := by
        rw [hk.edges, List.set_append, if_neg (by simp), List.drop_eq_getElem_cons hlen,
          List.length_map, Nat.sub_self, List.set_cons_zero]
        simp
      have hadd : ∀ k' : Heap R, k'.node = k.node →
          (∃ r, k'.edge = Function.update k.edge e r) →
          addEdge new e done.length false k' = (.ok (), k'.setNode new
            { k'.node new with edges := (k'.node new).edges.set done.length e }) := by
        intro k' hk'n hk'e
        refine addEdge_ok ?_ ?_ ?_
        · rw [hk'n, hk.tensor, hnewnd, hsrc]; simp
        · rw [hk'n, hedl]; exact hlen
        · right
          obtain ⟨g, hg1⟩ : ∃ g, g = (h.node new).edges[done.length] := ⟨_, rfl⟩
          have hgm : g ∈ (h.node new).edges := by rw [hg1]; exact List.getElem_mem _
          have hget : ∀ hx, (k'.node new).edges[done.length]'hx = g := by
            rw [hk'n, hk.edges]
            intro hx
            rw [List.getElem_append_right (by simp), List.getElem_drop, hg1]
            simp
          rw [hget]
          obtain ⟨j, hj⟩ := hnewd g hgm
          have hgu : InUse h g := inUse_of_mem hnewlt hgm
          have hge : g ≠ e := by
            rintro rfl
            have := (at_dang w hgu hj).1 hat
            exact hnewP (by rw [this] at hsP; exact hsP)
          have hkg : (k.edge g).dangling = true := by
            rw [hk.used g hgu, hj]; rfl
          obtain ⟨r, h1⟩ := hk'e
          rw [h1, Function.update_of_ne hge]; exact hkg
      have hone := moveOne_step (k := k) (cn := cn) (new := new) (s := s) (e := e)
        (a := done.length) (r := h.edge e) (f := visited tgt done) (hk.used e hu) hg
        ((hends s).2 hat) (w.nodup hu) hsnot (by
          intro y v hv
          unfold visited at hv
          by_cases hm : y ∈ done.map Prod.snd
          · rw [if_pos hm] at hv
            obtain ⟨⟨e', y'⟩, h1, h2⟩ := List.mem_map.1 hm
            simp only at h2
            subst h2
            obtain ⟨j, hj, hj'⟩ := List.mem_iff_getElem.1 h1
            have := htgt j (e', y') (by
              rw [hsrc, List.getElem?_append_left hj, List.getElem?_eq_getElem hj, hj'])
            rw [← Option.some.inj hv, this]
          · rw [if_neg hm] at hv; exact absurd hv (by simp))
        hnew_ends hcnew hcn hord hadd
      obtain ⟨k', g1, g2⟩ := ih (pre ++ [(e, s)]) ((k.setEdge e
        (movedRec (Function.update (visited tgt done) s (some (new, done.length)))
          (h.edge e))).setNode new { k.node new with
            edges := (k.node new).edges.set done.length e }) hsplit (by
        rw [hpf]
        refine ⟨hk.nn, hk.ne, ?_, ?_, ?_, ?_, ?_⟩
        · intro n hn
          rw [Heap.setNode_node, Function.update_of_ne hn]
          exact hk.node n hn
        · rw [Heap.setNode_node, Function.update_self]; exact hk.tensor
        · rw [Heap.setNode_node, Function.update_self]; exact hset
        · intro e' hu'
          rw [visited_snoc htg, Heap.setNode_edge, Heap.setEdge_edge]
          by_cases hee : e' = e
          · subst hee; rw [Function.update_self]
          · rw [Function.update_of_ne hee, hk.used e' hu']
            refine movedRec_congr _ (w.good hu') fun y hy => ?_
            rw [Function.update_of_ne]
            rintro rfl
            exact hee (((w.mem_ends hu').1 hy).unique hat)
        · intro e' hu'
          have hee : e' ≠ e := by rintro rfl; exact hu' hu
          rw [Heap.setNode_edge, Heap.setEdge_edge, Function.update_of_ne hee]
          exact hk.dead e' hu')
      rw [hpf, List.length_append, List.length_singleton] at g1
      exact ⟨k', (M.bind_ok hone).trans g1, g2⟩

end TN.Graph
