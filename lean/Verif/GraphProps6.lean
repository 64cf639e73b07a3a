import Verif.GraphCopy
import Verif.GraphProps5

/-!
# Copies of a network

The property theorems of C14.
-/

namespace TN

set_option linter.unusedSectionVars false

variable {R L : Type} [CommSemiring R] [DecidableEq L]

theorem sumOver_inj {dim dim' : L → Nat} {S : List L} {ρ : L → L} {g : (L → Nat) → R}
    (hinj : ∀ a ∈ S, ∀ b ∈ S, ρ a = ρ b → a = b) (hg : DependsOn g S) :
    ∀ (C : List L), C ⊆ S → (∀ c ∈ C, dim' (ρ c) = dim c) → ∀ σ : L → Nat,
    sumOver dim' (C.map ρ) (fun τ => g (fun l => τ (ρ l))) σ =
      sumOver dim C g (fun l => σ (ρ l)) := by
  intro C
  induction C with
  | nil => intros; rfl
  | cons a C ih =>
    intro hC hd σ
    rw [List.map_cons]
    simp only [sumOver]
    rw [hd a (by simp)]
    refine Finset.sum_congr rfl fun i _ => ?_
    rw [ih (fun x hx => hC (by simp [hx])) (fun c hc => hd c (by simp [hc]))]
    refine sumOver_dependsOn hg _ _ fun l hl => ?_
    have hl := (List.mem_filter.1 hl).1
    by_cases hla : l = a
    · subst hla; simp
    · rw [Function.update_of_ne hla, Function.update_of_ne]
      intro hc
      exact hla (hinj l hl a (hC (by simp)) hc)

theorem count_map_inj {ρ : L → L} {l : L} {ls : List L}
    (hinj : ∀ a ∈ ls, ρ a = ρ l → a = l) : (ls.map ρ).count (ρ l) = ls.count l := by
  induction ls with
  | nil => rfl
  | cons a ls ih =>
    rw [List.map_cons, List.count_cons, List.count_cons, ih (fun x hx => hinj x (by simp [hx]))]
    congr 1
    by_cases h : a = l
    · simp [h]
    · have : ρ a ≠ ρ l := fun hc => h (hinj a (by simp) hc)
      simp [h, this]

/-- Relabelling the labels and mapping the entries. -/
theorem netVal_relabel {dim dim' : L → Nat} {net net' : List (NDArray R × List L)} {ρ : L → L}
    (φ : R →+* R)
    (hnet : net' = net.map fun p => (⟨p.1.shape, fun i => φ (p.1.get i)⟩, p.2.map ρ))
    (hinj : ∀ a ∈ flatL net, ∀ b ∈ flatL net, ρ a = ρ b → a = b)
    (hc : Consistent dim net) (hc' : Consistent dim' net') (σ : L → Nat) :
    netVal net' σ = φ (netVal net (fun l => σ (ρ l))) := by
  have hflat : flatL net' = (flatL net).map ρ := by
    rw [hnet]; simp [flatL, List.flatMap_map, List.map_flatMap]
  have hprod : ∀ τ, prodVal net' τ = φ (prodVal net (fun l => τ (ρ l))) := by
    intro τ
    rw [hnet]
    simp only [prodVal, List.map_map, map_list_prod]
    congr 1
    refine List.map_congr_left fun p _ => ?_
    simp [val, List.map_map, Function.comp_def]
  have hdim : ∀ l ∈ flatL net, dim' (ρ l) = dim l := by
    intro l hl
    obtain ⟨p, hp, hl⟩ := mem_flatL.1 hl
    have h1 := hc p hp
    have h2 := hc' (⟨p.1.shape, fun i => φ (p.1.get i)⟩, p.2.map ρ)
      (by rw [hnet]; exact List.mem_map_of_mem hp)
    simp only [Shaped] at h1 h2
    rw [h1, List.map_map] at h2
    exact ((List.map_inj_left.1 h2) l hl).symm
  have hclosed : (closedL net').Perm ((closedL net).map ρ) := by
    have hsub : closedL net ⊆ flatL net := fun l hl =>
      List.count_pos_iff.1 (by rw [mem_closedL] at hl; omega)
    have hnd : ((closedL net).map ρ).Nodup :=
      (closedL_nodup net).map_on fun a ha b hb => hinj a (hsub ha) b (hsub hb)
    rw [List.perm_ext_iff_of_nodup (closedL_nodup _) hnd]
    intro l
    rw [mem_closedL, hflat]
    constructor
    · intro h
      obtain ⟨x, hx, rfl⟩ := List.mem_map.1 (List.count_pos_iff.1 (by omega : 0 < ((flatL net).map ρ).count l))
      rw [count_map_inj (fun a ha => hinj a ha x hx)] at h
      exact List.mem_map_of_mem (mem_closedL.2 h)
    · intro h
      obtain ⟨x, hx, rfl⟩ := List.mem_map.1 h
      rw [count_map_inj (fun a ha => hinj a ha x (hsub hx))]
      exact mem_closedL.1 hx
  have hsub : closedL net ⊆ flatL net := fun l hl =>
    List.count_pos_iff.1 (by rw [mem_closedL] at hl; omega)
  rw [netVal_eq hc', netVal_eq hc, sumOver_perm hclosed]
  have hφ : ∀ (C : List L) (g : (L → Nat) → R) (τ : L → Nat),
      sumOver dim' C (fun τ => φ (g τ)) τ = φ (sumOver dim' C g τ) := by
    intro C g
    induction C with
    | nil => intro τ; rfl
    | cons a C ih =>
      intro τ
      simp only [sumOver, map_sum]
      exact Finset.sum_congr rfl fun i _ => ih _
  rw [show prodVal net' = fun τ => φ (prodVal net (fun l => τ (ρ l))) from funext hprod, hφ,
    sumOver_inj hinj (prodVal_dependsOn net) _ hsub (fun c hc => hdim c (hsub hc))]

end TN

namespace TN.Graph

open TN

set_option linter.unusedSectionVars false

variable {R : Type} {h h' : Heap R} {nodes : List NId} {c : NId → NId} {E : EId → EId}

/-- `h'` is `h` together with a copy of the nodes `nodes`: node `n` has the copy `c n`, edge `e`
has the copy `E e`, every entry `x` of a tensor has the copy `φ x`. -/
structure Copied (h h' : Heap R) (nodes : List NId) (c : NId → NId) (E : EId → EId)
    (φ : R → R) : Prop where
  ok : GraphOK h'
  more : h.nn ≤ h'.nn ∧ h.ne ≤ h'.ne
  old_node : ∀ n < h.nn, h'.node n = h.node n
  old_edge : ∀ e < h.ne, h'.edge e = h.edge e
  new_node : ∀ m, h.nn ≤ m ∧ m < h'.nn ↔ ∃ n ∈ nodes, c n = m
  inj_node : ∀ n ∈ nodes, ∀ m ∈ nodes, c n = c m → n = m
  new_edge : ∀ n ∈ nodes, ∀ e ∈ (h.node n).edges, h.ne ≤ E e ∧ E e < h'.ne
  inj_edge : ∀ n ∈ nodes, ∀ e ∈ (h.node n).edges, ∀ m ∈ nodes, ∀ e' ∈ (h.node m).edges,
    E e = E e' → e = e'
  shape : ∀ n ∈ nodes, h'.shape (c n) = h.shape n
  entry : ∀ n ∈ nodes, ∀ i, (h'.node (c n)).tensor.get i = φ ((h.node n).tensor.get i)
  edges : ∀ n ∈ nodes, (h'.node (c n)).edges = (h.node n).edges.map E
  /-- an edge between copied nodes is copied with its direction -/
  joined : ∀ n ∈ nodes, ∀ e ∈ (h.node n).edges, ∀ n1 a m b, h.edge e = .conn n1 a m b →
    n1 ∈ nodes → m ∈ nodes → h'.edge (E e) = .conn (c n1) a (c m) b
  /-- an edge to a node that is not copied becomes dangling -/
  cut : ∀ n ∈ nodes, ∀ e ∈ (h.node n).edges, ((h'.edge (E e)).dangling = true ↔
    (h.edge e).dangling = true ∨ ∃ n1 a m b, h.edge e = .conn n1 a m b ∧ (n1 ∉ nodes ∨ m ∉ nodes))

/-- The slots of the copy of an edge. -/
theorem imgRec_cases (w : WF h) (hlt : ∀ n ∈ nodes, n < h.nn) {n : NId} (hn : n ∈ nodes)
    {e : EId} (he : e ∈ (h.node n).edges) :
    (∃ n1 a, n1 ∈ nodes ∧ imgRec nodes c (h.edge e) = .dang (c n1) a ∧
      (∀ m ∈ nodes, ∀ b, At h (m, b) e ↔ (m, b) = (n1, a)) ∧
      ((h.edge e).dangling = true ∨
        ∃ n1 a m b, h.edge e = .conn n1 a m b ∧ (n1 ∉ nodes ∨ m ∉ nodes))) ∨
    (∃ n1 a m b, n1 ∈ nodes ∧ m ∈ nodes ∧ h.edge e = .conn n1 a m b ∧
      imgRec nodes c (h.edge e) = .conn (c n1) a (c m) b ∧
      (n1, a) ≠ (m, b) ∧
      (∀ s, At h s e ↔ s = (n1, a) ∨ s = (m, b))) := by
  have hu := inUse_of_mem (hlt n hn) he
  have hat := at_of_mem (hlt n hn) he
  rcases w.good hu with ⟨n1, a, hr⟩ | ⟨n1, a, m, b, hr⟩
  · left
    have h1 : n = n1 := congrArg Prod.fst ((at_dang w hu hr).1 hat)
    subst h1
    exact ⟨n, a, hn, by rw [hr]; rfl, fun _ _ _ => at_dang w hu hr, .inl (by rw [hr])⟩
  · by_cases hm : m ∈ nodes
    · by_cases hn1 : n1 ∈ nodes
      · right
        refine ⟨n1, a, m, b, hn1, hm, hr, by rw [hr]; simp [imgRec, hn1, hm], ?_,
          fun s => at_conn w hu hr⟩
        have := w.nodup hu
        rw [hr] at this
        intro hc
        simp only [Prod.mk.injEq] at hc
        obtain ⟨rfl, rfl⟩ := hc
        simp [EdgeRec.ends] at this
      · left
        refine ⟨m, b, hm, by rw [hr]; simp [imgRec, hn1, hm], ?_,
          .inr ⟨n1, a, m, b, hr, .inl hn1⟩⟩
        intro x hx y
        rw [at_conn w hu hr]
        constructor
        · rintro (h1 | h1)
          · have h2 : x = n1 := congrArg Prod.fst h1
            exact absurd (h2 ▸ hx) hn1
          · exact h1
        · exact .inr
    · left
      have hn1 : n1 ∈ nodes := by
        rcases (at_conn w hu hr).1 hat with h1 | h1
        · have h2 : n = n1 := congrArg Prod.fst h1
          exact h2 ▸ hn
        · have h2 : n = m := congrArg Prod.fst h1
          exact absurd (h2 ▸ hn) hm
      refine ⟨n1, a, hn1, by rw [hr]; simp [imgRec, hm], ?_,
        .inr ⟨n1, a, m, b, hr, .inr hm⟩⟩
      intro x hx y
      rw [at_conn w hu hr]
      constructor
      · rintro (h1 | h1)
        · exact h1
        · have h2 : x = m := congrArg Prod.fst h1
          exact absurd (h2 ▸ hx) hm
      · exact .inl

theorem CopyInv.result (w : WF h) (hlt : ∀ n ∈ nodes, n < h.nn) {f : NDArray R → NDArray R}
    (hf : ∀ t, (f t).shape = t.shape) {φ : R → R} (hφ : ∀ t i, (f t).get i = φ (t.get i))
    (hinj : ∀ n ∈ nodes, ∀ m ∈ nodes, c n = c m → n = m)
    (hcov : ∀ m, h.nn ≤ m ∧ m < h'.nn ↔ ∃ n ∈ nodes, c n = m) {D : EId → Prop}
    (hD : ∀ n ∈ nodes, ∀ e ∈ (h.node n).edges, D e)
    (inv : CopyInv h h' nodes nodes c f E D) : Copied h h' nodes c E φ := by
  have hedges : ∀ n ∈ nodes, (h'.node (c n)).edges = (h.node n).edges.map E := by
    intro n hn
    refine List.ext_getElem? fun a => ?_
    rw [List.getElem?_map]
    rcases he : (h.node n).edges[a]? with _ | e
    · simp only [Option.map_none, List.getElem?_eq_none_iff] at he ⊢
      rw [inv.len n hn]; exact he
    · exact inv.done n hn a e he (hD n hn e (List.mem_of_getElem? he))
  have hshape : ∀ n ∈ nodes, h'.shape (c n) = h.shape n := by
    intro n hn
    simp only [Heap.shape, inv.tensor n hn, hf]
  have hinjE : ∀ n ∈ nodes, ∀ e ∈ (h.node n).edges, ∀ m ∈ nodes, ∀ e' ∈ (h.node m).edges,
      E e = E e' → e = e' := by
    intro n hn e he m hm e' he' hEE
    have h1 := (inv.copied n hn e he (hD n hn e he)).2.2
    have h2 := (inv.copied m hm e' he' (hD m hm e' he')).2.2
    rw [hEE, h2] at h1
    rcases imgRec_cases (c := c) w hlt hn he with ⟨n1, a, q1, q2, q3, -⟩ |
      ⟨n1, a, m1, b, q1, q1', -, q2, -, q3⟩ <;>
    rcases imgRec_cases (c := c) w hlt hm he' with ⟨n2, a2, p1, p2, p3, -⟩ |
      ⟨n2, a2, m2, b2, p1, p1', -, p2, -, p3⟩ <;> rw [q2, p2] at h1 <;>
      simp only [EdgeRec.dang, EdgeRec.conn, EdgeRec.mk.injEq, Option.some.injEq, reduceCtorEq,
        false_and, and_false] at h1
    · obtain ⟨h3, rfl, -⟩ := h1
      obtain rfl := hinj _ p1 _ q1 h3
      exact ((q3 _ q1 _).2 rfl).unique ((p3 _ p1 _).2 rfl)
    · obtain ⟨h3, rfl, -⟩ := h1
      obtain rfl := hinj _ p1 _ q1 h3
      exact ((q3 _).2 (.inl rfl)).unique ((p3 _).2 (.inl rfl))
  have hdim : ∀ n ∈ nodes, ∀ a, dimAt h' (c n, a) = dimAt h (n, a) := by
    intro n hn a
    have := hshape n hn
    simp only [dimAt] at this ⊢
    rw [this]
  have hat : ∀ n ∈ nodes, ∀ a e, At h (n, a) e → At h' (c n, a) (E e) := by
    intro n hn a e he
    refine ⟨(inv.new n hn).2, ?_⟩
    simp only [hedges n hn, List.getElem?_map]
    rw [show (h.node n).edges[a]? = some e from he.2]
    rfl
  have hnn := inv.nn
  have hne := inv.ne
  have hwf : WF h' := by
    refine Surgery.wf (h := h) (φ := id) (dead := fun _ => False) ⟨?_, inv.ne, ?_, ?_, ?_⟩ w
    · intro m hm
      by_cases h1 : m < h.nn
      · rw [inv.old_node m h1]; exact w.len m h1
      · obtain ⟨n, hn, rfl⟩ := (hcov m).1 ⟨by omega, hm⟩
        rw [inv.len n hn, w.len n (hlt n hn)]
        have := hshape n hn
        simp only [Heap.shape] at this
        simp only [NDArray.ndim, this]
    · rintro ⟨m, a⟩ e he -
      have hm : m < h.nn := he.1
      have hu : InUse h e := he.inUse
      refine ⟨⟨?_, ?_⟩, ?_, ?_, ?_⟩
      · simp only [id]; omega
      · simp only [id, inv.old_node m hm]; exact he.2
      · simp only [id, dimAt, Heap.shape, inv.old_node m hm]
      · rw [inv.old_edge e (w.lt hu)]; exact w.good hu
      · rw [inv.old_edge e (w.lt hu), Multiset.map_id]
    · intro s s' e _ _ _ hs; exact hs
    · rintro ⟨m, a⟩ e he
      by_cases h1 : m < h.nn
      · left
        refine ⟨(m, a), ⟨h1, ?_⟩, fun h => h, rfl⟩
        have := he.2
        simp only [inv.old_node m h1] at this
        exact this
      · right
        obtain ⟨n, hn, rfl⟩ := (hcov m).1 ⟨by omega, he.1⟩
        have h2 := he.2
        simp only [hedges n hn, List.getElem?_map, Option.map_eq_some_iff] at h2
        obtain ⟨e0, h3, rfl⟩ := h2
        have he0 := List.mem_of_getElem? h3
        obtain ⟨-, p2, p3⟩ := inv.copied n hn e0 he0 (hD n hn e0 he0)
        have hat0 : At h (n, a) e0 := ⟨hlt n hn, h3⟩
        have hd0 := fun s (hs : At h s e0) => (w.edim_eq hs).symm.trans (w.edim_eq hat0)
        rcases imgRec_cases (c := c) w hlt hn he0 with ⟨n1, a1, q1, q2, q3, -⟩ |
          ⟨n1, a1, m1, b1, q1, q1', -, q2, q2', q3⟩
        · rw [q2] at p3
          have h4 := (q3 n hn a).1 hat0
          simp only [Prod.mk.injEq] at h4
          obtain ⟨rfl, rfl⟩ := h4
          refine ⟨p2, by rw [p3]; exact .inl ⟨_, _, rfl⟩, ?_, ?_, ?_, ?_⟩
          · rw [p3]; simp [EdgeRec.ends]
          · rw [p3]; simp [EdgeRec.ends]
          · intro s hs
            rw [p3] at hs
            simp only [ends_dang, Multiset.mem_singleton] at hs
            rw [hs]; exact he
          · intro s hs
            rw [p3] at hs
            simp only [ends_dang, Multiset.mem_singleton] at hs
            rw [hs]
        · rw [q2] at p3
          have hends : (h'.edge (E e0)).ends = (c n1, a1) ::ₘ {(c m1, b1)} := by
            rw [p3]; rfl
          have hx1 : At h (n1, a1) e0 := (q3 _).2 (.inl rfl)
          have hx2 : At h (m1, b1) e0 := (q3 _).2 (.inr rfl)
          refine ⟨p2, by rw [p3]; exact .inr ⟨_, _, _, _, rfl⟩, ?_, ?_, ?_, ?_⟩
          · rw [hends]
            simp only [Multiset.nodup_cons, Multiset.mem_singleton, Multiset.nodup_singleton,
              and_true]
            intro hc
            simp only [Prod.mk.injEq] at hc
            exact q2' (by rw [hinj _ q1 _ q1' hc.1, hc.2])
          · rw [hends]
            simp only [Multiset.mem_cons, Multiset.mem_singleton]
            rcases (q3 _).1 hat0 with h4 | h4 <;> simp only [Prod.mk.injEq] at h4 <;>
              obtain ⟨rfl, rfl⟩ := h4
            exacts [.inl rfl, .inr rfl]
          · intro s hs
            rw [hends] at hs
            simp only [Multiset.mem_cons, Multiset.mem_singleton] at hs
            rcases hs with rfl | rfl
            exacts [hat _ q1 _ _ hx1, hat _ q1' _ _ hx2]
          · intro s hs
            rw [hends] at hs
            simp only [Multiset.mem_cons, Multiset.mem_singleton] at hs
            rcases hs with rfl | rfl
            · rw [hdim _ q1, hdim _ hn]; exact hd0 _ hx1
            · rw [hdim _ q1', hdim _ hn]; exact hd0 _ hx2
  refine ⟨graphOK_iff.2 hwf, ⟨inv.nn, inv.ne⟩, inv.old_node, inv.old_edge, hcov, hinj, ?_, hinjE, hshape, ?_, hedges,
    ?_, ?_⟩
  · intro n hn e he
    have := inv.copied n hn e he (hD n hn e he)
    exact ⟨this.1, this.2.1⟩
  · intro n hn i
    rw [inv.tensor n hn, hφ]
  · intro n hn e he n1 a m b hr hn1 hm
    rw [(inv.copied n hn e he (hD n hn e he)).2.2, hr]
    simp [imgRec, hn1, hm]
  · intro n hn e he
    rw [(inv.copied n hn e he (hD n hn e he)).2.2]
    rcases imgRec_cases (c := c) w hlt hn he with ⟨n1, a1, q1, q2, q3, q4⟩ |
      ⟨n1, a1, m1, b1, q1, q1', q0, q2, q2', q3⟩
    · rw [q2]
      exact ⟨fun _ => q4, fun _ => rfl⟩
    · rw [q2, q0]
      constructor
      · intro hc; simp at hc
      · rintro (hc | ⟨x, y, z, u, hc, h4⟩)
        · simp at hc
        · simp only [EdgeRec.conn, EdgeRec.mk.injEq, Option.some.injEq] at hc
          obtain ⟨rfl, -, rfl, -⟩ := hc
          rcases h4 with h4 | h4
          exacts [absurd q1 h4, absurd q1' h4]

theorem dictGet_zip {d : List (NId × NId)} {nodes : List NId} {c : NId → NId}
    (hd : d = nodes.map fun n => (n, c n)) {n : NId} (hn : n ∈ nodes) (k : Heap R) :
    dictGet d n k = (.ok (c n), k) := by
  have key : ∀ l : List NId, n ∈ l → (l.map fun n => (n, c n)).lookup n = some (c n) := by
    intro l
    induction l with
    | nil => simp
    | cons a l ih =>
      intro h
      rw [List.map_cons, List.lookup_cons]
      by_cases ha : n = a
      · subst ha; simp
      · have : (n == a) = false := by simpa using ha
        rw [this]
        exact ih (by simpa [ha] using h)
  have : d.reverse.lookup n = some (c n) := by
    rw [hd, ← List.map_reverse]
    exact key _ (by simpa using hn)
  unfold dictGet
  rw [this]
  rfl

/-- `copy(nodes, conjugate)` (network_operations.py:32-83) on distinct nodes of a consistent
graph never fails.  Afterwards the graph is consistent, contains the old nodes and edges
unchanged, and contains one new node for every given node: with the same shape, with the same
entries (conjugated if asked), with new edges in the same order.  Edges between given nodes join
the copies at the same axes, edges to other nodes become dangling.  The returned dictionaries
contain exactly the given nodes and their edges; every node and every edge that is not a trace
edge is mapped to its copy. -/
theorem C14_copy_partial (g : GraphOK h) (cj : R → R) (conjugate : Bool) (hnd : nodes.Nodup)
    (hlt : ∀ n ∈ nodes, n < h.nn) {ie : List Nat → List Nat} (hie : ∀ l, (ie l).Perm l) :
    ∃ h' c E nd ed, copyNodes ie cj conjugate nodes h = (.ok (nd, ed), h') ∧
      Copied h h' nodes c E (if conjugate then cj else id) ∧
      nd = nodes.map (fun n => (n, c n)) ∧
      (ed.map Prod.fst).Nodup ∧ (∀ e, e ∈ ed.map Prod.fst ↔ ∃ n ∈ nodes, e ∈ (h.node n).edges) ∧
      ∀ e f, (e, f) ∈ ed → (¬ ∃ n a b, h.edge e = .conn n a n b) → f = E e := by
  have w := graphOK_iff.1 g
  obtain ⟨c, hc⟩ : ∃ c : NId → NId, c = fun n => h.nn + nodes.idxOf n := ⟨_, rfl⟩
  have hci : ∀ i (hi : i < nodes.length), c nodes[i] = h.nn + i := by
    intro i hi
    rw [hc]
    simp only [hnd.idxOf_getElem]
  have hinj : ∀ m ∈ nodes, ∀ m' ∈ nodes, c m = c m' → m = m' := by
    intro m hm m' hm' heq
    rw [hc] at heq
    simp only at heq
    have h1 : nodes.idxOf m = nodes.idxOf m' := by omega
    exact (List.idxOf_inj hm).1 h1
  obtain ⟨k, E, h1, h2, h3⟩ := mapCopy_ok (c := c) cj conjugate w hlt hinj hnd nodes [] h id
    (by simp) (by simp) hci
    ⟨le_refl _, le_refl _, fun _ _ => rfl, fun _ _ => rfl, by simp, by simp, by simp, by simp,
      by simp, by simp⟩
  obtain ⟨d, hd⟩ : ∃ d, d = nodes.zip (nodes.map c) := ⟨_, rfl⟩
  have hd' : d = nodes.map fun n => (n, c n) := by
    rw [hd, List.map_prod_left_eq_zip]
  have hfst : d.map Prod.fst = nodes := by rw [hd']; simp [Function.comp_def]
  have hes : allEdges k nodes = allEdges h nodes := by
    unfold allEdges
    congr 1
    simp only [List.flatMap]
    congr 1
    refine List.map_congr_left fun n hn => ?_
    rw [h3.old_node n (hlt n hn)]
  have hmem : ∀ e, e ∈ ie (allEdges h nodes) ↔ ∃ n ∈ nodes, e ∈ (h.node n).edges := by
    intro e
    rw [(hie _).mem_iff, allEdges, List.mem_dedup, List.mem_flatMap]
  have hndE : (ie (allEdges h nodes)).Nodup := (hie _).nodup_iff.2 (List.nodup_dedup _)
  obtain ⟨k', E', r, q1, q2, q3, q4, q5, q6⟩ := copyEdges_ok (c := c) (nodes := nodes) w
    (copyTensor_shape cj conjugate) hlt hinj (d := d)
    (fun n hn k => dictGet_zip hd' hn k) (by rw [hfst]; simp) (ie (allEdges h nodes)) k E _
    hndE (fun e he => (hmem e).1 he) (by
      intro e he
      obtain ⟨n, hn, hen⟩ := (hmem e).1 he
      exact ⟨fun ht => ⟨ht, List.mem_flatMap.2 ⟨n, hn, hen⟩⟩, fun ht => ht.1⟩) h3
  refine ⟨k', c, E', d, r, ?_, ?_, hd', by rw [q4]; exact hndE, by intro e; rw [q4]; exact hmem e,
    ?_⟩
  · unfold copyNodes
    rw [M.bind_ok h1, M.bind_ok (show M.get k = (.ok k, k) from rfl), hes, ← hd]
    exact M.bind_ok q1
  · refine q3.result w hlt (copyTensor_shape cj conjugate) ?_ hinj ?_
      (fun n hn e he => .inr ((hmem e).2 ⟨n, hn, he⟩))
    · intro t i
      cases conjugate <;> rfl
    · intro m
      rw [q2, h2]
      constructor
      · rintro ⟨h4, h5⟩
        refine ⟨nodes[m - h.nn]'(by omega), List.getElem_mem _, ?_⟩
        rw [hci]; omega
      · rintro ⟨n, hn, rfl⟩
        rw [hc]
        have := List.idxOf_lt_length_of_mem hn
        simp only
        omega
  · intro e f hef hnt
    exact q6 (e, f) hef hnt

/-- The network of the copies has the value of the network of the given nodes: the conjugate
value when the tensors were conjugated (`φ` is the conjugation).  The same for every part of the
network. -/
theorem C14_value {R : Type} [CommSemiring R] {h h' : Heap R} (φ : R →+* R) (g : GraphOK h)
    (x : Copied h h' nodes c E φ) (hlt : ∀ n ∈ nodes, n < h.nn) {ns : List NId}
    (hns : ∀ n ∈ ns, n ∈ nodes) (σ : EId → Nat) :
    netVal (netOf h' (ns.map c)) σ = φ (netVal (netOf h ns) (fun e => σ (E e))) := by
  have w := graphOK_iff.1 g
  have w' := graphOK_iff.1 x.ok
  have hin : ∀ e ∈ flatL (netOf h ns), ∃ n ∈ nodes, e ∈ (h.node n).edges := by
    intro e he
    obtain ⟨p, hp, hep⟩ := mem_flatL.1 he
    obtain ⟨n, hn, rfl⟩ := List.mem_map.1 hp
    exact ⟨n, hns n hn, hep⟩
  refine netVal_relabel (dim := edim h) (dim' := edim h') φ ?_ ?_ ?_ ?_ σ
  · simp only [netOf, List.map_map]
    refine List.map_congr_left fun n hn => ?_
    have h1 := x.shape n (hns n hn)
    have h2 := x.entry n (hns n hn)
    simp only [Heap.shape] at h1
    simp only [Function.comp]
    refine Prod.ext ?_ (x.edges n (hns n hn))
    simp only
    rcases h3 : (h'.node (c n)).tensor with ⟨s, f⟩
    rw [h3] at h1 h2
    simp only at h1 h2
    rw [h1, funext h2]
  · intro a ha b hb hab
    obtain ⟨n, hn, h1⟩ := hin a ha
    obtain ⟨m, hm, h2⟩ := hin b hb
    exact x.inj_edge n hn a h1 m hm b h2 hab
  · exact w.consistent (fun n hn => hlt n (hns n hn))
  · refine w'.consistent fun n hn => ?_
    obtain ⟨m, hm, rfl⟩ := List.mem_map.1 hn
    exact ((x.new_node (c m)).2 ⟨m, hns m hm, rfl⟩).2

/-- No chain of edges leads from a copy to an old node, so contractions and edits of the one never
see the other. -/
theorem C14_separate (g : GraphOK h) {φ : R → R} (x : Copied h h' nodes c E φ) {m n : NId}
    (hm : m < h.nn) (hn : n ∈ nodes) : ¬ Connected h' m (c n) := by
  have w := graphOK_iff.1 g
  have hadj : ∀ p q, p < h.nn → Adjacent h' p q → q < h.nn := by
    rintro p q hp ⟨-, hq, e, h1, h2⟩
    by_contra hc
    obtain ⟨n', hn', rfl⟩ := (x.new_node q).1 ⟨by omega, hq⟩
    rw [x.old_node p hp] at h1
    rw [x.edges n' hn'] at h2
    obtain ⟨e', h3, rfl⟩ := List.mem_map.1 h2
    have := w.lt (inUse_of_mem hp h1)
    have := (x.new_edge n' hn' e' h3).1
    omega
  intro hc
  have : c n < h.nn := by
    clear hn
    generalize c n = q at hc
    induction hc with
    | refl => exact hm
    | tail _ a ih => exact hadj _ _ ih a
  have := ((x.new_node (c n)).2 ⟨n, hn, rfl⟩).1
  omega

/-- Two nodes of the copied part are joined by a chain of edges inside this part exactly if
their copies are connected. -/
theorem C14_connected (g : GraphOK h) {φ : R → R} (x : Copied h h' nodes c E φ)
    (hlt : ∀ n ∈ nodes, n < h.nn) {m n : NId} (hm : m ∈ nodes) (hn : n ∈ nodes) :
    Connected h' (c m) (c n) ↔
      Relation.ReflTransGen (fun p q => q ∈ nodes ∧ Adjacent h p q) m n := by
  constructor
  · intro hc
    have key : ∀ q, Connected h' (c m) q → ∃ n ∈ nodes, c n = q ∧
        Relation.ReflTransGen (fun p q => q ∈ nodes ∧ Adjacent h p q) m n := by
      intro q hq
      induction hq with
      | refl => exact ⟨m, hm, rfl, .refl⟩
      | @tail p q _ a ih =>
        obtain ⟨n', hn', rfl, hch⟩ := ih
        obtain ⟨-, hq, e, h1, h2⟩ := a
        rw [x.edges n' hn'] at h1
        obtain ⟨e', h3, rfl⟩ := List.mem_map.1 h1
        have hge := (x.new_edge n' hn' e' h3).1
        have hq' : h.nn ≤ q := by
          by_contra hc
          rw [x.old_node q (by omega)] at h2
          have := (graphOK_iff.1 g).lt (inUse_of_mem (by omega) h2)
          omega
        obtain ⟨n2, hn2, rfl⟩ := (x.new_node q).1 ⟨hq', hq⟩
        rw [x.edges n2 hn2] at h2
        obtain ⟨e2, h4, h5⟩ := List.mem_map.1 h2
        obtain rfl := x.inj_edge n2 hn2 e2 h4 n' hn' e' h3 h5
        exact ⟨n2, hn2, rfl, hch.tail ⟨hn2, hlt n' hn', hlt n2 hn2, e2, h3, h4⟩⟩
    obtain ⟨n', hn', h1, h2⟩ := key _ hc
    rwa [x.inj_node n' hn' n hn h1] at h2
  · intro hc
    have hmem : ∀ q, Relation.ReflTransGen (fun p q => q ∈ nodes ∧ Adjacent h p q) m q →
        q ∈ nodes ∧ Connected h' (c m) (c q) := by
      intro q hq
      induction hq with
      | refl => exact ⟨hm, .refl⟩
      | @tail p q _ a ih =>
        obtain ⟨hq, -, -, e, h1, h2⟩ := a
        refine ⟨hq, ih.2.tail ⟨((x.new_node _).2 ⟨p, ih.1, rfl⟩).2,
          ((x.new_node _).2 ⟨q, hq, rfl⟩).2, E e, ?_, ?_⟩⟩
        · rw [x.edges p ih.1]; exact List.mem_map_of_mem h1
        · rw [x.edges q hq]; exact List.mem_map_of_mem h2
    exact (hmem n hc).2

/-! ### Concrete cases -/

/-- The copies of the nodes 2 and 1 of the triangle. -/
example := C14_copy_partial (h := triangle) (nodes := [2, 1]) triangle_ok (fun x => x + 1) true
  (by decide) (by decide) (ie := List.reverse) (fun l => l.reverse_perm)

example : ∃ h' c E, Copied triangle h' [2, 1] c E (RingHom.id Nat) ∧
    (∀ σ, netVal (netOf h' [c 2, c 1]) σ =
      netVal (netOf triangle [2, 1]) (fun e => σ (E e))) ∧ ¬ Connected h' 1 (c 1) := by
  obtain ⟨h', c, E, nd, ed, -, x, -⟩ := C14_copy_partial (h := triangle) (nodes := [2, 1])
    triangle_ok id false (by decide) (by decide) (ie := id) (fun l => .refl l)
  have x' : Copied triangle h' [2, 1] c E (RingHom.id Nat) := by
    rw [if_neg (by simp)] at x
    exact x
  have hlt : ∀ n ∈ [2, 1], n < triangle.nn := by decide
  refine ⟨h', c, E, x', fun σ => ?_, C14_separate (m := 1) (n := 1) triangle_ok x
    (hlt 1 (by simp)) (by simp)⟩
  have := C14_value (RingHom.id Nat) triangle_ok x' hlt (ns := [2, 1]) (fun _ h => h) σ
  simpa only [List.map_cons, List.map_nil, RingHom.id_apply] using this

theorem eq_mk_snd {α β : Type} {x : α × β} {a : α} (h : x.1 = a) : x = (a, x.2) := by
  subst h; rfl

/-- The edge dictionary of `copy` does not map a trace edge to its copy: node 2 of the triangle
has a trace edge at its axes 2 and 3; the entry of this edge in the dictionary is an edge that no
node has. -/
theorem C14_edge_dict_trace_false :
    ∃ h' nd ed e f, copyNodes id id false [2] triangle = (.ok (nd, ed), h') ∧
      (triangle.node 2).edges[2]? = some e ∧ (e, f) ∈ ed ∧
      ∀ m < h'.nn, f ∉ (h'.node m).edges := by
  refine ⟨(copyNodes id id false [2] triangle).2, [(2, 3)],
    [(13, 24), (12, 25), (14, 26), (10, 27)], 14, 26, eq_mk_snd ?_, ?_, ?_, ?_⟩ <;>
    decide +kernel

/-- `CopyNode.copy` fails on a node with a trace edge whose second end is at the smaller axis,
although the node is fine. -/
theorem C14_copy_node_trace_false :
    ∃ (h : Heap Nat) (n : NId), GraphOK h ∧ n < h.nn ∧
      (nodeCopy true id false n h).1 = .error .valueError ∧
      (nodeCopy false id false n h).1 = .ok h.nn := by
  refine ⟨runOps [.node (ones [3, 3]), .connect 1 0] Heap.empty, 0,
    (C07_history_partial [.node (ones [3, 3]), .connect 1 0] graphOK_empty
      ⟨trivial, ⟨⟨0, by decide, by decide⟩, ⟨0, by decide, by decide⟩⟩, trivial⟩).1,
    by decide, by decide +kernel, by decide +kernel⟩

end TN.Graph
