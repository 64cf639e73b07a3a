import Verif.GraphSplitNode1

/-!
# Splitting a node: rejected bipartitions and the value of the network
-/

namespace TN.Graph

open TN

variable {R : Type}

/-! ### Rejected bipartitions -/

theorem axisFrom_cases {h : Heap R} (w : WF h) {n : NId} {e : EId} (hu : InUse h e) :
    let body : M R Nat := do
      let a ← node1 e
      if a = n then axis1 e
      else do
        let b ← node2 e
        if b = some n then do
          let x ← axis2 e
          match x with
          | some x => pure x
          | none => M.throw .typeError
        else M.throw .valueError
    body h = (.error .valueError, h) ∨ ∃ k, body h = (.ok k, h) ∧ At h (n, k) e := by
  intro body
  rcases w.good hu with ⟨m, a, hr⟩ | ⟨m, a, m', b, hr⟩
  · by_cases hm : m = n
    · subst hm
      right
      refine ⟨a, ?_, (at_dang w hu hr).2 rfl⟩
      change (node1 e >>= _) h = _
      rw [M.bind_ok (node1_dang hr), if_pos rfl, axis1_dang hr]
    · left
      change (node1 e >>= _) h = _
      rw [M.bind_ok (node1_dang hr), if_neg hm, M.bind_ok (node2_dang hr), if_neg (by simp)]
      rfl
  · have hat := fun s => at_conn w hu hr (s := s)
    by_cases hm : m = n
    · subst hm
      right
      refine ⟨a, ?_, (hat _).2 (.inl rfl)⟩
      change (node1 e >>= _) h = _
      rw [M.bind_ok (node1_conn hr), if_pos rfl, axis1_conn hr]
    · by_cases hm' : m' = n
      · subst hm'
        right
        refine ⟨b, ?_, (hat _).2 (.inr rfl)⟩
        change (node1 e >>= _) h = _
        rw [M.bind_ok (node1_conn hr), if_neg hm, M.bind_ok (node2_conn hr), if_pos rfl]
        refine (M.bind_ok (axis2_conn hr)).trans ?_
        rfl
      · left
        change (node1 e >>= _) h = _
        rw [M.bind_ok (node1_conn hr), if_neg hm, M.bind_ok (node2_conn hr),
          if_neg (by simpa using hm')]
        rfl

theorem mapEach_cases {α β : Type} {l : List α} {f : α → M R β} {h : Heap R}
    {P : α → β → Prop} (hf : ∀ a ∈ l, (∃ er, f a h = (.error er, h)) ∨
      ∃ b, f a h = (.ok b, h) ∧ P a b) :
    (∃ er, M.mapEach l f h = (.error er, h)) ∨
      ∃ bs, M.mapEach l f h = (.ok bs, h) ∧ List.Forall₂ (fun a b => f a h = (.ok b, h) ∧ P a b) l bs := by
  induction l with
  | nil => exact .inr ⟨[], rfl, .nil⟩
  | cons a l ih =>
    rw [M.mapEach_cons]
    rcases hf a (by simp) with ⟨er, he⟩ | ⟨b, hb, hP⟩
    · exact .inl ⟨er, M.bind_error he⟩
    · rw [M.bind_ok hb]
      rcases ih fun a ha => hf a (by simp [ha]) with ⟨er, he⟩ | ⟨bs, hbs, hF⟩
      · exact .inl ⟨er, M.bind_error he⟩
      · right
        rw [M.bind_ok hbs]
        exact ⟨b :: bs, rfl, .cons ⟨hb, hP⟩ hF⟩

theorem nodup_of_forall₂ {α β : Type} {S : α → β → Prop}
    (hS : ∀ a b b', S a b → S a b' → b = b') {l : List α} {bs : List β}
    (hF : List.Forall₂ S l bs) (hb : bs.Nodup) : l.Nodup := by
  induction hF with
  | nil => exact List.nodup_nil
  | @cons a b l bs h1 hF ih =>
    rw [List.nodup_cons] at hb ⊢
    refine ⟨fun hm => hb.1 ?_, ih hb.2⟩
    have : ∀ {l : List α} {bs : List β}, List.Forall₂ S l bs → a ∈ l → b ∈ bs := by
      intro l bs hF
      induction hF with
      | nil => simp
      | cons h2 _ ih2 =>
        intro hm
        rcases List.mem_cons.1 hm with rfl | hm
        · rw [hS _ _ _ h1 h2]; simp
        · simp [ih2 hm]
    exact this hF hm

/-- `tensor_from_edge_order` fails without a trace, or the order is a permutation of the edges and
none of them is a trace edge. -/
theorem tensorFromEdgeOrder_cases {h : Heap R} (w : WF h) {n : NId} (hn : n < h.nn)
    {es : List EId} (hu : ∀ e ∈ es, InUse h e) :
    (∃ er, tensorFromEdgeOrder n es h = (.error er, h)) ∨
      (es.Perm (h.node n).edges ∧ (h.node n).edges.Nodup) := by
  unfold tensorFromEdgeOrder
  rcases mapEach_cases (P := fun e k => At h (n, k) e) (fun e he =>
      (axisFrom_cases w (n := n) (hu e he)).imp (fun h1 => ⟨_, h1⟩) id) with ⟨er, he⟩ | ⟨ks, hk, hF⟩
  · exact .inl ⟨er, M.bind_error he⟩
  · by_cases hperm : ks.Perm (List.range (h.node n).tensor.ndim)
    · right
      have hlen := w.len n hn
      have hes : es = ks.map fun k => (h.node n).edges.getD k 0 := by
        clear hk hperm hu
        induction hF with
        | nil => rfl
        | cons h1 _ ih =>
          rw [List.map_cons, ← ih, List.getD_eq_getElem?_getD, h1.2.2]
          rfl
      have hE : (h.node n).edges = (List.range (h.node n).tensor.ndim).map
          fun k => (h.node n).edges.getD k 0 := by
        apply List.ext_getElem (by simp [hlen])
        intro i h1 h2
        simp [h1]
      have hp : es.Perm (h.node n).edges := by
        rw [hE, hes]
        exact hperm.map _
      refine ⟨hp, hp.nodup_iff.1 ?_⟩
      exact nodup_of_forall₂ (fun a b b' h1 h2 =>
        Except.ok.inj (Prod.mk.inj (h1.1.symm.trans h2.1)).1) hF
        (hperm.nodup_iff.2 List.nodup_range)
    · left
      refine ⟨.valueError, (M.bind_ok hk).trans ?_⟩
      rw [M.bind_ok (nodeTensor_eq n), NDArray.transpose, if_neg hperm]
      rfl

theorem splitNode_err {decomp : NDArray R → Nat → Py (NDArray R × NDArray R)} {h : Heap R}
    (w : WF h) {n : NId} (hn : n < h.nn) {L Rr : List EId} (hu : ∀ e ∈ L ++ Rr, InUse h e)
    (hbad : ¬ ((L ++ Rr).Perm (h.node n).edges ∧ (h.node n).edges.Nodup)) :
    ∃ er, splitNodeWith decomp n L Rr h = (.error er, h) := by
  rcases tensorFromEdgeOrder_cases w hn hu with ⟨er, he⟩ | hok
  · exact ⟨er, M.bind_error he⟩
  · exact absurd hok hbad

/-! ### The value -/

/-- `u` and `v` are an exact factorisation of `t` after the first `k` axes. -/
def Factorises [CommSemiring R] (t : NDArray R) (k : Nat) (u v : NDArray R) : Prop :=
  ∃ d, u.shape = t.shape.take k ++ [d] ∧ v.shape = d :: t.shape.drop k ∧
    ∀ i j, InB (t.shape.take k) i → InB (t.shape.drop k) j →
      t.get (i ++ j) = ∑ x ∈ Finset.range d, u.get (i ++ [x]) * v.get (x :: j)

theorem NodeSplit.dim {h h' : Heap R} {n l r : NId} {L Rr : List EId} {u v : NDArray R} {c : EId}
    (s : NodeSplit h h' n L Rr u v l r c) (w : WF h) (hp : (L ++ Rr).Perm (h.node n).edges) {d : Nat}
    (hu : u.shape = L.map (edim h) ++ [d]) (hv : v.shape = d :: Rr.map (edim h)) :
    edim h' c = d ∧ ∀ e, InUse h e → edim h' e = edim h e := by
  obtain ⟨rfl, rfl⟩ := s.new
  have hnn := s.nn
  constructor
  · have : At h' (h.nn + 1, 0) c := ⟨by simp only; omega, by rw [s.right]; rfl⟩
    rw [s.wf.edim_eq this]
    simp [dimAt, Heap.shape, s.right, hv]
  · rintro e ⟨⟨m, k⟩, hs⟩
    by_cases hmn : m = n
    · subst hmn
      have hm := hp.mem_iff.2 hs.mem
      rw [List.mem_append] at hm
      rcases hm with hm | hm
      · obtain ⟨i, hi⟩ := List.getElem?_of_mem hm
        obtain ⟨hi1, hi2⟩ := List.getElem?_eq_some_iff.1 hi
        have : At h' (h.nn, i) e := ⟨by simp only; omega, by
          rw [s.left]
          simp only
          rw [List.getElem?_append_left hi1]; exact hi⟩
        rw [s.wf.edim_eq this]
        simp only [dimAt, Heap.shape, s.left, hu]
        rw [List.getD_eq_getElem?_getD, List.getElem?_append_left (by simpa using hi1)]
        simp [hi]
      · obtain ⟨i, hi⟩ := List.getElem?_of_mem hm
        have : At h' (h.nn + 1, i + 1) e := ⟨by simp only; omega, by
          rw [s.right]
          simp only
          rw [List.getElem?_cons_succ]; exact hi⟩
        rw [s.wf.edim_eq this]
        simp only [dimAt, Heap.shape, s.right, hv]
        rw [List.getD_eq_getElem?_getD, List.getElem?_cons_succ]
        simp [hi]
    · have hlt := hs.1
      simp only at hlt
      have hsame := s.other m hlt hmn
      have : At h' (m, k) e := ⟨by simp only; omega, by
        have := hs.2
        simp only at this ⊢
        rw [hsame]; exact this⟩
      rw [s.wf.edim_eq this, w.edim_eq hs]
      simp only [dimAt, Heap.shape, hsame]

theorem NodeSplit.value [CommSemiring R] {h h' : Heap R} {n l r : NId} {L Rr : List EId}
    {u v t : NDArray R} {c : EId} (s : NodeSplit h h' n L Rr u v l r c) (w : WF h) (hn : n < h.nn)
    (hp : (L ++ Rr).Perm (h.node n).edges) (hf : Factorises t L.length u v)
    (hts : Shaped (edim h) t (L ++ Rr))
    (htv : ∀ σ, val t (L ++ Rr) σ = val (h.node n).tensor (h.node n).edges σ)
    {rest : List NId} (hr : ∀ m ∈ rest, m < h.nn ∧ m ≠ n) (σ : EId → Nat)
    (hσ : InRange h' (l :: r :: rest) σ) :
    netVal (netOf h' (l :: r :: rest)) σ = netVal (netOf h (n :: rest)) σ := by
  obtain ⟨d, hu', hv', hex⟩ := hf
  have htk : t.shape.take L.length = L.map (edim h) := by
    rw [hts, List.map_append, List.take_left' (by simp)]
  have htd : t.shape.drop L.length = Rr.map (edim h) := by
    rw [hts, List.map_append, List.drop_left' (by simp)]
  rw [htk] at hu' hex
  rw [htd] at hv' hex
  obtain ⟨dc, de⟩ := s.dim w hp hu' hv'
  have hc := s.bond.1
  obtain ⟨rfl, rfl⟩ := s.new
  have hrest : netOf h' rest = netOf h rest :=
    netOf_congr fun m hm => s.other m (hr m hm).1 (hr m hm).2
  have huse : ∀ e ∈ L ++ Rr, InUse h e := fun e he => inUse_of_mem hn (hp.mem_iff.1 he)
  have hcL : c ∉ L := fun hm => hc (huse c (by simp [hm]))
  have hcR : c ∉ Rr := fun hm => hc (huse c (by simp [hm]))
  have e1 : netOf h' (h.nn :: (h.nn + 1) :: rest) =
      [(u, L ++ [c]), (v, c :: Rr)] ++ netOf h rest := by
    rw [← hrest]
    simp [netOf, s.left, s.right]
  have e2 : netOf h (n :: rest) = [((h.node n).tensor, (h.node n).edges)] ++ netOf h rest := by
    simp [netOf]
  have hnn := s.nn
  have hcons' := s.wf.consistent (ns := h.nn :: (h.nn + 1) :: rest) (by
    intro m hm
    simp only [List.mem_cons] at hm
    rcases hm with rfl | rfl | hm
    · omega
    · omega
    · have := (hr m hm).1; omega)
  have hcons := w.consistent (ns := n :: rest) (by
    intro m hm
    rcases List.mem_cons.1 hm with rfl | hm
    · exact hn
    · exact (hr m hm).1)
  rw [e1] at hcons' ⊢
  rw [e2] at hcons ⊢
  symm
  refine netVal_collapse (dim := edim h') (C := [c]) hcons' ?_ (by simp) ?_ ?_ ?_ σ ?_
  · intro p hpm
    have h1 := hcons p hpm
    have h2 : ∀ e ∈ p.2, InUse h e := by
      intro e he
      rw [← e2] at hpm
      obtain ⟨m, hm, rfl⟩ := List.mem_map.1 hpm
      refine inUse_of_mem ?_ he
      rcases List.mem_cons.1 hm with rfl | hm
      · exact hn
      · exact (hr m hm).1
    unfold Shaped at h1 ⊢
    rw [h1]
    exact List.map_congr_left fun e he => (de e (h2 e he)).symm
  · intro e he
    rw [List.mem_singleton] at he
    subst he
    constructor
    · simp [flatL, List.count_eq_zero.2 hcL, List.count_eq_zero.2 hcR]
    · intro hm
      refine hc (inUse_of_flat (fun m hm => (hr m hm).1) hm)
  · intro e
    simp only [flatL, List.flatMap_cons, List.flatMap_nil, List.append_nil, List.mem_singleton]
    rw [← hp.count_eq]
    by_cases he : e = c
    · subst he
      rw [if_pos rfl]
      simp [List.count_eq_zero.2 hcL, List.count_eq_zero.2 hcR]
    · rw [if_neg he]
      have he' : c ≠ e := fun hh => he hh.symm
      simp [List.count_append, he']
  · intro τ hτ
    simp only [flatL, List.flatMap_cons, List.flatMap_nil, List.append_nil] at hτ
    have hb : ∀ e ∈ L ++ Rr, τ e < edim h e := by
      intro e he
      rw [← de e (huse e he)]
      exact hτ e (hp.mem_iff.1 he)
    have hP : prodVal [((h.node n).tensor, (h.node n).edges)] τ = t.get (L.map τ ++ Rr.map τ) := by
      simp only [prodVal, List.map_cons, List.map_nil, List.prod_cons, List.prod_nil, mul_one]
      rw [← htv τ, val, List.map_append]
    rw [hP, hex]
    · simp only [sumOver, dc]
      refine Finset.sum_congr rfl fun x _ => ?_
      simp only [prodVal, List.map_cons, List.map_nil, List.prod_cons, List.prod_nil, mul_one, val,
        List.map_append, Function.update_self]
      have hl : ∀ ls : List EId, c ∉ ls → ls.map (Function.update τ c x) = ls.map τ := by
        intro ls hls
        refine List.map_congr_left fun e he => ?_
        rw [Function.update_of_ne]
        rintro rfl
        exact hls he
      rw [hl L hcL, hl Rr hcR]
    · unfold InB
      rw [List.forall₂_map_left_iff, List.forall₂_map_right_iff, List.forall₂_same]
      exact fun e he => hb e (by simp [he])
    · unfold InB
      rw [List.forall₂_map_left_iff, List.forall₂_map_right_iff, List.forall₂_same]
      exact fun e he => hb e (by simp [he])
  · intro e he hcount
    rw [← e1] at he hcount
    exact hσ e he hcount

theorem splitNode_ok [CommSemiring R] {decomp : NDArray R → Nat → Py (NDArray R × NDArray R)}
    {h : Heap R} (w : WF h) {n : NId} (hn : n < h.nn) {L Rr : List EId}
    (hp : (L ++ Rr).Perm (h.node n).edges) (hnd : (h.node n).edges.Nodup)
    (hdec : ∀ t : NDArray R, t.shape = (L ++ Rr).map (edim h) →
      (∀ σ, val t (L ++ Rr) σ = val (h.node n).tensor (h.node n).edges σ) → ∃ u v,
      decomp t L.length = .ok (u, v) ∧ ∃ d, u.shape = L.map (edim h) ++ [d] ∧
        v.shape = d :: Rr.map (edim h)) :
    ∃ h' t u v c, splitNodeWith decomp n L Rr h = (.ok (h.nn, h.nn + 1), h') ∧
      NodeSplit h h' n L Rr u v h.nn (h.nn + 1) c ∧ decomp t L.length = .ok (u, v) ∧
      Shaped (edim h) t (L ++ Rr) ∧
      (∀ σ, val t (L ++ Rr) σ = val (h.node n).tensor (h.node n).edges σ) := by
  have hlen := w.len n hn
  have hsh := w.shaped hn
  have hax : ((L ++ Rr).map (h.node n).edges.idxOf).Perm
      (List.range (h.node n).edges.length) := by
    refine (hp.map _).trans ?_
    have : (h.node n).edges.map (h.node n).edges.idxOf = List.range (h.node n).edges.length := by
      apply List.ext_getElem (by simp)
      intro i h1 h2
      simp only [List.getElem_map, List.getElem_range]
      exact hnd.idxOf_getElem i _
    rw [this]
  obtain ⟨t, ht, hts, htv⟩ := transpose_val hsh hax
  have hlab : ((L ++ Rr).map (h.node n).edges.idxOf).map
      (fun p => (h.node n).edges.getD p default) = L ++ Rr := by
    rw [List.map_map]
    conv_rhs => rw [← List.map_id (L ++ Rr)]
    refine List.map_congr_left fun e he => ?_
    have hm := hp.mem_iff.1 he
    simp only [Function.comp, id]
    rw [List.getD_eq_getElem?_getD, List.getElem?_idxOf hm]
    rfl
  rw [hlab] at hts htv
  obtain ⟨u, v, hd, d, hu, hv⟩ := hdec t hts htv
  obtain ⟨h', c, k1, k2⟩ := splitNode_run (decomp := decomp) w hn hp hnd ht hd hu hv
  exact ⟨h', t, u, v, c, k1, k2, hd, hts, htv⟩

end TN.Graph
