import Verif.GraphFlatten2

/-!
# Splitting an edge: what the result means, and the change at one node
-/

namespace TN.Graph

open TN

variable {R : Type}

/-- `h'` is `h` after the edge `e` was split into the edges `news` of dimensions `shape`. -/
structure Split [CommSemiring R] (h h' : Heap R) (e : EId) (shape : List Nat)
    (news : List EId) : Prop where
  wf : WF h'
  nn : h'.nn = h.nn
  ne : h.ne ≤ h'.ne
  nodup : news.Nodup
  fresh : ∀ f ∈ news, ¬ InUse h f
  inUse : ∀ f ∈ news, InUse h' f
  dims : news.map (edim h') = shape
  /-- the other edges stay in order -/
  edges : ∀ n < h.nn, (h'.node n).edges.filter (fun f => f ∉ news) =
    (h.node n).edges.filter (fun f => f ≠ e)
  /-- the new edges are at the same nodes as the old one -/
  count : ∀ n < h.nn, ∀ f ∈ news, (h'.node n).edges.count f = (h.node n).edges.count e
  /-- the new edges are the last ones, in the given order; twice if the edge was a trace -/
  last : ∀ n < h.nn, (h'.node n).edges = (h.node n).edges.filter (fun f => f ≠ e) ++
    (List.replicate ((h.node n).edges.count e) news).flatten
  untouched : ∀ n < h.nn, e ∉ (h.node n).edges → h'.node n = h.node n
  dangling : ∀ f ∈ news, (h'.edge f).dangling = (h.edge e).dangling
  rest : ∀ f, InUse h f → f ≠ e → InUse h' f ∧ (h'.edge f).dangling = (h.edge f).dangling ∧
    edim h' f = edim h f
  disabled : (h'.edge e).disabled = true ∧ ¬ InUse h' e
  /-- the entries of the nodes: the position of the edge is the row-major position of the new
  edges -/
  entry : ∀ n < h.nn, ∀ σ : EId → Nat, (∀ f ∈ (h'.node n).edges, σ f < edim h' f) →
    val (h'.node n).tensor (h'.node n).edges σ =
      val (h.node n).tensor (h.node n).edges (Function.update σ e (ravel shape (news.map σ)))
  /-- a summed edge keeps the value -/
  value : (h.edge e).dangling = false → ∀ ns : List NId, ns.Nodup → (∀ n ∈ ns, n < h.nn) →
    (∀ n < h.nn, e ∈ (h.node n).edges → n ∈ ns) → ∀ σ, InRange h' ns σ →
    netVal (netOf h' ns) σ = netVal (netOf h ns) σ
  /-- an open edge is split in row-major order -/
  value_open : (h.edge e).dangling = true → ∀ ns : List NId, ns.Nodup →
    (∀ n ∈ ns, n < h.nn) → (∀ n < h.nn, e ∈ (h.node n).edges → n ∈ ns) →
    ∀ σ, InRange h' ns σ →
    netVal (netOf h' ns) σ =
      netVal (netOf h ns) (Function.update σ e (ravel shape (news.map σ)))

theorem split_of [CommSemiring R] {h hc h' : Heap R} (r : Rearr h hc)
    (wf' : WF h') (hnn : h'.nn = h.nn) (hnee : h.ne ≤ h'.ne) {e : EId} {news : List EId}
    {shape : List Nat} (hnd : news.Nodup)
    (heu : InUse h e) (hfresh : ∀ f ∈ news, ¬ InUse h f) (hnewu : ∀ f ∈ news, InUse h' f)
    (hdims : news.map (edim h') = shape) (hprod : shape.prod = edim h e)
    (hdis : (h'.edge e).disabled = true ∧ ¬ InUse h' e)
    (hrest : ∀ f, InUse hc f → f ≠ e → InUse h' f ∧
      (h'.edge f).dangling = (hc.edge f).dangling ∧ edim h' f = edim hc f)
    (hn : ∀ n < h.nn, Regroup (edim h') e news ((h'.node n).tensor, (h'.node n).edges)
      ((hc.node n).tensor, (hc.node n).edges))
    (hfil : ∀ n < h.nn, (hc.node n).edges.filter (fun f => f ≠ e) =
      (h.node n).edges.filter (fun f => f ≠ e))
    (hunt : ∀ n < h.nn, e ∉ (h.node n).edges → h'.node n = h.node n)
    (hdang : ∀ f ∈ news, (h'.edge f).dangling = (h.edge e).dangling)
    (hback : ∀ n < h.nn, ∃ F k, (hc.node n).edges = F ++ List.replicate k e ∧ e ∉ F) :
    Split h h' e shape news := by
  have heN : e ∉ news := fun hm => hfresh e hm heu
  have hdisj : ∀ n < h.nn, ∀ f ∈ news, f ∉ (hc.node n).edges := by
    intro n hlt f hf hm
    exact hfresh f hf ((r.inUse f).1 (inUse_of_mem (by rw [r.nn]; exact hlt) hm))
  have hexp : ∀ n < h.nn, (h'.node n).edges = expand e news (hc.node n).edges :=
    fun n hlt => (hn n hlt).1
  have hval : ∀ ns : List NId, ns.Nodup → (∀ n ∈ ns, n < h.nn) →
      (∀ n < h.nn, e ∈ (h.node n).edges → n ∈ ns) → ∀ σ, InRange h' ns σ → _ :=
    fun ns h1 h2 h3 σ h4 => regroup_value (hf := h') (hg := hc) wf' r.wf (by rw [r.nn, hnn]) hnd
      heN (fun f hf h5 => hfresh f hf ((r.inUse f).1 h5)) ((r.inUse e).2 heu)
      (by rw [r.dim e heu, ← hprod, ← hdims]; rfl)
      (fun f hu hne => (hrest f hu hne).2.2.symm) (fun n hlt => hn n (by rw [← hnn]; exact hlt)) h1
      (fun n hm => by rw [hnn]; exact h2 n hm)
      (by
        intro s hs
        have hlt : s.1 < h.nn := by rw [← r.nn]; exact hs.1
        exact h3 s.1 hlt ((r.perm s.1 hlt).mem_iff.1 hs.mem)) σ h4
  refine ⟨wf', hnn, hnee, hnd, hfresh, hnewu, hdims, ?_, ?_, ?_, hunt, hdang, ?_, hdis, ?_, ?_, ?_⟩
  · intro n hlt
    rw [← hfil n hlt, hexp n hlt]
    have : ∀ ls : List EId, (∀ f ∈ news, f ∉ ls) →
        (expand e news ls).filter (fun f => f ∉ news) = ls.filter (fun f => f ≠ e) := by
      intro ls
      induction ls with
      | nil => intro _; rfl
      | cons a ls ih =>
        intro hd
        have ih := ih fun f hf hm => hd f hf (by simp [hm])
        have haE : a ∉ news := fun hm => hd a hm (by simp)
        rw [expand, List.flatMap_cons, List.filter_append]
        change _ ++ (expand e news ls).filter _ = _
        rw [ih]
        by_cases hac : a = e
        · rw [if_pos hac, List.filter_cons_of_neg (by simp [hac])]
          have : news.filter (fun f => f ∉ news) = [] := by
            rw [List.filter_eq_nil_iff]; intro f hf; simp [hf]
          rw [this]; rfl
        · rw [if_neg hac, List.filter_cons_of_pos (by simp [haE]),
            List.filter_cons_of_pos (by simp [hac])]
          rfl
    exact this _ (hdisj n hlt)
  · intro n hlt f hf
    rw [← (r.perm n hlt).count_eq, hexp n hlt, count_expand hnd (hdisj n hlt), if_pos hf]
  · intro n hlt
    obtain ⟨F, k, hF, hnF⟩ := hback n hlt
    rw [← (r.perm n hlt).count_eq, ← hfil n hlt, hexp n hlt, hF, expand_append,
      expand_of_not_mem hnF, List.filter_append, List.count_append,
      List.count_eq_zero_of_not_mem hnF, List.count_replicate_self, Nat.zero_add,
      List.filter_eq_self.2 (by intro f hf; simpa using fun h1 : f = e => hnF (h1 ▸ hf)),
      List.filter_eq_nil_iff.2 (by
        intro f hf; simp [List.eq_of_mem_replicate hf]), List.append_nil]
    congr 1
    clear hF
    induction k with
    | zero => rfl
    | succ k ih =>
      rw [List.replicate_succ, List.replicate_succ, List.flatten_cons, ← ih]
      simp [expand]
  · intro f hu hne
    obtain ⟨h1, h2, h3⟩ := hrest f ((r.inUse f).2 hu) hne
    exact ⟨h1, by rw [h2, r.dangling f hu], by rw [h3, r.dim f hu]⟩
  · intro n hlt σ hσ
    rw [← (hn n hlt).2 σ hσ, r.entry n hlt]
    unfold gpos
    rw [hdims]
  · intro hd ns h1 h2 h3 σ h4
    rw [← (hval ns h1 h2 h3 σ h4).1 (by rw [r.dangling e heu, hd]), r.value ns h2]
  · intro hd ns h1 h2 h3 σ h4
    rw [← (hval ns h1 h2 h3 σ h4).2 (by rw [r.dangling e heu, hd]), r.value ns h2]
    unfold gpos
    rw [hdims]

/-! ### Loops that create edges -/

theorem mapEach_concat {α β : Type} (l : List α) (a : α) (f : α → M R β) {h h1 h2 : Heap R}
    {bs : List β} {b : β} (hl : M.mapEach l f h = (.ok bs, h1)) (ha : f a h1 = (.ok b, h2)) :
    M.mapEach (l ++ [a]) f h = (.ok (bs ++ [b]), h2) := by
  induction l generalizing h bs with
  | nil =>
    obtain ⟨e1, e2⟩ := Prod.mk.inj hl
    obtain rfl := Except.ok.inj e1
    subst e2
    rw [List.nil_append, M.mapEach_cons, M.bind_ok ha]
    rfl
  | cons c l ih =>
    rw [M.mapEach_cons, M.bind_apply] at hl
    rw [List.cons_append, M.mapEach_cons, M.bind_apply]
    rcases hc : f c h with ⟨_ | x, k⟩
    · rw [hc] at hl; simp at hl
    · rw [hc] at hl
      simp only at hl ⊢
      rw [M.bind_apply] at hl
      rcases hm : M.mapEach l f k with ⟨_ | y, k'⟩
      · rw [hm] at hl; simp at hl
      · rw [hm] at hl
        obtain ⟨e1, e2⟩ := Prod.mk.inj hl
        have e1 := Except.ok.inj e1
        have e2 : k' = h1 := e2
        subst e2
        rw [M.bind_ok (ih hm)]
        rw [← e1]
        rfl

/-- The loop of `split_edge` that appends dangling edges to a node. -/
theorem appendLoop {n : NId} {p k : Nat} {g : Heap R} {t : NDArray R} {L : List EId}
    (hg : g.node n = ⟨t, L⟩) :
    M.mapEach (List.range k) (fun idx => do
      let f ← newDangling n (p + idx)
      let es'' ← nodeEdges n
      setEdges n (es'' ++ [f])
      pure f) g = (.ok ((List.range k).map (g.ne + ·)),
        ⟨Function.update g.node n ⟨t, L ++ (List.range k).map (g.ne + ·)⟩,
        fun f => if g.ne ≤ f ∧ f < g.ne + k then .dang n (p + (f - g.ne)) else g.edge f,
        g.nn, g.ne + k⟩) := by
  induction k with
  | zero =>
    have e1 : Function.update g.node n ⟨t, L⟩ = g.node := by
      rw [← hg]; simp
    have e2 : (fun f => if g.ne ≤ f ∧ f < g.ne + 0 then EdgeRec.dang n (p + (f - g.ne))
        else g.edge f) = g.edge := by
      funext f
      rw [if_neg (by omega)]
    simp only [List.range_zero, List.map_nil, List.append_nil, e1]
    rw [e2]
    rfl
  | succ k ih =>
    rw [List.range_succ, List.map_append]
    refine mapEach_concat _ _ _ ih ?_
    have hnd : ∀ (a : Nat) (x : Heap R), newDangling n a x = (.ok x.ne, { x with
      edge := Function.update x.edge x.ne (.dang n a)
      ne := x.ne + 1 }) := fun _ _ => rfl
    rw [M.bind_ok (hnd _ _), M.bind_ok (nodeEdges_eq n)]
    simp only [Function.update_self]
    have hse : ∀ (x : Heap R) (l l' : List EId), x.node n = ⟨t, l'⟩ →
        setEdges n l x = (.ok (), x.setNode n ⟨t, l⟩) := by
      intro x l l' hk; simp only [setEdges, M.modify, hk]
    rw [M.bind_ok (hse _ _ _ (by simp only [Function.update_self]; rfl))]
    simp only [Heap.setNode, Function.update_idem, M.pure_apply, List.map_cons, List.map_nil,
      List.append_assoc]
    congr 2
    funext f
    rw [Function.update_apply]
    by_cases h1 : f = g.ne + k
    · rw [if_pos h1, if_pos (by omega), h1]
      congr 1
      omega
    · rw [if_neg h1]
      by_cases h2 : g.ne ≤ f ∧ f < g.ne + k
      · rw [if_pos h2, if_pos (by omega)]
      · rw [if_neg h2, if_neg (by omega)]

/-- The change that `split_edge` makes at one node. -/
theorem splitAt_run [CommSemiring R] {h x : Heap R} {n : NId} {e : EId} {shape : List Nat}
    {dim : EId → Nat} {t' : NDArray R}
    (h1 : (h.node n).edges.count e = 1)
    (hsh : Shaped dim (h.node n).tensor (h.node n).edges) (hprod : shape.prod = dim e)
    (ht : (h.node n).tensor.transpose
      (otherAxes (h.node n).edges.length ([e].map (h.node n).edges.idxOf) ++
        [e].map (h.node n).edges.idxOf) = .ok t')
    (hu : updAll (reorderMoves n (h.node n).edges
      (otherAxes (h.node n).edges.length ([e].map (h.node n).edges.idxOf) ++
        [e].map (h.node n).edges.idxOf)) h = (.ok (), x)) :
    ∃ t'', splitAt e shape n h = (.ok ((List.range shape.length).map (h.ne + ·)),
      ⟨Function.update h.node n ⟨t'', (h.node n).edges.filter (fun f => f ≠ e) ++
          (List.range shape.length).map (h.ne + ·)⟩,
        fun f => if h.ne ≤ f ∧ f < h.ne + shape.length then
          .dang n (((h.node n).edges.filter (fun f => f ≠ e)).length + (f - h.ne)) else x.edge f,
        h.nn, h.ne + shape.length⟩) ∧
      t''.shape = ((h.node n).edges.filter (fun f => f ≠ e)).map dim ++ shape ∧
      ∀ (E : List EId) (dimf : EId → Nat) (τ : EId → Nat), E.map dimf = shape →
        (∀ l ∈ (h.node n).edges, l ≠ e → dimf l = dim l) →
        (∀ l ∈ (h.node n).edges.filter (fun f => f ≠ e) ++ E, τ l < dimf l) →
        val t' ((h.node n).edges.filter (fun f => f ≠ e) ++ [e])
            (Function.update τ e (gpos dimf E τ)) =
          val t'' ((h.node n).edges.filter (fun f => f ≠ e) ++ E) τ := by
  have hfe : (h.node n).edges.filter (fun f => f ∉ [e]) =
      (h.node n).edges.filter (fun f => f ≠ e) := by
    refine List.filter_congr fun f _ => ?_
    simp
  obtain ⟨es, hes⟩ : ∃ es, es = (h.node n).edges := ⟨_, rfl⟩
  rw [← hes] at h1 hsh ht hu hfe ⊢
  obtain ⟨F, hF⟩ : ∃ F, F = es.filter (fun f => f ≠ e) := ⟨_, rfl⟩
  rw [← hF] at hfe ⊢
  obtain ⟨hp, hm⟩ := back_perm (E := [e]) (by simp) (es := es) (by simpa using h1)
  rw [hfe] at hm
  obtain ⟨s1, s2, s3, s4⟩ := transpose_val hsh hp
  rw [hm] at s3 s4
  obtain rfl : t' = s1 := by rw [ht] at s2; exact Except.ok.inj s2
  have hFsub : ∀ l ∈ F, l ∈ es ∧ l ≠ e := fun l hl => by
    rw [hF, List.mem_filter] at hl; simpa using hl
  have heF : e ∉ F := fun h2 => (hFsub e h2).2 rfl
  have key : ∀ (E : List EId) (dimf : EId → Nat), E.map dimf = shape →
      (∀ l ∈ es, l ≠ e → dimf l = dim l) →
      ∃ t'', t'.reshape (F.map dim ++ shape) = .ok t'' ∧ t''.shape = F.map dim ++ shape ∧
        ∀ τ : EId → Nat, (∀ l ∈ F ++ E, τ l < dimf l) →
          val t' (F ++ [e]) (Function.update τ e (gpos dimf E τ)) = val t'' (F ++ E) τ := by
    intro E dimf hE hd
    have hexp : expand e E (F ++ [e]) = F ++ E := by
      rw [expand_append, expand_of_not_mem heF, expand_single]
    obtain ⟨t'', r1, r2, r3⟩ := reshape_fine (t := t') (ls := F ++ [e]) (c := e) (E := E)
      (dim := dimf) (dim' := dim) s3 (by rw [← hprod, ← hE]; rfl)
      (by
        intro l hl hlc
        rcases List.mem_append.1 hl with hl | hl
        · exact (hd l (hFsub l hl).1 hlc).symm
        · exact absurd (List.mem_singleton.1 hl) hlc)
    have hmap : (F ++ E).map dimf = F.map dim ++ shape := by
      rw [List.map_append, hE]
      congr 1
      exact List.map_congr_left fun l hl => hd l (hFsub l hl).1 (hFsub l hl).2
    rw [hexp] at r1 r2 r3
    rw [Shaped, hmap] at r2
    rw [hmap] at r1
    exact ⟨t'', r1, r2, r3⟩
  -- some labels exist, so that the reshape succeeds
  obtain ⟨B, hB⟩ : ∃ B, ∀ l ∈ es, l < B := by
    refine ⟨es.sum + 1, fun l hl => ?_⟩
    have : ∀ l ∈ es, l ≤ es.sum := by
      clear hp hm ht hu hsh h1 hfe hF hFsub heF s2 s3 s4 key hes hl l
      induction es with
      | nil => simp
      | cons a es ih =>
        intro l hl
        rw [List.sum_cons]
        rcases List.mem_cons.1 hl with rfl | hl
        · omega
        · have := ih l hl; omega
    exact Nat.lt_succ_of_le (this l hl)
  obtain ⟨t'', r1, r2, _⟩ := key ((List.range shape.length).map (B + ·))
    (fun l => if l < B then dim l else shape.getD (l - B) 0)
    (by
      rw [List.map_map]
      apply List.ext_getElem (by simp)
      intro i i1 i2
      simp only [List.getElem_map, List.getElem_range, Function.comp]
      rw [if_neg (by omega), Nat.add_sub_cancel_left, List.getD_eq_getElem _ _ i2])
    (fun l hl _ => if_pos (hB l hl))
  refine ⟨t'', ?_, r2, ?_⟩
  · unfold splitAt
    rw [M.bind_ok (nodeEdges_eq n), ← hes, if_neg (by
      rw [not_not]; exact List.count_pos_iff.1 (by omega))]
    have hrun := reorderAxes_run (h := h) (n := n) (x := x) (by rw [← hes]; exact hp) ht (by
      rw [← hes]; exact hu)
    rw [← hes, hm] at hrun
    simp only [List.map_cons, List.map_nil] at hrun
    rw [M.bind_ok hrun, M.bind_ok (nodeTensor_eq n)]
    simp only [Function.update_self]
    have hFlen : (otherAxes es.length [es.idxOf e]).length = F.length := by
      have h2 := congrArg List.length hm
      simp only [List.length_map, List.length_append, List.map_cons, List.map_nil,
        List.length_cons, List.length_nil] at h2
      omega
    have hshape : t'.shape = F.map dim ++ [e].map dim := by rw [s3, List.map_append]
    rw [hFlen, hshape, List.take_left' (by simp)]
    rw [M.bind_ok (a := t'') (by rw [M.lift_apply, r1])]
    have hset : ∀ k : Heap R, k.node n = ⟨t', F ++ [e]⟩ → setTensor n t'' k =
        (.ok (), k.setNode n ⟨t'', F ++ [e]⟩) := by
      intro k hk; simp only [setTensor, M.modify, hk]
    rw [M.bind_ok (hset _ (by simp)), M.bind_ok (nodeEdges_eq n)]
    simp only [Heap.setNode, Function.update_idem, Function.update_self, List.take_left]
    have hse : ∀ (k : Heap R) (l : List EId), k.node n = ⟨t'', F ++ [e]⟩ →
        setEdges n l k = (.ok (), k.setNode n ⟨t'', l⟩) := by
      intro k l hk; simp only [setEdges, M.modify, hk]
    rw [M.bind_ok (hse _ _ (by simp))]
    simp only [Heap.setNode, Function.update_idem]
    rw [appendLoop (t := t'') (L := F) (by simp)]
    simp [Function.update_idem]
  · intro E dimf τ hE hd hτ
    obtain ⟨t3, q1, _, q3⟩ := key E dimf hE hd
    rw [r1] at q1
    obtain rfl := Except.ok.inj q1
    exact q3 τ hτ

/-- The last step of the three cases of `split_edge`. -/
theorem split_finish [CommSemiring R] {h hc h' : Heap R} (w : WF h) (r : Rearr h hc) {e : EId}
    {shape : List Nat} {news : List EId} {T : List NId} {F X : NId → List EId}
    (hnn : h'.nn = h.nn) (hne : h.ne ≤ h'.ne) (heu : InUse h e) (hprod : shape.prod = edim h e)
    (hTn : T ≠ []) (hT : ∀ n ∈ T, n < h.nn ∧ (hc.node n).edges = F n ++ X n)
    (hX : ∀ n ∈ T, X n ≠ [] ∧ ∀ f ∈ X n, f = e)
    (hF : ∀ n ∈ T, F n = (h.node n).edges.filter (fun f => f ≠ e))
    (hTe : ∀ n < h.nn, n ∉ T → e ∉ (h.node n).edges)
    (hother : ∀ n, n ∉ T → h'.node n = h.node n ∧ hc.node n = h.node n)
    (hnew : ∀ n ∈ T, (h'.node n).edges = F n ++ expand e news (X n))
    (hshape : ∀ n ∈ T, (h'.node n).tensor.shape =
      (F n).map (edim h) ++ (X n).flatMap (fun _ => shape))
    (hlen : news.length = shape.length)
    (hok : ∀ n ∈ T, ∀ i f, (expand e news (X n))[i]? = some f →
      EdgeOK h' (n, (F n).length + i) f)
    (hedge : ∀ f < h.ne, f ≠ e → h'.edge f = hc.edge f)
    (hdis : (h'.edge e).disabled = true) (hnd : news.Nodup) (hfr : ∀ f ∈ news, h.ne ≤ f)
    (hdang : ∀ f ∈ news, (h'.edge f).dangling = (h.edge e).dangling)
    (hval : ∀ n ∈ T, news.map (edim h') = shape →
      (∀ l ∈ (h.node n).edges, l ≠ e → edim h' l = edim h l) → ∀ τ : EId → Nat,
      (∀ l ∈ F n ++ expand e news (X n), τ l < edim h' l) →
      val (hc.node n).tensor (F n ++ X n) (Function.update τ e (gpos (edim h') news τ)) =
        val (h'.node n).tensor (F n ++ expand e news (X n)) τ) :
    Split h h' e shape news := by
  have hltu : ∀ f, InUse h f → f < h.ne := fun f hf => w.lt hf
  have hfresh : ∀ f ∈ news, ¬ InUse h f := fun f hf hu => by
    have := hltu f hu; have := hfr f hf; omega
  have hFm : ∀ n ∈ T, ∀ f ∈ F n, f ∈ (h.node n).edges ∧ f ≠ e := by
    intro n hn f hf
    rw [hF n hn, List.mem_filter] at hf; simpa using hf
  have hexp : ∀ ls : List EId, (∀ f ∈ ls, f = e) →
      expand e news ls = ls.flatMap (fun _ => news) := by
    intro ls hls
    unfold expand
    refine List.flatMap_congr fun f hf => ?_
    rw [if_pos (hls f hf)]
  have hmem : ∀ n ∈ T, ∀ f, f ∈ expand e news (X n) ↔ f ∈ news := by
    intro n hn f
    rw [hexp _ (hX n hn).2, List.mem_flatMap]
    obtain ⟨x, hx⟩ := List.exists_mem_of_ne_nil _ (hX n hn).1
    exact ⟨fun ⟨_, _, h1⟩ => h1, fun h1 => ⟨x, hx, h1⟩⟩
  obtain ⟨wq, qu, ql⟩ := tail_wf (hc := hc) (hm := h') r.wf (T := T) (dead := fun f => f = e)
    (F := F) (X := X) (Y := fun n => expand e news (X n))
    (Ds := fun n => (X n).flatMap (fun _ => shape)) (by rw [hnn, r.nn]) (by rw [r.ne]; exact hne)
    (fun n hn => (hT n hn).2) (fun n hn => (hX n hn).2) (fun n hn f hf => (hFm n hn f hf).2)
    (fun n hn => (hother n hn).1.trans (hother n hn).2.symm)
    (by
      intro n hn hnT f hf hfe
      rw [r.nn] at hn
      rw [(hother n hnT).2, hfe] at hf
      exact hTe n hn hnT hf)
    hnew
    (by
      intro n hn
      rw [hshape n hn]
      congr 1
      exact List.map_congr_left fun f hf => (r.dim f (inUse_of_mem (hT n hn).1
        (hFm n hn f hf).1)).symm)
    (by
      intro n hn
      rw [hexp _ (hX n hn).2]
      simp only [List.length_flatMap, hlen])
    (fun n hn _ i f hf => hok n hn i f hf)
    (fun f hf hd => hedge f (hltu f ((r.inUse f).1 hf)) hd)
  have hold : ∀ f, InUse h f → f ≠ e → edim h' f = edim h f := by
    intro f hu hfe
    rw [(ql f ((r.inUse f).2 hu) hfe).2, r.dim f hu]
  have hdims : news.map (edim h') = shape := by
    obtain ⟨n, hn⟩ := List.exists_mem_of_ne_nil _ hTn
    have h1 := wq.shaped (n := n) (by rw [hnn]; exact (hT n hn).1)
    rw [Shaped, hshape n hn, hnew n hn, List.map_append] at h1
    have h2 : (F n).map (edim h') = (F n).map (edim h) := List.map_congr_left fun f hf =>
      hold f (inUse_of_mem (hT n hn).1 (hFm n hn f hf).1) (hFm n hn f hf).2
    rw [h2] at h1
    have h3 := List.append_cancel_left h1
    rw [hexp _ (hX n hn).2] at h3
    obtain ⟨x, l, hxl⟩ : ∃ x l, X n = x :: l := by
      rcases hx : X n with _ | ⟨x, l⟩
      · exact absurd hx (hX n hn).1
      · exact ⟨x, l, rfl⟩
    rw [hxl, List.flatMap_cons, List.flatMap_cons, List.map_append] at h3
    exact ((List.append_inj h3 (by simp [hlen])).1).symm
  have heN : e ∉ news := fun hm => hfresh e hm heu
  have heq : ¬ InUse h' e := by
    intro hu
    rcases qu e hu with h1 | ⟨n, hn, h1⟩
    · exact h1.2 rfl
    · rw [hmem n hn] at h1; exact heN h1
  refine split_of r wq hnn hne hnd heu hfresh ?_ hdims hprod ⟨hdis, heq⟩ ?_ ?_ ?_ ?_ hdang ?_
  · intro f hf
    obtain ⟨n, hn⟩ := List.exists_mem_of_ne_nil _ hTn
    refine inUse_of_mem (n := n) (by rw [hnn]; exact (hT n hn).1) ?_
    rw [hnew n hn, List.mem_append, hmem n hn]
    exact .inr hf
  · intro f hu hfe
    obtain ⟨h1, h2⟩ := ql f hu hfe
    exact ⟨h1, by rw [hedge f (hltu f ((r.inUse f).1 hu)) hfe], h2⟩
  · intro n hn
    by_cases hnT : n ∈ T
    · have h1 : expand e news (F n ++ X n) = F n ++ expand e news (X n) := by
        rw [expand_append, expand_of_not_mem]
        exact fun h2 => (hFm n hnT e h2).2 rfl
      refine ⟨?_, fun τ hτ => ?_⟩
      · simp only
        rw [hnew n hnT, (hT n hnT).2, h1]
      · simp only at hτ ⊢
        rw [hnew n hnT] at hτ ⊢
        rw [(hT n hnT).2]
        exact hval n hnT hdims (fun l hl hle => hold l (inUse_of_mem hn hl) hle) τ hτ
    · rw [(hother n hnT).1, (hother n hnT).2]
      exact Regroup.refl (hTe n hn hnT)
  · intro n hn
    by_cases hnT : n ∈ T
    · rw [(hT n hnT).2, ← hF n hnT, List.filter_append, List.filter_eq_self.2 (by
        intro f hf; simpa using (hFm n hnT f hf).2), List.filter_eq_nil_iff.2 (by
        intro f hf; simpa using (hX n hnT).2 f hf), List.append_nil]
    · rw [(hother n hnT).2]
  · intro n hn hno
    refine (hother n fun hnT => hno ?_).1
    obtain ⟨x, hx⟩ := List.exists_mem_of_ne_nil _ (hX n hnT).1
    rw [(hX n hnT).2 x hx] at hx
    rw [← (r.perm n hn).mem_iff, (hT n hnT).2]
    exact List.mem_append_right _ hx
  · intro n hn
    by_cases hnT : n ∈ T
    · refine ⟨F n, (X n).length, ?_, fun h1 => (hFm n hnT e h1).2 rfl⟩
      rw [(hT n hnT).2]
      congr 1
      exact List.eq_replicate_of_mem (hX n hnT).2
    · exact ⟨(h.node n).edges, 0, by simp [(hother n hnT).2], hTe n hn hnT⟩

theorem range_map_get {b k i : Nat} {f : EId} (h : ((List.range k).map (b + ·))[i]? = some f) :
    i < k ∧ f = b + i := by
  rw [List.getElem?_map] at h
  by_cases hi : i < k
  · rw [List.getElem?_range hi] at h
    exact ⟨hi, by simpa using h.symm⟩
  · rw [List.getElem?_eq_none (by simpa using hi)] at h
    simp at h

theorem range_map_mem {b k : Nat} {f : EId} : f ∈ (List.range k).map (b + ·) ↔
    b ≤ f ∧ f < b + k := by
  simp only [List.mem_map, List.mem_range]
  constructor
  · rintro ⟨i, hi, rfl⟩; omega
  · intro h; exact ⟨f - b, by omega, by omega⟩

theorem range_map_nodup (b k : Nat) : ((List.range k).map (b + ·)).Nodup :=
  (List.nodup_map_iff_inj_on List.nodup_range).2 fun x _ y _ hxy => by omega

/-- Splitting a dangling edge. -/
theorem splitDangling_run [CommSemiring R] {h : Heap R} (w : WF h) {m : NId} {e : EId} {a : Nat}
    (hm : m < h.nn) (heu : InUse h e) (hr : h.edge e = .dang m a) {shape : List Nat}
    (hprod : shape.prod = edim h e) :
    ∃ h', (do
        let news ← splitAt e shape m
        disable e
        pure news) h = (.ok ((List.range shape.length).map (h.ne + ·)), h') ∧
      Split h h' e shape ((List.range shape.length).map (h.ne + ·)) := by
  have c1 : (h.node m).edges.count e = 1 := by
    rw [w.count heu hm, hr]
    simp [Multiset.countP_eq_card_filter, Multiset.filter_singleton]
  have hlte : e < h.ne := w.lt heu
  obtain ⟨p1, q1⟩ := back_perm (E := [e]) (by simp) (es := (h.node m).edges) (by simpa using c1)
  obtain ⟨t1, ht1, x1, hx1, hx1n, hx1nn, hx1ne, hR1⟩ := reorder_core w hm p1 (x := h)
    (fun _ => rfl) rfl rfl rfl
  rw [q1] at hR1
  have hfe : (h.node m).edges.filter (fun f => f ∉ [e]) =
      (h.node m).edges.filter (fun f => f ≠ e) := by
    refine List.filter_congr fun f _ => ?_
    simp
  rw [hfe] at hR1 q1
  obtain ⟨F, hF⟩ : ∃ F, F = (h.node m).edges.filter (fun f => f ≠ e) := ⟨_, rfl⟩
  rw [← hF] at hR1 q1
  obtain ⟨hc, hhc⟩ : ∃ hc : Heap R, hc = ⟨Function.update h.node m ⟨t1, F ++ [e]⟩, x1.edge,
    h.nn, h.ne⟩ := ⟨_, rfl⟩
  have r1 : Reordered h hc m (F ++ [e]) := by
    apply hR1 <;> rw [hhc]
  obtain ⟨u1, hu1, hu1s, hu1v⟩ := splitAt_run c1 (w.shaped hm) hprod ht1 hx1
  rw [← hF] at hu1 hu1s hu1v
  obtain ⟨news, hnews⟩ : ∃ news, news = (List.range shape.length).map (h.ne + ·) := ⟨_, rfl⟩
  rw [← hnews] at hu1 ⊢
  obtain ⟨hb, hhb⟩ : ∃ hb : Heap R, hb = ⟨Function.update h.node m ⟨u1, F ++ news⟩,
    fun f => if h.ne ≤ f ∧ f < h.ne + shape.length then .dang m (F.length + (f - h.ne))
      else x1.edge f, h.nn, h.ne + shape.length⟩ := ⟨_, rfl⟩
  rw [← hhb] at hu1
  obtain ⟨h', hh'⟩ : ∃ h', h' = disableHeap hb [e] := ⟨_, rfl⟩
  refine ⟨h', ?_, ?_⟩
  · have hd : disable e hb = (.ok (), h') := by
      have := disableAll hb [e]
      rw [← hh'] at this
      rw [← this, M.forEach_cons]
      rfl
    rw [M.bind_ok hu1, M.bind_ok hd]
    rfl
  have hnd : ∀ n, h'.node n = if n = m then ⟨u1, F ++ news⟩ else h.node n := by
    intro n
    rw [hh', hhb]; simp only [disableHeap]
    rw [Function.update_apply]
  have hcn : ∀ n, hc.node n = if n = m then ⟨t1, F ++ [e]⟩ else h.node n := by
    intro n
    rw [hhc]; simp only
    rw [Function.update_apply]
  have hnn : h'.nn = h.nn := by rw [hh', hhb]; rfl
  have hne : h'.ne = h.ne + shape.length := by rw [hh', hhb]; rfl
  have hexp : expand e news [e] = news := expand_single
  have hnewe : ∀ f, h.ne ≤ f → f < h.ne + shape.length →
      h'.edge f = .dang m (F.length + (f - h.ne)) := by
    intro f h1 h2
    rw [hh', hhb]; simp only [disableHeap]
    rw [if_neg (by rw [List.mem_singleton]; omega), if_pos ⟨h1, h2⟩]
  refine split_finish w r1.rearr (T := [m]) (F := fun _ => F) (X := fun _ => [e]) hnn
    (by rw [hne]; omega) heu hprod (by simp) ?_ ?_ ?_ ?_ ?_ ?_ ?_ ?_ ?_ ?_ ?_ ?_ ?_ ?_ ?_
  · intro n hn
    obtain rfl := List.mem_singleton.1 hn
    exact ⟨hm, by rw [hcn, if_pos rfl]⟩
  · intro n _; simp
  · intro n hn
    obtain rfl := List.mem_singleton.1 hn
    exact hF
  · intro n hn hnT hme
    have := (at_dang w heu hr).1 (at_of_mem hn hme)
    rw [List.mem_singleton] at hnT
    exact hnT (Prod.mk.inj this).1
  · intro n hnT
    rw [List.mem_singleton] at hnT
    exact ⟨by rw [hnd, if_neg hnT], by rw [hcn, if_neg hnT]⟩
  · intro n hn
    obtain rfl := List.mem_singleton.1 hn
    rw [hnd, if_pos rfl, hexp]
  · intro n hn
    obtain rfl := List.mem_singleton.1 hn
    rw [hnd, if_pos rfl]
    simp only
    rw [hu1s]; simp
  · rw [hnews]; simp
  · intro n hn i f hf
    obtain rfl := List.mem_singleton.1 hn
    rw [hexp, hnews] at hf
    obtain ⟨h1, rfl⟩ := range_map_get hf
    refine edgeOK_dang ⟨by rw [hnn]; exact hm, ?_⟩ (by rw [hne]; omega) ?_
    · simp only
      rw [hnd, if_pos rfl]
      simp only
      rw [List.getElem?_append_right (by omega), Nat.add_sub_cancel_left, hnews]
      exact hf
    · rw [hnewe _ (by omega) (by omega), Nat.add_sub_cancel_left]
  · intro f h1 h2
    rw [hh', hhb, hhc]; simp only [disableHeap]
    rw [if_neg (by simpa using h2), if_neg (by omega)]
  · rw [hh']; simp only [disableHeap]; rw [if_pos (by simp)]
  · rw [hnews]; exact range_map_nodup _ _
  · intro f hf
    rw [hnews, range_map_mem] at hf
    exact hf.1
  · intro f hf
    rw [hnews, range_map_mem] at hf
    rw [hnewe f hf.1 hf.2, hr]
  · intro n hn hdims hold τ hτ
    obtain rfl := List.mem_singleton.1 hn
    rw [hexp] at hτ ⊢
    rw [hcn, if_pos rfl, hnd, if_pos rfl]
    exact hu1v news (edim h') τ hdims hold hτ

end TN.Graph
