import Verif.GraphContract

/-!
# Trace edges

`_remove_trace_edge`, `_contract_trace` and `contract` on a consistent graph.
-/

namespace TN

variable {R : Type*} {L : Type*} [DecidableEq L]

/-- `np.trace` over the last two axes, both labelled `l`. -/
theorem trace_val [AddCommMonoid R] {dim : L → Nat} {t : NDArray R} {F : List L} {l : L}
    (h : Shaped dim t (F ++ [l, l])) (hl : l ∉ F) :
    ∃ t', t.trace = .ok t' ∧ Shaped dim t' F ∧
      ∀ σ : L → Nat, val t' F σ = sumOver dim [l] (val t (F ++ [l, l])) σ := by
  have hnd : t.ndim = F.length + 2 := by rw [h.ndim]; simp
  have hs : t.shape = F.map dim ++ [dim l, dim l] := by rw [h]; simp
  refine ⟨_, by rw [NDArray.trace, if_pos (by omega)], ?_, fun σ => ?_⟩
  · simp only [Shaped, hs, hnd]
    rw [show F.length + 2 - 2 = (F.map dim).length by simp, List.take_left]
  · have hd1 : t.shape.getD (t.ndim - 2) 0 = dim l := by
      rw [hs, hnd, List.getD_append_right _ _ _ _ (by simp)]; simp
    have hd2 : t.shape.getD (t.ndim - 1) 0 = dim l := by
      rw [hs, hnd, List.getD_append_right _ _ _ _ (by simp)]; simp
    simp only [val, hd1, hd2, Nat.min_self, sumOver]
    refine Finset.sum_congr rfl fun k _ => ?_
    congr 1
    rw [List.map_append]
    simp only [List.map_cons, List.map_nil, Function.update_self]
    congr 1
    refine List.map_congr_left fun x hx => ?_
    rw [Function.update_of_ne]
    rintro rfl
    exact hl hx

omit [DecidableEq L] in
theorem filter_range_getD [Inhabited L] (ls : List L) (P : L → Bool) (Q : Nat → Bool)
    (h : ∀ p < ls.length, Q p = P (ls.getD p default)) :
    ((List.range ls.length).filter Q).map (fun p => ls.getD p default) = ls.filter P := by
  have h1 : ls = (List.range ls.length).map (fun p => ls.getD p default) := by
    apply List.ext_getElem (by simp)
    intro i h1 h2
    simp [List.getElem?_eq_getElem h1]
  conv_rhs => rw [h1, List.filter_map]
  congr 1
  refine List.filter_congr fun p hp => ?_
  exact h p (List.mem_range.1 hp)

end TN

namespace TN.Graph

open TN

variable {R : Type}

/-- The body of the loop of `_remove_trace_edge` (network_components.py:1712-1724). -/
theorem traceBody {h : Heap R} {n new : NId} {f : EId} {reduce : Nat → Nat}
    (hnew : new ≠ n) (hg : (h.edge f).Good) :
    ∃ r', (do
        let m1 ← node1 f
        if m1 = n then
          M.modify fun h => h.setEdge f
            { h.edge f with axis1 := reduce (h.edge f).axis1, node1 := some new }
        else pure ()
        let m2 ← node2 f
        if m2 = some n then
          M.modify fun h => h.setEdge f
            { h.edge f with axis2 := ((h.edge f).axis2.map reduce), node2 := some new }
        else pure () : M R Unit) h = (.ok (), h.setEdge f r') ∧ r'.Good ∧
      r'.dangling = (h.edge f).dangling ∧
      r'.ends = (h.edge f).ends.map (fun s => if s.1 = n then (new, reduce s.2) else s) := by
  rcases hg with ⟨m, a, hr⟩ | ⟨m, a, m', b, hr⟩
  · by_cases h1 : m = n
    · subst h1
      refine ⟨.dang new (reduce a), ?_, good_dang _ _, by rw [hr], by rw [hr]; simp⟩
      rw [M.bind_ok (node1_dang hr), if_pos rfl, modify_bind]
      beta_reduce
      have hr' : (h.setEdge f { h.edge f with
          axis1 := reduce (h.edge f).axis1
          node1 := some new }).edge f = .dang new (reduce a) := by
        simp [hr]
      rw [M.bind_ok (node2_dang hr')]
      simp [hr]
    · refine ⟨.dang m a, ?_, good_dang _ _, by rw [hr], by rw [hr]; simp [h1]⟩
      rw [M.bind_ok (node1_dang hr), if_neg h1]
      beta_reduce
      rw [M.bind_ok (node2_dang hr)]
      simp [← hr, Heap.setEdge]
  · by_cases h1 : m = n
    · subst h1
      have hr' : (h.setEdge f { h.edge f with
          axis1 := reduce (h.edge f).axis1
          node1 := some new }).edge f = .conn new (reduce a) m' b := by
        simp [hr]
      by_cases h2 : m' = m
      · subst h2
        refine ⟨.conn new (reduce a) new (reduce b), ?_, good_conn _ _ _ _, by rw [hr],
          by rw [hr]; simp⟩
        rw [M.bind_ok (node1_conn hr), if_pos rfl, modify_bind]
        beta_reduce
        rw [M.bind_ok (node2_conn hr')]
        simp [hr, Heap.setEdge]
      · refine ⟨.conn new (reduce a) m' b, ?_, good_conn _ _ _ _, by rw [hr],
          by rw [hr]; simp [h2]⟩
        rw [M.bind_ok (node1_conn hr), if_pos rfl, modify_bind]
        beta_reduce
        rw [M.bind_ok (node2_conn hr')]
        simp [hr, h2]
    · by_cases h2 : m' = n
      · subst h2
        refine ⟨.conn m a new (reduce b), ?_, good_conn _ _ _ _, by rw [hr],
          by rw [hr]; simp [h1]⟩
        rw [M.bind_ok (node1_conn hr), if_neg h1]
        beta_reduce
        rw [M.bind_ok (node2_conn hr)]
        simp [hr]
      · refine ⟨.conn m a m' b, ?_, good_conn _ _ _ _, by rw [hr], by rw [hr]; simp [h1, h2]⟩
        rw [M.bind_ok (node1_conn hr), if_neg h1]
        beta_reduce
        rw [M.bind_ok (node2_conn hr)]
        simp [← hr, h2, Heap.setEdge]

/-- A loop that rewrites the records of distinct live edges. -/
theorem forEach_records {l : List EId} {body : EId → M R Unit} {ψ : Slot → Slot} (hl : l.Nodup)
    (hbody : ∀ (x : Heap R) (f : EId), (x.edge f).Good → ∃ r', body f x = (.ok (), x.setEdge f r') ∧
      r'.Good ∧ r'.dangling = (x.edge f).dangling ∧ r'.ends = (x.edge f).ends.map ψ)
    (h : Heap R) (hg : ∀ f ∈ l, (h.edge f).Good) :
    ∃ h', M.forEach l body h = (.ok (), h') ∧ h'.node = h.node ∧ h'.nn = h.nn ∧ h'.ne = h.ne ∧
      (∀ f ∉ l, h'.edge f = h.edge f) ∧
      ∀ f ∈ l, (h'.edge f).Good ∧ (h'.edge f).dangling = (h.edge f).dangling ∧
        (h'.edge f).ends = (h.edge f).ends.map ψ := by
  induction l generalizing h with
  | nil => exact ⟨h, rfl, rfl, rfl, rfl, fun _ _ => rfl, by simp⟩
  | cons a l ih =>
    rw [List.nodup_cons] at hl
    obtain ⟨r', k1, k2, k3, k4⟩ := hbody h a (hg a (by simp))
    obtain ⟨h', m1, m2, m3, m4, m5, m6⟩ := ih hl.2 (h.setEdge a r') (by
      intro f hf
      have : f ≠ a := fun h => hl.1 (h ▸ hf)
      simpa [this] using hg f (by simp [hf]))
    refine ⟨h', by rw [M.forEach_cons, M.bind_ok k1]; exact m1, m2, m3, m4, ?_, ?_⟩
    · intro f hf
      simp only [List.mem_cons, not_or] at hf
      rw [m5 f hf.2]
      simp [hf.1]
    · intro f hf
      by_cases hfa : f = a
      · subst hfa
        rw [m5 f hl.1]
        simp only [Heap.setEdge_edge, Function.update_self]
        exact ⟨k2, k3, k4⟩
      · have := m6 f (by simpa [hfa] using hf)
        simpa [hfa] using this

/-- A list with exactly two occurrences of `e`. -/
theorem split_two {l : List EId} {e : EId} {lo hi : Nat} (hlt : lo < hi)
    (h1 : l[lo]? = some e) (h2 : l[hi]? = some e) (hc : l.count e = 2) :
    ∃ pre mid post, l = pre ++ e :: (mid ++ e :: post) ∧ pre.length = lo ∧
      lo + 1 + mid.length = hi ∧ e ∉ pre ∧ e ∉ mid ∧ e ∉ post := by
  obtain ⟨l1, g1⟩ := List.getElem?_eq_some_iff.1 h1
  obtain ⟨l2, g2⟩ := List.getElem?_eq_some_iff.1 h2
  have d1 : l = l.take lo ++ e :: l.drop (lo + 1) := by
    rw [← g1, ← List.drop_eq_getElem_cons l1, List.take_append_drop]
  have l3 : hi - lo - 1 < (l.drop (lo + 1)).length := by simp; omega
  have g3 : (l.drop (lo + 1))[hi - lo - 1] = e := by
    rw [List.getElem_drop, ← g2]
    congr 1; omega
  have d2 : l.drop (lo + 1) = (l.drop (lo + 1)).take (hi - lo - 1) ++
      e :: (l.drop (lo + 1)).drop (hi - lo - 1 + 1) := by
    conv_rhs => rw [← g3]
    rw [← List.drop_eq_getElem_cons l3, List.take_append_drop]
  refine ⟨l.take lo, (l.drop (lo + 1)).take (hi - lo - 1),
    (l.drop (lo + 1)).drop (hi - lo - 1 + 1), ?_, ?_, ?_, ?_⟩
  · rw [← d2, ← d1]
  · simp; omega
  · simp; omega
  · have : (l.take lo ++ e :: ((l.drop (lo + 1)).take (hi - lo - 1) ++
      e :: (l.drop (lo + 1)).drop (hi - lo - 1 + 1))).count e = 2 := by
      rw [← d2, ← d1, hc]
    simp only [List.count_append, List.count_cons_self] at this
    refine ⟨List.count_eq_zero.1 (by omega), List.count_eq_zero.1 (by omega),
      List.count_eq_zero.1 (by omega)⟩

theorem filter_ne_self {l : List EId} {e : EId} (h : e ∉ l) :
    l.filter (fun x => decide (x ∉ [e])) = l := by
  rw [List.filter_eq_self]
  intro a ha
  simp only [List.mem_singleton, decide_not, Bool.not_eq_true', decide_eq_false_iff_not]
  rintro rfl
  exact h ha

theorem filter_zip_ne_self {l : List EId} {e : EId} {k : Nat} (h : e ∉ l) :
    (l.zipIdx k).filter (fun p => decide (p.1 ∉ [e])) = l.zipIdx k := by
  rw [List.filter_eq_self]
  intro a ha
  simp only [List.mem_singleton, decide_not, Bool.not_eq_true', decide_eq_false_iff_not]
  rintro rfl
  exact h (List.fst_mem_of_mem_zipIdx ha)

theorem erase_two {pre mid post : List EId} {e : EId} :
    ((pre ++ e :: (mid ++ e :: post)).eraseIdx pre.length).eraseIdx
      (pre.length + 1 + mid.length - 1) = pre ++ (mid ++ post) := by
  rw [List.eraseIdx_append_of_length_le (by simp)]
  simp only [Nat.sub_self, List.eraseIdx_cons_zero]
  rw [List.eraseIdx_append_of_length_le (by omega)]
  have : pre.length + 1 + mid.length - 1 - pre.length = mid.length := by omega
  rw [this, List.eraseIdx_append_of_length_le (by omega)]
  simp

theorem filter_two {pre mid post : List EId} {e : EId} (h1 : e ∉ pre) (h2 : e ∉ mid)
    (h3 : e ∉ post) :
    (pre ++ e :: (mid ++ e :: post)).filter (fun x => decide (x ∉ [e])) =
      pre ++ (mid ++ post) := by
  rw [List.filter_append, filter_ne_self h1, List.filter_cons, List.filter_append,
    filter_ne_self h2, List.filter_cons, filter_ne_self h3]
  simp

/-- The new axis number computed by `_remove_trace_edge`. -/
theorem reduce_pos {pre mid post : List EId} {e f : EId} {i : Nat} (h1 : e ∉ pre) (h2 : e ∉ mid)
    (h3 : e ∉ post) (hf : (pre ++ e :: (mid ++ e :: post))[i]? = some f) (hfe : f ≠ e) :
    ((pre ++ e :: (mid ++ e :: post)).zipIdx.filter (fun p => decide (p.1 ∉ [e])))[
      i - ((if i > pre.length then 1 else 0) +
        (if i > pre.length + 1 + mid.length then 1 else 0))]? = some (f, i) := by
  rw [List.zipIdx_append, List.filter_append, filter_zip_ne_self h1, List.zipIdx_cons,
    List.filter_cons, List.zipIdx_append, List.filter_append, filter_zip_ne_self h2,
    List.zipIdx_cons, List.filter_cons, filter_zip_ne_self h3]
  simp only [List.mem_singleton, not_true_eq_false, decide_false, Bool.false_eq_true, if_false]
  rcases Nat.lt_trichotomy i pre.length with hi | hi | hi
  · rw [if_neg (by omega), if_neg (by omega)]
    rw [List.getElem?_append_left (by simpa using hi)]
    rw [List.getElem?_append_left hi] at hf
    simp only [Nat.add_zero, Nat.sub_zero, List.getElem?_zipIdx, hf]
    simp
  · subst hi
    simp at hf
    exact absurd hf.symm hfe
  · rw [if_pos hi]
    rw [List.getElem?_append_right (by omega)] at hf
    obtain ⟨j, hj⟩ : ∃ j, i = pre.length + 1 + j := ⟨i - pre.length - 1, by omega⟩
    subst hj
    have e1 : pre.length + 1 + j - pre.length = j + 1 := by omega
    rw [e1, List.getElem?_cons_succ] at hf
    rcases Nat.lt_trichotomy j mid.length with hj | hj | hj
    · rw [if_neg (by omega), List.getElem?_append_right (by simp),
        List.getElem?_append_left (by simp; omega)]
      rw [List.getElem?_append_left hj] at hf
      have e2 : pre.length + 1 + j - (1 + 0) - pre.zipIdx.length = j := by simp
      rw [e2]
      simp only [List.getElem?_zipIdx, hf]
      simp
    · subst hj
      simp at hf
      exact absurd hf.symm hfe
    · rw [if_pos (by omega), List.getElem?_append_right (by simp; omega),
        List.getElem?_append_right (by simp; omega)]
      rw [List.getElem?_append_right (by omega)] at hf
      obtain ⟨m, hm⟩ : ∃ m, j = mid.length + 1 + m := ⟨j - mid.length - 1, by omega⟩
      subst hm
      have e2 : mid.length + 1 + m - mid.length = m + 1 := by omega
      rw [e2, List.getElem?_cons_succ] at hf
      have e3 : pre.length + 1 + (mid.length + 1 + m) - (1 + 1) - pre.zipIdx.length -
          (mid.zipIdx (0 + pre.length + 1)).length = m := by simp; omega
      rw [e3]
      simp only [List.getElem?_zipIdx, hf]
      simp
      omega

/-- `contract` of a trace edge. -/
theorem contract_trace [CommSemiring R] {h : Heap R} (w : WF h) {e : EId} (hu : InUse h e)
    {n a b : Nat} (hr : h.edge e = .conn n a n b) :
    ∃ h', contract e h = (.ok h.nn, h') ∧ contractTrace e h = (.ok h.nn, h') ∧
      Merged h h' [n] h.nn [e] := by
  have hat1 : At h (n, a) e := (w.mem_ends hu).1 (by rw [hr]; simp)
  have hat2 : At h (n, b) e := (w.mem_ends hu).1 (by rw [hr]; simp)
  have hn := hat1.1
  simp only at hn
  have hab : a ≠ b := by
    rintro rfl
    have := w.nodup hu
    rw [hr] at this
    simp at this
  have hcount : (h.node n).edges.count e = 2 := by
    rw [w.count hu hn, hr, Multiset.countP_eq_card.2]
    · rfl
    · intro s hs
      simp only [ends_conn, Multiset.insert_eq_cons, Multiset.mem_cons,
        Multiset.mem_singleton] at hs
      rcases hs with rfl | rfl <;> rfl
  have hpos : ∀ p, (h.node n).edges[p]? = some e ↔ p = a ∨ p = b := by
    intro p
    have : (h.node n).edges[p]? = some e ↔ At h (n, p) e := ⟨fun h => ⟨hn, h⟩, fun h => h.2⟩
    rw [this, ← w.mem_ends hu, hr]
    simp
  have hlo : (h.node n).edges[min a b]? = some e := (hpos _).2 (by omega)
  have hhi : (h.node n).edges[max a b]? = some e := (hpos _).2 (by omega)
  obtain ⟨pre, mid, post, hsplit, hpl, hml, hp1, hp2, hp3⟩ :=
    split_two (by omega : min a b < max a b) hlo hhi hcount
  have hNdp : [n].Nodup := by simp
  have hNlt : ∀ m ∈ [n], m < h.nn := by simpa using hn
  have hfm : ([n].flatMap (fun m => (h.node m).edges)).filter (fun x => x ∉ [e]) =
      pre ++ (mid ++ post) := by
    simp only [List.flatMap_cons, List.flatMap_nil, List.append_nil]
    rw [hsplit]
    exact filter_two hp1 hp2 hp3
  -- the tensor
  have hsh := w.shaped hn
  have hndim : (h.node n).tensor.ndim = (h.node n).edges.length := hsh.ndim
  have hla := hat1.lt_len
  have hlb := hat2.lt_len
  simp only at hla hlb
  have hpermmap : (otherAxes (h.node n).tensor.ndim [a, b] ++ [min a b, max a b]).map
      (fun p => (h.node n).edges.getD p default) = pre ++ (mid ++ post) ++ [e, e] := by
    rw [List.map_append, hndim, otherAxes, filter_range_getD (h.node n).edges
      (fun x => decide (x ∉ [e]))]
    · rw [hsplit, filter_two hp1 hp2 hp3]
      congr 1
      rw [← hsplit]
      simp only [List.map_cons, List.map_nil, List.getD_eq_getElem?_getD, hlo, hhi]
      rfl
    · intro p hp
      have := hpos p
      rw [List.getElem?_eq_getElem hp] at this
      rw [List.getD_eq_getElem _ _ hp]
      simp only [Option.some.injEq] at this
      simp only [List.mem_cons, List.not_mem_nil, or_false, ← this]
  obtain ⟨t1, q1, q2, q3⟩ := transpose_val hsh
    (perm := otherAxes (h.node n).tensor.ndim [a, b] ++ [min a b, max a b]) (by
      rw [List.perm_iff_count]
      intro p
      rw [hndim]
      have hnd1 : (List.range (h.node n).edges.length).Nodup := List.nodup_range
      have hnd2 : (otherAxes (h.node n).edges.length [a, b] ++ [min a b, max a b]).Nodup := by
        rw [List.nodup_append]
        refine ⟨List.nodup_range.filter _, by simp; omega, ?_⟩
        intro x hx y hy
        simp only [otherAxes, List.mem_filter, decide_eq_true_eq, List.mem_cons,
          List.not_mem_nil, or_false] at hx hy
        omega
      rw [← List.perm_iff_count.1 ((List.perm_ext_iff_of_nodup hnd2 hnd1).2 ?_) p]
      intro x
      simp only [otherAxes, List.mem_append, List.mem_filter, List.mem_range, decide_eq_true_eq,
        List.mem_cons, List.not_mem_nil, or_false]
      omega)
  rw [hpermmap] at q2 q3
  have heF : e ∉ pre ++ (mid ++ post) := by simp [hp1, hp2, hp3]
  obtain ⟨t, r1, r2, r3⟩ := trace_val q2 heF
  -- the graph
  have w1 := addNode_wf w t
  have en : (addNode h t).node n = h.node n := addNode_node_old hn
  have hr1 : (addNode h t).edge e = .conn n a n b := (addNode_edge_old (w.lt hu)).trans hr
  have hNlt1 : ∀ m ∈ [n], m < (addNode h t).nn := fun m hm => Nat.lt_succ_of_lt (hNlt m hm)
  obtain ⟨reduce, hred⟩ : ∃ f : Nat → Nat, f = fun x => x - ((if x > min a b then 1 else 0) +
    (if x > max a b then 1 else 0)) := ⟨_, rfl⟩
  have hu1 : InUse (addNode h t) e := ⟨(n, a), (addNode_at_old (by simpa using hn.ne)).2 hat1⟩
  have hrest_at : ∀ f ∈ pre ++ (mid ++ post), InUse (addNode h t) f := by
    intro f hf
    refine inUse_of_mem (hNlt1 n (by simp)) ?_
    rw [en, hsplit]
    simp only [List.mem_append, List.mem_cons] at hf ⊢
    tauto
  obtain ⟨h2, u1, u2, u3, u4, u5, u6⟩ := forEach_records (R := R)
    (l := (pre ++ (mid ++ post)).dedup) (ψ := fun s => if s.1 = n then (h.nn, reduce s.2) else s)
    (List.nodup_dedup _)
    (fun x f hg => traceBody (n := n) (new := h.nn) (reduce := reduce) (h := x) hn.ne' hg)
    (addNode h t) (fun f hf => w1.good (hrest_at f (List.mem_dedup.1 hf)))
  have h2edge : ∀ f, InUse (addNode h t) f → (h2.edge f).Good ∧
      (h2.edge f).dangling = ((addNode h t).edge f).dangling ∧
      (h2.edge f).ends = ((addNode h t).edge f).ends.map
        (mv (movesOf (srcOf (addNode h t) [n] [e]) h.nn)) := by
    intro f hf
    by_cases hfr : f ∈ pre ++ (mid ++ post)
    · obtain ⟨v1, v2, v3⟩ := u6 f (List.mem_dedup.2 hfr)
      refine ⟨v1, v2, v3.trans (Multiset.map_congr rfl fun s hs => ?_)⟩
      have hats := (w1.mem_ends hf).1 hs
      have hfe : f ≠ e := by rintro rfl; exact heF hfr
      by_cases hsn : s.1 = n
      · rw [if_pos hsn]
        have hpos' := hats.2
        rw [hsn, en, hsplit] at hpos'
        have := reduce_pos hp1 hp2 hp3 hpos' hfe
        symm
        refine (mv_srcOf (h := addNode h t) (N := [n]) (S := [e]) (new := h.nn) hNdp
          (k := reduce s.2) (e := f) (s := s) ?_)
        simp only [srcOf, List.flatMap_cons, List.flatMap_nil, List.append_nil]
        rw [List.getElem?_map, en]
        rw [hsplit, hred, ← hpl, ← hml, ← hpl]
        rw [this]
        simp only [Option.map_some]
        congr 2
        exact Prod.ext hsn.symm rfl
      · rw [if_neg hsn]
        exact (mv_srcOf_other hNlt1 (fun e' h => hsn (by simpa using h.2.1))).symm
    · have hd : f ∉ (pre ++ (mid ++ post)).dedup := fun h => hfr (List.mem_dedup.1 h)
      rw [u5 f hd]
      refine ⟨w1.good hf, rfl, ?_⟩
      conv_lhs => rw [← Multiset.map_id ((addNode h t).edge f).ends]
      refine Multiset.map_congr rfl fun s hs => ?_
      have hats := (w1.mem_ends hf).1 hs
      symm
      refine mv_srcOf_other hNlt1 ?_
      rintro e' ⟨h1, h2, h3⟩
      obtain rfl := hats.unique h1
      have hm := hats.mem
      rw [List.mem_singleton.1 h2, en, hsplit] at hm
      apply hfr
      simp only [List.mem_append, List.mem_cons] at hm h3 ⊢
      tauto
  have hadd := addAll (h := h2) (n := h.nn) (es := pre ++ (mid ++ post)) (ov := false)
    (by rw [u2, addNode_node_new]; simp only [List.length_map, List.length_range]; exact r2.ndim)
    (by rw [u2, addNode_node_new]; exact r2.ndim)
    (by
      right
      intro f hf
      rw [u2] at hf
      obtain ⟨k, hk, hke⟩ := List.mem_iff_getElem.1 hf
      have hat : At (addNode h t) (h.nn, k) f :=
        ⟨Nat.lt_succ_self _, by rw [List.getElem?_eq_some_iff]; exact ⟨hk, hke⟩⟩
      rw [(h2edge f hat.inUse).2.1]
      obtain ⟨hk', rfl⟩ := addNode_at_new.1 hat
      rw [addNode_edge_new hk'])
  have hf1 := freshEdges_len (h := h2.setNode h.nn { h2.node h.nn with
      edges := pre ++ (mid ++ post) }) (n := n)
    (by
      rw [Heap.setNode_node, Function.update_of_ne hn.ne, u2, en]
      exact w.len n hn)
  have F1 := freshHeap_freshened (h2.setNode h.nn { h2.node h.nn with
      edges := pre ++ (mid ++ post) }) n
  have hmerged := merged_of (h := h) (h2 := h2) (N := [n]) (S := [e]) (t := t) w hNdp hNlt
    (by simp) (by
      intro e' he'
      rw [List.mem_singleton.1 he']
      refine ⟨hu, by rw [hr], fun s hs => ?_⟩
      have := (w.mem_ends hu).2 hs
      rw [hr] at this
      simp only [ends_conn, Multiset.insert_eq_cons, Multiset.mem_cons,
        Multiset.mem_singleton] at this
      rcases this with rfl | rfl <;> simp) (by rw [hfm]; exact r2)
    (by
      intro τ _
      rw [hfm, r3]
      refine sumOver_congr fun τ _ _ => ?_
      rw [q3]
      simp [prodVal, netOf])
    u2 u3 u4 h2edge (fun f hf => u5 f (fun h1 => hf (hrest_at f (List.mem_dedup.1 h1)))) (by rw [hfm]; exact F1)
  have hct : contractTrace e h = (.ok h.nn, disableHeap (freshHeap (h2.setNode h.nn
      { h2.node h.nn with edges := pre ++ (mid ++ post) }) n) [e]) := by
    unfold contractTrace
    rw [M.bind_ok (a := false) (h' := h) (by rw [isDangling_eq, hr])]
    simp only [Bool.false_eq_true, if_false]
    rw [M.bind_ok (node1_conn hr), M.bind_ok (node2_conn hr), if_neg (by simp),
      M.bind_ok (axis1_conn hr), M.bind_ok (axis2_conn hr)]
    dsimp only
    rw [M.bind_ok (nodeTensor_eq n), M.bind_ok (a := t1) (h' := h) (by rw [M.lift_apply, q1]),
      M.bind_ok (a := t) (h' := h) (by rw [M.lift_apply, r1]), M.bind_ok (newNode_eq h t)]
    have hrt : removeTraceEdge e h.nn (addNode h t) =
        (.ok (), disableHeap (freshHeap (h2.setNode h.nn
          { h2.node h.nn with edges := pre ++ (mid ++ post) }) n) [e]) := by
      unfold removeTraceEdge
      rw [M.bind_ok (a := false) (h' := addNode h t) (by rw [isDangling_eq, hr1])]
      simp only [Bool.false_eq_true, if_false]
      rw [M.bind_ok (node1_conn hr1), M.bind_ok (node2_conn hr1), if_neg (by simp),
        M.bind_ok (axis1_conn hr1), M.bind_ok (axis2_conn hr1)]
      dsimp only
      rw [M.bind_ok (nodeEdges_eq n), en]
      have hlen : (h.node n).edges.length = pre.length + 1 + mid.length + 1 + post.length := by
        rw [hsplit]; simp; omega
      have herase : ((h.node n).edges.eraseIdx (min a b)).eraseIdx (max a b - 1) =
          pre ++ (mid ++ post) := by
        rw [hsplit, ← hml, ← hpl]
        exact erase_two
      rw [if_neg (by
        rw [List.length_eraseIdx_of_lt (by omega)]
        omega), herase]
      rw [hred] at u1
      rw [M.bind_ok u1, M.bind_ok hadd, M.bind_ok hf1]
      have := disableAll (freshHeap (h2.setNode h.nn
        { h2.node h.nn with edges := pre ++ (mid ++ post) }) n) [e]
      rw [M.forEach_cons, M.bind_ok (a := ()) (by rfl)] at this
      exact this
    rw [M.bind_ok hrt]
    rfl
  refine ⟨_, ?_, hct, hmerged⟩
  unfold contract
  rw [M.bind_ok (a := false) (h' := h) (by rw [isDangling_eq, hr])]
  simp only [Bool.false_eq_true, if_false]
  rw [M.bind_ok (node1_conn hr), M.bind_ok (node2_conn hr)]
  dsimp only
  rw [if_pos rfl]
  exact hct

end TN.Graph
