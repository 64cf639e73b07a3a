import Verif.GraphFlatten

/-!
# Flattening edges at one node

Dangling edges and trace edges.
-/

namespace TN.Graph

open TN

variable {R : Type}

theorem Rearr.regroup [CommSemiring R] {h hc : Heap R} (r : Rearr h hc) {n : NId} (hn : n < h.nn)
    {c : EId} {E : List EId} (hEu : ∀ e ∈ E, InUse h e) {u : NDArray R} {ls : List EId}
    (g1 : (hc.node n).edges = expand c E ls)
    (g2 : ∀ τ : EId → Nat, (∀ l ∈ (h.node n).edges, τ l < edim h l) →
      val u ls (Function.update τ c (gpos (edim h) E τ)) =
        val (h.node n).tensor (h.node n).edges τ) :
    Regroup (edim hc) c E ((hc.node n).tensor, (hc.node n).edges) (u, ls) := by
  refine ⟨g1, fun τ hτ => ?_⟩
  simp only at hτ ⊢
  rw [r.gpos_eq hEu, r.entry n hn]
  refine g2 τ fun l hl => ?_
  rw [← r.dim l (inUse_of_mem hn hl)]
  exact hτ l ((r.perm n hn).mem_iff.2 hl)

/-- Flattening dangling edges of one node. -/
theorem flattenDangling_run [CommSemiring R] {h : Heap R} (w : WF h) {m : NId}
    (hm : m < h.nn) {E : List EId} (hE : E.Nodup) (hEne : E ≠ [])
    (hS : ∀ e ∈ E, InUse h e ∧ ∃ a, h.edge e = .dang m a) :
    ∃ h', (do
        let f ← flattenAt E m
        M.forEach E disable
        pure f) h = (.ok h.ne, h') ∧ Flattened h h' E h.ne := by
  have hEu : ∀ e ∈ E, InUse h e := fun e he => (hS e he).1
  have hltm : ∀ n < h.nn, ∀ e ∈ (h.node n).edges, e < h.ne := fun n hn e he =>
    w.lt (inUse_of_mem hn he)
  have hltu : ∀ e, InUse h e → e < h.ne := fun e he => w.lt he
  have c1 : ∀ e ∈ E, (h.node m).edges.count e = 1 := by
    intro e he
    obtain ⟨hu, a, hr⟩ := hS e he
    rw [w.count hu hm, hr]
    simp [Multiset.countP_eq_card_filter, Multiset.filter_singleton]
  have hat : ∀ e ∈ E, ∀ s, At h s e → s.1 = m := by
    intro e he s hs
    obtain ⟨hu, a, hr⟩ := hS e he
    rw [at_dang w hu hr] at hs; rw [hs]
  obtain ⟨p1, q1⟩ := back_perm hE c1
  obtain ⟨t1, ht1, x1, hx1, hx1n, hx1nn, hx1ne, hR1⟩ := reorder_core w hm p1 (x := h)
    (fun _ => rfl) rfl rfl rfl
  rw [q1] at hR1
  obtain ⟨F, hF⟩ : ∃ F, F = (h.node m).edges.filter (fun e => e ∉ E) := ⟨_, rfl⟩
  rw [← hF] at hR1 q1
  obtain ⟨hc, hhc⟩ : ∃ hc : Heap R, hc = ⟨Function.update h.node m ⟨t1, F ++ E⟩, x1.edge,
    h.nn, h.ne⟩ := ⟨_, rfl⟩
  have r1 : Reordered h hc m (F ++ E) := by
    apply hR1 <;> rw [hhc]
  have r := r1.rearr
  obtain ⟨u1, hu1, hu1s, hu1v⟩ := flattenAt_run hE c1 (hltm m hm) (w.shaped hm) ht1 hx1
  rw [← hF] at hu1 hu1s hu1v
  obtain ⟨hb, hhb⟩ : ∃ hb : Heap R, hb = ⟨Function.update h.node m ⟨u1, F ++ [h.ne]⟩,
    Function.update x1.edge h.ne (.dang m F.length), h.nn, h.ne + 1⟩ := ⟨_, rfl⟩
  rw [← hhb] at hu1
  obtain ⟨h', hh'⟩ : ∃ h', h' = disableHeap hb E := ⟨_, rfl⟩
  have hEn : h.ne ∉ E := fun hk => by have := hltu _ (hEu _ hk); omega
  have hnd : ∀ n, h'.node n = if n = m then ⟨u1, F ++ [h.ne]⟩ else h.node n := by
    intro n
    rw [hh', hhb]; simp only [disableHeap]
    rw [Function.update_apply]
  have hcn : ∀ n, hc.node n = if n = m then ⟨t1, F ++ E⟩ else h.node n := by
    intro n
    rw [hhc]; simp only
    rw [Function.update_apply]
  have hnn : h'.nn = h.nn := by rw [hh', hhb]; rfl
  have hne : h'.ne = h.ne + 1 := by rw [hh', hhb]; rfl
  have hed : ∀ e, e < h.ne → e ∉ E → h'.edge e = hc.edge e := by
    intro e h1 h2
    rw [hh', hhb, hhc]; simp only [disableHeap]
    rw [if_neg h2, Function.update_of_ne (by omega)]
  have hed1 : h'.edge h.ne = .dang m F.length := by
    rw [hh', hhb]; simp only [disableHeap]
    rw [if_neg hEn, Function.update_self]
  have hFm : ∀ e ∈ F, e ∈ (h.node m).edges ∧ e ∉ E := by
    intro e he; rw [hF, List.mem_filter] at he; simpa using he
  have a1 : At h' (m, F.length) h.ne := by
    refine ⟨by rw [hnn]; exact hm, ?_⟩
    simp only
    rw [hnd, if_pos rfl]; simp
  obtain ⟨wq, qu, ql⟩ := tail_wf (hc := hc) (hm := h') r.wf (T := [m]) (dead := fun e => e ∈ E)
    (F := fun _ => F) (X := fun _ => E) (Y := fun _ => [h.ne])
    (Ds := fun _ => [gdim (edim h) E]) (by rw [hnn, r.nn]) (by rw [hne, r.ne]; omega)
    (by
      intro n hn
      obtain rfl := List.mem_singleton.1 hn
      rw [hcn, if_pos rfl])
    (fun _ _ _ he => he) (fun _ _ e he => (hFm e he).2)
    (by
      intro n hn
      rw [List.mem_singleton] at hn
      rw [hnd, hcn, if_neg hn, if_neg hn])
    (by
      intro n hn hnT e he heE
      rw [List.mem_singleton] at hnT
      rw [hcn, if_neg hnT] at he
      rw [r.nn] at hn
      exact hnT (hat e heE _ (at_of_mem hn he)))
    (by
      intro n hn
      obtain rfl := List.mem_singleton.1 hn
      rw [hnd, if_pos rfl])
    (by
      intro n hn
      obtain rfl := List.mem_singleton.1 hn
      rw [hnd, if_pos rfl]
      simp only
      rw [hu1s]
      congr 1
      exact List.map_congr_left fun e he => (r.dim e (inUse_of_mem hm (hFm e he).1)).symm)
    (fun _ _ => rfl)
    (by
      intro n hn hlt i e he
      obtain rfl := List.mem_singleton.1 hn
      rcases i with _ | i
      · simp only [List.getElem?_cons_zero, Option.some.injEq] at he
        subst he
        exact edgeOK_dang a1 (by rw [hne]; omega) hed1
      · simp at he)
    (fun e he hd => hed e (hltu e ((r.inUse e).1 he)) hd)
  refine ⟨h', ?_, ?_⟩
  · rw [M.bind_ok hu1, M.bind_ok (disableAll hb E), ← hh']
    rfl
  have hEq : ∀ e ∈ E, ¬ InUse h' e := by
    intro e he hu
    rcases qu e hu with h1 | ⟨n, hn, h1⟩
    · exact h1.2 he
    · rw [List.mem_singleton.1 h1] at he; exact hEn he
  refine flattened_of r wq hnn (by rw [hne]; omega) hE hEne hEu (fun hk => by have := hltu _ hk; omega)
    (by omega) hed ?_ a1.inUse
    ?_ ?_ ?_ ?_ ?_ ?_ ?_ ?_
  · intro e he
    refine ⟨?_, hEq e he⟩
    rw [hh']; simp only [disableHeap]; rw [if_pos he]
  · rw [wq.edim_eq a1, r.gdim_eq hEu]
    simp only [dimAt, Heap.shape]
    rw [hnd, if_pos rfl]
    simp only
    rw [hu1s, List.getD_append_right _ _ _ _ (by simp)]
    simp
  · intro e hu he
    obtain ⟨h1, h2⟩ := ql e hu he
    exact ⟨h1, by rw [hed e (hltu e ((r.inUse e).1 hu)) he], h2⟩
  · intro e hu hne
    rcases qu e hu with h4 | ⟨n, hn, h4⟩
    · exact h4.1
    · exact absurd (List.mem_singleton.1 h4) hne
  · intro n hn
    rw [r.nn] at hn
    have hne' : h.ne ∉ (h.node n).edges := fun h1 => by have := hltm n hn _ h1; omega
    by_cases i1 : n = m
    · subst i1
      rw [hnd n, if_pos rfl]
      refine r.regroup hn hEu ?_ fun τ hτ => hu1v h.ne τ hne' hτ
      rw [hcn, if_pos rfl, expand_append, expand_of_not_mem, expand_single]
      exact fun h1 => hne' (hFm _ h1).1
    · rw [hnd, hcn, if_neg i1, if_neg i1]
      exact Regroup.refl hne'
  · intro n hn
    rw [hcn]
    split_ifs with i1
    · subst i1
      rw [← hF, List.filter_append, List.filter_eq_self.2 (by
        intro e he; simpa using (hFm e he).2), List.filter_eq_nil_iff.2 (by simp), List.append_nil]
    · rfl
  · intro n hn hno
    obtain ⟨e0, he0⟩ := List.exists_mem_of_ne_nil E hEne
    rw [hnd n, if_neg]
    rintro rfl
    exact hno e0 he0 (List.count_pos_iff.1 (by rw [c1 e0 he0]; omega))
  · intro e he
    obtain ⟨_, a, hr⟩ := hS e he
    rw [hed1, hr]
  · intro n hn
    have hold : ∀ F : List EId, (∀ e ∈ F, e ∈ (h.node n).edges) → h.ne ∉ F :=
      fun F hF h1 => by have := hltm n hn _ (hF _ h1); omega
    rw [hnd n]
    split_ifs with i1
    · exact ⟨F, 1, rfl, hold F fun e he => i1 ▸ (hFm e he).1⟩
    · exact ⟨_, 0, by simp, hold _ fun e he => he⟩

theorem mapEach_readonly {α β : Type} {l : List α} {f : α → M R β} {g : α → β} {h : Heap R}
    (hf : ∀ a ∈ l, f a h = (.ok (g a), h)) : M.mapEach l f h = (.ok (l.map g), h) := by
  induction l with
  | nil => rfl
  | cons a l ih =>
    rw [M.mapEach_cons, M.bind_ok (hf a (by simp)), M.bind_ok (ih fun b hb => hf b (by simp [hb]))]
    rfl

/-- Flattening trace edges of one node. -/
theorem flattenTrace_run [CommSemiring R] {h : Heap R} (w : WF h) {m : NId}
    (hm : m < h.nn) {E : List EId} (hE : E.Nodup) (hEne : E ≠ [])
    (hS : ∀ e ∈ E, InUse h e ∧ ∃ a b, h.edge e = .conn m a m b) :
    ∃ h', flattenTraceEdges E h = (.ok (h.ne + 2), h') ∧ Flattened h h' E (h.ne + 2) := by
  have hEu : ∀ e ∈ E, InUse h e := fun e he => (hS e he).1
  have hltm : ∀ n < h.nn, ∀ e ∈ (h.node n).edges, e < h.ne := fun n hn e he =>
    w.lt (inUse_of_mem hn he)
  have hltu : ∀ e, InUse h e → e < h.ne := fun e he => w.lt he
  -- the two axes of an edge
  obtain ⟨A, B, hAB⟩ : ∃ A B : EId → Nat, ∀ e ∈ E, h.edge e = .conn m (A e) m (B e) := by
    choose! A B h1 using fun e he => (hS e he).2
    exact ⟨A, B, h1⟩
  have hat : ∀ e ∈ E, ∀ s, At h s e ↔ s = (m, A e) ∨ s = (m, B e) := fun e he s =>
    at_conn w (hEu e he) (hAB e he)
  obtain ⟨es, hes⟩ : ∃ es, es = (h.node m).edges := ⟨_, rfl⟩
  have hesE : ∀ e ∈ E, ∀ p, es[p]? = some e ↔ p = A e ∨ p = B e := by
    intro e he p
    have h1 := hat e he (m, p)
    simp only [At, Prod.mk.injEq, true_and, ← hes] at h1
    rw [← h1]
    exact ⟨fun h2 => ⟨hm, h2⟩, fun h2 => h2.2⟩
  have hABne : ∀ e ∈ E, A e ≠ B e := by
    intro e he h1
    have h2 := w.nodup (hEu e he)
    rw [hAB e he, h1] at h2
    simp at h2
  obtain ⟨lo, hlo⟩ : ∃ lo : EId → Nat, lo = fun e => min (A e) (B e) := ⟨_, rfl⟩
  obtain ⟨hi, hhi⟩ : ∃ hi : EId → Nat, hi = fun e => max (A e) (B e) := ⟨_, rfl⟩
  have hlt : ∀ e ∈ E, lo e < hi e := by
    intro e he
    have := hABne e he
    rw [hlo, hhi]; simp only
    omega
  have hor : ∀ e p, (p = A e ∨ p = B e) ↔ (p = lo e ∨ p = hi e) := by
    intro e p; rw [hlo, hhi]; simp only; omega
  have hesL : ∀ e ∈ E, es[lo e]? = some e := fun e he => (hesE e he _).2 ((hor e _).2 (.inl rfl))
  have hesH : ∀ e ∈ E, es[hi e]? = some e := fun e he => (hesE e he _).2 ((hor e _).2 (.inr rfl))
  have gD : ∀ p e, es[p]? = some e → es.getD p default = e := fun p e hp => by
    rw [List.getD_eq_getElem?_getD, hp]; rfl
  obtain ⟨back, hback⟩ : ∃ back, back = E.map lo ++ E.map hi := ⟨_, rfl⟩
  have hbn : back.Nodup := by
    rw [hback]
    refine List.nodup_append.2 ⟨?_, ?_, ?_⟩
    · refine (List.nodup_map_iff_inj_on hE).2 fun x hx y hy hxy => ?_
      have h1 := hesL x hx
      rw [hxy, hesL y hy] at h1
      exact (Option.some.inj h1).symm
    · refine (List.nodup_map_iff_inj_on hE).2 fun x hx y hy hxy => ?_
      have h1 := hesH x hx
      rw [hxy, hesH y hy] at h1
      exact (Option.some.inj h1).symm
    · intro p hp q hq hpq
      obtain ⟨x, hx, rfl⟩ := List.mem_map.1 hp
      obtain ⟨y, hy, rfl⟩ := List.mem_map.1 hq
      have h1 := hesL x hx
      rw [hpq, hesH y hy] at h1
      have := Option.some.inj h1
      subst this
      have := hlt y hx
      omega
  have hbm : ∀ p < es.length, p ∈ back ↔ es.getD p default ∈ E := by
    intro p hp
    rw [hback, List.mem_append, List.mem_map, List.mem_map]
    constructor
    · rintro (⟨e, he, rfl⟩ | ⟨e, he, rfl⟩)
      · rw [gD _ _ (hesL e he)]; exact he
      · rw [gD _ _ (hesH e he)]; exact he
    · intro he
      have h1 : es[p]? = some (es.getD p default) := by
        rw [List.getD_eq_getElem?_getD, List.getElem?_eq_getElem hp]; rfl
      rcases (hor _ p).1 ((hesE _ he p).1 h1) with h2 | h2
      · exact .inl ⟨_, he, h2.symm⟩
      · exact .inr ⟨_, he, h2.symm⟩
  have hblt : ∀ p ∈ back, p < es.length := by
    intro p hp
    rw [hback, List.mem_append, List.mem_map, List.mem_map] at hp
    rcases hp with ⟨e, he, rfl⟩ | ⟨e, he, rfl⟩
    · exact (List.getElem?_eq_some_iff.1 (hesL e he)).1
    · exact (List.getElem?_eq_some_iff.1 (hesH e he)).1
  have p1 := other_perm hbn hblt
  obtain ⟨F, hF⟩ : ∃ F, F = es.filter (fun e => e ∉ E) := ⟨_, rfl⟩
  have q0 : (otherAxes es.length back).map (fun p => es.getD p default) = F := by
    rw [other_map hbm, hF]
  have q1 : (otherAxes es.length back ++ back).map (fun p => es.getD p default) =
      F ++ (E ++ E) := by
    rw [List.map_append, q0, hback, List.map_append, List.map_map, List.map_map]
    congr 2
    · exact (List.map_congr_left fun e he => gD _ _ (hesL e he)).trans (List.map_id _)
    · exact (List.map_congr_left fun e he => gD _ _ (hesH e he)).trans (List.map_id _)
  have hFlen : (otherAxes es.length back).length = F.length := by
    rw [← q0, List.length_map]
  obtain ⟨t1, ht1, x1, hx1, hx1n, hx1nn, hx1ne, hR1⟩ := reorder_core w hm
    (perm := otherAxes es.length back ++ back) (by rw [← hes]; exact p1) (x := h)
    (fun _ => rfl) rfl rfl rfl
  rw [← hes] at hR1 hx1
  rw [q1] at hR1
  obtain ⟨hc, hhc⟩ : ∃ hc : Heap R, hc = ⟨Function.update h.node m ⟨t1, F ++ (E ++ E)⟩, x1.edge,
    h.nn, h.ne⟩ := ⟨_, rfl⟩
  have r1 : Reordered h hc m (F ++ (E ++ E)) := by
    apply hR1 <;> rw [hhc]
  have r := r1.rearr
  have hFm : ∀ e ∈ F, e ∈ (h.node m).edges ∧ e ∉ E := by
    intro e he; rw [hF, List.mem_filter, hes] at he; simpa using he
  have hesm : ∀ e ∈ E, e ∈ (h.node m).edges := fun e he => by
    rw [← hes]; exact List.mem_of_getElem? (hesL e he)
  have hEn : ∀ k, h.ne + k ∉ E := fun k hk => by
    have := hltu _ (hEu _ hk); omega
  have hEF : ∀ k, h.ne + k ∉ (h.node m).edges := fun k hk => by
    have := hltm m hm _ hk; omega
  -- transpose and reshape
  obtain ⟨s1, s2, s3, s4⟩ := transpose_val (w.shaped hm) (perm := otherAxes es.length back ++ back)
    (by rw [← hes]; exact p1)
  obtain rfl : t1 = s1 := by rw [ht1] at s2; exact Except.ok.inj s2
  rw [← hes, q1] at s3 s4
  have hexp : expand (h.ne + 2) E (F ++ [h.ne + 2, h.ne + 2]) = F ++ (E ++ E) := by
    rw [expand_append, expand_of_not_mem (fun h1 => hEF 2 (hFm _ h1).1)]
    rw [show [h.ne + 2, h.ne + 2] = [h.ne + 2] ++ [h.ne + 2] from rfl, expand_append, expand_single]
  obtain ⟨u1, w1, w2, w3⟩ := reshape_coarse (t := t1) (ls := F ++ [h.ne + 2, h.ne + 2])
    (c := h.ne + 2) (E := E)
    (dim := edim h) (dim' := Function.update (edim h) (h.ne + 2) (gdim (edim h) E))
    (by rw [hexp]; exact s3) (by simp)
    (fun l _ hlc => by rw [Function.update_of_ne hlc])
  have hmap : (F ++ [h.ne + 2, h.ne + 2]).map
      (Function.update (edim h) (h.ne + 2) (gdim (edim h) E)) =
        F.map (edim h) ++ [gdim (edim h) E, gdim (edim h) E] := by
    rw [List.map_append]
    congr 1
    · refine List.map_congr_left fun l hl => Function.update_of_ne ?_ _ _
      rintro rfl; exact hEF 2 (hFm _ hl).1
    · simp
  rw [Shaped, hmap] at w2
  rw [hmap] at w1
  rw [hexp] at w3
  have hu1v : ∀ τ : EId → Nat, (∀ l ∈ (h.node m).edges, τ l < edim h l) →
      val u1 (F ++ [h.ne + 2, h.ne + 2]) (Function.update τ (h.ne + 2) (gpos (edim h) E τ)) =
        val (h.node m).tensor (h.node m).edges τ := by
    intro τ hτ
    rw [w3 τ, s4, hes]
    intro l hl
    rcases List.mem_append.1 hl with hl | hl
    · exact hτ l (hFm l hl).1
    · exact hτ l (hesm l (by simpa using hl))
  obtain ⟨hp, hhp⟩ : ∃ hp : Heap R, hp = ⟨Function.update h.node m ⟨u1, F ++ [h.ne, h.ne + 1]⟩,
    Function.update (Function.update x1.edge h.ne (.dang m F.length)) (h.ne + 1)
      (.dang m (F.length + 1)), h.nn, h.ne + 2⟩ := ⟨_, rfl⟩
  have hpn : ∀ n, hp.node n = if n = m then ⟨u1, F ++ [h.ne, h.ne + 1]⟩ else h.node n := by
    intro n
    rw [hhp]; simp only
    rw [Function.update_apply]
  have hcn : ∀ n, hc.node n = if n = m then ⟨t1, F ++ (E ++ E)⟩ else h.node n := by
    intro n
    rw [hhc]; simp only
    rw [Function.update_apply]
  have hpnn : hp.nn = h.nn := by rw [hhp]
  have hpne : hp.ne = h.ne + 2 := by rw [hhp]
  have hpe : ∀ e, e < h.ne → hp.edge e = hc.edge e := by
    intro e h1
    rw [hhp, hhc]; simp only
    rw [Function.update_of_ne (by omega), Function.update_of_ne (by omega)]
  have hpe1 : hp.edge h.ne = .dang m F.length := by
    rw [hhp]; simp only
    rw [Function.update_of_ne (by omega), Function.update_self]
  have hpe2 : hp.edge (h.ne + 1) = .dang m (F.length + 1) := by
    rw [hhp]; simp only
    rw [Function.update_self]
  have a1 : At hp (m, F.length) h.ne := by
    refine ⟨by rw [hpnn]; exact hm, ?_⟩
    simp only
    rw [hpn, if_pos rfl]; simp
  have a2 : At hp (m, F.length + 1) (h.ne + 1) := by
    refine ⟨by rw [hpnn]; exact hm, ?_⟩
    simp only
    rw [hpn, if_pos rfl]
    simp only
    rw [List.getElem?_append_right (by omega)]
    simp
  obtain ⟨wq, qu, ql⟩ := tail_wf (hc := hc) (hm := hp) r.wf (T := [m]) (dead := fun e => e ∈ E)
    (F := fun _ => F) (X := fun _ => E ++ E) (Y := fun _ => [h.ne, h.ne + 1])
    (Ds := fun _ => [gdim (edim h) E, gdim (edim h) E]) (by rw [hpnn, r.nn])
    (by rw [hpne, r.ne]; omega)
    (by
      intro n hn
      obtain rfl := List.mem_singleton.1 hn
      rw [hcn, if_pos rfl])
    (fun _ _ _ he => by simpa using he) (fun _ _ e he => (hFm e he).2)
    (by
      intro n hn
      rw [List.mem_singleton] at hn
      rw [hpn, hcn, if_neg hn, if_neg hn])
    (by
      intro n hn hnT e he heE
      rw [List.mem_singleton] at hnT
      rw [hcn, if_neg hnT] at he
      rw [r.nn] at hn
      rcases (hat e heE _).1 (at_of_mem hn he) with h1 | h1
      · exact hnT (congrArg Prod.fst h1)
      · exact hnT (congrArg Prod.fst h1))
    (by
      intro n hn
      obtain rfl := List.mem_singleton.1 hn
      rw [hpn, if_pos rfl])
    (by
      intro n hn
      obtain rfl := List.mem_singleton.1 hn
      rw [hpn, if_pos rfl]
      simp only
      rw [w2]
      congr 1
      exact List.map_congr_left fun e he => (r.dim e (inUse_of_mem hm (hFm e he).1)).symm)
    (fun _ _ => rfl)
    (by
      intro n hn hlt i e he
      obtain rfl := List.mem_singleton.1 hn
      rcases i with _ | _ | i
      · simp only [List.getElem?_cons_zero, Option.some.injEq] at he
        subst he
        exact edgeOK_dang a1 (by rw [hpne]; omega) hpe1
      · simp only [zero_add, List.getElem?_cons_succ, List.getElem?_cons_zero,
          Option.some.injEq] at he
        subst he
        exact edgeOK_dang a2 (by rw [hpne]; omega) hpe2
      · simp at he)
    (fun e he hd => hpe e (hltu e ((r.inUse e).1 he)))
  have d1 : edim hp h.ne = gdim (edim h) E := by
    rw [wq.edim_eq a1]
    simp only [dimAt, Heap.shape]
    rw [hpn, if_pos rfl]
    simp only
    rw [w2, List.getD_append_right _ _ _ _ (by simp)]
    simp
  have d2 : edim hp (h.ne + 1) = gdim (edim h) E := by
    rw [wq.edim_eq a2]
    simp only [dimAt, Heap.shape]
    rw [hpn, if_pos rfl]
    simp only
    rw [w2, List.getD_append_right _ _ _ _ (by simp)]
    simp
  obtain ⟨hj, k1, k2, k3, k4⟩ := connect_ok wq a1.inUse a2.inUse (by rw [hpe1]) (by rw [hpe2])
    (by omega) (by rw [d1, d2])
  rw [hpne] at k1 k2 k3 k4
  obtain ⟨nw1, nw2, nw3⟩ := k2.new wq
  have hEq : ∀ e ∈ E, ¬ InUse hj e := by
    intro e he hu
    rcases k2.use hu with h1 | ⟨h1, h2, h3⟩
    · exact hEn 2 (h1 ▸ he)
    · rcases qu e h1 with h4 | ⟨n, hn, h4⟩
      · exact h4.2 he
      · simp only [List.mem_cons, List.not_mem_nil, or_false] at h4
        tauto
  obtain ⟨h', hh'⟩ : ∃ h', h' = disableHeap hj E := ⟨_, rfl⟩
  have w' : WF h' := by rw [hh']; exact disable_wf k2.wf hEq
  have hn' : h'.node = hj.node := by rw [hh']; rfl
  have hnn' : h'.nn = h.nn := by rw [hh']; exact k2.nn.trans hpnn
  have hat' : ∀ s e, At h' s e ↔ At hj s e := by
    intro s e; rw [hh']; rfl
  have huse' : ∀ e, InUse h' e ↔ InUse hj e := by
    intro e; simp only [InUse, hat']
  have hdim' : ∀ e, InUse hj e → edim h' e = edim hj e := by
    rintro e ⟨s, hs⟩
    rw [w'.edim_eq ((hat' s e).2 hs), k2.wf.edim_eq hs]
    simp only [dimAt, Heap.shape, hn']
  have hedge' : ∀ e, e ∉ E → h'.edge e = hj.edge e := by
    intro e he; rw [hh']; simp only [disableHeap]; rw [if_neg he]
  refine ⟨h', ?_, ?_⟩
  · unfold flattenTraceEdges
    obtain ⟨e0, E', rfl⟩ := List.exists_cons_of_ne_nil hEne
    simp only
    rw [M.bind_ok (node1_conn (hAB e0 (by simp)))]
    rw [M.bind_ok (mapEach_readonly (g := fun e => (A e, B e)) (by
      intro e he
      rw [M.bind_ok (axis1_conn (hAB e he)), M.bind_ok (axis2_conn (hAB e he))]
      rfl))]
    rw [M.bind_ok (nodeEdges_eq m)]
    have hb' : ((e0 :: E').map (fun e => (A e, B e))).map (fun p => min p.1 p.2) ++
        ((e0 :: E').map (fun e => (A e, B e))).map (fun p => max p.1 p.2) = back := by
      rw [hback, hlo, hhi, List.map_map, List.map_map]; rfl
    rw [hb', ← hes, M.bind_ok (nodeTensor_eq m)]
    have hdims : (((e0 :: E').map (fun e => (A e, B e))).map
        (fun p => (h.node m).tensor.shape.getD p.1 0)).prod = gdim (edim h) (e0 :: E') := by
      rw [List.map_map, gdim]
      congr 1
      refine List.map_congr_left fun e he => ?_
      rw [w.edim_eq ((hat e he (m, A e)).2 (.inl rfl))]
      rfl
    rw [hdims]
    have hrun := reorderAxes_run (h := h) (n := m) (x := x1)
      (perm := otherAxes es.length back ++ back) (by rw [← hes]; exact p1) ht1
      (by rw [← hes]; exact hx1)
    rw [← hes, q1] at hrun
    rw [M.bind_ok hrun, M.bind_ok (nodeTensor_eq m)]
    simp only [Function.update_self]
    rw [hFlen]
    have hshape : t1.shape = F.map (edim h) ++ ((e0 :: E') ++ (e0 :: E')).map (edim h) := by
      rw [s3, List.map_append]
    rw [hshape, List.take_left' (by simp)]
    rw [M.bind_ok (a := u1) (by rw [M.lift_apply, w1])]
    have hset : ∀ k : Heap R, k.node m = ⟨t1, F ++ ((e0 :: E') ++ (e0 :: E'))⟩ →
        setTensor m u1 k = (.ok (), k.setNode m ⟨u1, F ++ ((e0 :: E') ++ (e0 :: E'))⟩) := by
      intro k hk; simp only [setTensor, M.modify, hk]
    rw [M.bind_ok (hset _ (by simp))]
    simp only [Heap.setNode, Function.update_idem]
    have hnd : ∀ (a : Nat) (k : Heap R), newDangling m a k = (.ok k.ne, { k with
      edge := Function.update k.edge k.ne (.dang m a)
      ne := k.ne + 1 }) := fun _ _ => rfl
    rw [M.bind_ok (hnd _ _), M.bind_ok (hnd _ _), M.bind_ok (nodeEdges_eq m)]
    simp only [Function.update_self, List.take_left]
    have hse : ∀ (k : Heap R) (l : List EId),
        k.node m = ⟨u1, F ++ ((e0 :: E') ++ (e0 :: E'))⟩ →
        setEdges m l k = (.ok (), k.setNode m ⟨u1, l⟩) := by
      intro k l hk; simp only [setEdges, M.modify, hk]
    rw [M.bind_ok (hse _ _ (by simp))]
    simp only [Heap.setNode, Function.update_idem]
    rw [← hhp, M.bind_ok k1, M.bind_ok (disableAll hj _), ← hh']
    rfl
  have gl : ∀ F : List EId, (∀ e ∈ F, e < h.ne) →
      F.map (glue h.ne (h.ne + 1) (h.ne + 2)) = F := by
    intro F hF
    rw [List.map_congr_left (g := id)]
    · simp
    · intro e he
      have := hF e he
      simp only [glue, id]
      rw [if_neg (by omega)]
  have nodes : ∀ n < h.nn, h'.node n = if n = m then ⟨u1, F ++ [h.ne + 2, h.ne + 2]⟩
      else h.node n := by
    intro n hn
    obtain ⟨k5, k6⟩ := k2.nodes n (by rw [hpnn]; exact hn)
    have : h'.node n = ⟨(hp.node n).tensor, (hp.node n).edges.map
      (glue h.ne (h.ne + 1) (h.ne + 2))⟩ := by rw [hn', ← k5, ← k6]
    rw [this, hpn]
    split_ifs with i1
    · simp only [List.map_append]
      rw [gl F (fun e he => hltm m hm e (hFm e he).1)]
      simp [glue]
    · rw [gl _ (fun e he => hltm n hn e he)]
  refine flattened_of r w' hnn' (by rw [hh']; simp only [disableHeap]; rw [k3]; omega) hE hEne hEu (fun hk => by have := hltu _ hk; omega)
    (by omega) (fun e hlt he => by rw [hedge' e he, k4 e (by omega), hpe e hlt]) ?_
    ((huse' _).2 nw1) ?_ ?_ ?_ ?_ ?_ ?_ ?_ ?_
  · intro e he
    refine ⟨?_, fun hu => hEq e he ((huse' e).1 hu)⟩
    rw [hh']; simp only [disableHeap]; rw [if_pos he]
  · rw [hdim' _ nw1, nw3, d1, r.gdim_eq hEu]
  · intro e hu he
    obtain ⟨h1, h2⟩ := ql e hu he
    have hlt := hltu e ((r.inUse e).1 hu)
    obtain ⟨h3, h4, h5⟩ := k2.rest wq h1 (by omega) (by omega)
    exact ⟨(huse' e).2 h3, by rw [hedge' e he, h4, hpe e hlt], by rw [hdim' e h3, h5, h2]⟩
  · intro e hu hne
    rcases k2.use ((huse' e).1 hu) with h1 | ⟨h1, h2, h3⟩
    · exact absurd h1 hne
    · rcases qu e h1 with h4 | ⟨n, hn, h4⟩
      · exact h4.1
      · simp only [List.mem_cons, List.not_mem_nil, or_false] at h4
        tauto
  · intro n hn
    rw [r.nn] at hn
    by_cases i1 : n = m
    · subst i1
      rw [nodes n hn, if_pos rfl]
      refine r.regroup hn hEu ?_ hu1v
      rw [hcn, if_pos rfl, hexp]
    · rw [nodes n hn, hcn, if_neg i1, if_neg i1]
      exact Regroup.refl fun h1 => by have := hltm n hn _ h1; omega
  · intro n hn
    rw [hcn]
    split_ifs with i1
    · subst i1
      rw [← hes, ← hF, List.filter_append, List.filter_eq_self.2 (by
        intro e he; simpa using (hFm e he).2), List.filter_eq_nil_iff.2 (by simp), List.append_nil]
    · rfl
  · intro n hn hno
    obtain ⟨e0, he0⟩ := List.exists_mem_of_ne_nil E hEne
    rw [nodes n hn, if_neg]
    rintro rfl
    exact hno e0 he0 (hesm e0 he0)
  · intro e he
    rw [hedge' _ (hEn 2), nw2, hAB e he]
  · intro n hn
    have hold : ∀ F : List EId, (∀ e ∈ F, e ∈ (h.node n).edges) → h.ne + 2 ∉ F :=
      fun F hF h1 => by have := hltm n hn _ (hF _ h1); omega
    rw [nodes n hn]
    split_ifs with i1
    · exact ⟨F, 2, rfl, hold F fun e he => i1 ▸ (hFm e he).1⟩
    · exact ⟨_, 0, by simp, hold _ fun e he => he⟩

end TN.Graph
