import Verif.Bucket

/-!
# The rounds of the bucket contractor (C56)
-/

set_option linter.unusedSectionVars false

namespace TN.Graph

open TN Finset

variable {R : Type}

/-! ### Reading does not change the graph -/

/-- `f` does not change the graph. -/
def Reads {α : Type} (f : M R α) : Prop := ∀ h, (f h).2 = h

theorem Reads.bind {α β : Type} {f : M R α} {g : α → M R β} (hf : Reads f) (hg : ∀ a, Reads (g a)) :
    Reads (f >>= g) := by
  intro h
  rw [M.bind_apply]
  have h1 := hf h
  rcases hx : f h with ⟨_ | a, h'⟩
  · rw [hx] at h1; exact h1
  · rw [hx] at h1
    simp only at h1 ⊢
    rw [hg a h', h1]

theorem Reads.pure {α : Type} (a : α) : Reads (Pure.pure a : M R α) := fun _ => rfl
theorem Reads.throw {α : Type} (e : PyErr) : Reads (M.throw e : M R α) := fun _ => rfl
theorem Reads.get : Reads (M.get : M R (Heap R)) := fun _ => rfl

theorem reads_node1 (e : EId) : Reads (R := R) (node1 e) := by
  refine Reads.bind Reads.get fun h => ?_
  split_ifs
  · exact Reads.throw _
  · rcases (h.edge e).node1 with _ | n
    · exact Reads.throw _
    · exact Reads.pure _

theorem reads_node2 (e : EId) : Reads (R := R) (node2 e) := by
  refine Reads.bind Reads.get fun h => ?_
  split_ifs
  · exact Reads.throw _
  · exact Reads.pure _
  · rcases (h.edge e).node2 with _ | n
    · exact Reads.throw _
    · exact Reads.pure _

theorem reads_axis1 (e : EId) : Reads (R := R) (axis1 e) := by
  refine Reads.bind Reads.get fun h => ?_
  split_ifs
  · exact Reads.throw _
  · exact Reads.pure _

theorem reads_axis2 (e : EId) : Reads (R := R) (axis2 e) := by
  refine Reads.bind Reads.get fun h => ?_
  split_ifs
  · exact Reads.throw _
  · exact Reads.pure _

theorem reads_partnersLoop (cn : NId) : ∀ (es : List EId) (ps : List (NId × List Nat)),
    Reads (R := R) (partnersLoop cn es ps)
  | [], _ => Reads.pure _
  | e :: es, ps => by
    unfold partnersLoop
    refine Reads.bind (Reads.bind Reads.get fun _ => Reads.pure _) fun d => ?_
    split_ifs
    · exact Reads.throw _
    · refine Reads.bind (reads_node1 e) fun n1 => ?_
      refine Reads.bind (reads_node2 e) fun n2 => ?_
      split_ifs
      · exact reads_partnersLoop cn es _
      · exact Reads.bind (reads_axis2 e) fun _ => reads_partnersLoop cn es _
      · exact Reads.bind (reads_axis1 e) fun _ => reads_partnersLoop cn es _
      · exact Reads.throw _

theorem reads_getPartners (cn : NId) : Reads (R := R) (getPartners cn) :=
  Reads.bind (Reads.bind Reads.get fun _ => Reads.pure _) fun es => reads_partnersLoop cn es []

/-! ### One round -/

theorem bucket_partners {h : Heap R} {D : List NId} {cn : NId} (w : WF (forget h D)) (hcn : cn < h.nn)
    (hcD : cn ∉ D) (hd : ∀ e ∈ (h.node cn).edges, (h.edge e).dangling = false) :
    ∃ ps, getPartners cn h = (.ok ps, h) ∧ ps.map Prod.fst = neighbours (forget h D) cn := by
  have hd' : ∀ e ∈ ((forget h D).node cn).edges, ((forget h D).edge e).dangling = false := by
    rw [forget_node hcD]; exact hd
  obtain ⟨ps, g1, g2⟩ := getPartners_ok w (cn := cn) hcn hd'
  have hb := blind_getPartners hcD h
  have hh := reads_getPartners cn h
  unfold Blind at hb
  rw [g1, hh] at hb
  refine ⟨ps, Prod.ext (Prod.mk.inj hb).1.symm hh, g2.fst⟩

/-- The number of edges that remain at the neighbours. -/
def remaining (h : Heap R) (cn : NId) : Nat :=
  (((neighbours h cn).flatMap fun n => (h.node n).edges).filter
    fun e => e ∉ (h.node cn).edges).length

theorem bucket_step [CommSemiring R] {h : Heap R} {D : List NId} {cn : NId} (w : GraphOK (forget h D))
    (hcn : cn < h.nn) (hcD : cn ∉ D) (hD : ∀ n ∈ D, n < h.nn) {r d : Nat}
    (ht : (h.node cn).tensor = Copy.makeCopyTensor r d)
    (hd : ∀ e ∈ (h.node cn).edges, (h.edge e).dangling = false) :
    (∃ h', contractCopyNode cn h = (.ok h.nn, h') ∧
      CopyContracted (forget h D) (forget h' D) cn h.nn) ∨
    (∃ err h', contractCopyNode cn h = (.error err, h') ∧ (err = .valueError ∨ err = .indexError) ∧
      (neighbours (forget h D) cn = [] ∨ 52 ≤ remaining (forget h D) cn)) := by
  have hd' : ∀ e ∈ ((forget h D).node cn).edges, ((forget h D).edge e).dangling = false := by
    rw [forget_node hcD]; exact hd
  have hb := blind_contractCopyNode w.wf hcn hcD hD hd
  by_cases hl : neighbours (forget h D) cn = [] ∨ 52 ≤ remaining (forget h D) cn
  · right
    have h1 := C44_limit_raises w hcn hd' hl
    unfold Blind at hb
    rcases h1 with h1 | h1
    · rw [h1] at hb
      exact ⟨.valueError, (contractCopyNode cn h).2, Prod.ext (Prod.mk.inj hb).1.symm rfl, .inl rfl, hl⟩
    · rw [h1] at hb
      exact ⟨.indexError, (contractCopyNode cn h).2, Prod.ext (Prod.mk.inj hb).1.symm rfl, .inr rfl, hl⟩
  · left
    rw [not_or, not_le] at hl
    obtain ⟨k, g1, g2⟩ := C44_contract_partial w hcn (by rw [forget_node hcD]; exact ht) hd' hl.1 hl.2
    unfold Blind at hb
    rw [g1] at hb
    obtain ⟨e1, e2⟩ := Prod.mk.inj hb
    refine ⟨(contractCopyNode cn h).2, Prod.ext e1.symm rfl, ?_⟩
    rw [← e2]
    exact g2

theorem copyContracted_forget [CommSemiring R] {h h' : Heap R} {D : List NId} {cn new : NId}
    (C : CopyContracted (forget h D) (forget h' D) cn new) :
    GraphOK (forget h' (D ++ neighbours (forget h D) cn)) := by
  obtain ⟨P, hP⟩ : ∃ P, P = neighbours (forget h D) cn := ⟨_, rfl⟩
  have hok := C.ok
  rw [← hP] at hok ⊢
  have hnode : ∀ n, n ∉ D ++ P → (forget h' (D ++ P)).node n = (forget h' D).node n := by
    intro n hn
    rw [forget_node hn, forget_node (fun h => hn (List.mem_append_left _ h))]
  have hdead : ∀ n, n ∈ D ++ P → (forget h' (D ++ P)).node n = ⟨⟨[], (h'.node n).tensor.get⟩, []⟩ := by
    intro n hn
    simp only [forget, if_pos hn]
  constructor
  · intro n hn
    by_cases hm : n ∈ D ++ P
    · rw [Heap.shape, hdead n hm]
    · have := (hok n hn (fun h => hm (List.mem_append_right _ h))).1
      rwa [Heap.shape, hnode n hm]
  · intro n hn k e hk
    by_cases hm : n ∈ D ++ P
    · rw [hdead n hm] at hk; simp at hk
    · rw [hnode n hm] at hk
      obtain ⟨f1, f2⟩ := (hok n hn (fun h => hm (List.mem_append_right _ h))).2 k e hk
      obtain ⟨a1, a2, a3⟩ := f1
      refine ⟨a1, a2, ?_⟩
      rcases a3 with a3 | ⟨a3, m, j, a4, a5, a6, a7, a8⟩
      · exact .inl a3
      · have hmD : m ∉ D ++ P := by
          intro hmm
          rcases List.mem_append.1 hmm with hx | hx
          · simp [forget, hx] at a6
          · rcases a8 with a8 | a8
            · exact (f2 m hx).2 a8.2.2.1
            · exact (f2 m hx).1 a8.1
        refine .inr ⟨a3, m, j, a4, a5, ?_, ?_, a8⟩
        · rw [hnode m hmD]; exact a6
        · rw [Heap.shape, Heap.shape, hnode m hmD, hnode n hm]; exact a7

/-! ### The invariant -/

/-- The state before a round: `D` are the nodes contracted so far, `A` all others of the network, `N` those of
them that the call was given or has made, `order` the copy nodes to come. -/
structure Ready [CommSemiring R] (h : Heap R) (D A N order : List NId) : Prop where
  ok : GraphOK (forget h D)
  dead : ∀ n ∈ D, n < h.nn
  nodup : order.Nodup
  copy : ∀ cn ∈ order, cn < h.nn ∧ cn ∉ D ∧ (∃ r d, (h.node cn).tensor = Copy.makeCopyTensor r d) ∧
    ∀ e ∈ (h.node cn).edges, (h.edge e).dangling = false
  apart : ∀ cn ∈ order, ∀ c ∈ order, c ∉ neighbours (forget h D) cn
  all : A.Nodup ∧ ∀ n ∈ A, n < h.nn ∧ n ∉ D
  inner : ∀ cn ∈ order, cn ∈ A ∧ ∀ p ∈ neighbours (forget h D) cn, p ∈ A
  sub : N.Nodup ∧ ∀ n ∈ N, n ∈ A
  cover : ∀ n ∈ A, n ∉ N → n ∈ order ∨ ∃ cn ∈ order, n ∈ neighbours (forget h D) cn

theorem perm_parts {A B : List NId} (hA : A.Nodup) (hB : B.Nodup) (hs : ∀ n ∈ B, n ∈ A) :
    A.Perm (B ++ A.filter fun n => n ∉ B) := by
  refine (List.perm_ext_iff_of_nodup hA ?_).2 fun n => ?_
  · refine List.nodup_append.2 ⟨hB, hA.filter _, ?_⟩
    intro x hx y hy
    have := (List.mem_filter.1 hy).2
    simp only [decide_eq_true_eq] at this
    rintro rfl
    exact this hx
  · rw [List.mem_append, List.mem_filter]
    by_cases h : n ∈ B
    · simp [h, hs n h]
    · simp [h]

section
variable [CommSemiring R] {h h' : Heap R} {D A N order : List NId} {cn : NId}

theorem Ready.hd (rd : Ready h D A N (cn :: order)) {c : NId} (hc : c ∈ cn :: order) :
    ∀ e ∈ ((forget h D).node c).edges, ((forget h D).edge e).dangling = false := by
  rw [forget_node (rd.copy c hc).2.1]; exact (rd.copy c hc).2.2.2

/-- Nodes that are not contracted in this round. -/
theorem Ready.keep (C : CopyContracted (forget h D) (forget h' D) cn h.nn) {n : NId}
    (hn : n < h.nn) (hnD : n ∉ D) (hnc : n ≠ cn) : h'.node n = h.node n := by
  have := C.other n hn hnc
  rwa [forget_node hnD, forget_node hnD] at this

theorem Ready.at_iff (C : CopyContracted (forget h D) (forget h' D) cn h.nn) {n : NId}
    (hn : n < h.nn) (hnD : n ∉ D ++ neighbours (forget h D) cn) (hnc : n ≠ cn) {k : Nat} {e : EId} :
    At (forget h' (D ++ neighbours (forget h D) cn)) (n, k) e ↔ At (forget h D) (n, k) e := by
  have h1 : n ∉ D := fun h => hnD (List.mem_append_left _ h)
  have hnn : h'.nn = h.nn + 1 := C.nn
  unfold At
  simp only
  rw [forget_node hnD, forget_node h1, Ready.keep C hn h1 hnc]
  constructor
  · exact fun x => ⟨hn, x.2⟩
  · exact fun x => ⟨by show n < h'.nn; omega, x.2⟩

theorem Ready.step (rd : Ready h D A N (cn :: order))
    (C : CopyContracted (forget h D) (forget h' D) cn h.nn) :
    Ready h' (D ++ neighbours (forget h D) cn)
      (A.filter (fun n => n ∉ neighbours (forget h D) cn ++ [cn]) ++ [h.nn])
      (N.filter (fun n => n ∉ neighbours (forget h D) cn ++ [cn]) ++ [h.nn]) order := by
  have w := rd.ok.wf
  have hnn : h'.nn = h.nn + 1 := C.nn
  obtain ⟨hcn, hcD, _, _⟩ := rd.copy cn (by simp)
  have hmem := fun p => mem_neighbours w hcn (rd.hd (by simp)) (p := p)
  have hPlt : ∀ p ∈ neighbours (forget h D) cn, p < h.nn := by
    intro p hp
    obtain ⟨_, e, _, k, hk⟩ := (hmem p).1 hp
    exact hk.1
  have hcnord : cn ∉ order := (List.nodup_cons.1 rd.nodup).1
  have hne : ∀ c ∈ order, c ≠ cn := by rintro c hc rfl; exact hcnord hc
  have hcP : ∀ c ∈ order, c ∉ D ++ neighbours (forget h D) cn := by
    intro c hc hm
    rcases List.mem_append.1 hm with hm | hm
    · exact (rd.copy c (by simp [hc])).2.1 hm
    · exact rd.apart cn (by simp) c (by simp [hc]) hm
  have hclt : ∀ c ∈ order, c < h.nn := fun c hc => (rd.copy c (by simp [hc])).1
  have hnode : ∀ c ∈ order, h'.node c = h.node c := fun c hc =>
    Ready.keep C (hclt c hc) (fun h => hcP c hc (List.mem_append_left _ h)) (hne c hc)
  have hedge : ∀ c ∈ order, ∀ e ∈ (h.node c).edges, e < h.ne ∧ e ∉ (h.node cn).edges := by
    intro c hc e he
    have hat : At (forget h D) (c, (h.node c).edges.idxOf e) e := by
      have := at_of_mem (h := forget h D) (n := c) (e := e) (hclt c hc) (by
        rw [forget_node (fun h => hcP c hc (List.mem_append_left _ h))]; exact he)
      rwa [forget_node (fun h => hcP c hc (List.mem_append_left _ h))] at this
    refine ⟨w.lt hat.inUse, fun hm => ?_⟩
    exact hcP c hc (List.mem_append_right _ ((hmem c).2 ⟨hne c hc, e, by
      rw [forget_node hcD]; exact hm, _, hat⟩))
  have ok' := copyContracted_forget C
  have hd' : ∀ c ∈ order, ∀ e ∈ (h'.node c).edges, (h'.edge e).dangling = false := by
    intro c hc e he
    rw [hnode c hc] at he
    have h1 := hedge c hc e he
    have hu : InUse (forget h D) e := inUse_of_mem (h := forget h D) (n := c) (hclt c hc) (by
        rw [forget_node (fun h => hcP c hc (List.mem_append_left _ h))]; exact he)
    have h2 := C.dangling e hu (by rw [forget_node hcD]; exact h1.2)
    exact h2.trans ((rd.copy c (by simp [hc])).2.2.2 e he)
  have hmem' : ∀ c ∈ order, ∀ p, p ∈ neighbours (forget h' (D ++ neighbours (forget h D) cn)) c ↔
      p ≠ c ∧ ∃ e ∈ (h.node c).edges, ∃ k,
        At (forget h' (D ++ neighbours (forget h D) cn)) (p, k) e := by
    intro c hc p
    have := mem_neighbours (p := p) ok'.wf (cn := c) (by show c < h'.nn; have := hclt c hc; omega) (by
      rw [forget_node (hcP c hc)]; exact hd' c hc)
    rwa [forget_node (hcP c hc), hnode c hc] at this
  have hmemc : ∀ c ∈ order, ∀ p, p ∈ neighbours (forget h D) c ↔
      p ≠ c ∧ ∃ e ∈ (h.node c).edges, ∃ k, At (forget h D) (p, k) e := by
    intro c hc p
    have := mem_neighbours (p := p) w (cn := c) (hclt c hc) (rd.hd (by simp [hc]))
    rwa [forget_node (fun h => hcP c hc (List.mem_append_left _ h))] at this
  have hcnP : cn ∉ neighbours (forget h D) cn := fun hm => ((hmem cn).1 hm).1 rfl
  have hcn' : ∀ e k, At (forget h' (D ++ neighbours (forget h D) cn)) (cn, k) e → h.ne ≤ e := by
    intro e k ha
    have h1 := ha.2
    simp only at h1
    rw [forget_node (by simp [hcD, hcnP])] at h1
    have := (C.detached.2 e (by rw [forget_node hcD]; exact List.mem_of_getElem? h1)).1
    exact this
  refine ⟨ok', ?_, (List.nodup_cons.1 rd.nodup).2, ?_, ?_, ?_, ?_, ?_, ?_⟩
  · intro n hn
    rcases List.mem_append.1 hn with hn | hn
    · have := rd.dead n hn; omega
    · have := hPlt n hn; omega
  · intro c hc
    obtain ⟨a1, a2, a3, a4⟩ := rd.copy c (by simp [hc])
    refine ⟨by omega, hcP c hc, ?_, hd' c hc⟩
    rw [hnode c hc]; exact a3
  · intro c hc c' hc' hm
    obtain ⟨b1, e, b2, k, b3⟩ := (hmem' c hc c').1 hm
    have b4 := (Ready.at_iff C (hclt c' hc') (hcP c' hc') (hne c' hc')).1 b3
    exact rd.apart c (by simp [hc]) c' (by simp [hc']) ((hmemc c hc c').2 ⟨b1, e, b2, k, b4⟩)
  · refine ⟨List.nodup_append.2 ⟨rd.all.1.filter _, by simp, ?_⟩, ?_⟩
    · intro x hx y hy
      have h1 := (rd.all.2 x (List.mem_filter.1 hx).1).1
      have h2 : y = h.nn := by simpa using hy
      omega
    · intro n hn
      rcases List.mem_append.1 hn with hn | hn
      · obtain ⟨h1, h2⟩ := List.mem_filter.1 hn
        obtain ⟨h3, h4⟩ := rd.all.2 n h1
        simp only [List.mem_append, not_or, decide_eq_true_eq] at h2
        exact ⟨by omega, by simp [h4, h2.1]⟩
      · obtain rfl : n = h.nn := by simpa using hn
        refine ⟨by omega, fun hm => ?_⟩
        rcases List.mem_append.1 hm with hm | hm
        · exact absurd (rd.dead _ hm) (lt_irrefl _)
        · exact absurd (hPlt _ hm) (lt_irrefl _)
  · intro c hc
    have hin : ∀ n, n ∈ A → n ∉ neighbours (forget h D) cn → n ≠ cn →
        n ∈ A.filter (fun n => n ∉ neighbours (forget h D) cn ++ [cn]) ++ [h.nn] := by
      intro n h1 h2 h3
      refine List.mem_append_left _ (List.mem_filter.2 ⟨h1, ?_⟩)
      simp [h2, h3]
    refine ⟨hin c (rd.inner c (by simp [hc])).1 (fun h => hcP c hc (List.mem_append_right _ h))
      (hne c hc), ?_⟩
    intro p hp
    obtain ⟨b1, e, b2, k, b3⟩ := (hmem' c hc p).1 hp
    by_cases h1 : p = h.nn
    · exact List.mem_append_right _ (by simp [h1])
    · have h2 : p < h.nn := by
        have : p < h'.nn := b3.1
        omega
      have h3 : p ∉ D ++ neighbours (forget h D) cn := not_dead b3
      have h4 : p ≠ cn := by
        rintro rfl
        have := hcn' e k b3
        have := (hedge c hc e b2).1
        omega
      have b4 := (Ready.at_iff C h2 h3 h4).1 b3
      exact hin p ((rd.inner c (by simp [hc])).2 p ((hmemc c hc p).2 ⟨b1, e, b2, k, b4⟩))
        (fun h => h3 (List.mem_append_right _ h)) h4
  · refine ⟨List.nodup_append.2 ⟨rd.sub.1.filter _, by simp, ?_⟩, ?_⟩
    · intro x hx y hy
      have h1 := (rd.all.2 x (rd.sub.2 x (List.mem_filter.1 hx).1)).1
      have h2 : y = h.nn := by simpa using hy
      omega
    · intro n hn
      rcases List.mem_append.1 hn with hn | hn
      · obtain ⟨h1, h2⟩ := List.mem_filter.1 hn
        exact List.mem_append_left _ (List.mem_filter.2 ⟨rd.sub.2 n h1, h2⟩)
      · exact List.mem_append_right _ hn
  · intro n hn hnN
    rcases List.mem_append.1 hn with hn | hn
    · obtain ⟨h1, h2⟩ := List.mem_filter.1 hn
      have h3 : n ∉ N := fun h => hnN (List.mem_append_left _ (List.mem_filter.2 ⟨h, h2⟩))
      simp only [List.mem_append, not_or, decide_eq_true_eq, List.mem_singleton] at h2
      obtain ⟨h4, h5⟩ := rd.all.2 n h1
      have h6 : n ∉ D ++ neighbours (forget h D) cn := by simp [h5, h2.1]
      rcases rd.cover n h1 h3 with h7 | ⟨c, h7, h8⟩
      · exact .inl (by simpa [h2.2] using h7)
      · right
        rcases List.mem_cons.1 h7 with rfl | h7
        · exact absurd h8 h2.1
        · obtain ⟨b1, e, b2, k, b3⟩ := (hmemc c h7 n).1 h8
          exact ⟨c, h7, (hmem' c h7 n).2 ⟨b1, e, b2, k, (Ready.at_iff C h4 h6 h2.2).2 b3⟩⟩
    · exact absurd (List.mem_append_right _ hn) hnN

end

end TN.Graph
