import Verif.Bucket2

/-!
# C56: the bucket contractor
-/

set_option linter.unusedSectionVars false

namespace TN.Graph

open TN Finset

variable {R : Type}

section
variable [CommSemiring R] {h h' : Heap R} {D A N order : List NId} {cn : NId}

theorem netOf_forget {ns : List NId} (hn : ∀ n ∈ ns, n ∉ D) : netOf (forget h D) ns = netOf h ns := by
  unfold netOf
  exact List.map_congr_left fun n hm => by rw [forget_node (hn n hm)]

/-- The nodes of the network that this round leaves alone. -/
def others (h : Heap R) (D A : List NId) (cn : NId) : List NId :=
  A.filter fun n => n ∉ neighbours (forget h D) cn ++ [cn]

theorem Ready.nodup_round (rd : Ready h D A N (cn :: order)) :
    (neighbours (forget h D) cn ++ [cn]).Nodup := by
  refine List.nodup_append.2 ⟨neighbours_nodup, by simp, ?_⟩
  intro x hx y hy
  obtain rfl : y = cn := by simpa using hy
  rintro rfl
  obtain ⟨hcn, _, _, _⟩ := rd.copy x (by simp)
  exact ((mem_neighbours rd.ok.wf hcn (rd.hd (by simp))).1 hx).1 rfl

theorem Ready.perm (rd : Ready h D A N (cn :: order)) :
    A.Perm ((neighbours (forget h D) cn ++ [cn]) ++ others h D A cn) := by
  refine perm_parts rd.all.1 rd.nodup_round ?_
  intro n hn
  rcases List.mem_append.1 hn with hn | hn
  · exact (rd.inner cn (by simp)).2 n hn
  · obtain rfl : n = cn := by simpa using hn
    exact (rd.inner n (by simp)).1

theorem Ready.mem_others {n : NId} : n ∈ others h D A cn ↔
    n ∈ A ∧ n ∉ neighbours (forget h D) cn ∧ n ≠ cn := by
  unfold others
  rw [List.mem_filter]
  simp

/-- The edges of the network after a round are those before it without the edges of the copy node. -/
theorem Ready.flat (rd : Ready h D A N (cn :: order))
    (C : CopyContracted (forget h D) (forget h' D) cn h.nn) :
    flatL (netOf h' (h.nn :: others h D A cn)) =
      (flatL (netOf h ((neighbours (forget h D) cn ++ [cn]) ++ others h D A cn))).filter
        fun e => e ∉ (h.node cn).edges := by
  have w := rd.ok.wf
  obtain ⟨hcn, hcD, _, _⟩ := rd.copy cn (by simp)
  have hmem := fun p => mem_neighbours w hcn (rd.hd (by simp)) (p := p)
  have hnD : h.nn ∉ D := fun hm => absurd (rd.dead _ hm) (lt_irrefl _)
  have hP : ∀ p ∈ neighbours (forget h D) cn, p ∉ D := by
    intro p hp
    exact (rd.all.2 p ((rd.inner cn (by simp)).2 p hp)).2
  have h1 := C.edges
  rw [forget_node hnD, forget_node hcD] at h1
  have h2 : ((neighbours (forget h D) cn).flatMap fun n => ((forget h D).node n).edges) =
      (neighbours (forget h D) cn).flatMap fun n => (h.node n).edges := by
    rw [List.flatMap_def, List.flatMap_def]
    congr 1
    exact List.map_congr_left fun n hn => by rw [forget_node (hP n hn)]
  rw [h2] at h1
  rw [flatL_netOf, flatL_netOf, List.flatMap_cons, h1, List.flatMap_append, List.flatMap_append,
    List.filter_append, List.filter_append]
  have h3 : ([cn].flatMap fun n => (h.node n).edges).filter (fun e => e ∉ (h.node cn).edges) = [] := by
    rw [List.filter_eq_nil_iff]
    intro e he
    simpa using he
  rw [h3, List.append_nil]
  congr 1
  have h4 : ((others h D A cn).flatMap fun n => (h'.node n).edges) =
      (others h D A cn).flatMap fun n => (h.node n).edges := by
    rw [List.flatMap_def, List.flatMap_def]
    congr 1
    refine List.map_congr_left fun n hn => ?_
    obtain ⟨a1, a2, a3⟩ := Ready.mem_others.1 hn
    obtain ⟨a4, a5⟩ := rd.all.2 n a1
    rw [Ready.keep C a4 a5 a3]
  rw [h4, eq_comm, List.filter_eq_self]
  intro e he
  obtain ⟨n, hn, hen⟩ := List.mem_flatMap.1 he
  obtain ⟨a1, a2, a3⟩ := Ready.mem_others.1 hn
  obtain ⟨a4, a5⟩ := rd.all.2 n a1
  simp only [decide_eq_true_eq]
  intro hm
  refine a2 ((hmem n).2 ⟨a3, e, by rw [forget_node hcD]; exact hm, (h.node n).edges.idxOf e, ?_⟩)
  have := at_of_mem (h := forget h D) (n := n) (e := e) a4 (by rw [forget_node a5]; exact hen)
  rwa [forget_node a5] at this

/-- Positions of the open edges of the network `A` that are in range. -/
def Within (h : Heap R) (D A : List NId) (σ : EId → Nat) : Prop :=
  ∀ e ∈ flatL (netOf h A), (flatL (netOf h A)).count e ≠ 2 → σ e < edim (forget h D) e

theorem Ready.flat_perm (rd : Ready h D A N (cn :: order)) :
    (flatL (netOf h A)).Perm
      (flatL (netOf h ((neighbours (forget h D) cn ++ [cn]) ++ others h D A cn))) := by
  rw [flatL_netOf, flatL_netOf]
  exact rd.perm.flatMap_right _

theorem Ready.flat_new (h' : Heap R) : (flatL (netOf h' (others h D A cn ++ [h.nn]))).Perm
    (flatL (netOf h' (h.nn :: others h D A cn))) := by
  rw [flatL_netOf, flatL_netOf]
  exact (List.perm_append_singleton _ _).flatMap_right _

theorem Ready.edim (rd : Ready h D A N (cn :: order))
    (C : CopyContracted (forget h D) (forget h' D) cn h.nn) {e : EId}
    (he : e ∈ flatL (netOf h' (others h D A cn ++ [h.nn]))) :
    e ∈ flatL (netOf h A) ∧ e ∉ (h.node cn).edges ∧
    Graph.edim (forget h' (D ++ neighbours (forget h D) cn)) e = Graph.edim (forget h D) e := by
  have he' := (Ready.flat_new h').mem_iff.1 he
  rw [rd.flat C, List.mem_filter] at he'
  obtain ⟨hmem, hnot⟩ := he'
  simp only [decide_eq_true_eq] at hnot
  have hmem' := rd.flat_perm.mem_iff.2 hmem
  obtain ⟨hcn, hcD, _, _⟩ := rd.copy cn (by simp)
  have hu : InUse (forget h D) e := by
    rw [flatL_netOf] at hmem'
    obtain ⟨n, hn, hen⟩ := List.mem_flatMap.1 hmem'
    obtain ⟨a4, a5⟩ := rd.all.2 n hn
    exact inUse_of_mem (h := forget h D) a4 (by rw [forget_node a5]; exact hen)
  refine ⟨hmem', hnot, ?_⟩
  rw [← C.live e hu (by rw [forget_node hcD]; exact hnot)]
  have hnD : h.nn ∉ D := fun hm => absurd (rd.dead _ hm) (lt_irrefl _)
  have hP : ∀ p ∈ neighbours (forget h D) cn, p < h.nn ∧ p ∉ D := fun p hp =>
    rd.all.2 p ((rd.inner cn (by simp)).2 p hp)
  obtain ⟨n, hn, hen⟩ : ∃ n, (n < h'.nn ∧ n ∉ D ∧ n ∉ neighbours (forget h D) cn) ∧
      e ∈ (h'.node n).edges := by
    rw [flatL_netOf] at he
    obtain ⟨n, hn, hen⟩ := List.mem_flatMap.1 he
    refine ⟨n, ?_, hen⟩
    have hnn : h'.nn = h.nn + 1 := C.nn
    rcases List.mem_append.1 hn with hn | hn
    · obtain ⟨a1, a2, a3⟩ := Ready.mem_others.1 hn
      obtain ⟨a4, a5⟩ := rd.all.2 n a1
      exact ⟨by omega, a5, a2⟩
    · obtain rfl : n = h.nn := by simpa using hn
      exact ⟨by omega, hnD, fun hm => absurd (hP _ hm).1 (lt_irrefl _)⟩
  obtain ⟨j, hj, hje⟩ := List.mem_iff_getElem.1 hen
  obtain ⟨_, f2⟩ := (C.ok n hn.1 hn.2.2).2 j e (by
    rw [forget_node hn.2.1, List.getElem?_eq_getElem hj, hje])
  unfold Graph.edim
  show (match (h'.edge e).node1 with | some n => _ | none => 0) = (match (h'.edge e).node1 with | some n => _ | none => 0)
  rcases hn1 : (h'.edge e).node1 with _ | m
  · rfl
  · have hm : m ∉ neighbours (forget h D) cn := fun hm => (f2 m hm).1 hn1
    simp only [dimAt, Heap.shape]
    by_cases hmD : m ∈ D
    · simp [forget, hmD]
    · rw [forget_node (by simp [hmD, hm]), forget_node hmD]; rfl

theorem Ready.count (rd : Ready h D A N (cn :: order))
    (C : CopyContracted (forget h D) (forget h' D) cn h.nn) {e : EId} (hne : e ∉ (h.node cn).edges) :
    (flatL (netOf h' (others h D A cn ++ [h.nn]))).count e = (flatL (netOf h A)).count e := by
  rw [(Ready.flat_new h').count_eq, rd.flat C, List.count_filter (by simpa using hne),
    rd.flat_perm.count_eq]

theorem Ready.count_copy (rd : Ready h D A N (cn :: order)) {e : EId} (he : e ∈ (h.node cn).edges) :
    (flatL (netOf h A)).count e = 2 := by
  have w := rd.ok.wf
  obtain ⟨hcn, hcD, _, hd⟩ := rd.copy cn (by simp)
  have hu : InUse (forget h D) e := inUse_of_mem (h := forget h D) hcn (by rw [forget_node hcD]; exact he)
  rw [← netOf_forget (D := D) (fun n hn => (rd.all.2 n hn).2),
    w.count_flat hu rd.all.1 (fun n hn => (rd.all.2 n hn).1)]
  have hmem := fun p => mem_neighbours w hcn (rd.hd (by simp)) (p := p)
  have hall : ∀ s ∈ ((forget h D).edge e).ends, s.1 ∈ A := by
    intro s hs
    have hat := (w.mem_ends hu).1 hs
    by_cases h1 : s.1 = cn
    · rw [h1]; exact (rd.inner cn (by simp)).1
    · exact (rd.inner cn (by simp)).2 s.1 ((hmem s.1).2 ⟨h1, e, by rw [forget_node hcD]; exact he, s.2, hat⟩)
  rw [Multiset.countP_eq_card.2 hall]
  rcases w.good hu with ⟨n, a, hr⟩ | ⟨n, a, m, b, hr⟩
  · have h1 := hd e he
    have h2 : (h.edge e).dangling = true := by
      exact congrArg EdgeRec.dangling hr
    rw [h1] at h2; simp at h2
  · rw [hr]; simp

theorem Ready.within (rd : Ready h D A N (cn :: order))
    (C : CopyContracted (forget h D) (forget h' D) cn h.nn) {σ : EId → Nat} (hσ : Within h D A σ) :
    Within h' (D ++ neighbours (forget h D) cn) (others h D A cn ++ [h.nn]) σ := by
  intro e he hc
  obtain ⟨h1, h2, h3⟩ := rd.edim C he
  rw [h3]
  rw [rd.count C h2] at hc
  exact hσ e h1 hc

theorem Ready.value (rd : Ready h D A N (cn :: order))
    (C : CopyContracted (forget h D) (forget h' D) cn h.nn) {σ : EId → Nat} (hσ : Within h D A σ) :
    netVal (netOf h' (others h D A cn ++ [h.nn])) σ = netVal (netOf h A) σ := by
  have w := rd.ok.wf
  have ok' := copyContracted_forget C
  have rd' := rd.step C
  have hA : ∀ n ∈ (neighbours (forget h D) cn ++ [cn]) ++ others h D A cn, n < h.nn ∧ n ∉ D := by
    intro n hn
    exact rd.all.2 n (rd.perm.mem_iff.2 hn)
  have hnD : h.nn ∉ D := fun hm => absurd (rd.dead _ hm) (lt_irrefl _)
  have h1 : netVal (netOf h A) σ =
      netVal (netOf (forget h D) ((neighbours (forget h D) cn ++ [cn]) ++ others h D A cn)) σ := by
    rw [← netOf_forget (D := D) (fun n hn => (rd.all.2 n hn).2)]
    exact netVal_perm (rd.perm.map _) (w.consistent fun n hn => (rd.all.2 n hn).1) σ
  have h2 := C.value (others h D A cn) (rd.perm.nodup_iff.1 rd.all.1)
    (fun n hn => (hA n (List.mem_append_right _ hn)).1) σ (by
      rw [netOf_forget fun n hn => (hA n hn).2]
      intro e he hc
      exact hσ e (rd.flat_perm.mem_iff.2 he) (by rwa [rd.flat_perm.count_eq]))
  rw [h1, ← h2]
  have h3 : ∀ n ∈ h.nn :: others h D A cn, n ∉ D := by
    intro n hn
    rcases List.mem_cons.1 hn with rfl | hn
    · exact hnD
    · exact (hA n (List.mem_append_right _ hn)).2
  rw [netOf_forget h3]
  have hall' := rd'.all.2
  rw [← netOf_forget (D := D ++ neighbours (forget h D) cn) (ns := others h D A cn ++ [h.nn])
    (fun n hn => (hall' n hn).2)]
  refine (netVal_perm ((List.perm_append_singleton h.nn (others h D A cn)).map _)
    (ok'.wf.consistent fun n hn => (hall' n hn).1) σ).trans ?_
  congr 1
  have h4 : ∀ n ∈ h.nn :: others h D A cn, n ∉ D ++ neighbours (forget h D) cn := by
    intro n hn
    exact (hall' n ((List.perm_append_singleton _ _).mem_iff.2 hn)).2
  exact netOf_forget h4

/-- Neighbours of the copy nodes to come: the same nodes as before, as far as they are left. -/
theorem Ready.neighbours_iff (rd : Ready h D A N (cn :: order))
    (C : CopyContracted (forget h D) (forget h' D) cn h.nn) {c : NId} (hc : c ∈ order) {n : NId}
    (hn : n < h.nn) (hnD : n ∉ D) (hnP : n ∉ neighbours (forget h D) cn) (hnc : n ≠ cn) :
    n ∈ neighbours (forget h' (D ++ neighbours (forget h D) cn)) c ↔ n ∈ neighbours (forget h D) c := by
  have rd' := rd.step C
  obtain ⟨a1, a2, _, _⟩ := rd.copy c (by simp [hc])
  obtain ⟨b1, b2, _, b4⟩ := rd'.copy c hc
  have hcc : c ≠ cn := by
    rintro rfl
    exact (List.nodup_cons.1 rd.nodup).1 hc
  rw [mem_neighbours rd.ok.wf a1 (rd.hd (by simp [hc])), mem_neighbours rd'.ok.wf b1 (by
    rw [forget_node b2]; exact b4), forget_node a2, forget_node b2, Ready.keep C a1 a2 hcc]
  have : ∀ k e, At (forget h' (D ++ neighbours (forget h D) cn)) (n, k) e ↔ At (forget h D) (n, k) e :=
    fun k e => Ready.at_iff C hn (by simp [hnD, hnP]) hnc
  simp only [this]

/-- A copy node with a neighbour keeps one. -/
theorem Ready.neighbours_nil (rd : Ready h D A N (cn :: order))
    (C : CopyContracted (forget h D) (forget h' D) cn h.nn) {c : NId} (hc : c ∈ order)
    (hnil : neighbours (forget h' (D ++ neighbours (forget h D) cn)) c = []) :
    neighbours (forget h D) c = [] := by
  have rd' := rd.step C
  have w := rd.ok.wf
  obtain ⟨hcn, hcD, _, _⟩ := rd.copy cn (by simp)
  obtain ⟨a1, a2, _, _⟩ := rd.copy c (by simp [hc])
  obtain ⟨b1, b2, _, b4⟩ := rd'.copy c hc
  have hcc : c ≠ cn := by
    rintro rfl
    exact (List.nodup_cons.1 rd.nodup).1 hc
  have hmemc := fun p => mem_neighbours w a1 (rd.hd (by simp [hc])) (p := p)
  refine List.eq_nil_iff_forall_not_mem.2 fun p hp => ?_
  obtain ⟨p1, e, p2, k, p3⟩ := (hmemc p).1 hp
  rw [forget_node a2] at p2
  by_cases h1 : p = cn
  · subst h1
    refine rd.apart p (by simp) c (by simp [hc]) ?_
    refine (mem_neighbours w hcn (rd.hd (by simp))).2 ⟨hcc, e, p3.mem, (h.node c).edges.idxOf e, ?_⟩
    have := at_of_mem (h := forget h D) (n := c) (e := e) a1 (by rw [forget_node a2]; exact p2)
    rwa [forget_node a2] at this
  · by_cases h2 : p ∈ neighbours (forget h D) cn
    · have hnew : h.nn ∈ neighbours (forget h' (D ++ neighbours (forget h D) cn)) c := by
        refine (mem_neighbours rd'.ok.wf b1 (by rw [forget_node b2]; exact b4)).2 ⟨by omega, e, ?_, ?_⟩
        · rw [forget_node b2, Ready.keep C a1 a2 hcc]; exact p2
        · have hnD' : h.nn ∉ D ++ neighbours (forget h D) cn := (rd'.all.2 h.nn (by simp)).2
          have he : e ∈ ((forget h' D).node h.nn).edges := by
            rw [C.edges, List.mem_filter]
            refine ⟨List.mem_flatMap.2 ⟨p, h2, p3.mem⟩, ?_⟩
            simp only [decide_eq_true_eq]
            intro hm
            refine rd.apart cn (by simp) c (by simp [hc]) ?_
            refine (mem_neighbours w hcn (rd.hd (by simp))).2 ⟨hcc, e, hm, (h.node c).edges.idxOf e, ?_⟩
            have := at_of_mem (h := forget h D) (n := c) (e := e) a1 (by rw [forget_node a2]; exact p2)
            rwa [forget_node a2] at this
          rw [forget_node (fun x => hnD' (List.mem_append_left _ x))] at he
          have hnn : h'.nn = h.nn + 1 := C.nn
          exact ⟨_, at_of_mem (h := forget h' (D ++ neighbours (forget h D) cn)) (n := h.nn)
            (by show h.nn < h'.nn; omega) (by rw [forget_node hnD']; exact he)⟩
      rw [hnil] at hnew
      simp at hnew
    · have := (rd.neighbours_iff C hc p3.1 (not_dead p3) h2 h1).2 hp
      rw [hnil] at this
      simp at this

theorem Ready.length_le (rd : Ready h D A N (cn :: order))
    (C : CopyContracted (forget h D) (forget h' D) cn h.nn) :
    (flatL (netOf h' (others h D A cn ++ [h.nn]))).length ≤ (flatL (netOf h A)).length := by
  rw [(Ready.flat_new h').length_eq, rd.flat C, rd.flat_perm.length_eq]
  exact List.length_filter_le _ _

theorem Ready.remaining_le (rd : Ready h D A N (cn :: order)) :
    remaining (forget h D) cn ≤ (flatL (netOf h A)).length := by
  unfold remaining
  refine (List.length_filter_le _ _).trans ?_
  rw [rd.flat_perm.length_eq, flatL_netOf, List.flatMap_append, List.flatMap_append, List.length_append,
    List.length_append]
  have h2 : ((neighbours (forget h D) cn).flatMap fun n => ((forget h D).node n).edges) =
      (neighbours (forget h D) cn).flatMap fun n => (h.node n).edges := by
    rw [List.flatMap_def, List.flatMap_def]
    congr 1
    refine List.map_congr_left fun n hn => ?_
    rw [forget_node (rd.all.2 n ((rd.inner cn (by simp)).2 n hn)).2]
  rw [h2]
  omega

end

/-- What the loop returns. -/
structure Rounds [CommSemiring R] (h h' : Heap R) (D D' A N order N' : List NId) : Prop where
  ok : GraphOK (forget h' D')
  nodup : N'.Nodup
  live : ∀ n ∈ N', n < h'.nn ∧ n ∉ D'
  nn : h.nn ≤ h'.nn
  kept : ∀ n < h.nn, n ∈ N' ↔ n ∈ N ∧ n ∉ order ∧ ∀ cn ∈ order, n ∉ neighbours (forget h D) cn
  same : ∀ n ∈ N', n < h.nn → h'.node n = h.node n
  open_ : ∀ e, (flatL (netOf h' N')).count e = 1 ↔ (flatL (netOf h A)).count e = 1
  value : ∀ σ, Within h D A σ → netVal (netOf h' N') σ = netVal (netOf h A) σ

theorem bucketLoop_run [CommSemiring R] : ∀ (order : List NId) (h : Heap R) (D A N : List NId),
    Ready h D A N order →
    (∃ N' h' D', bucketLoop order N h = (.ok N', h') ∧ Rounds h h' D D' A N order N') ∨
    (∃ err h', bucketLoop order N h = (.error err, h') ∧ (err = .valueError ∨ err = .indexError) ∧
      (52 ≤ (flatL (netOf h A)).length ∨ ∃ cn ∈ order, neighbours (forget h D) cn = []))
  | [], h, D, A, N, rd => by
    left
    have hperm : N.Perm A := by
      refine (List.perm_ext_iff_of_nodup rd.sub.1 rd.all.1).2 fun n => ⟨rd.sub.2 n, fun hn => ?_⟩
      by_contra hc
      rcases rd.cover n hn hc with h1 | ⟨_, h1, _⟩ <;> simp at h1
    refine ⟨N, h, D, rfl, rd.ok, rd.sub.1, fun n hn => rd.all.2 n (rd.sub.2 n hn), le_refl _, ?_,
      fun _ _ _ => rfl, ?_, ?_⟩
    · intro n _; simp
    · intro e
      rw [flatL_netOf, flatL_netOf, (hperm.flatMap_right _).count_eq]
    · intro σ _
      rw [← netOf_forget (D := D) (fun n hn => (rd.all.2 n (rd.sub.2 n hn)).2),
        ← netOf_forget (D := D) (fun n hn => (rd.all.2 n hn).2)]
      exact netVal_perm (hperm.map _) (rd.ok.wf.consistent fun n hn =>
        (rd.all.2 n (rd.sub.2 n hn)).1) σ
  | cn :: order, h, D, A, N, rd => by
    obtain ⟨hcn, hcD, ⟨r, d, ht⟩, hd⟩ := rd.copy cn (by simp)
    obtain ⟨ps, g1, g2⟩ := bucket_partners rd.ok.wf hcn hcD hd
    rcases bucket_step rd.ok hcn hcD rd.dead ht hd with ⟨h1, s1, C⟩ | ⟨err, h1, s1, s2, s3⟩
    · have rd' := rd.step C
      have hrun : bucketLoop (cn :: order) N h = bucketLoop order
          (N.filter (fun n => n ∉ neighbours (forget h D) cn ++ [cn]) ++ [h.nn]) h1 := by
        conv_lhs => unfold bucketLoop
        refine (M.bind_ok g1).trans ?_
        refine (M.bind_ok s1).trans ?_
        rw [g2]
      have hnn : h1.nn = h.nn + 1 := C.nn
      rcases bucketLoop_run order h1 _ _ _ rd' with ⟨N', h', D', e1, q⟩ | ⟨err, h', e1, e2, e3⟩
      · left
        refine ⟨N', h', D', hrun.trans e1, q.ok, q.nodup, q.live, by have := q.nn; omega, ?_, ?_, ?_, ?_⟩
        · intro n hn
          rw [q.kept n (by omega)]
          have hm : n ∈ N.filter (fun n => n ∉ neighbours (forget h D) cn ++ [cn]) ++ [h.nn] ↔
              n ∈ N ∧ n ∉ neighbours (forget h D) cn ∧ n ≠ cn := by
            rw [List.mem_append, List.mem_filter]
            have : n ≠ h.nn := by omega
            simp [this]
          rw [hm]
          constructor
          · rintro ⟨⟨x1, x2, x3⟩, x4, x5⟩
            refine ⟨x1, by simp [x3, x4], ?_⟩
            intro c hc
            rcases List.mem_cons.1 hc with rfl | hc
            · exact x2
            · have hA := rd.all.2 n (rd.sub.2 n x1)
              rw [← rd.neighbours_iff C hc hn hA.2 x2 x3]
              exact x5 c hc
          · rintro ⟨x1, x2, x3⟩
            have hA := rd.all.2 n (rd.sub.2 n x1)
            have y1 := x3 cn (by simp)
            simp only [List.mem_cons, not_or] at x2
            refine ⟨⟨x1, y1, x2.1⟩, x2.2, ?_⟩
            intro c hc
            rw [rd.neighbours_iff C hc hn hA.2 y1 x2.1]
            exact x3 c (by simp [hc])
        · intro n hn hlt
          rw [q.same n hn (by omega)]
          have hm := ((q.kept n (by omega)).1 hn).1
          rcases List.mem_append.1 hm with hm | hm
          · obtain ⟨x1, x2⟩ := List.mem_filter.1 hm
            have hA := rd.all.2 n (rd.sub.2 n x1)
            exact Ready.keep C hlt hA.2 (by rintro rfl; simp at x2)
          · have : n = h.nn := by simpa using hm
            omega
        · intro e
          rw [q.open_ e]
          show (flatL (netOf h1 (others h D A cn ++ [h.nn]))).count e = 1 ↔ _
          by_cases he : e ∈ (h.node cn).edges
          · have h0 : (flatL (netOf h1 (others h D A cn ++ [h.nn]))).count e = 0 := by
              rw [List.count_eq_zero]
              exact fun hm => (rd.edim C hm).2.1 he
            rw [rd.count_copy he, h0]; simp
          · rw [rd.count C he]
        · intro σ hσ
          rw [q.value σ (rd.within C hσ)]
          exact rd.value C hσ
      · right
        refine ⟨err, h', hrun.trans e1, e2, ?_⟩
        rcases e3 with e3 | ⟨c, hc, e3⟩
        · exact .inl (e3.trans (rd.length_le C))
        · exact .inr ⟨c, by simp [hc], rd.neighbours_nil C hc e3⟩
    · right
      refine ⟨err, h1, ?_, s2, ?_⟩
      · unfold bucketLoop
        refine (M.bind_ok g1).trans ?_
        exact M.bind_error s1
      · rcases s3 with s3 | s3
        · exact .inr ⟨cn, by simp, s3⟩
        · exact .inl (s3.trans rd.remaining_le)

/-! ### The property -/

/-- `order` is a list of different copy nodes of the network `A` without dangling edges; no two of them are joined,
and all their neighbours belong to `A`. -/
structure CopyOrder [CommSemiring R] (h : Heap R) (A order : List NId) : Prop where
  nodup : order.Nodup
  copy : ∀ cn ∈ order, (∃ r d, (h.node cn).tensor = Copy.makeCopyTensor r d) ∧
    ∀ e ∈ (h.node cn).edges, (h.edge e).dangling = false
  apart : ∀ cn ∈ order, ∀ c ∈ order, c ∉ neighbours h cn
  inner : ∀ cn ∈ order, cn ∈ A ∧ ∀ p ∈ neighbours h cn, p ∈ A

/-- What `bucket` returns: the nodes `N'` in the graph `h'`, for the network `A` in `h`. -/
structure Bucketed [CommSemiring R] (h h' : Heap R) (A nodes order N' : List NId) : Prop where
  nodup : N'.Nodup
  /-- of the nodes given, those are left that are neither in the order nor joined to a node in it -/
  kept : ∀ n < h.nn, n ∈ N' ↔ n ∈ nodes ∧ n ∉ order ∧ ∀ cn ∈ order, n ∉ neighbours h cn
  /-- these are unchanged -/
  same : ∀ n ∈ N', n < h.nn → h'.node n = h.node n
  /-- the nodes returned, and all nodes that were not contracted, form a correct graph -/
  ok : ∃ D, (∀ n ∈ N', n < h'.nn ∧ n ∉ D) ∧ GraphOK (forget h' D)
  /-- the open edges are the same -/
  open_ : ∀ e, (flatL (netOf h' N')).count e = 1 ↔ (flatL (netOf h A)).count e = 1
  /-- the value of the network is the same -/
  value : ∀ σ : EId → Nat,
    (∀ e ∈ flatL (netOf h A), (flatL (netOf h A)).count e ≠ 2 → σ e < edim h e) →
    netVal (netOf h' N') σ = netVal (netOf h A) σ

theorem ready_start [CommSemiring R] {h : Heap R} {A nodes order : List NId} (w : GraphOK h)
    (hA : A.Nodup) (hlt : ∀ n ∈ A, n < h.nn) (ho : CopyOrder h A order) (hsub : ∀ n ∈ nodes, n ∈ A)
    (hcov : ∀ n ∈ A, n ∉ nodes → n ∈ order ∨ ∃ cn ∈ order, n ∈ neighbours h cn) :
    Ready h [] A nodes.dedup order := by
  have hf := forget_nil h
  refine ⟨by rw [hf]; exact w, by simp, ho.nodup, ?_, by rw [hf]; exact ho.apart,
    ⟨hA, fun n hn => ⟨hlt n hn, by simp⟩⟩, by rw [hf]; exact ho.inner,
    ⟨List.nodup_dedup _, fun n hn => hsub n (List.mem_dedup.1 hn)⟩, ?_⟩
  · intro cn hc
    exact ⟨hlt cn (ho.inner cn hc).1, by simp, ho.copy cn hc⟩
  · rw [hf]
    intro n hn hm
    exact hcov n hn (fun h => hm (List.mem_dedup.2 h))

/-- C56, partial: if no two copy nodes of the order are joined, `bucket` keeps the value of the network, for
every order; nodes of the network that are contracted anyway may be left out of the argument.  It can
raise only if there are 52 axes or more, or a copy node without a neighbour.
Missing: orders with joined copy nodes, where the claim is false (`C56_joined_raises`). -/
theorem C56_bucket_partial [CommSemiring R] {h : Heap R} {A nodes order : List NId} (w : GraphOK h)
    (hA : A.Nodup) (hlt : ∀ n ∈ A, n < h.nn) (ho : CopyOrder h A order) (hsub : ∀ n ∈ nodes, n ∈ A)
    (hcov : ∀ n ∈ A, n ∉ nodes → n ∈ order ∨ ∃ cn ∈ order, n ∈ neighbours h cn) :
    (∃ N' h', bucket nodes order h = (.ok N', h') ∧ Bucketed h h' A nodes order N') ∨
    (∃ err h', bucket nodes order h = (.error err, h') ∧ (err = .valueError ∨ err = .indexError) ∧
      (52 ≤ (flatL (netOf h A)).length ∨ ∃ cn ∈ order, neighbours h cn = [])) := by
  have rd := ready_start w hA hlt ho hsub hcov
  have hr := bucketLoop_run order h [] A nodes.dedup rd
  rw [forget_nil] at hr
  rcases hr with ⟨N', h', D', e1, q⟩ | ⟨err, h', e1, e2, e3⟩
  · left
    have hk := q.kept
    have hv := q.value
    unfold Within at hv
    rw [forget_nil] at hk hv
    refine ⟨N', h', e1, q.nodup, ?_, q.same, ⟨D', q.live, q.ok⟩, q.open_, hv⟩
    intro n hn
    rw [hk n hn, List.mem_dedup]
  · exact .inr ⟨err, h', e1, e2, e3⟩

end TN.Graph
