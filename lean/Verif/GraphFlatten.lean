import Verif.GraphTail

/-!
# Flattening edges: what the result means
-/

namespace TN.Graph

open TN

variable {R : Type}

/-- `hc` is `h` up to the order of the axes of its nodes. -/
structure Rearr [CommSemiring R] (h hc : Heap R) : Prop where
  wf : WF hc
  nn : hc.nn = h.nn
  ne : hc.ne = h.ne
  perm : ∀ n < h.nn, (hc.node n).edges.Perm (h.node n).edges
  entry : ∀ n < h.nn, ∀ σ : EId → Nat, val (hc.node n).tensor (hc.node n).edges σ =
    val (h.node n).tensor (h.node n).edges σ
  dangling : ∀ e, InUse h e → (hc.edge e).dangling = (h.edge e).dangling
  inUse : ∀ e, InUse hc e ↔ InUse h e
  dim : ∀ e, InUse h e → edim hc e = edim h e
  record : ∀ e, ¬ InUse h e → hc.edge e = h.edge e
  value : ∀ ns : List NId, (∀ m ∈ ns, m < h.nn) → ∀ σ : EId → Nat,
    netVal (netOf hc ns) σ = netVal (netOf h ns) σ

theorem Reordered.rearr [CommSemiring R] {h h' : Heap R} {n : NId} {es : List EId}
    (r : Reordered h h' n es) : Rearr h h' := by
  refine ⟨r.wf, r.nn, r.ne, ?_, ?_, r.dangling, r.inUse, r.dim, r.record, r.value⟩
  · intro m _
    by_cases h1 : m = n
    · subst h1; rw [r.edges]; exact r.perm
    · rw [r.other m h1]
  · intro m _ σ
    by_cases h1 : m = n
    · subst h1; rw [r.edges]; exact r.entry σ
    · rw [r.other m h1]

theorem Rearr.trans [CommSemiring R] {h h1 h2 : Heap R} (r1 : Rearr h h1) (r2 : Rearr h1 h2) :
    Rearr h h2 := by
  refine ⟨r2.wf, r2.nn.trans r1.nn, r2.ne.trans r1.ne, ?_, ?_, ?_, ?_, ?_, ?_, ?_⟩
  · intro n hn
    exact (r2.perm n (r1.nn ▸ hn)).trans (r1.perm n hn)
  · intro n hn σ
    rw [r2.entry n (r1.nn ▸ hn) σ, r1.entry n hn σ]
  · intro e he
    rw [r2.dangling e ((r1.inUse e).2 he), r1.dangling e he]
  · intro e
    exact (r2.inUse e).trans (r1.inUse e)
  · intro e he
    rw [r2.dim e ((r1.inUse e).2 he), r1.dim e he]
  · intro e he
    rw [r2.record e (fun hc => he ((r1.inUse e).1 hc)), r1.record e he]
  · intro ns hns σ
    rw [r2.value ns (fun m hm => r1.nn ▸ hns m hm), r1.value ns hns]

/-- The positions `σ` of the open edges of the network `ns` are in range. -/
def InRange (h : Heap R) (ns : List NId) (σ : EId → Nat) : Prop :=
  ∀ e ∈ flatL (netOf h ns), (flatL (netOf h ns)).count e ≠ 2 → σ e < edim h e

theorem Rearr.flat_count [CommSemiring R] {h hc : Heap R} (r : Rearr h hc) {ns : List NId}
    (hns : ∀ n ∈ ns, n < h.nn) (e : EId) :
    (flatL (netOf hc ns)).count e = (flatL (netOf h ns)).count e := by
  induction ns with
  | nil => rfl
  | cons n ns ih =>
    have e1 : ∀ k : Heap R, netOf k (n :: ns) =
      ((k.node n).tensor, (k.node n).edges) :: netOf k ns := fun _ => rfl
    rw [e1, e1, flatL_cons, flatL_cons, List.count_append, List.count_append,
      ih (fun m hm => hns m (by simp [hm]))]
    congr 1
    exact (r.perm n (hns n (by simp))).count_eq e

theorem Rearr.inRange [CommSemiring R] {h hc : Heap R} (r : Rearr h hc) {ns : List NId}
    (hns : ∀ n ∈ ns, n < h.nn) {σ : EId → Nat} (hσ : InRange h ns σ) : InRange hc ns σ := by
  intro e he h2
  rw [r.flat_count hns] at h2
  have he' : e ∈ flatL (netOf h ns) := by
    rw [← List.count_pos_iff, ← r.flat_count hns]; exact List.count_pos_iff.2 he
  rw [r.dim e (inUse_of_flat hns he')]
  exact hσ e he' h2

/-- `h'` is `h` after the edges `E` were flattened to the edge `new`. -/
structure Flattened [CommSemiring R] (h h' : Heap R) (E : List EId) (new : EId) : Prop where
  wf : WF h'
  nn : h'.nn = h.nn
  ne : h.ne ≤ h'.ne
  fresh : ¬ InUse h new
  new_ge : h.ne ≤ new
  inUse : InUse h' new
  /-- the other edges stay in order -/
  edges : ∀ n < h.nn, (h'.node n).edges.filter (fun e => e ≠ new) =
    (h.node n).edges.filter (fun e => e ∉ E)
  /-- the new edge is at the same nodes as the old ones -/
  count : ∀ n < h.nn, ∀ e ∈ E, (h'.node n).edges.count new = (h.node n).edges.count e
  /-- the new edge is the last one -/
  last : ∀ n < h.nn, (h'.node n).edges = (h.node n).edges.filter (fun e => e ∉ E) ++
    List.replicate ((h'.node n).edges.count new) new
  untouched : ∀ n < h.nn, (∀ e ∈ E, e ∉ (h.node n).edges) → h'.node n = h.node n
  dim : edim h' new = (E.map (edim h)).prod
  dangling : ∀ e ∈ E, (h'.edge new).dangling = (h.edge e).dangling
  rest : ∀ e, InUse h e → e ∉ E → InUse h' e ∧ (h'.edge e).dangling = (h.edge e).dangling ∧
    edim h' e = edim h e
  disabled : ∀ e ∈ E, (h'.edge e).disabled = true ∧ ¬ InUse h' e
  /-- edges that were not in the graph are not touched -/
  dead : ∀ e < h.ne, ¬ InUse h e → h'.edge e = h.edge e
  /-- the entries of the nodes: the positions of the group become one position in row-major
  order -/
  entry : ∀ n < h.nn, ∀ σ : EId → Nat, (∀ e ∈ (h.node n).edges, σ e < edim h e) →
    val (h'.node n).tensor (h'.node n).edges
      (Function.update σ new (ravel (E.map (edim h)) (E.map σ))) =
        val (h.node n).tensor (h.node n).edges σ
  /-- a summed group keeps the value -/
  value : (h'.edge new).dangling = false → ∀ ns : List NId, ns.Nodup → (∀ n ∈ ns, n < h.nn) →
    (∀ n < h.nn, (∃ e ∈ E, e ∈ (h.node n).edges) → n ∈ ns) → ∀ σ, InRange h ns σ →
    netVal (netOf h' ns) σ = netVal (netOf h ns) σ
  /-- an open group becomes one axis in row-major order -/
  value_open : (h'.edge new).dangling = true → ∀ ns : List NId, ns.Nodup →
    (∀ n ∈ ns, n < h.nn) → (∀ n < h.nn, (∃ e ∈ E, e ∈ (h.node n).edges) → n ∈ ns) →
    ∀ σ, InRange h ns σ →
    netVal (netOf h' ns) (Function.update σ new (ravel (E.map (edim h)) (E.map σ))) =
      netVal (netOf h ns) σ

theorem flattened_of [CommSemiring R] {h hc h' : Heap R} (r : Rearr h hc)
    (wg : WF h') (hnn : h'.nn = h.nn) (hnee : h.ne ≤ h'.ne) {new : EId} {E : List EId} (hE : E.Nodup) (hEne : E ≠ [])
    (hEu : ∀ e ∈ E, InUse h e) (hfresh : ¬ InUse h new) (hge : h.ne ≤ new)
    (hdead : ∀ e < h.ne, e ∉ E → h'.edge e = hc.edge e)
    (hEg : ∀ e ∈ E, (h'.edge e).disabled = true ∧ ¬ InUse h' e) (hcu : InUse h' new)
    (hdim : edim h' new = gdim (edim hc) E)
    (hrest : ∀ e, InUse hc e → e ∉ E → InUse h' e ∧
      (h'.edge e).dangling = (hc.edge e).dangling ∧ edim h' e = edim hc e)
    (huse : ∀ e, InUse h' e → e ≠ new → InUse hc e)
    (hn : ∀ n < hc.nn, Regroup (edim hc) new E ((hc.node n).tensor, (hc.node n).edges)
      ((h'.node n).tensor, (h'.node n).edges))
    (hfil : ∀ n < h.nn, (hc.node n).edges.filter (fun e => e ∉ E) =
      (h.node n).edges.filter (fun e => e ∉ E))
    (hunt : ∀ n < h.nn, (∀ e ∈ E, e ∉ (h.node n).edges) → h'.node n = h.node n)
    (hdang : ∀ e ∈ E, (h'.edge new).dangling = (h.edge e).dangling)
    (hback : ∀ n < h.nn, ∃ F k, (h'.node n).edges = F ++ List.replicate k new ∧ new ∉ F) :
    Flattened h h' E new := by
  have hnE : new ∉ E := fun hm => hfresh (hEu new hm)
  have hdis : ∀ n < h.nn, ∀ e ∈ E, e ∉ (h'.node n).edges := by
    intro n hlt e he hm
    exact (hEg e he).2 (inUse_of_mem (by rw [hnn]; exact hlt) hm)
  have hexp : ∀ n < h.nn, (hc.node n).edges = expand new E (h'.node n).edges :=
    fun n hlt => (hn n (by rw [r.nn]; exact hlt)).1
  have hcount : ∀ n < h.nn, ∀ e ∈ E, (h'.node n).edges.count new = (h.node n).edges.count e := by
    intro n hlt e he
    rw [← (r.perm n hlt).count_eq, hexp n hlt, count_expand hE (hdis n hlt), if_pos he]
  have hgd : gdim (edim hc) E = gdim (edim h) E := by
    unfold gdim
    congr 1
    exact List.map_congr_left fun e he => r.dim e (hEu e he)
  have hgp : ∀ σ : EId → Nat, gpos (edim hc) E σ = ravel (E.map (edim h)) (E.map σ) := by
    intro σ
    unfold gpos
    congr 1
    exact List.map_congr_left fun e he => r.dim e (hEu e he)
  obtain ⟨e0, he0⟩ := List.exists_mem_of_ne_nil E hEne
  have hall : ∀ ns : List NId, (∀ n < h.nn, (∃ e ∈ E, e ∈ (h.node n).edges) → n ∈ ns) →
      ∀ s, At h' s new → s.1 ∈ ns := by
    intro ns hns s hs
    have hlt : s.1 < h.nn := by rw [← hnn]; exact hs.1
    refine hns s.1 hlt ⟨e0, he0, ?_⟩
    rw [← List.count_pos_iff, ← hcount s.1 hlt e0 he0]
    exact List.count_pos_iff.2 hs.mem
  have hval : ∀ ns : List NId, ns.Nodup → (∀ n ∈ ns, n < h.nn) →
      (∀ n < h.nn, (∃ e ∈ E, e ∈ (h.node n).edges) → n ∈ ns) → ∀ σ, InRange h ns σ → _ :=
    fun ns h1 h2 h3 σ h4 => regroup_value r.wf wg (by rw [hnn, r.nn]) hE hnE
      (fun e he => (hEg e he).2) hcu hdim
      (fun e hu hne => (hrest e (huse e hu hne) (fun hm => (hEg e hm).2 hu)).2.2) hn h1
      (fun n hm => by rw [r.nn]; exact h2 n hm) (hall ns h3) σ (r.inRange h2 h4)
  have hedges : ∀ n < h.nn, (h'.node n).edges.filter (fun e => e ≠ new) =
      (h.node n).edges.filter (fun e => e ∉ E) := by
    intro n hlt
    rw [← hfil n hlt, hexp n hlt]
    have : ∀ ls : List EId, (∀ e ∈ E, e ∉ ls) →
        (expand new E ls).filter (fun e => e ∉ E) = ls.filter (fun e => e ≠ new) := by
      intro ls
      induction ls with
      | nil => intro _; rfl
      | cons a ls ih =>
        intro hd
        have ih := ih fun e he hm => hd e he (by simp [hm])
        have haE : a ∉ E := fun hm => hd a hm (by simp)
        rw [expand, List.flatMap_cons, List.filter_append]
        change _ ++ (expand new E ls).filter _ = _
        rw [ih]
        by_cases hac : a = new
        · rw [if_pos hac, List.filter_cons_of_neg (by simp [hac])]
          have : E.filter (fun e => e ∉ E) = [] := by
            rw [List.filter_eq_nil_iff]; intro e he; simp [he]
          rw [this]; rfl
        · rw [if_neg hac, List.filter_cons_of_pos (by simp [haE]),
            List.filter_cons_of_pos (by simp [hac])]
          rfl
    exact (this _ (hdis n hlt)).symm
  refine ⟨wg, hnn, hnee, hfresh, hge, hcu, hedges, hcount, ?_, hunt, ?_, hdang, ?_, hEg,
    fun e hlt hu => by rw [hdead e hlt (fun hm => hu (hEu e hm)), r.record e hu], ?_, ?_, ?_⟩
  · intro n hlt
    obtain ⟨F, k, hF, hnF⟩ := hback n hlt
    rw [← hedges n hlt, hF, List.filter_append, List.count_append,
      List.count_eq_zero_of_not_mem hnF, List.count_replicate_self, Nat.zero_add,
      List.filter_eq_self.2 (by intro e he; simpa using fun h1 : e = new => hnF (h1 ▸ he)),
      List.filter_eq_nil_iff.2 (by
        intro e he; simp [List.eq_of_mem_replicate he]), List.append_nil]
  · rw [hdim, hgd]; rfl
  · intro e hu he
    obtain ⟨h1, h2, h3⟩ := hrest e ((r.inUse e).2 hu) he
    exact ⟨h1, by rw [h2, r.dangling e hu], by rw [h3, r.dim e hu]⟩
  · intro n hlt σ hσ
    rw [← hgp, (hn n (by rw [r.nn]; exact hlt)).2 σ, r.entry n hlt]
    intro e he
    have he2 := (r.perm n hlt).mem_iff.1 he
    rw [r.dim e (inUse_of_mem hlt he2)]
    exact hσ e he2
  · intro hd ns h1 h2 h3 σ h4
    rw [(hval ns h1 h2 h3 σ h4).1 hd, r.value ns h2]
  · intro hd ns h1 h2 h3 σ h4
    rw [← hgp, (hval ns h1 h2 h3 σ h4).2 hd, r.value ns h2]

theorem Joined.use [CommSemiring R] {h h' : Heap R} {a b c : EId} (j : Joined h h' a b c)
    {e : EId} (hu : InUse h' e) : e = c ∨ (InUse h e ∧ e ≠ a ∧ e ≠ b) := by
  obtain ⟨s, hs⟩ := hu
  have hlt : s.1 < h.nn := by rw [← j.nn]; exact hs.1
  have h2 := hs.2
  rw [(j.nodes s.1 hlt).2, List.getElem?_map, Option.map_eq_some_iff] at h2
  obtain ⟨e0, h3, h4⟩ := h2
  unfold glue at h4
  split_ifs at h4 with hab
  · exact .inl h4.symm
  · rw [not_or] at hab
    subst h4
    exact .inr ⟨⟨s, hlt, h3⟩, hab⟩

theorem Joined.at_rest [CommSemiring R] {h h' : Heap R} {a b c : EId} (j : Joined h h' a b c)
    {e : EId} {s : Slot} (hs : At h s e) (ha : e ≠ a) (hb : e ≠ b) : At h' s e := by
  refine ⟨by rw [j.nn]; exact hs.1, ?_⟩
  rw [(j.nodes s.1 hs.1).2, List.getElem?_map, hs.2]
  simp [glue, ha, hb]

theorem Joined.dimAt [CommSemiring R] {h h' : Heap R} {a b c : EId} (j : Joined h h' a b c)
    {s : Slot} (hs : s.1 < h.nn) : dimAt h' s = dimAt h s := by
  simp only [Graph.dimAt, Heap.shape, (j.nodes s.1 hs).1]

theorem Joined.rest [CommSemiring R] {h h' : Heap R} (w : WF h) {a b c : EId}
    (j : Joined h h' a b c) {e : EId} (hu : InUse h e) (ha : e ≠ a) (hb : e ≠ b) :
    InUse h' e ∧ h'.edge e = h.edge e ∧ edim h' e = edim h e := by
  obtain ⟨s, hs⟩ := hu
  have h1 := j.at_rest hs ha hb
  refine ⟨h1.inUse, j.other e hs.inUse ha hb, ?_⟩
  rw [j.wf.edim_eq h1, w.edim_eq hs, j.dimAt hs.1]

theorem Joined.new [CommSemiring R] {h h' : Heap R} (w : WF h) {a b c : EId}
    (j : Joined h h' a b c) : InUse h' c ∧ (h'.edge c).dangling = false ∧
      edim h' c = edim h a := by
  obtain ⟨n, x, m, y, h1, h2, h3⟩ := j.joined
  have h4 : At h' (n, x) c := by
    refine ⟨by rw [j.nn]; exact h1.1, ?_⟩
    rw [(j.nodes n h1.1).2, List.getElem?_map, h1.2]
    simp [glue]
  refine ⟨h4.inUse, by rw [h3], ?_⟩
  rw [j.wf.edim_eq h4, w.edim_eq h1, j.dimAt h1.1]

theorem Rearr.gdim_eq [CommSemiring R] {h hc : Heap R} (r : Rearr h hc) {E : List EId}
    (hE : ∀ e ∈ E, InUse h e) : gdim (edim hc) E = gdim (edim h) E := by
  unfold gdim
  congr 1
  exact List.map_congr_left fun e he => r.dim e (hE e he)

theorem Rearr.gpos_eq [CommSemiring R] {h hc : Heap R} (r : Rearr h hc) {E : List EId}
    (hE : ∀ e ∈ E, InUse h e) (σ : EId → Nat) : gpos (edim hc) E σ = gpos (edim h) E σ := by
  unfold gpos
  congr 1
  exact List.map_congr_left fun e he => r.dim e (hE e he)

/-- Both ends of a group of edges between two nodes are flattened, then joined. -/
theorem flattenPair_run [CommSemiring R] {h : Heap R} (w : WF h) {m1 m2 : NId} (hm : m1 ≠ m2)
    (hm1 : m1 < h.nn) (hm2 : m2 < h.nn) {E : List EId} (hE : E.Nodup) (hEne : E ≠ [])
    (hS : ∀ e ∈ E, InUse h e ∧ Between h m1 m2 e) :
    ∃ h', (do
        let f1 ← flattenAt E m1
        let f2 ← flattenAt E m2
        M.forEach E disable
        connect f1 f2) h = (.ok (h.ne + 2), h') ∧ Flattened h h' E (h.ne + 2) := by
  have hEu : ∀ e ∈ E, InUse h e := fun e he => (hS e he).1
  have hltm : ∀ n < h.nn, ∀ e ∈ (h.node n).edges, e < h.ne := fun n hn e he =>
    w.lt (inUse_of_mem hn he)
  have hltu : ∀ e, InUse h e → e < h.ne := fun e he => w.lt he
  have c1 : ∀ e ∈ E, (h.node m1).edges.count e = 1 := fun e he =>
    (hS e he).2.count_one w (hS e he).1 hm hm1
  have c2 : ∀ e ∈ E, (h.node m2).edges.count e = 1 := fun e he =>
    (hS e he).2.symm.count_one w (hS e he).1 hm.symm hm2
  obtain ⟨p1, q1⟩ := back_perm hE c1
  obtain ⟨p2, q2⟩ := back_perm hE c2
  -- the reorderings alone
  obtain ⟨t1, ht1, x1, hx1, hx1n, hx1nn, hx1ne, hR1⟩ := reorder_core w hm1 p1 (x := h)
    (fun _ => rfl) rfl rfl rfl
  rw [q1] at hR1
  obtain ⟨F1, hF1⟩ : ∃ F, F = (h.node m1).edges.filter (fun e => e ∉ E) := ⟨_, rfl⟩
  obtain ⟨F2, hF2⟩ : ∃ F, F = (h.node m2).edges.filter (fun e => e ∉ E) := ⟨_, rfl⟩
  rw [← hF1] at hR1 q1
  obtain ⟨ha, hha⟩ : ∃ ha : Heap R, ha = ⟨Function.update h.node m1 ⟨t1, F1 ++ E⟩, x1.edge,
    h.nn, h.ne⟩ := ⟨_, rfl⟩
  have r1 : Reordered h ha m1 (F1 ++ E) := by
    apply hR1 <;> rw [hha]
  have han2 : ha.node m2 = h.node m2 := by
    rw [hha]; simp only; rw [Function.update_of_ne hm.symm]
  obtain ⟨t2, ht2, x2, hx2, hx2n, hx2nn, hx2ne, hR2⟩ := reorder_core r1.wf (n := m2)
    (by rw [r1.nn]; exact hm2)
    (perm := otherAxes (h.node m2).edges.length (E.map (h.node m2).edges.idxOf) ++
      E.map (h.node m2).edges.idxOf) (by rw [han2]; exact p2) (x := ha)
    (fun _ => rfl) rfl rfl rfl
  rw [han2, q2, ← hF2] at hR2
  rw [han2] at ht2 hx2
  rw [← hF2] at q2
  obtain ⟨hc, hhc⟩ : ∃ hc : Heap R, hc = ⟨Function.update ha.node m2 ⟨t2, F2 ++ E⟩, x2.edge,
    ha.nn, ha.ne⟩ := ⟨_, rfl⟩
  have r2 : Reordered ha hc m2 (F2 ++ E) := by
    apply hR2 <;> rw [hhc]
  have r : Rearr h hc := r1.rearr.trans r2.rearr
  -- the actual run
  obtain ⟨u1, hu1, hu1s, hu1v⟩ := flattenAt_run hE c1 (hltm m1 hm1) (w.shaped hm1) ht1 hx1
  rw [← hF1] at hu1 hu1s hu1v
  obtain ⟨hb, hhb⟩ : ∃ hb : Heap R, hb = ⟨Function.update h.node m1 ⟨u1, F1 ++ [h.ne]⟩,
    Function.update x1.edge h.ne (.dang m1 F1.length), h.nn, h.ne + 1⟩ := ⟨_, rfl⟩
  rw [← hhb] at hu1
  have hbn2 : hb.node m2 = h.node m2 := by
    rw [hhb]; simp only; rw [Function.update_of_ne hm.symm]
  have hbe : ∀ e, e ≠ h.ne → hb.edge e = ha.edge e := by
    intro e he
    rw [hhb, hha]; simp only; rw [Function.update_of_ne he]
  have hmv : ∀ e, e ∈ (reorderMoves m2 (h.node m2).edges
      (otherAxes (h.node m2).edges.length (E.map (h.node m2).edges.idxOf) ++
        E.map (h.node m2).edges.idxOf)).map Prod.fst ↔ e ∈ (h.node m2).edges :=
    reorderMoves_fst m2 p2
  obtain ⟨fr, fr'⟩ := updAll_frame (b := hb) hx2 (by
    intro u hu
    refine hbe _ (Nat.ne_of_lt (hltm m2 hm2 _ ?_))
    rw [← hmv]; exact List.mem_map_of_mem hu)
  obtain ⟨u2, hu2, hu2s, hu2v⟩ := flattenAt_run (h := hb) (n := m2) (dim := edim h) (t' := t2)
    (E := E) hE (by rw [hbn2]; exact c2) (by
      rw [hbn2]; intro e he; have := hltm m2 hm2 e he; rw [hhb]; simp only; omega)
    (by rw [hbn2]; exact w.shaped hm2) (by rw [hbn2]; exact ht2) (by rw [hbn2]; exact fr)
  rw [hbn2, ← hF2] at hu2 hu2s hu2v
  have hbne : hb.ne = h.ne + 1 := by rw [hhb]
  have hbnn : hb.nn = h.nn := by rw [hhb]
  rw [hbne, hbnn] at hu2
  obtain ⟨hd, hhd⟩ : ∃ hd, flattenAt E m2 hb = (.ok (h.ne + 1), hd) ∧
      hd.node = Function.update hb.node m2 ⟨u2, F2 ++ [h.ne + 1]⟩ ∧ hd.nn = h.nn ∧
      hd.ne = h.ne + 2 ∧ (∀ e < h.ne, hd.edge e = hc.edge e) ∧
      hd.edge h.ne = .dang m1 F1.length ∧ hd.edge (h.ne + 1) = .dang m2 F2.length := by
    refine ⟨_, hu2, rfl, rfl, rfl, ?_, ?_, ?_⟩
    · intro e he
      simp only
      rw [Function.update_of_ne (by omega)]
      by_cases h3 : e ∈ (reorderMoves m2 (h.node m2).edges
        (otherAxes (h.node m2).edges.length (E.map (h.node m2).edges.idxOf) ++
          E.map (h.node m2).edges.idxOf)).map Prod.fst
      · rw [if_pos h3, hhc]
      · rw [if_neg h3, hbe e (by omega), ← fr' e h3, hhc]
    · simp only
      rw [Function.update_of_ne (by omega), if_neg, hhb]
      · simp only; rw [Function.update_self]
      · rw [hmv]
        intro h3
        have := hltm m2 hm2 _ h3
        omega
    · simp only
      rw [Function.update_self]
  obtain ⟨hd1, hdn, hdnn, hdne, hde, hde1, hde2⟩ := hhd
  obtain ⟨hq, hhq⟩ : ∃ hq, hq = disableHeap hd E := ⟨_, rfl⟩
  have hqn : ∀ n, hq.node n = if n = m2 then ⟨u2, F2 ++ [h.ne + 1]⟩ else
      if n = m1 then ⟨u1, F1 ++ [h.ne]⟩ else h.node n := by
    intro n
    rw [hhq]; simp only [disableHeap]
    rw [hdn, Function.update_apply, hhb]
    simp only
    rw [Function.update_apply]
  have hcn : ∀ n, hc.node n = if n = m2 then ⟨t2, F2 ++ E⟩ else
      if n = m1 then ⟨t1, F1 ++ E⟩ else h.node n := by
    intro n
    rw [hhc]; simp only
    rw [Function.update_apply, hha]
    simp only
    rw [Function.update_apply]
  have hqe : ∀ e, e < h.ne → e ∉ E → hq.edge e = hc.edge e := by
    intro e h1 h2
    rw [hhq]; simp only [disableHeap]; rw [if_neg h2, hde e h1]
  have hEn : ∀ k, h.ne + k ∉ E := fun k hk => by
    have := hltu _ (hEu _ hk); omega
  have hqe1 : hq.edge h.ne = .dang m1 F1.length := by
    rw [hhq]; simp only [disableHeap]; rw [if_neg (show h.ne ∉ E from hEn 0), hde1]
  have hqe2 : hq.edge (h.ne + 1) = .dang m2 F2.length := by
    rw [hhq]; simp only [disableHeap]; rw [if_neg (hEn 1), hde2]
  have hqnn : hq.nn = h.nn := by rw [hhq]; exact hdnn
  have hqne : hq.ne = h.ne + 2 := by rw [hhq]; exact hdne
  have hF1m : ∀ e ∈ F1, e ∈ (h.node m1).edges ∧ e ∉ E := by
    intro e he; rw [hF1, List.mem_filter] at he; simpa using he
  have hF2m : ∀ e ∈ F2, e ∈ (h.node m2).edges ∧ e ∉ E := by
    intro e he; rw [hF2, List.mem_filter] at he; simpa using he
  have e1 : (if m1 = m2 then (⟨u2, F2 ++ [h.ne + 1]⟩ : NodeRec R) else
      if m1 = m1 then ⟨u1, F1 ++ [h.ne]⟩ else h.node m1) = ⟨u1, F1 ++ [h.ne]⟩ := by
    rw [if_neg hm, if_pos rfl]
  have e2 : (if m2 = m2 then (⟨u2, F2 ++ [h.ne + 1]⟩ : NodeRec R) else
      if m2 = m1 then ⟨u1, F1 ++ [h.ne]⟩ else h.node m2) = ⟨u2, F2 ++ [h.ne + 1]⟩ := by
    rw [if_pos rfl]
  have hdimF : ∀ F : List EId, (∀ e ∈ F, InUse h e) → F.map (edim h) = F.map (edim hc) :=
    fun F hF => List.map_congr_left fun e he => (r.dim e (hF e he)).symm
  have tw := tail_wf (hc := hc) (hm := hq) r.wf (T := [m1, m2]) (dead := fun e => e ∈ E)
    (F := fun n => if n = m1 then F1 else F2) (X := fun _ => E)
    (Y := fun n => if n = m1 then [h.ne] else [h.ne + 1])
    (Ds := fun _ => [gdim (edim h) E]) (by rw [hqnn, r.nn]) (by rw [hqne, r.ne]; omega)
    (by
      intro n hn
      rw [hcn]
      simp only [List.mem_cons, List.not_mem_nil, or_false] at hn
      rcases hn with rfl | rfl
      · rw [if_neg hm, if_pos rfl, if_pos rfl]
      · rw [if_pos rfl, if_neg hm.symm])
    (fun _ _ _ he => he)
    (by
      intro n hn e he
      split_ifs at he with h1
      · exact (hF1m e he).2
      · exact (hF2m e he).2)
    (by
      intro n hn
      simp only [List.mem_cons, List.not_mem_nil, or_false, not_or] at hn
      rw [hqn, hcn, if_neg hn.2, if_neg hn.1, if_neg hn.2, if_neg hn.1])
    (by
      intro n hn hnT e he heE
      simp only [List.mem_cons, List.not_mem_nil, or_false, not_or] at hnT
      rw [hcn, if_neg hnT.2, if_neg hnT.1] at he
      rw [r.nn] at hn
      have := (hS e heE).2.at_mem w (at_of_mem hn he)
      simp only [List.mem_cons, List.not_mem_nil, or_false] at this
      tauto)
    (by
      intro n hn
      rw [hqn]
      simp only [List.mem_cons, List.not_mem_nil, or_false] at hn
      rcases hn with rfl | rfl
      · rw [e1, if_pos rfl, if_pos rfl]
      · rw [e2, if_neg hm.symm, if_neg hm.symm])
    (by
      intro n hn
      rw [hqn]
      simp only [List.mem_cons, List.not_mem_nil, or_false] at hn
      rcases hn with rfl | rfl
      · rw [e1, if_pos rfl, ← hdimF F1 (fun e he => inUse_of_mem hm1 (hF1m e he).1)]
        exact hu1s
      · rw [e2, if_neg hm.symm, ← hdimF F2 (fun e he => inUse_of_mem hm2 (hF2m e he).1)]
        exact hu2s)
    (by intro n hn; split_ifs <;> rfl)
    (by
      intro n hn hlt i e he
      simp only [List.mem_cons, List.not_mem_nil, or_false] at hn
      rcases hn with rfl | rfl
      · rw [if_pos rfl] at he ⊢
        rcases i with _ | i
        · simp only [List.getElem?_cons_zero, Option.some.injEq] at he
          subst he
          refine edgeOK_dang ⟨by rw [hqnn]; exact hm1, ?_⟩ (by rw [hqne]; omega) hqe1
          simp only
          rw [hqn, e1]
          simp
        · simp at he
      · rw [if_neg hm.symm] at he ⊢
        rcases i with _ | i
        · simp only [List.getElem?_cons_zero, Option.some.injEq] at he
          subst he
          refine edgeOK_dang ⟨by rw [hqnn]; exact hm2, ?_⟩ (by rw [hqne]; omega) hqe2
          simp only
          rw [hqn, e2]
          simp
        · simp at he)
    (by
      intro e he hd
      exact hqe e (hltu e ((r.inUse e).1 he)) hd)
  obtain ⟨wq, qu, ql⟩ := tw
  have a1 : At hq (m1, F1.length) h.ne := by
    refine ⟨by rw [hqnn]; exact hm1, ?_⟩
    simp only
    rw [hqn, e1]; simp
  have a2 : At hq (m2, F2.length) (h.ne + 1) := by
    refine ⟨by rw [hqnn]; exact hm2, ?_⟩
    simp only
    rw [hqn, e2]; simp
  have d1 : edim hq h.ne = gdim (edim h) E := by
    rw [wq.edim_eq a1]
    simp only [dimAt, Heap.shape]
    rw [hqn, e1]
    simp only
    rw [hu1s, List.getD_append_right _ _ _ _ (by simp)]
    simp
  have d2 : edim hq (h.ne + 1) = gdim (edim h) E := by
    rw [wq.edim_eq a2]
    simp only [dimAt, Heap.shape]
    rw [hqn, e2]
    simp only
    rw [hu2s, List.getD_append_right _ _ _ _ (by simp)]
    simp
  obtain ⟨h', k1, k2, k3, k4⟩ := connect_ok wq a1.inUse a2.inUse (by rw [hqe1]) (by rw [hqe2])
    (by omega) (by rw [d1, d2])
  rw [hqne] at k1 k2 k3 k4
  refine ⟨h', ?_, ?_⟩
  · rw [M.bind_ok hu1, M.bind_ok hd1, M.bind_ok (disableAll hd E), ← hhq]
    exact k1
  obtain ⟨nw1, nw2, nw3⟩ := k2.new wq
  have fresh : ∀ k, ¬ InUse h (h.ne + k) := fun k hk => by have := hltu _ hk; omega
  have hEq : ∀ e ∈ E, ¬ InUse hq e := by
    intro e he hu
    rcases qu e hu with h1 | ⟨n, hn, h1⟩
    · exact h1.2 he
    · split_ifs at h1
      · rw [List.mem_singleton.1 h1] at he; exact hEn 0 he
      · rw [List.mem_singleton.1 h1] at he; exact hEn 1 he
  have gl : ∀ F : List EId, (∀ e ∈ F, e < h.ne) →
      F.map (glue h.ne (h.ne + 1) (h.ne + 2)) = F := by
    intro F hF
    rw [List.map_congr_left (g := id)]
    · simp
    · intro e he
      have := hF e he
      simp only [glue, id]
      rw [if_neg (by omega)]
  have nodes : ∀ n < h.nn, h'.node n = if n = m2 then ⟨u2, F2 ++ [h.ne + 2]⟩ else
      if n = m1 then ⟨u1, F1 ++ [h.ne + 2]⟩ else h.node n := by
    intro n hn
    obtain ⟨k5, k6⟩ := k2.nodes n (by rw [hqnn]; exact hn)
    have : h'.node n = ⟨(hq.node n).tensor, (hq.node n).edges.map
      (glue h.ne (h.ne + 1) (h.ne + 2))⟩ := by rw [← k5, ← k6]
    rw [this, hqn]
    split_ifs with i1 i2
    · simp only [List.map_append]
      rw [gl F2 (fun e he => hltm m2 hm2 e (hF2m e he).1)]
      simp [glue]
    · simp only [List.map_append]
      rw [gl F1 (fun e he => hltm m1 hm1 e (hF1m e he).1)]
      simp [glue]
    · rw [gl _ (fun e he => hltm n hn e he)]
  have fF : ∀ F : List EId, (∀ e ∈ F, e ∉ E) → (F ++ E).filter (fun e => e ∉ E) = F := by
    intro F hF
    rw [List.filter_append, List.filter_eq_self.2 (by simpa using hF),
      List.filter_eq_nil_iff.2 (by simp), List.append_nil]
  refine flattened_of r k2.wf (by rw [k2.nn, hqnn]) (by rw [k3]; omega) hE hEne hEu (fresh 2) (by omega)
    (fun e hlt he => by rw [k4 e (by omega), hqe e hlt he]) ?_ nw1 ?_ ?_ ?_ ?_ ?_ ?_ ?_ ?_
  · intro e he
    refine ⟨?_, ?_⟩
    · rw [k4 e (fun h1 => hEn 2 (h1 ▸ he)), hhq]
      simp only [disableHeap]
      rw [if_pos he]
    · intro hu
      rcases k2.use hu with h1 | h1
      · exact hEn 2 (h1 ▸ he)
      · exact hEq e he h1.1
  · rw [nw3, d1, r.gdim_eq hEu]
  · intro e hu he
    obtain ⟨h1, h2⟩ := ql e hu he
    have hlt := hltu e ((r.inUse e).1 hu)
    obtain ⟨h3, h4, h5⟩ := k2.rest wq h1 (by omega) (by omega)
    exact ⟨h3, by rw [h4, hqe e hlt he], by rw [h5, h2]⟩
  · intro e hu hne
    rcases k2.use hu with h1 | ⟨h1, h2, h3⟩
    · exact absurd h1 hne
    · rcases qu e h1 with h4 | ⟨n, hn, h4⟩
      · exact h4.1
      · split_ifs at h4
        · exact absurd (List.mem_singleton.1 h4) h2
        · exact absurd (List.mem_singleton.1 h4) h3
  · intro n hn
    rw [r.nn] at hn
    have touched : ∀ (F : List EId) (u : NDArray R), (∀ e ∈ F, e ∈ (h.node n).edges ∧ e ∉ E) →
        (hc.node n).edges = F ++ E → h'.node n = ⟨u, F ++ [h.ne + 2]⟩ →
        (∀ (τ : EId → Nat), (∀ l ∈ (h.node n).edges, τ l < edim h l) →
          val u (F ++ [h.ne + 2]) (Function.update τ (h.ne + 2) (gpos (edim h) E τ)) =
            val (h.node n).tensor (h.node n).edges τ) →
        Regroup (edim hc) (h.ne + 2) E ((hc.node n).tensor, (hc.node n).edges)
          ((h'.node n).tensor, (h'.node n).edges) := by
      intro F u hFm g1 g2 g3
      rw [g2]
      refine ⟨?_, ?_⟩
      · simp only
        rw [g1, expand_append, expand_of_not_mem, expand_single]
        intro h1
        have := hltm n hn _ (hFm _ h1).1
        omega
      · intro τ hτ
        simp only at hτ ⊢
        rw [r.gpos_eq hEu, r.entry n hn]
        refine g3 τ fun l hl => ?_
        rw [← r.dim l (inUse_of_mem hn hl)]
        exact hτ l ((r.perm n hn).mem_iff.2 hl)
    by_cases i1 : n = m2
    · subst i1
      refine touched F2 u2 hF2m (by rw [hcn, if_pos rfl]) (by rw [nodes n hn, if_pos rfl]) ?_
      intro τ hτ
      exact hu2v (h.ne + 2) τ (fun h1 => by have := hltm n hn _ h1; omega) hτ
    · by_cases i2 : n = m1
      · subst i2
        refine touched F1 u1 hF1m (by rw [hcn, if_neg i1, if_pos rfl])
          (by rw [nodes n hn, if_neg i1, if_pos rfl]) ?_
        intro τ hτ
        exact hu1v (h.ne + 2) τ (fun h1 => by have := hltm n hn _ h1; omega) hτ
      · rw [nodes n hn, hcn, if_neg i1, if_neg i2, if_neg i1, if_neg i2]
        refine Regroup.refl ?_
        intro h1
        have := hltm n hn _ h1
        omega
  · intro n hn
    rw [hcn]
    split_ifs with i1 i2
    · subst i1
      rw [← hF2]; exact fF F2 fun e he => (hF2m e he).2
    · subst i2
      rw [← hF1]; exact fF F1 fun e he => (hF1m e he).2
    · rfl
  · intro n hn hno
    obtain ⟨e0, he0⟩ := List.exists_mem_of_ne_nil E hEne
    rw [nodes n hn, if_neg, if_neg]
    · rintro rfl
      exact hno e0 he0 (List.count_pos_iff.1 (by rw [c1 e0 he0]; omega))
    · rintro rfl
      exact hno e0 he0 (List.count_pos_iff.1 (by rw [c2 e0 he0]; omega))
  · intro e he
    rw [nw2, (hS e he).2.not_dangling]
  · intro n hn
    have hold : ∀ F : List EId, (∀ e ∈ F, e ∈ (h.node n).edges) → h.ne + 2 ∉ F :=
      fun F hF h1 => by have := hltm n hn _ (hF _ h1); omega
    rw [nodes n hn]
    split_ifs with i1 i2
    · exact ⟨F2, 1, rfl, hold F2 fun e he => i1 ▸ (hF2m e he).1⟩
    · exact ⟨F1, 1, rfl, hold F1 fun e he => i2 ▸ (hF1m e he).1⟩
    · exact ⟨_, 0, by simp, hold _ fun e he => he⟩

end TN.Graph
