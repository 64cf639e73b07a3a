import Verif.GraphRedirect

/-!
# Slicing an edge
-/

namespace TN

/-- First position and number of positions selected by the Python slice `start:stop` on an
axis of dimension `d`. -/
def sliceBounds (d : Nat) (start stop : Int) : Nat × Nat :=
  let norm (x : Int) : Nat := if x < 0 then (x + d).toNat else min x.toNat d
  (norm start, norm stop - norm start)

/-- `backend.slice(tensor, start_indices, slice_sizes)` (numpy_backend.py:64-72). -/
def NDArray.slice {R : Type*} (t : NDArray R) (starts sizes : List Int) : Py (NDArray R) :=
  if starts.length ≠ sizes.length then .error .valueError
  else
    let b := (t.shape.zip (starts.zip sizes)).map (fun x => sliceBounds x.1 x.2.1 (x.2.1 + x.2.2))
    .ok ⟨b.map Prod.snd, fun idx => t.get (List.zipWith (· + ·) (b.map Prod.fst) idx)⟩

end TN

namespace TN.Graph

open TN

variable {R : Type}

/-- One round of the loop of `slice_edge` (network_components.py:1669-1680). -/
def sliceAxis (n axis : Nat) (start length : Int) : M R Unit := do
  let t ← nodeTensor n
  let starts := (List.replicate t.ndim (0 : Int)).set axis start
  let sizes := (t.shape.map (fun d : Nat => (d : Int))).set axis length
  let t' ← M.lift (t.slice starts sizes)
  setTensor n t'

/-- `slice_edge(edge, start_index, length)` (network_components.py:1636-1682). -/
def sliceEdge (e : EId) (start length : Int) : M R EId := do
  if length ≤ 0 then M.throw .valueError
  else do
    let d ← dimension e
    if start + length > d ∨ (-length < start ∧ start < 0) then M.throw .valueError
    else do
      let (n1, n2) ← getNodes e
      let a1 ← axis1 e
      let a2 ← axis2 e
      match n1 with
      | some n1 => sliceAxis n1 a1 start length
      | none => pure ()
      match n2, a2 with
      | some n2, some a2 => sliceAxis n2 a2 start length
      | some _, none => M.throw .typeError
      | none, _ => pure ()
      pure e

/-- `t'` is `t` with the positions of the axes `A` restricted to `lo, …, lo + len - 1`. -/
def Cut (t t' : NDArray R) (A : List Nat) (lo len : Nat) : Prop :=
  t'.shape = t.shape.mapIdx (fun k d => if k ∈ A then len else d) ∧
  ∀ idx : List Nat, idx.length = t.ndim →
    t'.get idx = t.get (idx.mapIdx fun k x => if k ∈ A then lo + x else x)

theorem sliceBounds_full (d : Nat) : sliceBounds d 0 (0 + (d : Int)) = (0, d) := by
  have h : ¬ ((d : Int) < 0) := by omega
  simp [sliceBounds, h]

theorem sliceBounds_in {d : Nat} {start len : Int} (h0 : 0 ≤ start) (h1 : 0 < len)
    (h2 : start + len ≤ d) : sliceBounds d start (start + len) = (start.toNat, len.toNat) := by
  have a1 : ¬ (start < 0) := by omega
  have a2 : ¬ (start + len < 0) := by omega
  simp only [sliceBounds, if_neg a1, if_neg a2, Prod.mk.injEq]
  omega

theorem slice_cut {t : NDArray R} {a lo k : Nat} {start len : Int}
    (hb : sliceBounds (t.shape.getD a 0) start (start + len) = (lo, k)) :
    ∃ t', t.slice ((List.replicate t.ndim (0 : Int)).set a start)
      ((t.shape.map (fun d : Nat => (d : Int))).set a len) = .ok t' ∧ Cut t t' [a] lo k := by
  have hl : t.ndim = t.shape.length := rfl
  obtain ⟨b, hbd⟩ : ∃ b, b = (t.shape.zip (((List.replicate t.ndim (0 : Int)).set a start).zip
    ((t.shape.map (fun d : Nat => (d : Int))).set a len))).map
      (fun x => sliceBounds x.1 x.2.1 (x.2.1 + x.2.2)) := ⟨_, rfl⟩
  have hb' : b = t.shape.mapIdx (fun i d => if i = a then (lo, k) else (0, d)) := by
    rw [hbd]
    apply List.ext_getElem
    · simp [hl]
    · intro i h1 h2
      simp only [List.length_mapIdx] at h2
      simp only [List.getElem_map, List.getElem_zip, List.getElem_mapIdx, List.getElem_set,
        List.getElem_replicate, List.getElem_map]
      by_cases hi : i = a
      · subst hi
        rw [List.getD_eq_getElem t.shape _ (by simpa using h2)] at hb
        simp [hb]
      · simp only [Ne.symm hi, if_false, hi]
        exact sliceBounds_full _
  have hlb : b.length = t.ndim := by rw [hb']; simp [hl]
  refine ⟨_, by
    unfold NDArray.slice
    rw [if_neg (by simp [hl])], ?_, ?_⟩
  · rw [← hbd, hb']
    apply List.ext_getElem
    · simp
    · intro i h1 h2
      simp only [List.getElem_map, List.getElem_mapIdx, List.mem_singleton]
      by_cases hi : i = a <;> simp [hi]
  · intro idx hidx
    rw [← hbd]
    simp only
    congr 1
    apply List.ext_getElem
    · simp [hlb, hidx]
    · intro i h1 h2
      simp only [List.length_mapIdx] at h2
      simp only [List.getElem_zipWith, List.getElem_map, List.getElem_mapIdx, List.mem_singleton]
      have : b[i]'(by rw [hlb, ← hidx]; exact h2) = if i = a then (lo, k)
          else (0, t.shape[i]'(by rw [hl] at hidx; rw [← hidx]; exact h2)) := by
        subst hb'
        simp
      rw [this]
      by_cases hi : i = a <;> simp [hi]

theorem Cut.refl (t : NDArray R) (lo len : Nat) : Cut t t [] lo len := by
  refine ⟨?_, fun idx _ => ?_⟩
  · apply List.ext_getElem
    · simp
    · intro i h1 h2; simp
  · congr 1
    apply List.ext_getElem
    · simp
    · intro i h1 h2; simp

theorem Cut.trans {t t1 t2 : NDArray R} {A B : List Nat} {lo len : Nat} (c1 : Cut t t1 A lo len)
    (c2 : Cut t1 t2 B lo len) (hd : ∀ k ∈ A, k ∉ B) : Cut t t2 (A ++ B) lo len := by
  have hn : t1.ndim = t.ndim := by
    show t1.shape.length = t.shape.length
    rw [c1.1]; simp
  refine ⟨?_, fun idx hidx => ?_⟩
  · rw [c2.1, c1.1]
    apply List.ext_getElem
    · simp
    · intro i h1 h2
      simp only [List.getElem_mapIdx, List.mem_append]
      by_cases ha : i ∈ A <;> by_cases hb : i ∈ B <;> simp [ha, hb]
  · rw [c2.2 idx (by rw [hn, hidx]), c1.2 _ (by simp [hidx])]
    congr 1
    apply List.ext_getElem
    · simp
    · intro i h1 h2
      simp only [List.getElem_mapIdx, List.mem_append]
      by_cases ha : i ∈ A
      · simp [ha, hd i ha]
      · by_cases hb : i ∈ B <;> simp [ha, hb]

theorem Cut.val {t t' : NDArray R} {A : List Nat} {lo len : Nat} (c : Cut t t' A lo len)
    {es : List EId} (hl : es.length = t.ndim) {e : EId}
    (hA : ∀ k, k ∈ A ↔ es[k]? = some e) (σ : EId → Nat) :
    TN.val t' es σ = TN.val t es (Function.update σ e (lo + σ e)) := by
  unfold TN.val
  rw [c.2 _ (by simpa using hl)]
  congr 1
  apply List.ext_getElem
  · simp
  · intro i h1 h2
    simp only [List.length_map] at h2
    simp only [List.getElem_mapIdx, List.getElem_map, hA, List.getElem?_eq_getElem h2,
      Option.some.injEq]
    by_cases hi : es[i] = e
    · simp [hi]
    · simp [hi]

theorem Cut.dim {t t' : NDArray R} {A : List Nat} {lo len : Nat} (c : Cut t t' A lo len)
    {k : Nat} (hk : k < t.ndim) :
    t'.shape.getD k 0 = if k ∈ A then len else t.shape.getD k 0 := by
  have hk' : k < t.shape.length := hk
  rw [c.1, List.getD_eq_getElem _ _ (by simpa using hk'), List.getElem_mapIdx,
    List.getD_eq_getElem _ _ hk']

theorem Cut.ndim {t t' : NDArray R} {A : List Nat} {lo len : Nat} (c : Cut t t' A lo len) :
    t'.ndim = t.ndim := by
  show t'.shape.length = t.shape.length
  rw [c.1]; simp

theorem sliceAxis_run {h : Heap R} {n a lo k : Nat} {start len : Int}
    (hb : sliceBounds ((h.shape n).getD a 0) start (start + len) = (lo, k)) :
    ∃ t', sliceAxis n a start len h = (.ok (), h.setNode n { h.node n with tensor := t' }) ∧
      Cut (h.node n).tensor t' [a] lo k := by
  obtain ⟨t', h1, h2⟩ := slice_cut hb
  refine ⟨t', ?_, h2⟩
  unfold sliceAxis
  rw [M.bind_ok (nodeTensor_eq n), h1]
  rfl

/-- The graph after the positions of the edge `e` were restricted to `lo, …, lo + len - 1`
at all its ends. -/
structure Sliced [CommSemiring R] (h h' : Heap R) (e : EId) (lo len : Nat) : Prop where
  wf : WF h'
  nn : h'.nn = h.nn
  ne : h'.ne = h.ne
  edge : h'.edge = h.edge
  edges : ∀ n, (h'.node n).edges = (h.node n).edges
  untouched : ∀ n < h.nn, e ∉ (h.node n).edges → h'.node n = h.node n
  dim : edim h' e = len
  dims : ∀ f, InUse h f → f ≠ e → edim h' f = edim h f
  entry : ∀ n < h.nn, ∀ σ : EId → Nat, val (h'.node n).tensor (h.node n).edges σ =
    val (h.node n).tensor (h.node n).edges (Function.update σ e (lo + σ e))
  /-- an open edge: position `i` of the result is position `lo + i` -/
  value_open : ∀ ns : List NId, (∀ n ∈ ns, n < h.nn) → (flatL (netOf h ns)).count e ≠ 2 →
    ∀ σ : EId → Nat, netVal (netOf h' ns) σ =
      netVal (netOf h ns) (Function.update σ e (lo + σ e))
  /-- a summed edge: only the positions `lo, …, lo + len - 1` are summed -/
  value : ∀ ns : List NId, (∀ n ∈ ns, n < h.nn) → (flatL (netOf h ns)).count e = 2 →
    ∀ σ : EId → Nat, netVal (netOf h' ns) σ = ∑ i ∈ Finset.range len,
      sumOver (edim h) ((closedL (netOf h ns)).erase e) (prodVal (netOf h ns))
        (Function.update σ e (lo + i))

theorem sumOver_shift [AddCommMonoid R] {dim : EId → Nat} {C : List EId} {e : EId} (he : e ∉ C)
    (g : (EId → Nat) → R) (lo : Nat) (σ : EId → Nat) :
    sumOver dim C (fun τ => g (Function.update τ e (lo + τ e))) σ =
      sumOver dim C g (Function.update σ e (lo + σ e)) := by
  induction C generalizing σ with
  | nil => rfl
  | cons a C ih =>
    rw [List.mem_cons, not_or] at he
    simp only [sumOver]
    refine Finset.sum_congr rfl fun i _ => ?_
    rw [ih he.2, Function.update_of_ne he.1, Function.update_comm he.1]

theorem sliced_of [CommSemiring R] {h h' : Heap R} (w : WF h) {e : EId} (hu : InUse h e)
    {lo len : Nat} (hnn : h'.nn = h.nn) (hne : h'.ne = h.ne) (hedge : h'.edge = h.edge)
    (hedges : ∀ n, (h'.node n).edges = (h.node n).edges)
    (hunt : ∀ n < h.nn, e ∉ (h.node n).edges → h'.node n = h.node n)
    (hcut : ∀ n < h.nn, ∃ A, Cut (h.node n).tensor (h'.node n).tensor A lo len ∧
      ∀ k, k ∈ A ↔ (h.node n).edges[k]? = some e) : Sliced h h' e lo len := by
  have hat : ∀ s f, At h' s f ↔ At h s f := by
    intro s f
    unfold At
    rw [hnn, hedges]
  have hdimAt : ∀ s f, At h s f → dimAt h' s = if f = e then len else dimAt h s := by
    rintro ⟨n, k⟩ f hs
    obtain ⟨A, c, hA⟩ := hcut n hs.1
    have hk : k < (h.node n).tensor.ndim := by rw [← w.len n hs.1]; exact hs.lt_len
    have h2 : (h.node n).edges[k]? = some f := hs.2
    simp only [dimAt, Heap.shape]
    rw [c.dim hk]
    by_cases hf : f = e
    · subst hf; rw [if_pos ((hA k).2 h2), if_pos rfl]
    · rw [if_neg (by rw [hA, h2]; simpa using hf), if_neg hf]
  have wf' : WF h' := by
    refine ⟨fun n hn => ?_, fun s f hs => ?_⟩
    · rw [hnn] at hn
      obtain ⟨A, c, _⟩ := hcut n hn
      rw [hedges, c.ndim, w.len n hn]
    · have hs0 := (hat s f).1 hs
      have ok := w.edge s f hs0
      refine ⟨by rw [hne]; exact ok.lt, by rw [hedge]; exact ok.good, by rw [hedge]; exact ok.nodup,
        by rw [hedge]; exact ok.mem, fun s' hs' => ?_, fun s' hs' => ?_⟩
      · rw [hedge] at hs'; exact (hat _ _).2 (ok.listed s' hs')
      · rw [hedge] at hs'
        rw [hdimAt s' f (ok.listed s' hs'), hdimAt s f hs0, ok.dim s' hs']
  have hdim : ∀ f, InUse h f → edim h' f = if f = e then len else edim h f := by
    rintro f ⟨s, hs⟩
    rw [wf'.edim_eq ((hat s f).2 hs), hdimAt s f hs, w.edim_eq hs]
  have hent : ∀ n < h.nn, ∀ σ : EId → Nat, val (h'.node n).tensor (h.node n).edges σ =
      val (h.node n).tensor (h.node n).edges (Function.update σ e (lo + σ e)) := by
    intro n hn σ
    obtain ⟨A, c, hA⟩ := hcut n hn
    exact c.val (w.len n hn) hA σ
  have hprod : ∀ ns : List NId, (∀ n ∈ ns, n < h.nn) → ∀ τ : EId → Nat,
      prodVal (netOf h' ns) τ = prodVal (netOf h ns) (Function.update τ e (lo + τ e)) := by
    intro ns hns τ
    unfold prodVal netOf
    rw [List.map_map, List.map_map]
    congr 1
    refine List.map_congr_left fun n hn => ?_
    simp only [Function.comp]
    rw [hedges, hent n (hns n hn)]
  have hflat : ∀ ns, flatL (netOf h' ns) = flatL (netOf h ns) := by
    intro ns
    simp only [flatL, netOf, List.flatMap_map, hedges]
  have hclosed : ∀ ns, closedL (netOf h' ns) = closedL (netOf h ns) := by
    intro ns
    unfold closedL
    rw [hflat]
  have huse : ∀ ns : List NId, (∀ n ∈ ns, n < h.nn) → ∀ f ∈ closedL (netOf h ns), InUse h f := by
    intro ns hns f hf
    rw [mem_closedL] at hf
    exact inUse_of_flat hns (List.count_pos_iff.1 (by omega))
  refine ⟨wf', hnn, hne, hedge, hedges, hunt, by rw [hdim e hu, if_pos rfl],
    fun f hf hfe => by rw [hdim f hf, if_neg hfe], hent, ?_, ?_⟩
  · intro ns hns hc σ
    have hec : e ∉ closedL (netOf h ns) := by rw [mem_closedL]; exact hc
    rw [netVal_eq (wf'.consistent (by rw [hnn]; exact hns)), netVal_eq (w.consistent hns), hclosed]
    rw [← sumOver_shift hec]
    rw [sumOver_dim_congr (dim' := edim h)]
    · congr 1
      funext τ
      exact hprod ns hns τ
    · intro f hf
      rw [hdim f (huse ns hns f hf), if_neg (by rintro rfl; exact hec hf)]
  · intro ns hns hc σ
    have hec : e ∈ closedL (netOf h ns) := by rw [mem_closedL]; exact hc
    have hnd := closedL_nodup (netOf h ns)
    have hper : (closedL (netOf h ns)).Perm (e :: (closedL (netOf h ns)).erase e) :=
      List.perm_cons_erase hec
    have hee : e ∉ (closedL (netOf h ns)).erase e := hnd.not_mem_erase
    rw [netVal_eq (wf'.consistent (by rw [hnn]; exact hns)), hclosed, sumOver_perm hper]
    simp only [sumOver]
    rw [hdim e hu, if_pos rfl]
    refine Finset.sum_congr rfl fun i _ => ?_
    have : (fun τ => prodVal (netOf h' ns) τ) =
        fun τ => prodVal (netOf h ns) (Function.update τ e (lo + τ e)) := by
      funext τ; exact hprod ns hns τ
    rw [show prodVal (netOf h' ns) =
      fun τ => prodVal (netOf h ns) (Function.update τ e (lo + τ e)) from this]
    rw [sumOver_shift hee, Function.update_self, Function.update_idem]
    refine sumOver_dim_congr (fun f hf => ?_) _ _
    have hf' := List.mem_of_mem_erase hf
    rw [hdim f (huse ns hns f hf'), if_neg (by rintro rfl; exact hee hf)]

theorem sliceEdge_bounds [CommSemiring R] {h : Heap R} (w : WF h) {e : EId} (hu : InUse h e)
    {start length : Int} {lo len : Nat} (h1 : 0 < length) (h2 : start + length ≤ edim h e)
    (h3 : ¬ (-length < start ∧ start < 0))
    (hb : sliceBounds (edim h e) start (start + length) = (lo, len)) :
    ∃ h', sliceEdge e start length h = (.ok e, h') ∧ Sliced h h' e lo len := by
  unfold sliceEdge
  rw [if_neg (by omega), M.bind_ok (dimension_eq w hu), if_neg (by push Not; omega)]
  rcases w.good hu with ⟨n, a, hr⟩ | ⟨n, a, m, b, hr⟩
  · have hA : At h (n, a) e := (at_dang w hu hr).2 rfl
    have hd := w.edim_eq hA
    obtain ⟨t', k1, k2⟩ := sliceAxis_run (h := h) (n := n) (a := a) (lo := lo) (k := len) (start := start)
      (len := length) (by
      rw [show (h.shape n).getD a 0 = edim h e from hd.symm]; exact hb)
    refine ⟨h.setNode n { h.node n with tensor := t' }, ?_, ?_⟩
    · have hg : getNodes e h = (.ok (some n, none), h) := by
        unfold getNodes
        rw [get_bind, hr]; rfl
      refine (M.bind_ok hg).trans ?_
      dsimp only
      rw [M.bind_ok (axis1_dang hr), M.bind_ok (axis2_dang hr)]
      refine (M.bind_ok k1).trans ?_
      rfl
    · refine sliced_of w hu rfl rfl rfl ?_ ?_ ?_
      · intro m
        by_cases hm : m = n
        · subst hm; simp
        · simp [hm]
      · intro m hm he
        have hmn : m ≠ n := by rintro rfl; exact he hA.mem
        simp [hmn]
      · intro m hm
        have hiff : ∀ k, (h.node m).edges[k]? = some e ↔ m = n ∧ k = a := by
          intro k
          have := at_dang w hu hr (s := (m, k))
          unfold At at this
          simpa [hm] using this
        by_cases hmn : m = n
        · subst hmn
          exact ⟨[a], by simpa using k2, by intro k; rw [hiff]; simp⟩
        · exact ⟨[], by simp only [Heap.setNode_node, Function.update_of_ne hmn]
                        exact Cut.refl _ _ _, by intro k; rw [hiff]; simp [hmn]⟩
  · have hat := fun s => at_conn w hu hr (s := s)
    have hA : At h (n, a) e := (hat _).2 (.inl rfl)
    have hB : At h (m, b) e := (hat _).2 (.inr rfl)
    have hnd : (n, a) ≠ (m, b) := by
      have := w.nodup hu
      rw [hr] at this
      simpa [Multiset.insert_eq_cons] using this
    obtain ⟨t1, k1, k2⟩ := sliceAxis_run (h := h) (n := n) (a := a) (lo := lo) (k := len) (start := start)
      (len := length) (by
      rw [show (h.shape n).getD a 0 = edim h e from (w.edim_eq hA).symm]; exact hb)
    obtain ⟨g, hg⟩ : ∃ g, g = h.setNode n { h.node n with tensor := t1 } := ⟨_, rfl⟩
    have hge : ∀ x, (g.node x).edges = (h.node x).edges := by
      intro x
      rw [hg]
      by_cases hx : x = n
      · subst hx; simp
      · simp [hx]
    have hdb : (g.shape m).getD b 0 = edim h e := by
      rw [w.edim_eq hB]
      by_cases hmn : m = n
      · subst hmn
        have hb' : b < (h.node m).tensor.ndim := by rw [← w.len m hB.1]; exact hB.lt_len
        have := k2.dim hb'
        rw [if_neg (by simp only [List.mem_singleton]; rintro rfl; exact hnd rfl)] at this
        simp only [hg, Heap.shape, Heap.setNode_node, Function.update_self]
        exact this
      · simp [hg, Heap.shape, hmn, dimAt]
    obtain ⟨t2, k3, k4⟩ := sliceAxis_run (h := g) (n := m) (a := b) (lo := lo) (k := len)
      (start := start) (len := length) (by rw [hdb]; exact hb)
    refine ⟨g.setNode m { g.node m with tensor := t2 }, ?_, ?_⟩
    · have hgn : getNodes e h = (.ok (some n, some m), h) := by
        unfold getNodes
        rw [get_bind, hr]; rfl
      refine (M.bind_ok hgn).trans ?_
      dsimp only
      rw [M.bind_ok (axis1_conn hr), M.bind_ok (axis2_conn hr)]
      refine (M.bind_ok k1).trans ?_
      rw [← hg]
      refine (M.bind_ok k3).trans ?_
      rfl
    · have hiff : ∀ x < h.nn, ∀ k, (h.node x).edges[k]? = some e ↔
          (x = n ∧ k = a) ∨ (x = m ∧ k = b) := by
        intro x hx k
        have := hat (x, k)
        unfold At at this
        simpa [hx] using this
      refine sliced_of w hu (by rw [hg]; rfl) (by rw [hg]; rfl) (by rw [hg]; rfl) ?_ ?_ ?_
      · intro x
        by_cases hx : x = m
        · subst hx; simp [hge]
        · simp [hx, hge]
      · intro x hx he
        have hxn : x ≠ n := by rintro rfl; exact he hA.mem
        have hxm : x ≠ m := by rintro rfl; exact he hB.mem
        simp [hg, hxn, hxm]
      · intro x hx
        by_cases hxm : x = m
        · subst hxm
          simp only [Heap.setNode_node, Function.update_self]
          by_cases hxn : x = n
          · subst hxn
            have hgt : (g.node x).tensor = t1 := by rw [hg]; simp
            rw [hgt] at k4
            refine ⟨[a] ++ [b], k2.trans k4 ?_, ?_⟩
            · simp only [List.mem_singleton]
              rintro k rfl rfl
              exact hnd rfl
            · intro k; rw [hiff x hx]; simp
          · have hgt : (g.node x).tensor = (h.node x).tensor := by rw [hg]; simp [hxn]
            rw [hgt] at k4
            exact ⟨[b], k4, by intro k; rw [hiff x hx]; simp [hxn]⟩
        · simp only [Heap.setNode_node, Function.update_of_ne hxm]
          by_cases hxn : x = n
          · subst hxn
            have hgt : (g.node x).tensor = t1 := by rw [hg]; simp
            rw [hgt]
            exact ⟨[a], k2, by intro k; rw [hiff x hx]; simp [hxm]⟩
          · have hgt : (g.node x).tensor = (h.node x).tensor := by rw [hg]; simp [hxn]
            rw [hgt]
            exact ⟨[], Cut.refl _ _ _, by intro k; rw [hiff x hx]; simp [hxm, hxn]⟩

/-- A slice with a non-positive length, or one that ends behind the edge, is rejected. -/
theorem sliceEdge_err [CommSemiring R] {h : Heap R} (w : WF h) {e : EId} (hu : InUse h e)
    {start length : Int} (hbad : length ≤ 0 ∨ start + length > edim h e ∨
      (-length < start ∧ start < 0)) :
    sliceEdge e start length h = (.error .valueError, h) := by
  unfold sliceEdge
  by_cases h1 : length ≤ 0
  · rw [if_pos h1]; rfl
  · rw [if_neg h1, M.bind_ok (dimension_eq w hu), if_pos (by omega)]; rfl

end TN.Graph
