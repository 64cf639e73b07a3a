import Verif.GraphSplitFull
import Verif.MpsPair

/-!
# C17 for `split_node_full_svd`: rejected calls, values, singular values
-/

namespace TN.Graph

open TN NDArray Decomp Finset

variable {R : Type}

theorem splitNode3_err {decomp : NDArray R → Nat → Py (NDArray R × NDArray R × NDArray R × NDArray R)} {h : Heap R}
    (w : WF h) {n : NId} (hn : n < h.nn) {L Rr : List EId} (hu : ∀ e ∈ L ++ Rr, InUse h e)
    (hbad : ¬ ((L ++ Rr).Perm (h.node n).edges ∧ (h.node n).edges.Nodup)) :
    ∃ er, splitNode3With decomp n L Rr h = (.error er, h) := by
  rcases tensorFromEdgeOrder_cases w hn hu with ⟨er, he⟩ | hok
  · exact ⟨er, M.bind_error he⟩
  · exact absurd hok hbad

theorem NodeSplit3.dim {h h' : Heap R} {n l m r : NId} {L Rr : List EId} {u s v : NDArray R} {c c' : EId}
    (S : NodeSplit3 h h' n L Rr u s v l m r c c') (w : WF h) (hp : (L ++ Rr).Perm (h.node n).edges) {d d' : Nat}
    (hu : u.shape = L.map (edim h) ++ [d]) (hs : s.shape = [d, d']) (hv : v.shape = d' :: Rr.map (edim h)) :
    edim h' c = d ∧ edim h' c' = d' ∧ ∀ e, InUse h e → edim h' e = edim h e := by
  obtain ⟨rfl, rfl, rfl⟩ := S.new
  have hnn := S.nn
  refine ⟨?_, ?_, ?_⟩
  · have : At h' (h.nn + 1, 0) c := ⟨by simp only; omega, by rw [S.middle]; rfl⟩
    rw [S.wf.edim_eq this]
    simp [dimAt, Heap.shape, S.middle, hs]
  · have : At h' (h.nn + 2, 0) c' := ⟨by simp only; omega, by rw [S.right]; rfl⟩
    rw [S.wf.edim_eq this]
    simp [dimAt, Heap.shape, S.right, hv]
  · rintro e ⟨⟨m, k⟩, hs⟩
    by_cases hmn : m = n
    · subst hmn
      have hm := hp.mem_iff.2 hs.mem
      rw [List.mem_append] at hm
      rcases hm with hm | hm
      · obtain ⟨i, hi⟩ := List.getElem?_of_mem hm
        obtain ⟨hi1, hi2⟩ := List.getElem?_eq_some_iff.1 hi
        have : At h' (h.nn, i) e := ⟨by simp only; omega, by
          rw [S.left]
          simp only
          rw [List.getElem?_append_left hi1]; exact hi⟩
        rw [S.wf.edim_eq this]
        simp only [dimAt, Heap.shape, S.left, hu]
        rw [List.getD_eq_getElem?_getD, List.getElem?_append_left (by simpa using hi1)]
        simp [hi]
      · obtain ⟨i, hi⟩ := List.getElem?_of_mem hm
        have : At h' (h.nn + 2, i + 1) e := ⟨by simp only; omega, by
          rw [S.right]
          simp only
          rw [List.getElem?_cons_succ]; exact hi⟩
        rw [S.wf.edim_eq this]
        simp only [dimAt, Heap.shape, S.right, hv]
        rw [List.getD_eq_getElem?_getD, List.getElem?_cons_succ]
        simp [hi]
    · have hlt := hs.1
      simp only at hlt
      have hsame := S.other m hlt hmn
      have : At h' (m, k) e := ⟨by simp only; omega, by
        have := hs.2
        simp only at this ⊢
        rw [hsame]; exact this⟩
      rw [S.wf.edim_eq this, w.edim_eq hs]
      simp only [dimAt, Heap.shape, hsame]

/-- The three nodes count in every network as one node with the product of the three tensors. -/
theorem NodeSplit3.value [CommSemiring R] {h h' : Heap R} {n l m r : NId} {L Rr : List EId}
    {u s v t : NDArray R} {c c' : EId} (S : NodeSplit3 h h' n L Rr u s v l m r c c') (w : WF h) (hn : n < h.nn)
    (hp : (L ++ Rr).Perm (h.node n).edges) {d d' : Nat} (hu' : u.shape = L.map (edim h) ++ [d])
    (hs' : s.shape = [d, d']) (hv' : v.shape = d' :: Rr.map (edim h)) (hts : Shaped (edim h) t (L ++ Rr))
    (hex : ∀ i j, InB (L.map (edim h)) i → InB (Rr.map (edim h)) j → t.get (i ++ j) =
      ∑ x ∈ range d, ∑ y ∈ range d', u.get (i ++ [x]) * s.get [x, y] * v.get (y :: j))
    {rest : List NId} (hr : ∀ m ∈ rest, m < h.nn ∧ m ≠ n) (σ : EId → Nat)
    (hσ : InRange h' (l :: m :: r :: rest) σ) :
    netVal (netOf h' (l :: m :: r :: rest)) σ = netVal ((t, L ++ Rr) :: netOf h rest) σ := by
  obtain ⟨dc, dc', de⟩ := S.dim w hp hu' hs' hv'
  have hc := S.bond.1
  have hc' := S.bond'.1
  have hcc : c ≠ c' := by
    intro hh
    have h1 := S.bond.2
    have h2 := S.bond'.2
    obtain ⟨rfl, rfl, rfl⟩ := S.new
    rw [hh, h2] at h1
    have := congrArg EdgeRec.node1 h1
    simp at this
  obtain ⟨rfl, rfl, rfl⟩ := S.new
  have hrest : netOf h' rest = netOf h rest :=
    netOf_congr fun m hm => S.other m (hr m hm).1 (hr m hm).2
  have huse : ∀ e ∈ L ++ Rr, InUse h e := fun e he => inUse_of_mem hn (hp.mem_iff.1 he)
  have hcL : c ∉ L := fun hm => hc (huse c (by simp [hm]))
  have hcR : c ∉ Rr := fun hm => hc (huse c (by simp [hm]))
  have hcL' : c' ∉ L := fun hm => hc' (huse c' (by simp [hm]))
  have hcR' : c' ∉ Rr := fun hm => hc' (huse c' (by simp [hm]))
  have e1 : netOf h' (h.nn :: (h.nn + 1) :: (h.nn + 2) :: rest) =
      [(u, L ++ [c]), (s, [c, c']), (v, c' :: Rr)] ++ netOf h rest := by
    rw [← hrest]
    simp [netOf, S.left, S.middle, S.right]
  have hnn := S.nn
  have hcons' := S.wf.consistent (ns := h.nn :: (h.nn + 1) :: (h.nn + 2) :: rest) (by
    intro m hm
    simp only [List.mem_cons] at hm
    rcases hm with rfl | rfl | rfl | hm
    · omega
    · omega
    · omega
    · have := (hr m hm).1; omega)
  have hcons := w.consistent (ns := rest) (fun m hm => (hr m hm).1)
  rw [e1] at hcons' ⊢
  symm
  refine netVal_collapse (dim := edim h') (A' := [(t, L ++ Rr)]) (C := [c, c']) hcons' ?_ (by simp [hcc]) ?_ ?_ ?_ σ ?_
  · intro p hpm
    rcases List.mem_cons.1 hpm with rfl | hpm
    · unfold Shaped at hts ⊢
      rw [hts]
      exact List.map_congr_left fun e he => (de e (huse e he)).symm
    · have hpm : p ∈ netOf h rest := by simpa using hpm
      have h1 := hcons p hpm
      have h2 : ∀ e ∈ p.2, InUse h e := by
        intro e he
        obtain ⟨m, hm, rfl⟩ := List.mem_map.1 hpm
        exact inUse_of_mem (hr m hm).1 he
      unfold Shaped at h1 ⊢
      rw [h1]
      exact List.map_congr_left fun e he => (de e (h2 e he)).symm
  · intro e he
    simp only [List.mem_cons, List.not_mem_nil, or_false] at he
    rcases he with rfl | rfl
    · constructor
      · simp [flatL, List.count_eq_zero.2 hcL, List.count_eq_zero.2 hcR, hcc.symm]
      · intro hm
        refine hc (inUse_of_flat (fun m hm => (hr m hm).1) hm)
    · constructor
      · simp [flatL, List.count_eq_zero.2 hcL', List.count_eq_zero.2 hcR', hcc]
      · intro hm
        refine hc' (inUse_of_flat (fun m hm => (hr m hm).1) hm)
  · intro e
    simp only [flatL, List.flatMap_cons, List.flatMap_nil, List.append_nil, List.mem_cons, List.not_mem_nil, or_false]
    by_cases he : e = c
    · subst he
      rw [if_pos (.inl rfl)]
      simp [List.count_eq_zero.2 hcL, List.count_eq_zero.2 hcR]
    by_cases he1 : e = c'
    · subst he1
      rw [if_pos (.inr rfl)]
      simp [List.count_eq_zero.2 hcL', List.count_eq_zero.2 hcR']
    · rw [if_neg (by tauto)]
      have he' : c ≠ e := fun hh => he hh.symm
      have he1' : c' ≠ e := fun hh => he1 hh.symm
      simp [List.count_append, he', he1']
  · intro τ hτ
    simp only [flatL, List.flatMap_cons, List.flatMap_nil, List.append_nil] at hτ
    have hb : ∀ e ∈ L ++ Rr, τ e < edim h e := by
      intro e he
      rw [← de e (huse e he)]
      exact hτ e he
    have hP : prodVal [(t, L ++ Rr)] τ = t.get (L.map τ ++ Rr.map τ) := by
      simp only [prodVal, List.map_cons, List.map_nil, List.prod_cons, List.prod_nil, mul_one]
      rw [val, List.map_append]
    rw [hP, hex]
    · simp only [sumOver, dc, dc']
      refine Finset.sum_congr rfl fun x _ => Finset.sum_congr rfl fun y _ => ?_
      simp only [prodVal, List.map_cons, List.map_nil, List.prod_cons, List.prod_nil, mul_one, val,
        List.map_append, Function.update_self]
      have hl : ∀ ls : List EId, c ∉ ls → c' ∉ ls →
          ls.map (Function.update (Function.update τ c x) c' y) = ls.map τ := by
        intro ls hls hls'
        refine List.map_congr_left fun e he => ?_
        rw [Function.update_of_ne, Function.update_of_ne]
        · rintro rfl
          exact hls he
        · rintro rfl
          exact hls' he
      rw [hl L hcL hcL', hl Rr hcR hcR', Function.update_of_ne hcc, Function.update_self, mul_assoc]
    · unfold InB
      rw [List.forall₂_map_left_iff, List.forall₂_map_right_iff, List.forall₂_same]
      exact fun e he => hb e (by simp [he])
    · unfold InB
      rw [List.forall₂_map_left_iff, List.forall₂_map_right_iff, List.forall₂_same]
      exact fun e he => hb e (by simp [he])
  · intro e he hcount
    rw [← e1] at he hcount
    exact hσ e he hcount

/-- The open edges of the network with the old node are open edges of the network with the three new ones. -/
theorem NodeSplit3.inRange {h h' : Heap R} {n l m r : NId} {L Rr : List EId} {u s v : NDArray R} {c c' : EId}
    (S : NodeSplit3 h h' n L Rr u s v l m r c c') (w : WF h) (hn : n < h.nn)
    (hp : (L ++ Rr).Perm (h.node n).edges) {d d' : Nat} (hu' : u.shape = L.map (edim h) ++ [d])
    (hs' : s.shape = [d, d']) (hv' : v.shape = d' :: Rr.map (edim h)) {rest : List NId}
    (hr : ∀ m ∈ rest, m < h.nn ∧ m ≠ n) {σ : EId → Nat} (hσ : InRange h' (l :: m :: r :: rest) σ) :
    InRange h (n :: rest) σ := by
  obtain ⟨_, _, de⟩ := S.dim w hp hu' hs' hv'
  intro e he hcnt
  have hu : InUse h e := inUse_of_flat (fun m hm => by
    rcases List.mem_cons.1 hm with rfl | hm
    · exact hn
    · exact (hr m hm).1) he
  have h1 : c ≠ e := fun hh => S.bond.1 (hh ▸ hu)
  have h2 : c' ≠ e := fun hh => S.bond'.1 (hh ▸ hu)
  have hrest : netOf h' rest = netOf h rest :=
    netOf_congr fun m hm => S.other m (hr m hm).1 (hr m hm).2
  have hc : (flatL (netOf h' (l :: m :: r :: rest))).count e = (flatL (netOf h (n :: rest))).count e := by
    have e1 : netOf h' (l :: m :: r :: rest) =
        [(u, L ++ [c]), (s, [c, c']), (v, c' :: Rr)] ++ netOf h rest := by
      rw [← hrest]
      simp [netOf, S.left, S.middle, S.right]
    have e2 : netOf h (n :: rest) = [((h.node n).tensor, (h.node n).edges)] ++ netOf h rest := by
      simp [netOf]
    rw [e1, e2, flatL_append, flatL_append, List.count_append, List.count_append]
    simp [flatL, ← hp.count_eq, List.count_append, h1, h2]
  rw [← de e hu]
  refine hσ e ?_ (by rwa [hc])
  rw [← List.count_pos_iff, hc]
  exact List.count_pos_iff.2 he

/-- A tensor with other axes order but the same entries at all positions counts the same. -/
theorem netVal_reorder [CommSemiring R] {h : Heap R} (w : WF h) {n : NId} (hn : n < h.nn) {E : List EId}
    (hp : E.Perm (h.node n).edges) {t : NDArray R} (hts : Shaped (edim h) t E)
    (htv : ∀ σ, val t E σ = val (h.node n).tensor (h.node n).edges σ) {rest : List NId}
    (hr : ∀ m ∈ rest, m < h.nn) (σ : EId → Nat) (hσ : InRange h (n :: rest) σ) :
    netVal ((t, E) :: netOf h rest) σ = netVal (netOf h (n :: rest)) σ := by
  have hcons := w.consistent (ns := n :: rest) (by
    intro m hm
    rcases List.mem_cons.1 hm with rfl | hm
    · exact hn
    · exact hr m hm)
  have e2 : netOf h (n :: rest) = [((h.node n).tensor, (h.node n).edges)] ++ netOf h rest := by
    simp [netOf]
  rw [InRange, e2] at hσ
  rw [e2] at hcons ⊢
  refine netVal_collapse (dim := edim h) (A' := [(t, E)]) (C := []) hcons ?_ (by simp) (by simp) ?_ ?_ σ hσ
  · intro p hpm
    rcases List.mem_cons.1 hpm with rfl | hpm
    · exact hts
    · exact hcons p (by simp at hpm; simp [hpm])
  · intro e
    simp [flatL, hp.count_eq]
  · intro τ _
    simp [prodVal, sumOver, htv]

theorem splitNode3_ok [CommSemiring R]
    {decomp : NDArray R → Nat → Py (NDArray R × NDArray R × NDArray R × NDArray R)} {h : Heap R} (w : WF h) {n : NId}
    (hn : n < h.nn) {L Rr : List EId} (hp : (L ++ Rr).Perm (h.node n).edges) (hnd : (h.node n).edges.Nodup)
    (hdec : ∀ t : NDArray R, t.shape = (L ++ Rr).map (edim h) →
      (∀ σ, val t (L ++ Rr) σ = val (h.node n).tensor (h.node n).edges σ) → ∃ u s v tr,
      decomp t L.length = .ok (u, s, v, tr) ∧ ∃ d d', u.shape = L.map (edim h) ++ [d] ∧ s.shape = [d, d'] ∧
        v.shape = d' :: Rr.map (edim h)) :
    ∃ h' t u s v tr c c', splitNode3With decomp n L Rr h = (.ok (h.nn, h.nn + 1, h.nn + 2, tr), h') ∧
      NodeSplit3 h h' n L Rr u s v h.nn (h.nn + 1) (h.nn + 2) c c' ∧ decomp t L.length = .ok (u, s, v, tr) ∧
      Shaped (edim h) t (L ++ Rr) ∧
      (∀ σ, val t (L ++ Rr) σ = val (h.node n).tensor (h.node n).edges σ) := by
  have hlen := w.len n hn
  have hsh := w.shaped hn
  have hax : ((L ++ Rr).map (h.node n).edges.idxOf).Perm
      (List.range (h.node n).edges.length) := by
    refine (hp.map _).trans ?_
    have : (h.node n).edges.map (h.node n).edges.idxOf = List.range (h.node n).edges.length := by
      apply List.ext_getElem (by simp)
      intro i h1 h2
      simp only [List.getElem_map, List.getElem_range]
      exact hnd.idxOf_getElem i _
    rw [this]
  obtain ⟨t, ht, hts, htv⟩ := transpose_val hsh hax
  have hlab : ((L ++ Rr).map (h.node n).edges.idxOf).map
      (fun p => (h.node n).edges.getD p default) = L ++ Rr := by
    rw [List.map_map]
    conv_rhs => rw [← List.map_id (L ++ Rr)]
    refine List.map_congr_left fun e he => ?_
    have hm := hp.mem_iff.1 he
    simp only [Function.comp, id]
    rw [List.getD_eq_getElem?_getD, List.getElem?_idxOf hm]
    rfl
  rw [hlab] at hts htv
  obtain ⟨u, s, v, tr, hd, d, d', hu, hs, hv⟩ := hdec t hts htv
  obtain ⟨h', c, c', k1, k2⟩ := splitNode3_run (decomp := decomp) w hn hp hnd ht hd hu hs hv
  exact ⟨h', t, u, s, v, tr, c, c', k1, k2, hd, hts, htv⟩

/-! ### Singular values -/

variable {K : Type} [RCLike K]

/-- `split_node_full_svd` (network_operations.py:446-589); `backend.diagflat` as in Mps.lean. -/
noncomputable def splitNodeFullSvd (kernel : NDArray K → NDArray K × List ℝ × NDArray K) (maxS : Option Nat)
    (maxErr : Option ℝ) (relative : Bool) (n : NId) (left right : List EId) : M K (NId × NId × NId × NDArray K) :=
  splitNode3With (fun t k => do
    let (u, s, vh, rest) ← Decomp.svd kernel t k maxS maxErr relative
    pure (u, Mps.diagflat s, vh, rest)) n left right

/-- What `split_node_full_svd` is to leave behind.  With `t` the tensor of the node in the order of the edges and
`S` the singular values of its matrix: three nodes in a row, isometries on the left and on the right, the first `k`
values on the diagonal of the middle, the others handed back.  In every network the three count as one node with
a tensor `t'` whose distance from `t` is the norm of the values handed back. -/
def FullSvdResult (h h' : Heap K) (n : NId) (L Rr : List EId) (l m r : NId) (trun : NDArray K) (S : List ℝ)
    (k : Nat) : Prop :=
  ∃ (u s v t t' : NDArray K) (c c' : EId), NodeSplit3 h h' n L Rr u s v l m r c c' ∧
    u.shape = L.map (edim h) ++ [k] ∧ s.shape = [k, k] ∧ v.shape = k :: Rr.map (edim h) ∧
    LeftIsometry u (L.map (edim h)) k ∧ RightIsometry v (Rr.map (edim h)) k ∧
    (∀ x < k, ∀ y < k, s.get [x, y] = if x = y then ((S.getD x 0 : ℝ) : K) else 0) ∧
    trun.shape = [S.length - k] ∧ (∀ x, trun.get [x] = ((S.getD (k + x) 0 : ℝ) : K)) ∧
    Shaped (edim h) t (L ++ Rr) ∧
    (∀ σ, val t (L ++ Rr) σ = val (h.node n).tensor (h.node n).edges σ) ∧
    (∀ rest : List NId, (∀ m ∈ rest, m < h.nn ∧ m ≠ n) → ∀ σ, InRange h' (l :: m :: r :: rest) σ →
      netVal (netOf h' (l :: m :: r :: rest)) σ = netVal ((t', L ++ Rr) :: netOf h rest) σ) ∧
    sumIdx (L.map (edim h)) (fun i => sumIdx (Rr.map (edim h)) fun j => ‖t.get (i ++ j) - t'.get (i ++ j)‖ ^ 2) =
      norm2 (S.drop k) ^ 2

/-- The number of kept values is defined unless a relative error is asked for and there are no values. -/
theorem numKeep_ok {S : List ℝ} {maxS : Option Nat} {maxErr : Option ℝ} {relative : Bool}
    (hS : maxErr = none ∨ relative = false ∨ S ≠ []) : ∃ keep, numKeep S maxS maxErr relative = .ok keep ∧
      (∀ D, maxS = some D → min keep S.length ≤ D) ∧ (maxS = none → maxErr = none → keep = S.length) := by
  unfold numKeep
  cases maxErr with
  | none =>
    refine ⟨_, rfl, fun D hD => ?_, fun h1 _ => ?_⟩
    · subst hD; simp
    · subst h1; rfl
  | some err =>
    cases relative with
    | false => exact ⟨_, rfl, fun D hD => by subst hD; simp, fun _ h2 => by simp at h2⟩
    | true =>
      cases S with
      | nil => simp at hS
      | cons a S => exact ⟨_, rfl, fun D hD => by subst hD; simp, fun _ h2 => by simp at h2⟩

/-- **C17**, `split_node_full_svd`, with and without truncation. -/
theorem C17_split_node_full_svd {kernel : NDArray K → NDArray K × List ℝ × NDArray K} {maxS : Option Nat}
    {maxErr : Option ℝ} {relative : Bool} {h : Heap K} (g : GraphOK h) {n : NId} (hn : n < h.nn)
    {L Rr : List EId} (hp : (L ++ Rr).Perm (h.node n).edges) (hnd : (h.node n).edges.Nodup)
    (hk : ∀ m, IsMatrixOf h n L Rr m → IsSvd m (kernel m).1 (kernel m).2.1 (kernel m).2.2)
    (hne : maxErr = none ∨ relative = false ∨ ∀ m, IsMatrixOf h n L Rr m → (kernel m).2.1 ≠ []) :
    ∃ h' l m r trun A k, splitNodeFullSvd kernel maxS maxErr relative n L Rr h = (.ok (l, m, r, trun), h') ∧
      GraphOK h' ∧ IsMatrixOf h n L Rr A ∧ FullSvdResult h h' n L Rr l m r trun (kernel A).2.1 k ∧
      (∀ D, maxS = some D → k ≤ D) ∧ (maxS = none → maxErr = none → k = (kernel A).2.1.length ∧
        ∀ rest : List NId, (∀ m ∈ rest, m < h.nn ∧ m ≠ n) → ∀ σ, InRange h' (l :: m :: r :: rest) σ →
          netVal (netOf h' (l :: m :: r :: rest)) σ = netVal (netOf h (n :: rest)) σ) := by
  have w := graphOK_iff.1 g
  have key : ∀ t : NDArray K, t.shape = (L ++ Rr).map (edim h) →
      (∀ σ, val t (L ++ Rr) σ = val (h.node n).tensor (h.node n).edges σ) → ∃ A keep, IsMatrixOf h n L Rr A ∧
      (∀ D, maxS = some D → min keep (kernel A).2.1.length ≤ D) ∧
      (maxS = none → maxErr = none → keep = (kernel A).2.1.length) ∧
      ∃ u s vh rest k, Decomp.svd kernel t L.length maxS maxErr relative = .ok (u, s, vh, rest) ∧
        k = min keep (kernel A).2.1.length ∧
        u.shape = L.map (edim h) ++ [k] ∧ s.shape = [k] ∧ vh.shape = k :: Rr.map (edim h) ∧
        rest.shape = [(kernel A).2.1.length - k] ∧
        (∀ x < k, s.get [x] = (((kernel A).2.1.getD x 0 : ℝ) : K)) ∧
        (∀ x, rest.get [x] = (((kernel A).2.1.getD (k + x) 0 : ℝ) : K)) ∧
        LeftIsometry u (L.map (edim h)) k ∧ RightIsometry vh (Rr.map (edim h)) k ∧
        sumIdx (L.map (edim h)) (fun i => sumIdx (Rr.map (edim h)) fun j =>
          ‖t.get (i ++ j) - ∑ x ∈ range k, u.get (i ++ [x]) * s.get [x] * vh.get (x :: j)‖ ^ 2) =
          norm2 ((kernel A).2.1.drop k) ^ 2 := by
    intro t ht hv
    have e1 : t.shape.take L.length = L.map (edim h) := by
      rw [ht, List.map_append, List.take_left' (by simp)]
    have e2 : t.shape.drop L.length = Rr.map (edim h) := by
      rw [ht, List.map_append, List.drop_left' (by simp)]
    obtain ⟨A, hA, _⟩ := reshape_matrix (t := t) (A := L.map (edim h)) (B := Rr.map (edim h))
      (by rw [ht, List.map_append])
    have hM : IsMatrixOf h n L Rr A := ⟨t, ht, hv, hA⟩
    obtain ⟨keep, q1, q2, q3⟩ := numKeep_ok (S := (kernel A).2.1) (maxS := maxS) (maxErr := maxErr)
      (relative := relative) (hne.imp_right (Or.imp_right fun hh => hh A hM))
    have hspec := svd_spec (kernel := kernel) (t := t) (p := L.length) (by rw [e1, e2]; exact hA) (hk A hM) q1
    rw [e1, e2] at hspec
    exact ⟨A, keep, hM, q2, q3, hspec⟩
  obtain ⟨h', t, u, s', v, tr, c, c', k1, k2, k3, k4, k5⟩ := splitNode3_ok (decomp := fun t k => do
    let (u, s, vh, rest) ← Decomp.svd kernel t k maxS maxErr relative
    pure (u, Mps.diagflat s, vh, rest)) w hn hp hnd (by
      intro t ht hv
      obtain ⟨A, keep, _, _, _, u, s, vh, rest, k, p1, p2, p3, p4, p5, _⟩ := key t ht hv
      exact ⟨u, Mps.diagflat s, vh, rest, by simp only [p1, bind, Except.bind]; rfl, k, k, p3,
        Mps.diagflat_shape p4, p5⟩)
  obtain ⟨A, keep, hM, q2, q3, u1, s, vh, rest, k, p1, p2, p3, p4, p5, p6, p7, p8, p9, p10, p11⟩ := key t k4 k5
  simp only [p1, bind, Except.bind] at k3
  obtain ⟨rfl, rfl, rfl, rfl⟩ : u1 = u ∧ Mps.diagflat s = s' ∧ vh = v ∧ rest = tr := by
    have := Except.ok.inj k3
    simpa using this
  obtain ⟨t', ht'⟩ : ∃ t' : NDArray K, t' = ⟨(L ++ Rr).map (edim h), fun i => ∑ x ∈ range k,
      u1.get (i.take L.length ++ [x]) * s.get [x] * vh.get (x :: i.drop L.length)⟩ := ⟨_, rfl⟩
  have get' : ∀ i j, InB (L.map (edim h)) i → t'.get (i ++ j) =
      ∑ x ∈ range k, u1.get (i ++ [x]) * s.get [x] * vh.get (x :: j) := by
    intro i j hi
    have hl : i.length = L.length := by simpa using hi.length
    rw [ht']
    simp only
    rw [List.take_left' hl, List.drop_left' hl]
  have val' : ∀ rest : List NId, (∀ m ∈ rest, m < h.nn ∧ m ≠ n) → ∀ σ,
      InRange h' (h.nn :: (h.nn + 1) :: (h.nn + 2) :: rest) σ → ∀ t1 : NDArray K, Shaped (edim h) t1 (L ++ Rr) →
      (∀ i j, InB (L.map (edim h)) i → InB (Rr.map (edim h)) j → t1.get (i ++ j) =
        ∑ x ∈ range k, u1.get (i ++ [x]) * s.get [x] * vh.get (x :: j)) →
      netVal (netOf h' (h.nn :: (h.nn + 1) :: (h.nn + 2) :: rest)) σ = netVal ((t1, L ++ Rr) :: netOf h rest) σ := by
    intro rest hr σ hσ t1 ht1 hg
    refine k2.value w hn hp p3 (Mps.diagflat_shape p4) p5 ht1 (fun i j hi hj => ?_) hr σ hσ
    rw [hg i j hi hj]
    refine Finset.sum_congr rfl fun x hx => ?_
    simp only [Mps.diagflat_get, mul_ite, mul_zero, ite_mul, zero_mul, Finset.sum_ite_eq, hx, if_true]
  refine ⟨h', _, _, _, rest, A, k, k1, graphOK_iff.2 k2.wf, hM, ⟨u1, _, vh, t, t', c, c', k2, p3,
    Mps.diagflat_shape p4, p5, p9, p10, fun x hx y _ => ?_, p6, p8, k4, k5,
    fun rest hr σ hσ => val' rest hr σ hσ t' (by rw [ht']; rfl) fun i j hi _ => get' i j hi, ?_⟩,
    fun D hD => p2 ▸ q2 D hD, fun h1 h2 => ?_⟩
  · rw [Mps.diagflat_get, p7 x hx]
  · rw [← p11]
    refine sumIdx_congr fun i hi => sumIdx_congr fun j _ => ?_
    rw [get' i j hi]
  · have hkS : k = (kernel A).2.1.length := by rw [p2, q3 h1 h2, min_self]
    refine ⟨hkS, fun ns hr σ hσ => ?_⟩
    rw [val' ns hr σ hσ t k4 ?_]
    · exact netVal_reorder w hn hp k4 k5 (fun m hm => (hr m hm).1) σ
        (k2.inRange w hn hp p3 (Mps.diagflat_shape p4) p5 hr hσ)
    · intro i j hi hj
      subst h1 h2
      have e1 : t.shape.take L.length = L.map (edim h) := by
        rw [k4, List.map_append, List.take_left' (by simp)]
      have e2 : t.shape.drop L.length = Rr.map (edim h) := by
        rw [k4, List.map_append, List.drop_left' (by simp)]
      obtain ⟨A', hA', _⟩ := reshape_matrix (t := t) (A := L.map (edim h)) (B := Rr.map (edim h))
        (by rw [k4, List.map_append])
      obtain ⟨u2, s2, v2, r2, z1, _, z3, _, _, _, _, _, z9⟩ := C29_svd_exact (kernel := kernel) (t := t) (p := L.length)
        (relative := relative) (by rw [e1, e2]; exact hA') rfl (hk A' ⟨t, k4, k5, hA'⟩)
      rw [p1] at z1
      obtain ⟨rfl, rfl, rfl, rfl⟩ : u1 = u2 ∧ s = s2 ∧ vh = v2 ∧ rest = r2 := by simpa using Except.ok.inj z1
      rw [e1, e2] at z9
      have : k = (kernel A').2.1.length := by
        rw [p4] at z3
        simpa using z3
      rw [z9 i j hi hj, this]

/-- **C17**, `split_node_full_svd`, rejected calls. -/
theorem C17_full_svd_rejects {kernel : NDArray K → NDArray K × List ℝ × NDArray K} {maxS : Option Nat}
    {maxErr : Option ℝ} {relative : Bool} {h : Heap K} (g : GraphOK h) {n : NId} (hn : n < h.nn)
    {L Rr : List EId} (hu : ∀ e ∈ L ++ Rr, Current h e)
    (hbad : ¬ ((L ++ Rr).Perm (h.node n).edges ∧ (h.node n).edges.Nodup)) :
    ∃ er, splitNodeFullSvd kernel maxS maxErr relative n L Rr h = (.error er, h) :=
  splitNode3_err (graphOK_iff.1 g) hn (fun e he => current_iff.1 (hu e he)) hbad

/-! ### A concrete case: the matrix `[[0, 2], [1, 0]]` cut to one singular value -/

/-- The matrix `[[0, 2], [1, 0]]`. -/
def antiDiag : NDArray ℝ := mat 2 2 fun i j => if i = j then 0 else if i = 0 then 2 else 1

/-- The matrix `[[0, 1], [1, 0]]`. -/
def swapMat : NDArray ℝ := mat 2 2 fun i j => if i = j then 0 else 1

/-- One node with `antiDiag`. -/
noncomputable def antiNode : Heap ℝ := runOps [.node antiDiag] Heap.empty

theorem antiNode_ok : GraphOK antiNode :=
  (C07_history_partial [.node antiDiag] graphOK_empty ⟨trivial, trivial⟩).1

theorem antiNode_svd (m : NDArray ℝ) (hm : IsMatrixOf antiNode 0 [0] [1] m) :
    IsSvd m (mat 2 2 eye) [2, 1] swapMat := by
  obtain ⟨t, ht, hv, hr⟩ := hm
  have hts : t.shape = [2] ++ [2] := ht
  obtain ⟨m', h1, h2, h3⟩ := reshape_matrix hts
  have hr' : t.reshape [[2].prod, [2].prod] = .ok m := hr
  obtain rfl : m' = m := Except.ok.inj (h1.symm.trans hr')
  refine ⟨⟨2, 2, h2, rfl, rfl, rfl, fun i hi j hj => ?_, ?_, ?_⟩, by simp, by simp⟩
  · have := h3 [i] [j] (InB.singleton hi) (InB.singleton hj)
    have hval := hv fun e => if e = 0 then i else j
    have hval' : t.get [i, j] = antiDiag.get [i, j] := hval
    have hm : m'.get [i, j] = antiDiag.get [i, j] := by
      rw [← hval']
      simpa [ravel] using this
    rw [hm]
    interval_cases i <;> interval_cases j <;> simp [antiDiag, swapMat, mat, eye, Finset.sum_range_succ]
  · intro x hx y hy
    simp only [List.length_cons, List.length_nil] at hx hy
    interval_cases x <;> interval_cases y <;> simp [mat, eye]
  · intro x hx y hy
    simp only [List.length_cons, List.length_nil] at hx hy
    interval_cases x <;> interval_cases y <;> simp [swapMat, mat, Finset.sum_range_succ]

example : ∃ h' l m r trun A k,
    splitNodeFullSvd (fun _ => (mat 2 2 eye, [2, 1], swapMat)) (some 1) none false 0 [0] [1] antiNode =
      (.ok (l, m, r, trun), h') ∧ GraphOK h' ∧ IsMatrixOf antiNode 0 [0] [1] A ∧
      FullSvdResult antiNode h' 0 [0] [1] l m r trun [2, 1] k ∧ k ≤ 1 := by
  obtain ⟨h', l, m, r, trun, A, k, h1, h2, h3, h4, h5, _⟩ := C17_split_node_full_svd
    (kernel := fun _ => (mat 2 2 eye, [2, 1], swapMat)) (maxS := some 1) (maxErr := none) (relative := false)
    antiNode_ok Nat.one_pos (List.Perm.refl [0, 1]) (by exact (by decide : [0, 1].Nodup)) antiNode_svd (.inl rfl)
  exact ⟨h', l, m, r, trun, A, k, h1, h2, h3, h4, h5 1 rfl⟩

end TN.Graph
