import Verif.GraphProps3

/-!
# C17 for the decompositions of the dense backends

`split_node` (singular values), `split_node_qr` and `split_node_rq` are `splitNodeWith` with the
dense decompositions of Decomp.lean.
-/

namespace TN.Graph

open TN NDArray Decomp Finset

variable {K : Type} [RCLike K]

/-- `broadcast_right_multiplication(tensor, vector)` (backends/numpy/numpy_backend.py:560-565).
Simplified: NumPy would also broadcast a vector or last axis of length one; here other lengths
are rejected. -/
def mulRight (a s : NDArray K) : Py (NDArray K) :=
  if s.shape.length ≠ 1 then .error .valueError
  else if a.shape.getLast? = s.shape.head? then
    .ok ⟨a.shape, fun i => a.get i * s.get [i.getLastD 0]⟩
  else .error .valueError

/-- `broadcast_left_multiplication(vector, tensor)` (backends/numpy/numpy_backend.py:567-575).
Simplified as `mulRight`. -/
def mulLeft (s a : NDArray K) : Py (NDArray K) :=
  if s.shape.length ≠ 1 then .error .valueError
  else if a.shape.head? = s.shape.head? then
    .ok ⟨a.shape, fun i => s.get [i.headD 0] * a.get i⟩
  else .error .valueError

/-- The two tensors of `split_node` (network_operations.py:215-224): singular values and their square
roots multiplied into both factors.  The discarded values are not part of the result here. -/
noncomputable def svdFactors (kernel : NDArray K → NDArray K × List ℝ × NDArray K) (sqrt : K → K)
    (maxS : Option Nat) (maxErr : Option ℝ) (relative : Bool) (t : NDArray K) (k : Nat) :
    Py (NDArray K × NDArray K) := do
  let (u, s, vh, _) ← Decomp.svd kernel t k maxS maxErr relative
  let sqrtS : NDArray K := ⟨s.shape, fun i => sqrt (s.get i)⟩
  let us ← mulRight u sqrtS
  let vhs ← mulLeft sqrtS vh
  pure (us, vhs)

/-- `split_node` (network_operations.py:130-255). -/
noncomputable def splitNode (kernel : NDArray K → NDArray K × List ℝ × NDArray K) (sqrt : K → K)
    (maxS : Option Nat) (maxErr : Option ℝ) (relative : Bool) (n : NId) (left right : List EId) :
    M K (NId × NId) :=
  splitNodeWith (svdFactors kernel sqrt maxS maxErr relative) n left right

/-- `split_node_qr` (network_operations.py:258-348). -/
def splitNodeQr (kernel : NDArray K → NDArray K × NDArray K) (sign : K → K) (n : NId)
    (left right : List EId) : M K (NId × NId) :=
  splitNodeWith (fun t k => Decomp.qr kernel sign t k false) n left right

/-- `split_node_rq` (network_operations.py:351-443). -/
def splitNodeRq (kernel : NDArray K → NDArray K × NDArray K) (sign : K → K) (n : NId)
    (left right : List EId) : M K (NId × NId) :=
  splitNodeWith (fun t k => Decomp.rq kernel sign t k false) n left right

theorem svdFactors_factorises {kernel : NDArray K → NDArray K × List ℝ × NDArray K} {sqrt : K → K}
    {t : NDArray K} {p : Nat} {relative : Bool} {m U V : NDArray K} {S : List ℝ}
    (hm : t.reshape [(t.shape.take p).prod, (t.shape.drop p).prod] = .ok m)
    (hker : kernel m = (U, S, V)) (hk : IsSvd m U S V)
    (hs : ∀ x ∈ S, sqrt ((x : ℝ) : K) * sqrt ((x : ℝ) : K) = ((x : ℝ) : K)) :
    ∃ u v, svdFactors kernel sqrt none none relative t p = .ok (u, v) ∧ Factorises t p u v := by
  obtain ⟨u, s, vh, rest, h1, h2, h3, h4, h5, h6, _, _, h7⟩ := C29_svd_exact hm hker hk
    (relative := relative)
  refine ⟨⟨u.shape, fun i => u.get i * sqrt (s.get [i.getLastD 0])⟩,
    ⟨vh.shape, fun i => sqrt (s.get [i.headD 0]) * vh.get i⟩, ?_, S.length, h2, h4, ?_⟩
  · unfold svdFactors
    simp only [h1, bind, Except.bind, mulRight, mulLeft, h2, h3, h4, List.length_singleton,
      ne_eq, not_true_eq_false, if_false, List.getLast?_append, List.getLast?_singleton,
      Option.some_or, List.head?_cons, if_true]
    rfl
  · intro i j hi hj
    rw [h7 i j hi hj]
    refine Finset.sum_congr rfl fun x hx => ?_
    have hx' := Finset.mem_range.1 hx
    have hlast : (i ++ [x]).getLastD 0 = x := by simp
    have hh := hs (S.getD x 0) (by
      rw [List.getD_eq_getElem?_getD, List.getElem?_eq_getElem hx']; exact List.getElem_mem hx')
    rw [← h6 x hx'] at hh
    simp only [hlast, List.headD_cons]
    calc u.get (i ++ [x]) * s.get [x] * vh.get (x :: j)
        = u.get (i ++ [x]) * (sqrt (s.get [x]) * sqrt (s.get [x])) * vh.get (x :: j) := by rw [hh]
      _ = _ := by ring

/-- The matrix that is decomposed: the tensor of the node with left edges before right edges. -/
def IsMatrixOf (h : Heap K) (n : NId) (L Rr : List EId) (m : NDArray K) : Prop :=
  ∃ t, Shaped (edim h) t (L ++ Rr) ∧
    (∀ σ, val t (L ++ Rr) σ = val (h.node n).tensor (h.node n).edges σ) ∧
    t.reshape [(L.map (edim h)).prod, (Rr.map (edim h)).prod] = .ok m

/-- The two nodes replace the old one in every network. -/
def SplitResult (h h' : Heap K) (n : NId) (L Rr : List EId) (l r : NId) : Prop :=
  GraphOK h' ∧ (∃ u v c, NodeSplit h h' n L Rr u v l r c) ∧
    ∀ rest : List NId, (∀ m ∈ rest, m < h.nn ∧ m ≠ n) → ∀ σ, InRange h' (l :: r :: rest) σ →
      netVal (netOf h' (l :: r :: rest)) σ = netVal (netOf h (n :: rest)) σ

theorem split_result {decomp : NDArray K → Nat → Py (NDArray K × NDArray K)}
    {h : Heap K} (g : GraphOK h) {n : NId} (hn : n < h.nn) {L Rr : List EId}
    (hp : (L ++ Rr).Perm (h.node n).edges) (hnd : (h.node n).edges.Nodup)
    (hdec : ∀ t m : NDArray K, IsMatrixOf h n L Rr m →
      t.reshape [(t.shape.take L.length).prod, (t.shape.drop L.length).prod] = .ok m →
      ∃ u v, decomp t L.length = .ok (u, v) ∧ Factorises t L.length u v) :
    ∃ h' l r, splitNodeWith decomp n L Rr h = (.ok (l, r), h') ∧ SplitResult h h' n L Rr l r := by
  obtain ⟨h', l, r, u, v, c, k1, k2, k3, k4⟩ := C17_split_node (decomp := decomp) g hn hp hnd
    fun t ht hv => by
      have e1 : t.shape.take L.length = L.map (edim h) := by
        rw [ht, List.map_append, List.take_left' (by simp)]
      have e2 : t.shape.drop L.length = Rr.map (edim h) := by
        rw [ht, List.map_append, List.drop_left' (by simp)]
      obtain ⟨m, hm, _⟩ := reshape_matrix (t := t) (A := L.map (edim h)) (B := Rr.map (edim h))
        (by rw [ht, List.map_append])
      refine hdec t m ⟨t, ht, hv, hm⟩ ?_
      rw [e1, e2]
      exact hm
  exact ⟨h', l, r, k1, k2, ⟨u, v, c, k3⟩, k4⟩

/-- **C17**, `split_node` without truncation, for every valid matrix decomposition. -/
theorem C17_split_node_svd {kernel : NDArray K → NDArray K × List ℝ × NDArray K} {sqrt : K → K}
    {relative : Bool} {h : Heap K} (g : GraphOK h) {n : NId} (hn : n < h.nn) {L Rr : List EId}
    (hp : (L ++ Rr).Perm (h.node n).edges) (hnd : (h.node n).edges.Nodup)
    (hk : ∀ m, IsMatrixOf h n L Rr m → IsSvd m (kernel m).1 (kernel m).2.1 (kernel m).2.2)
    (hs : ∀ x : ℝ, 0 ≤ x → sqrt (x : K) * sqrt (x : K) = (x : K)) :
    ∃ h' l r, splitNode kernel sqrt none none relative n L Rr h = (.ok (l, r), h') ∧
      SplitResult h h' n L Rr l r :=
  split_result g hn hp hnd fun _ m hm hr =>
    svdFactors_factorises hr rfl (hk m hm) fun x hx => hs x ((hk m hm).nonneg x hx)

/-- **C17**, `split_node_qr`; the left tensor is an isometry by `qr_factorises`. -/
theorem C17_split_node_qr {kernel : NDArray K → NDArray K × NDArray K} {sign : K → K}
    {h : Heap K} (g : GraphOK h) {n : NId} (hn : n < h.nn) {L Rr : List EId}
    (hp : (L ++ Rr).Perm (h.node n).edges) (hnd : (h.node n).edges.Nodup)
    (hk : ∀ m, IsMatrixOf h n L Rr m → IsQr m (kernel m).1 (kernel m).2) :
    ∃ h' l r, splitNodeQr kernel sign n L Rr h = (.ok (l, r), h') ∧
      SplitResult h h' n L Rr l r :=
  split_result g hn hp hnd fun t m hm hr => by
    obtain ⟨q, r, h1, h2, _⟩ := qr_factorises (kernel := kernel) (sign := sign) (nonneg := false)
      (t := t) (p := L.length) fun m' hm' => by
        obtain rfl : m' = m := Except.ok.inj (hm'.symm.trans hr)
        exact ⟨hk m' hm, by simp⟩
    exact ⟨q, r, h1, h2⟩

/-- **C17**, `split_node_rq`. -/
theorem C17_split_node_rq {kernel : NDArray K → NDArray K × NDArray K} {sign : K → K}
    {h : Heap K} (g : GraphOK h) {n : NId} (hn : n < h.nn) {L Rr : List EId}
    (hp : (L ++ Rr).Perm (h.node n).edges) (hnd : (h.node n).edges.Nodup)
    (hk : ∀ m, IsMatrixOf h n L Rr m →
      IsQr (conjTranspose m) (kernel (conjTranspose m)).1 (kernel (conjTranspose m)).2) :
    ∃ h' l r, splitNodeRq kernel sign n L Rr h = (.ok (l, r), h') ∧
      SplitResult h h' n L Rr l r :=
  split_result g hn hp hnd fun t m hm hr => by
    obtain ⟨q, r, h1, h2, _⟩ := rq_factorises (kernel := kernel) (sign := sign) (nonneg := false)
      (t := t) (p := L.length) fun m' hm' => by
        obtain rfl : m' = m := Except.ok.inj (hm'.symm.trans hr)
        exact ⟨hk m' hm, by simp⟩
    exact ⟨q, r, h1, h2⟩

/-! ### A concrete case -/

/-- One node with the matrix `[[0, 1], [0, 0]]`. -/
noncomputable def matrixNode : Heap ℝ := runOps [.node nilp] Heap.empty

theorem matrixNode_ok : GraphOK matrixNode :=
  (C07_history_partial [.node nilp] graphOK_empty ⟨trivial, trivial⟩).1

theorem matrixNode_qr (m : NDArray ℝ) (hm : IsMatrixOf matrixNode 0 [0] [1] m) :
    IsQr m (mat 2 2 eye) nilp := by
  obtain ⟨t, ht, hv, hr⟩ := hm
  have hts : t.shape = [2] ++ [2] := ht
  obtain ⟨m', h1, h2, h3⟩ := reshape_matrix hts
  have hr' : t.reshape [[2].prod, [2].prod] = .ok m := hr
  obtain rfl : m' = m := Except.ok.inj (h1.symm.trans hr')
  obtain ⟨a, k, b, e1, e2, e3, e4, e5, e6⟩ := nilp_isQr
  simp only [nilp, mat, List.cons.injEq, and_true] at e1
  obtain ⟨rfl, rfl⟩ := e1
  refine ⟨2, k, 2, h2, e2, e3, e4, fun i hi j hj => ?_, e6⟩
  rw [← e5 i hi j hj]
  have := h3 [i] [j] (InB.singleton hi) (InB.singleton hj)
  have hval := hv fun e => if e = 0 then i else j
  have hval' : t.get [i, j] = nilp.get [i, j] := hval
  rw [← hval']
  simpa [ravel] using this

example (sign : ℝ → ℝ) : ∃ h' l r,
    splitNodeQr (fun _ => (mat 2 2 eye, nilp)) sign 0 [0] [1] matrixNode = (.ok (l, r), h') ∧
      SplitResult matrixNode h' 0 [0] [1] l r :=
  C17_split_node_qr matrixNode_ok Nat.one_pos (List.Perm.refl [0, 1])
    (by exact (by decide : [0, 1].Nodup)) matrixNode_qr

end TN.Graph
