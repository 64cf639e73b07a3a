import Verif.BsLanczos

/-!
# C97: the functions that make symmetric tensors

block_sparse/initialization.py, blocksparse_utils.py:33-77, blocksparsetensor.py:86-108, 590-684, utils.py:21-58.  Simplification: dtypes are left
out; the numpy functions that fill an array are parameters.
-/

set_option linter.unusedSectionVars false

namespace TN.Bs

open NDArray

section
variable {Q : Type} [AddCommGroup Q] [LinearOrder Q] {K : Type} [RCLike K]

/-! ### The model -/

/-- `_data_initializer` with `compute_num_nonzero` and the constructor (blocksparse_utils.py:33-60, blocksparsetensor.py:604-612, 629-638, 652-661,
675-684): `gen n` is the array of `n` numbers.  `ones`, `zeros`, `randn`, `random` (initialization.py:23-78) differ in `gen` only. -/
def initBST (argsort : List Nat → List Nat) (gen : Nat → List K) (indices : List (List (Leg Q))) : Py (BST Q K) := do
  let n ← numNonzero argsort indices.flatten
  .ok ⟨gen n, indices.flatten, consecutive 0 (indices.map List.length)⟩

/-- `empty_like`, `ones_like`, `zeros_like`, `randn_like`, `random_like` (initialization.py:81-165). -/
def initLike (gen : Nat → List K) (T : BST Q K) : BST Q K := ⟨gen T.data.length, T.legs, T.order⟩

/-- `np.ones(n)` -/
def npOnes (n : Nat) : List K := List.replicate n 1

/-- `np.zeros(n)` -/
def npZeros (n : Nat) : List K := List.replicate n 0

/-- `_random(size, boundaries=(lo, hi))` (utils.py:38-58) for real numbers, `uniform` is `np.random.uniform`. -/
def npRandom (uniform : ℝ → ℝ → Nat → List ℝ) (lo hi : ℝ) (n : Nat) : List ℝ := uniform lo hi n

/-- `_random(size, dtype, boundaries=(lo, hi))` (utils.py:38-58) for complex dtypes: two calls of `np.random.uniform`, the second one for the
imaginary parts. -/
def npRandomC (uniform uniform' : ℝ → ℝ → Nat → List ℝ) (lo hi : ℝ) (n : Nat) : List ℂ :=
  List.zipWith (fun x y : ℝ => (x : ℂ) + Complex.I * (y : ℂ)) (uniform lo hi n) (uniform' lo hi n)

/-- `ChargeArray.random(indices, boundaries)` (blocksparsetensor.py:87-108): the data.  `boundaries` is not passed on, so `_random` uses its
default. -/
def chargeArrayRandom (uniform : ℝ → ℝ → Nat → List ℝ) (indices : List (List (Leg Q))) (_lo _hi : ℝ) : List ℝ :=
  npRandom uniform 0 1 (indices.flatten.map fun l => l.1.dim).prod

/-- The `zeros` that `eigsh_lanczos` uses in BsLanczos is the one of this file. -/
theorem zerosBST_eq (argsort : List Nat → List Nat) (indices : List (List (Leg Q))) :
    zerosBST (K := K) argsort indices = initBST argsort npZeros indices := rfl

/-! ### Specification -/

/-- The charges at a dense position add up to the identity charge. -/
def Conserves (indices : List (List (Leg Q))) (s i : List Nat) : Prop :=
  total (eff indices.flatten) (unravel (dims (eff indices.flatten)) (ravel s i)) = 0

/-- `np.random.uniform(lo, hi, n)` returns `n` numbers of the interval. -/
def UniformOK (uniform : ℝ → ℝ → Nat → List ℝ) : Prop :=
  ∀ lo hi n, lo ≤ hi → (uniform lo hi n).length = n ∧ ∀ x ∈ uniform lo hi n, lo ≤ x ∧ x ≤ hi

/-- What a user sees of a tensor filled with the numbers `g`: the indices, zeros where charge is not conserved, and numbers of `g` elsewhere, each
as often as it is in `g`. -/
structure Filled (T : BST Q K) (g : List K) (indices : List (List (Leg Q))) : Prop where
  valid : T.Valid
  legs : T.sparseShape = indices
  dense : ∃ d, T.todense = .ok d ∧ d.shape = indices.map (fun I => (I.map fun l => l.1.dim).prod) ∧
    (∀ i, InB d.shape i → ¬ Conserves indices d.shape i → d.get i = 0) ∧
    (∀ i, InB d.shape i → Conserves indices d.shape i → d.get i ∈ g) ∧
    ∀ p : K → Bool, p 0 = false → (grid d.shape).countP (fun i => p (d.get i)) = g.countP p

/-! ### Proofs -/

theorem dense_mem {T : BST Q K} (h : T.Valid) (ho : T.order ≠ []) {d : NDArray K} (hd : T.todense = .ok d) {i : List Nat} (hi : InB d.shape i)
    (hz : Conserves T.sparseShape d.shape i) : d.get i ∈ T.data := by
  rw [Conserves] at hz
  obtain ⟨d', d1, d2, d3⟩ := h.todense ho
  rw [hd] at d1
  cases d1
  rw [d2] at hi hz
  obtain ⟨σ, hσ, hσi⟩ := exists_gpos h.order_nodup hi
  have hσ' : ∀ n, n < T.legs.length → σ n < T.ldim n := fun n hn => hσ n (h.mem_order.2 hn)
  have hpe : eff T.sparseShape.flatten = permL T.order.flatten (eff T.legs) := by
    rw [h.sparseShape_flatten, permL_eff _ _ (fun n hn => h.mem_order.1 hn)]; rfl
  have hpd : dims (permL T.order.flatten (eff T.legs)) = T.order.flatten.map T.ldim := by
    rw [← hpe, dims_eff, h.sparseShape_flatten, pick_dims _ (fun n hn => h.mem_order.1 hn)]
  have hpo : T.order.flatten.Perm (List.range (eff T.legs).length) := by
    rw [show (eff T.legs).length = T.legs.length by simp [eff]]; exact h.perm
  rw [← hσi, hpe, hpd, ravel_groups, unravel_ravel ((inB_map _ _ _).2 hσ),
    total_unperm hpo (by rw [List.length_map, hpo.length_eq, List.length_range]),
    perm_unperm_map hpo] at hz
  rw [show (eff T.legs).length = T.legs.length by simp [eff]] at hz
  have hm : (List.range T.legs.length).map σ ∈ stored (eff T.legs) := mem_stored.2 ⟨T.inB_range.2 hσ', hz⟩
  rw [← hσi, d3 σ hσ', BST.sval, if_pos hm]
  have hk := List.idxOf_lt_length_iff.2 hm
  rw [← h.size] at hk
  rw [List.getD_eq_getElem _ _ hk]
  exact List.getElem_mem hk

theorem countP_sum {α : Type} (p : α → Bool) (l : List α) : (l.map fun x => if p x then 1 else 0).sum = l.countP p := by
  induction l with
  | nil => rfl
  | cons a l ih => rw [List.map_cons, List.sum_cons, ih, List.countP_cons, add_comm]

theorem filled {T : BST Q K} (h : T.Valid) (ho : T.order ≠ []) : Filled T T.data T.sparseShape := by
  obtain ⟨d, d1, d2, -⟩ := h.todense ho
  refine ⟨h, rfl, d, d1, by rw [h.sparseShape_dims, d2], fun i hi hc => h.todense_zero ho d1 hi hc, fun i hi hc => dense_mem h ho d1 hi hc,
    fun p hp => ?_⟩
  obtain ⟨d', e1, e2⟩ := sum_dense h ho (fun x => if p x then 1 else 0) (by simp [hp])
  rw [d1] at e1; cases e1
  rw [← countP_sum, ← countP_sum, e2]

/-- **C97.**  A tensor made from indices has these indices and is filled with the numbers drawn. -/
theorem C97_init {argsort : List Nat → List Nat} (ha : ArgsortOK argsort) {gen : Nat → List K} (hg : ∀ n, (gen n).length = n)
    {indices : List (List (Leg Q))} (hne : indices ≠ []) (hi : ∀ I ∈ indices, I ≠ []) (hw : LegsWF indices.flatten) :
    ∃ T n, initBST argsort gen indices = .ok T ∧ Filled T (gen n) indices := by
  obtain ⟨T0, d, t1, t2, t3, -⟩ := C23_fromdense_todense (R := K)
    (a := ⟨indices.map fun I => (I.map fun l => l.1.dim).prod, fun _ => 0⟩) rfl hne hi hw
  obtain ⟨T1, u1, u2, u3, u4, -⟩ := fromdense_spec (R := K)
    (a := ⟨indices.map fun I => (I.map fun l => l.1.dim).prod, fun _ => 0⟩) rfl hne hi hw
  rw [t1] at u1; cases u1
  have hfl : indices.flatten ≠ [] := by
    obtain ⟨I, Is, rfl⟩ := List.exists_cons_of_ne_nil hne
    simp [hi I (by simp)]
  have h4 : numNonzero argsort indices.flatten = .ok T0.data.length := by
    rw [C22_num_nonzero ha hw hfl, t2.size, u3, stored, ← List.countP_eq_length_filter, dims_eff]
  have ho : T0.order ≠ [] := by
    intro h0
    rw [BST.sparseShape, h0] at t3
    exact hne t3.symm
  have hv : (⟨gen T0.data.length, T0.legs, T0.order⟩ : BST Q K).Valid := ⟨t2.wf, t2.perm, t2.groups, (hg _).trans t2.size⟩
  refine ⟨⟨gen T0.data.length, T0.legs, T0.order⟩, T0.data.length, ?_, ?_⟩
  · rw [initBST, h4, u3, u4]; rfl
  · have := filled hv ho
    rwa [show BST.sparseShape (⟨gen T0.data.length, T0.legs, T0.order⟩ : BST Q K) = indices from t3] at this

/-- **C97.**  A tensor made like another one has its indices, whatever its storage, and is filled with the numbers drawn. -/
theorem C97_like {gen : Nat → List K} (hg : ∀ n, (gen n).length = n) {T : BST Q K} (h : T.Valid) (ho : T.order ≠ []) :
    Filled (initLike gen T) (gen T.data.length) T.sparseShape :=
  filled (T := initLike gen T) ⟨h.wf, h.perm, h.groups, (hg _).trans h.size⟩ ho

/-- **C97.**  A tensor filled with one number `x` has the entry `x` where charge is conserved and 0 elsewhere. -/
theorem C97_constant {T : BST Q K} {x : K} {n : Nat} {indices : List (List (Leg Q))} (h : Filled T (List.replicate n x) indices) :
    ∃ d, T.todense = .ok d ∧ d.shape = indices.map (fun I => (I.map fun l => l.1.dim).prod) ∧
      ∀ i, InB d.shape i → (Conserves indices d.shape i → d.get i = x) ∧ (¬ Conserves indices d.shape i → d.get i = 0) := by
  obtain ⟨d, d1, d2, d3, d4, -⟩ := h.dense
  exact ⟨d, d1, d2, fun i hi => ⟨fun hc => List.eq_of_mem_replicate (d4 i hi hc), d3 i hi⟩⟩

/-- **C97.**  `ones` and `ones_like`, `zeros` and `zeros_like`. -/
theorem C97_ones_zeros {argsort : List Nat → List Nat} (ha : ArgsortOK argsort) {indices : List (List (Leg Q))} (hne : indices ≠ [])
    (hi : ∀ I ∈ indices, I ≠ []) (hw : LegsWF indices.flatten) :
    (∃ T d : _, initBST argsort (npOnes (K := K)) indices = .ok T ∧ T.sparseShape = indices ∧ T.todense = .ok d ∧
      ∀ i, InB d.shape i → (Conserves indices d.shape i → d.get i = 1) ∧ (¬ Conserves indices d.shape i → d.get i = 0)) ∧
    ∃ T d : _, initBST argsort (npZeros (K := K)) indices = .ok T ∧ T.sparseShape = indices ∧ T.todense = .ok d ∧ ∀ i, InB d.shape i → d.get i = 0 := by
  obtain ⟨T, n, t1, t2⟩ := C97_init ha (gen := npOnes (K := K)) (fun n => by simp [npOnes]) hne hi hw
  obtain ⟨S, m, s1, s2⟩ := C97_init ha (gen := npZeros (K := K)) (fun n => by simp [npZeros]) hne hi hw
  obtain ⟨d, d1, -, d2⟩ := C97_constant t2
  obtain ⟨e, e1, -, e2⟩ := C97_constant s2
  refine ⟨⟨T, d, t1, t2.legs, d1, d2⟩, S, e, s1, s2.legs, e1, fun i hi => ?_⟩
  by_cases hc : Conserves indices e.shape i
  · exact (e2 i hi).1 hc
  · exact (e2 i hi).2 hc

/-- **C97.**  The entries of `random` and `random_like` where charge is conserved are in the interval. -/
theorem C97_random {uniform : ℝ → ℝ → Nat → List ℝ} (hu : UniformOK uniform) {lo hi : ℝ} (hl : lo ≤ hi) {argsort : List Nat → List Nat}
    (ha : ArgsortOK argsort) {indices : List (List (Leg Q))} (hne : indices ≠ []) (hI : ∀ I ∈ indices, I ≠ []) (hw : LegsWF indices.flatten) :
    ∃ T d, initBST argsort (npRandom uniform lo hi) indices = .ok T ∧ T.sparseShape = indices ∧ T.todense = .ok d ∧
      ∀ i, InB d.shape i → (Conserves indices d.shape i → lo ≤ d.get i ∧ d.get i ≤ hi) ∧ (¬ Conserves indices d.shape i → d.get i = 0) := by
  obtain ⟨T, n, t1, t2⟩ := C97_init ha (gen := npRandom uniform lo hi) (fun n => (hu lo hi n hl).1) hne hI hw
  obtain ⟨d, d1, d2, d3, d4, -⟩ := t2.dense
  exact ⟨T, d, t1, t2.legs, d1, fun i hi' => ⟨fun hc => (hu lo hi n hl).2 _ (d4 i hi' hc), d3 i hi'⟩⟩

theorem npRandomC_spec {u u' : ℝ → ℝ → Nat → List ℝ} (hu : UniformOK u) (hu' : UniformOK u') {lo hi : ℝ} (hl : lo ≤ hi) (n : Nat) :
    (npRandomC u u' lo hi n).length = n ∧ ∀ z ∈ npRandomC u u' lo hi n, (lo ≤ z.re ∧ z.re ≤ hi) ∧ lo ≤ z.im ∧ z.im ≤ hi := by
  refine ⟨by rw [npRandomC, List.length_zipWith, (hu lo hi n hl).1, (hu' lo hi n hl).1, min_self], fun z hz => ?_⟩
  rw [npRandomC, ← List.map_uncurry_zip_eq_zipWith] at hz
  obtain ⟨⟨x, y⟩, h1, rfl⟩ := List.mem_map.1 hz
  have hx := (hu lo hi n hl).2 x ((List.of_mem_zip h1).1)
  have hy := (hu' lo hi n hl).2 y ((List.of_mem_zip h1).2)
  simpa using ⟨hx, hy⟩

/-- **C97.**  With a complex dtype the real and the imaginary parts are in the interval, both for `random` and `random_like`. -/
theorem C97_random_complex {u u' : ℝ → ℝ → Nat → List ℝ} (hu : UniformOK u) (hu' : UniformOK u') {lo hi : ℝ} (hl : lo ≤ hi) :
    (∀ {argsort : List Nat → List Nat}, ArgsortOK argsort → ∀ {indices : List (List (Leg Q))}, indices ≠ [] → (∀ I ∈ indices, I ≠ []) →
      LegsWF indices.flatten → ∃ T d, initBST argsort (npRandomC u u' lo hi) indices = .ok T ∧ T.sparseShape = indices ∧ T.todense = .ok d ∧
      ∀ i, InB d.shape i → (Conserves indices d.shape i → (lo ≤ (d.get i).re ∧ (d.get i).re ≤ hi) ∧ lo ≤ (d.get i).im ∧ (d.get i).im ≤ hi) ∧
        (¬ Conserves indices d.shape i → d.get i = 0)) ∧
    ∀ {T : BST Q ℂ}, T.Valid → T.order ≠ [] → ∃ d, (initLike (npRandomC u u' lo hi) T).todense = .ok d ∧
      (initLike (npRandomC u u' lo hi) T).sparseShape = T.sparseShape ∧ ∀ i, InB d.shape i →
      (Conserves T.sparseShape d.shape i → (lo ≤ (d.get i).re ∧ (d.get i).re ≤ hi) ∧ lo ≤ (d.get i).im ∧ (d.get i).im ≤ hi) ∧
        (¬ Conserves T.sparseShape d.shape i → d.get i = 0) := by
  have hs := npRandomC_spec hu hu' hl
  constructor
  · intro argsort ha indices hne hI hw
    obtain ⟨T, n, t1, t2⟩ := C97_init ha (gen := npRandomC u u' lo hi) (fun n => (hs n).1) hne hI hw
    obtain ⟨d, d1, d2, d3, d4, -⟩ := t2.dense
    exact ⟨T, d, t1, t2.legs, d1, fun i hi' => ⟨fun hc => (hs n).2 _ (d4 i hi' hc), d3 i hi'⟩⟩
  · intro T h ho
    have t2 := C97_like (gen := npRandomC u u' lo hi) (fun n => (hs n).1) h ho
    obtain ⟨d, d1, d2, d3, d4, -⟩ := t2.dense
    exact ⟨d, d1, t2.legs, fun i hi' => ⟨fun hc => (hs _).2 _ (d4 i hi' hc), d3 i hi'⟩⟩

/-- **C97**, what fails: `ChargeArray.random` ignores `boundaries`. -/
theorem C97_boundaries_false : ∃ (indices : List (List (Leg Int))), ∀ uniform, UniformOK uniform →
    ∃ x ∈ chargeArrayRandom uniform indices 5 6, ¬ (5 ≤ x ∧ x ≤ 6) := by
  refine ⟨[[(.raw [0, 1], false)]], fun uniform hu => ?_⟩
  obtain ⟨h1, h2⟩ := hu 0 1 2 (by norm_num)
  have e : chargeArrayRandom uniform [[((.raw [0, 1], false) : Leg Int)]] 5 6 = uniform 0 1 2 := rfl
  rw [e]
  obtain ⟨x, hx⟩ := List.exists_mem_of_length_pos (l := uniform 0 1 2) (by omega)
  exact ⟨x, hx, fun h => by linarith [(h2 x hx).2]⟩

/-! ### Cases -/

/-- A function that fills an array with numbers of the interval. -/
theorem uniform_ok : UniformOK fun lo _ n => List.replicate n lo := by
  intro lo hi n h
  refine ⟨by simp, fun x hx => ?_⟩
  rw [List.eq_of_mem_replicate hx]
  exact ⟨le_refl _, h⟩

example := C97_random (Q := Int) uniform_ok (lo := -1) (hi := 2) (by norm_num) argsortI_ok (indices := (gmEx [[0, 1]]).sparseShape) (by decide)
  (by decide) (by rw [(gmEx_valid (by decide) (by decide)).sparseShape_flatten]; exact gmEx_wf)

example := (C97_random_complex (Q := Int) uniform_ok uniform_ok (lo := -1) (hi := 2) (by norm_num)).1 argsortI_ok
  (indices := (gmEx [[0], [1]]).sparseShape) (by decide) (by decide)
  (by rw [(gmEx_valid (by decide) (by decide)).sparseShape_flatten]; exact gmEx_wf)

example := C97_ones_zeros (K := ℝ) (Q := Int) argsortI_ok (indices := (gmEx [[0], [1]]).sparseShape) (by decide)
  (by decide) (by rw [(gmEx_valid (by decide) (by decide)).sparseShape_flatten]; exact gmEx_wf)

example := C97_like (gen := fun n => (List.range n).map fun k : Nat => (k : ℝ)) (by simp) (gmEx_valid (order := [[1], [0]]) (by decide) (by decide))
  (by decide)

end
end TN.Bs
