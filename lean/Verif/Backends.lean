import Verif.DecompProps
import Mathlib.Data.List.Sort
import Mathlib.Analysis.Complex.Basic

/-!
# Decompositions in the other dense backends

`svd`, `qr` and `rq` of `backends/tensorflow/decompositions.py` and
`backends/pytorch/decompositions.py`, compared with those of the numpy backend.  (The jax backend
calls the numpy functions.)  As in `Decomp`, the numerical kernels are parameters.  Both libraries return the
right singular vectors as columns `v`.
-/

namespace TN.Backends

open TN NDArray Finset Decomp

variable {K : Type} [RCLike K]

/-! ### The models -/

/-- `tf.cumsum(x, reverse=True)`: the sums of the tails. -/
def revCumsum : List ℝ → List ℝ
  | [] => []
  | x :: l => (x :: l).sum :: revCumsum l

/-- The number of values kept by TensorFlow (tensorflow/decompositions.py:84-106). -/
noncomputable def tfKeep (s : List ℝ) (maxS : Option Nat) (maxErr : Option ℝ) (relative : Bool) :
    Py Nat :=
  let maxS' := maxS.getD s.length
  match maxErr with
  | none => .ok (min maxS' maxS')
  | some err =>
    let errs := (revCumsum (s.map (· ^ 2))).map Real.sqrt
    match relative, s with
    | true, [] => .error .indexError
    | true, s0 :: _ => .ok (min maxS' (errs.countP (fun e => err * s0 < e)))
    | false, _ => .ok (min maxS' (errs.countP (fun e => err < e)))

/-- The number of values kept by PyTorch (pytorch/decompositions.py:81-101). -/
noncomputable def torchKeep (s : List ℝ) (maxS : Option Nat) (maxErr : Option ℝ) (relative : Bool) :
    Py Nat :=
  let maxS' := maxS.getD s.length
  match maxErr with
  | none => .ok (min maxS' maxS')
  | some err =>
    let sorted := (s.map (· ^ 2)).mergeSort (fun x y => decide (x ≤ y))
    let errs := (cumsum 0 sorted).map Real.sqrt
    match relative, s with
    | true, [] => .error .indexError
    | true, s0 :: _ => .ok (min maxS' (errs.countP (fun e => err * s0 < e)))
    | false, _ => .ok (min maxS' (errs.countP (fun e => err < e)))

/-- `torch.transpose(A, 0, 1)` of a matrix. -/
def transposeM (A : NDArray K) : NDArray K := ⟨A.shape.reverse, fun i => A.get i.reverse⟩

/-- The common part of the two functions: `adj` turns `v` into `vh`, `keep` counts the kept
values (tensorflow/decompositions.py:75-126, pytorch/decompositions.py:75-117). -/
noncomputable def svdWith (adj : NDArray K → NDArray K)
    (keepOf : List ℝ → Option Nat → Option ℝ → Bool → Py Nat)
    (kernel : NDArray K → NDArray K × List ℝ × NDArray K) (t : NDArray K)
    (pivot : Nat) (maxS : Option Nat) (maxErr : Option ℝ) (relative : Bool) :
    Py (NDArray K × NDArray K × NDArray K × NDArray K) := do
  let left := t.shape.take pivot
  let right := t.shape.drop pivot
  let m ← t.reshape [left.prod, right.prod]
  let (u, s, v) := kernel m
  let keep ← keepOf s maxS maxErr relative
  let sRest := s.drop keep
  let s' := s.take keep
  let u' : NDArray K := ⟨[u.shape.getD 0 0, min keep (u.shape.getD 1 0)], u.get⟩
  let v' : NDArray K := ⟨[v.shape.getD 0 0, min keep (v.shape.getD 1 0)], v.get⟩
  let vh := adj v'
  let u'' ← u'.reshape (left ++ [s'.length])
  let vh'' ← vh.reshape (s'.length :: right)
  pure (u'', ⟨[s'.length], fun i => ((s'.getD (i.getD 0 0) 0 : ℝ) : K)⟩, vh'',
    ⟨[sRest.length], fun i => ((sRest.getD (i.getD 0 0) 0 : ℝ) : K)⟩)

/-- `svd` of the TensorFlow backend (tensorflow/decompositions.py:20-128). -/
noncomputable def tfSvd (kernel : NDArray K → NDArray K × List ℝ × NDArray K) (t : NDArray K)
    (pivot : Nat) (maxS : Option Nat) (maxErr : Option ℝ) (relative : Bool) :=
  svdWith conjTranspose tfKeep kernel t pivot maxS maxErr relative

/-- `svd` of the PyTorch backend (pytorch/decompositions.py:20-119); `vh` is the transpose of `v`. -/
noncomputable def torchSvd (kernel : NDArray K → NDArray K × List ℝ × NDArray K) (t : NDArray K)
    (pivot : Nat) (maxS : Option Nat) (maxErr : Option ℝ) (relative : Bool) :=
  svdWith transposeM torchKeep kernel t pivot maxS maxErr relative

/-- `q * phases` and `phases[:, None] * r`, without the conjugation of numpy
(tensorflow/decompositions.py:173-176, pytorch/decompositions.py:161-164). -/
def fixPhases' (sign : K → K) (q r : NDArray K) : NDArray K × NDArray K :=
  (⟨q.shape, fun i => q.get i * sign (r.get [i.getD 1 0, i.getD 1 0])⟩,
   ⟨r.shape, fun i => sign (r.get [i.getD 0 0, i.getD 0 0]) * r.get i⟩)

/-- `qr` of the TensorFlow and the PyTorch backend (tensorflow/decompositions.py:131-180,
pytorch/decompositions.py:122-168). -/
def tfQr (kernel : NDArray K → NDArray K × NDArray K) (sign : K → K) (t : NDArray K) (pivot : Nat)
    (nonNegativeDiagonal : Bool) : Py (NDArray K × NDArray K) := do
  let left := t.shape.take pivot
  let right := t.shape.drop pivot
  let m ← t.reshape [left.prod, right.prod]
  let (q, r) := kernel m
  let (q, r) := if nonNegativeDiagonal then fixPhases' sign q r else (q, r)
  let center := q.shape.getD 1 0
  let q ← q.reshape (left ++ [center])
  let r ← r.reshape (center :: right)
  pure (q, r)

/-- `rq` of the two backends; TensorFlow conjugates, PyTorch does not
(tensorflow/decompositions.py:183-235, pytorch/decompositions.py:171-221). -/
def rqWith (adj : NDArray K → NDArray K) (kernel : NDArray K → NDArray K × NDArray K) (sign : K → K)
    (t : NDArray K) (pivot : Nat) (nonNegativeDiagonal : Bool) : Py (NDArray K × NDArray K) := do
  let left := t.shape.take pivot
  let right := t.shape.drop pivot
  let m ← t.reshape [left.prod, right.prod]
  let (q, r) := kernel (adj m)
  let (q, r) := if nonNegativeDiagonal then fixPhases' sign q r else (q, r)
  let (r, q) := (adj r, adj q)
  let center := r.shape.getD 1 0
  let r ← r.reshape (left ++ [center])
  let q ← q.reshape (center :: right)
  pure (r, q)

/-! ### The number of kept values -/

theorem revCumsum_eq (l : List ℝ) : revCumsum l = (cumsum 0 l.reverse).reverse := by
  have h : ∀ l : List ℝ, revCumsum l = (List.range l.length).map (fun i => (l.drop i).sum) := by
    intro l
    induction l with
    | nil => rfl
    | cons x l ih =>
      rw [revCumsum, ih, List.length_cons, List.range_succ_eq_map, List.map_cons, List.map_map]
      rfl
  rw [h, cumsum_eq]
  apply List.ext_getElem (by simp)
  intro k h1 h2
  have hk : k < l.length := by simpa using h1
  simp only [List.getElem_map, List.getElem_range, List.getElem_reverse, List.length_map,
    List.length_range, List.length_reverse, zero_add]
  rw [List.take_reverse, List.sum_reverse]
  congr 2
  omega

/-- TensorFlow keeps as many values as numpy. -/
theorem tfKeep_eq (s : List ℝ) (maxS : Option Nat) (maxErr : Option ℝ) (relative : Bool) :
    tfKeep s maxS maxErr relative = numKeep s maxS maxErr relative := by
  have h : ∀ p : ℝ → Bool, ((revCumsum (s.map (· ^ 2))).map Real.sqrt).countP p =
      (truncErrs s).countP p := by
    intro p
    rw [revCumsum_eq, truncErrs, List.map_reverse, List.countP_reverse, List.map_reverse]
  unfold tfKeep numKeep
  cases maxErr with
  | none => simp
  | some err =>
    cases relative with
    | false => simp only [h]
    | true =>
      cases s with
      | nil => rfl
      | cons x l => simp only [h]

/-- Sorting the squares of a descending list of non-negative numbers reverses it. -/
theorem sort_squares {s : List ℝ} (h0 : ∀ x ∈ s, 0 ≤ x) (hs : s.Pairwise (· ≥ ·)) :
    (s.map (· ^ 2)).mergeSort (fun x y => decide (x ≤ y)) = s.reverse.map (· ^ 2) := by
  have h1 : ((s.map (· ^ 2)).mergeSort (fun x y => decide (x ≤ y))).Pairwise (· ≤ ·) := by
    have := List.pairwise_mergeSort (le := fun x y : ℝ => decide (x ≤ y))
      (fun a b c h1 h2 => by simp only [decide_eq_true_eq] at *; exact h1.trans h2)
      (fun a b => by simp only [Bool.or_eq_true, decide_eq_true_eq]; exact le_total a b)
      (s.map (· ^ 2))
    exact this.imp (by simp)
  have h2 : (s.reverse.map (· ^ 2)).Pairwise (· ≤ ·) := by
    rw [List.pairwise_map, List.pairwise_reverse]
    refine hs.imp_of_mem fun {x y} hx hy h => ?_
    exact pow_le_pow_left₀ (h0 y hy) h 2
  refine List.Perm.eq_of_pairwise (fun a b _ _ => le_antisymm) h1 h2 ?_
  refine (List.mergeSort_perm _ _).trans ?_
  rw [List.map_reverse]
  exact (List.reverse_perm _).symm

/-- PyTorch keeps as many values as numpy. -/
theorem torchKeep_eq {s : List ℝ} (h0 : ∀ x ∈ s, 0 ≤ x) (hs : s.Pairwise (· ≥ ·))
    (maxS : Option Nat) (maxErr : Option ℝ) (relative : Bool) :
    torchKeep s maxS maxErr relative = numKeep s maxS maxErr relative := by
  unfold torchKeep numKeep
  cases maxErr with
  | none => simp
  | some err =>
    simp only [sort_squares h0 hs]
    rfl

/-! ### The decompositions -/

/-- The numpy kernel with the same singular vectors. -/
def npKernel (kernel : NDArray K → NDArray K × List ℝ × NDArray K) (m : NDArray K) :
    NDArray K × List ℝ × NDArray K :=
  ((kernel m).1, (kernel m).2.1, conjTranspose (kernel m).2.2)

theorem svdWith_eq {adj : NDArray K → NDArray K}
    (hadj : ∀ A : NDArray K, adj A = conjTranspose A)
    {keepOf : List ℝ → Option Nat → Option ℝ → Bool → Py Nat}
    {kernel : NDArray K → NDArray K × List ℝ × NDArray K} {t : NDArray K} {p : Nat}
    {maxS : Option Nat} {maxErr : Option ℝ} {relative : Bool}
    (hk : ∀ m, t.reshape [(t.shape.take p).prod, (t.shape.drop p).prod] = .ok m →
      IsSvd m (npKernel kernel m).1 (npKernel kernel m).2.1 (npKernel kernel m).2.2 ∧
      keepOf (kernel m).2.1 maxS maxErr relative = numKeep (kernel m).2.1 maxS maxErr relative) :
    svdWith adj keepOf kernel t p maxS maxErr relative =
      svd (npKernel kernel) t p maxS maxErr relative := by
  unfold svdWith svd
  simp only [bind, Except.bind]
  cases hm : t.reshape [(t.shape.take p).prod, (t.shape.drop p).prod] with
  | error e => rfl
  | ok m =>
    obtain ⟨hsvd, hkeep⟩ := hk m hm
    simp only [npKernel, hkeep]
    cases hn : numKeep (kernel m).2.1 maxS maxErr relative with
    | error e => rfl
    | ok keep =>
      simp only [hadj]
      obtain ⟨a, b, -, -, h3, -⟩ := hsvd.rows
      simp only [npKernel, conjTranspose] at h3
      have hv : (kernel m).2.2.shape = [b, (kernel m).2.1.length] := by
        rw [← List.reverse_reverse (kernel m).2.2.shape, h3]; rfl
      simp only [conjTranspose, hv, List.reverse_cons, List.reverse_nil, List.nil_append,
        List.cons_append, List.getD_cons_zero, List.getD_cons_succ]

/-- **C62** (TensorFlow svd).  With the same singular vectors the TensorFlow backend returns
exactly what the numpy backend returns, truncation and errors included. -/
theorem C62_tf_svd {kernel : NDArray K → NDArray K × List ℝ × NDArray K} {t : NDArray K} {p : Nat}
    {maxS : Option Nat} {maxErr : Option ℝ} {relative : Bool}
    (hk : ∀ m, t.reshape [(t.shape.take p).prod, (t.shape.drop p).prod] = .ok m →
      IsSvd m (npKernel kernel m).1 (npKernel kernel m).2.1 (npKernel kernel m).2.2) :
    tfSvd kernel t p maxS maxErr relative = svd (npKernel kernel) t p maxS maxErr relative :=
  svdWith_eq (fun _ => rfl) fun m hm => ⟨hk m hm, tfKeep_eq _ _ _ _⟩

theorem transposeM_real (A : NDArray ℝ) : transposeM A = conjTranspose A := by
  simp [transposeM, conjTranspose]

/-- **C62** (PyTorch svd).  For real tensors the PyTorch backend returns exactly what the numpy
backend returns. -/
theorem C62_torch_svd_partial {kernel : NDArray ℝ → NDArray ℝ × List ℝ × NDArray ℝ} {t : NDArray ℝ}
    {p : Nat} {maxS : Option Nat} {maxErr : Option ℝ} {relative : Bool}
    (hk : ∀ m, t.reshape [(t.shape.take p).prod, (t.shape.drop p).prod] = .ok m →
      IsSvd m (npKernel kernel m).1 (npKernel kernel m).2.1 (npKernel kernel m).2.2) :
    torchSvd kernel t p maxS maxErr relative = svd (npKernel kernel) t p maxS maxErr relative :=
  svdWith_eq transposeM_real fun m hm =>
    ⟨hk m hm, torchKeep_eq (hk m hm).nonneg (hk m hm).sorted _ _ _⟩

theorem fixPhases_eq {sign : K → K} (hs : ∀ z, star (sign z) = sign z) (q r : NDArray K) :
    fixPhases' sign q r = fixPhases sign q r := by
  simp only [fixPhases', fixPhases, hs]

/-- **C62** (qr).  If the phases are real both backends return what the numpy backend returns. -/
theorem C62_qr_partial {kernel : NDArray K → NDArray K × NDArray K} {sign : K → K}
    (hs : ∀ z, star (sign z) = sign z) (t : NDArray K) (p : Nat) (nonneg : Bool) :
    tfQr kernel sign t p nonneg = qr kernel sign t p nonneg := by
  unfold tfQr qr
  simp only [fixPhases_eq hs]

/-- Without the request for a non-negative diagonal no condition is needed. -/
theorem C62_qr_plain (kernel : NDArray K → NDArray K × NDArray K) (sign : K → K) (t : NDArray K)
    (p : Nat) : tfQr kernel sign t p false = qr kernel sign t p false := by
  unfold tfQr qr
  simp

/-- **C62** (TensorFlow rq). -/
theorem C62_tf_rq_partial {kernel : NDArray K → NDArray K × NDArray K} {sign : K → K}
    {nonneg : Bool} (hs : nonneg = true → ∀ z, star (sign z) = sign z) (t : NDArray K) (p : Nat) :
    rqWith conjTranspose kernel sign t p nonneg = rq kernel sign t p nonneg := by
  unfold rqWith rq
  cases nonneg with
  | false => simp
  | true => simp only [fixPhases_eq (hs rfl)]

/-- **C62** (PyTorch rq), for real tensors. -/
theorem C62_torch_rq_partial (kernel : NDArray ℝ → NDArray ℝ × NDArray ℝ) (sign : ℝ → ℝ)
    (t : NDArray ℝ) (p : Nat) (nonneg : Bool) :
    rqWith transposeM kernel sign t p nonneg = rq kernel sign t p nonneg := by
  have : (transposeM : NDArray ℝ → NDArray ℝ) = conjTranspose := funext transposeM_real
  rw [this]
  exact C62_tf_rq_partial (fun _ z => by simp) t p

/-! ### Complex tensors -/

/-- The row `(1, i)`. -/
def row : NDArray ℂ := ⟨[1, 2], fun j => if j.getD 1 0 = 1 then Complex.I else 1⟩

theorem row_reshape : ∃ m, row.reshape [([1] : List Nat).prod, ([2] : List Nat).prod] = .ok m ∧
    m.shape = [1, 2] ∧ m.get [0, 0] = 1 ∧ m.get [0, 1] = Complex.I := by
  obtain ⟨m, h1, h2, h3⟩ := reshape_matrix (t := row) (A := [1]) (B := [2]) rfl
  refine ⟨m, h1, h2, ?_, ?_⟩
  · have := h3 [0] [0] (by simp) (by simp)
    simpa [ravel, row] using this
  · have := h3 [0] [1] (by simp) (by simp)
    simpa [ravel, row] using this

/-- **C62** fails for complex tensors in PyTorch: whatever singular vectors are returned for the
row `(1, i)`, the three factors do not multiply back. -/
theorem C62_torch_complex_false (kernel : NDArray ℂ → NDArray ℂ × List ℝ × NDArray ℂ)
    (hk : ∀ m, row.reshape [1, 2] = .ok m →
      IsSvd m (npKernel kernel m).1 (npKernel kernel m).2.1 (npKernel kernel m).2.2) :
    ∃ u s vh rest, torchSvd kernel row 1 none none false = .ok (u, s, vh, rest) ∧
      s.shape = [1] ∧ ¬ ∀ j < 2, row.get [0, j] = u.get [0, 0] * s.get [0] * vh.get [0, j] := by
  obtain ⟨m, h1, h2, h3, h4⟩ := row_reshape
  have hsvd := hk m (by simpa using h1)
  obtain ⟨a, b, e1, e2, e3, e4, e5, e6, e7⟩ := hsvd.rows
  rw [h2] at e1
  simp only [List.cons.injEq, and_true] at e1
  obtain ⟨rfl, rfl⟩ := e1
  obtain ⟨U, S, V, hker⟩ : ∃ U S V, kernel m = (U, S, V) := ⟨_, _, _, rfl⟩
  simp only [npKernel, hker] at e2 e3 e4 e5 e6 e7
  have hS : S.length = 1 := by simpa using e4
  obtain ⟨x, rfl⟩ : ∃ x, S = [x] := List.length_eq_one_iff.1 hS
  have hV : V.shape = [2, 1] := by
    rw [← List.reverse_reverse V.shape, show V.shape.reverse = _ from e3]; rfl
  have hU : U.shape = [1, 1] := e2
  obtain ⟨u, u1, u2, u3⟩ := reshape_tensor (m := ⟨[1, 1], U.get⟩) (A := [1]) (B := [1]) rfl
  obtain ⟨v, v1, v2, v3⟩ := reshape_tensor (m := transposeM ⟨[2, 1], V.get⟩) (A := [1]) (B := [2]) rfl
  have u4 : u.get [0, 0] = U.get [0, 0] := by
    have := u3 [0] [0] (by simp) (by simp)
    simpa [ravel] using this
  have v4 : ∀ j < 2, v.get [0, j] = V.get [j, 0] := by
    intro j hj
    have := v3 [0] [j] (by simp) (by simp [hj])
    simpa [ravel, transposeM] using this
  refine ⟨u, ⟨[1], fun i => ((([x] : List ℝ).getD (i.getD 0 0) 0 : ℝ) : ℂ)⟩, v, ⟨[0], fun i =>
    ((([] : List ℝ).getD (i.getD 0 0) 0 : ℝ) : ℂ)⟩, ?_, rfl, ?_⟩
  · unfold torchSvd svdWith
    have h1' : row.reshape [(row.shape.take 1).prod, (row.shape.drop 1).prod] = .ok m := h1
    simp only [bind, Except.bind, h1', hker, torchKeep, Option.getD_none, List.length_singleton,
      min_self, hU, hV, List.getD_cons_zero, List.getD_cons_succ]
    have e1 : row.shape.take 1 ++ [(([x] : List ℝ).take 1).length] = [1] ++ [1] := rfl
    have e2 : (([x] : List ℝ).take 1).length :: row.shape.drop 1 = [1] ++ [2] := rfl
    rw [e1, e2, u1]
    simp only [v1]
    rfl
  · intro h
    have g0 := h 0 (by omega)
    have g1 := h 1 (by omega)
    rw [u4, v4 _ (by omega)] at g0 g1
    have f0 := e5 0 (by omega) 0 (by omega)
    have f1 := e5 0 (by omega) 1 (by omega)
    rw [h3] at f0
    rw [h4] at f1
    simp [conjTranspose, row] at f0 f1 g0 g1
    obtain ⟨c, hc⟩ : ∃ c, c = U.get [0, 0] * (x : ℂ) := ⟨_, rfl⟩
    rw [← hc] at f0 f1 g0 g1
    have hc0 : c ≠ 0 := by
      intro e
      rw [e] at f0
      simp at f0
    have r0 : (starRingEnd ℂ) (V.get [0, 0]) = V.get [0, 0] :=
      mul_left_cancel₀ hc0 (f0.symm.trans g0)
    have r1 : (starRingEnd ℂ) (V.get [1, 0]) = V.get [1, 0] :=
      mul_left_cancel₀ hc0 (f1.symm.trans g1)
    rw [Complex.conj_eq_iff_im] at r0 r1
    have i0 := congrArg Complex.im g0
    have i1 := congrArg Complex.re g1
    have i2 := congrArg Complex.re g0
    have i3 := congrArg Complex.im g1
    simp only [Complex.mul_im, Complex.mul_re, r0, r1, Complex.one_im, Complex.one_re,
      Complex.I_re, Complex.I_im, mul_zero, sub_zero, zero_add] at i0 i1 i2 i3
    have : V.get [0, 0] = 0 ∨ c.im = 0 := by
      rcases mul_eq_zero.1 i0.symm with h | h
      · exact Or.inr h
      · exact Or.inl (Complex.ext h r0)
    rcases this with h | h
    · rw [h] at i2; simp at i2
    · rw [h] at i3; simp at i3

/-- `tf.math.sign` of complex numbers. -/
noncomputable def tfSign (z : ℂ) : ℂ := z / (‖z‖ : ℂ)

/-- **C62** fails for complex tensors in TensorFlow: with a factorisation `1 = i * (-i)` the
phases are applied twice instead of being cancelled, so the factors multiply to `-1`; the numpy
backend returns factors of product `1` for the same input. -/
theorem C62_tf_qr_false : ∃ (kernel : NDArray ℂ → NDArray ℂ × NDArray ℂ) (t m q r q' r' : NDArray ℂ),
    t.shape = [1, 1] ∧ t.get [0, 0] = 1 ∧ t.reshape [1, 1] = .ok m ∧
    IsQr m (kernel m).1 (kernel m).2 ∧ tfQr kernel tfSign t 1 true = .ok (q, r) ∧
    q.get [0, 0] * r.get [0, 0] = -1 ∧
    qr kernel tfSign t 1 true = .ok (q', r') ∧ q'.get [0, 0] * r'.get [0, 0] = 1 := by
  obtain ⟨t, ht⟩ : ∃ t : NDArray ℂ, t = ⟨[1, 1], fun _ => 1⟩ := ⟨_, rfl⟩
  obtain ⟨k1, hk1⟩ : ∃ k1 : NDArray ℂ, k1 = ⟨[1, 1], fun _ => Complex.I⟩ := ⟨_, rfl⟩
  obtain ⟨k2, hk2⟩ : ∃ k2 : NDArray ℂ, k2 = ⟨[1, 1], fun _ => -Complex.I⟩ := ⟨_, rfl⟩
  have res : ∀ f : List Nat → ℂ, ∃ x : NDArray ℂ, (⟨[1, 1], f⟩ : NDArray ℂ).reshape [1, 1] = .ok x ∧
      x.shape = [1, 1] ∧ x.get [0, 0] = f [0, 0] := by
    intro f
    exact ⟨_, by rw [NDArray.reshape, if_pos rfl], rfl, by simp [ravel, unravel]⟩
  obtain ⟨m, m1, m2, m3⟩ := res fun _ => 1
  have sg : tfSign (-Complex.I) = -Complex.I := by simp [tfSign]
  obtain ⟨q, q1, q2, q3⟩ := res (fixPhases' tfSign k1 k2).1.get
  obtain ⟨r, r1, r2, r3⟩ := res (fixPhases' tfSign k1 k2).2.get
  obtain ⟨q', q1', q2', q3'⟩ := res (fixPhases tfSign k1 k2).1.get
  obtain ⟨r', r1', r2', r3'⟩ := res (fixPhases tfSign k1 k2).2.get
  refine ⟨fun _ => (k1, k2), t, m, q, r, q', r', by rw [ht], by rw [ht], by rw [ht]; exact m1,
    ⟨1, 1, 1, m2, by rw [hk1], by rw [hk2], rfl, ?_, ?_⟩, ?_, ?_, ?_, ?_⟩
  · intro i hi j hj
    obtain rfl : i = 0 := by omega
    obtain rfl : j = 0 := by omega
    rw [m3]
    simp [hk1, hk2]
  · intro i hi j hj
    obtain rfl : i = 0 := by omega
    obtain rfl : j = 0 := by omega
    simp [hk1]
  · unfold tfQr
    simp only [ht, List.take_succ_cons, List.take_zero, List.drop_succ_cons, List.drop_zero,
      List.prod_singleton, m1, bind, Except.bind, if_true]
    simp only [fixPhases', hk1, hk2] at q1 r1 ⊢
    simp only [List.getD_cons_succ, List.getD_cons_zero, List.cons_append, List.nil_append, q1, r1]
    rfl
  · rw [q3, r3]
    simp [fixPhases', hk1, hk2, sg]
  · unfold qr
    simp only [ht, List.take_succ_cons, List.take_zero, List.drop_succ_cons, List.drop_zero,
      List.prod_singleton, m1, bind, Except.bind, if_true]
    simp only [fixPhases, hk1, hk2] at q1' r1' ⊢
    simp only [List.getD_cons_succ, List.getD_cons_zero, List.cons_append, List.nil_append, q1', r1']
    rfl
  · rw [q3', r3']
    simp [fixPhases, hk1, hk2, sg]

/-! ### The hypotheses can be met -/

/-- The kernel of `diag(3, 1)`, in the convention of TensorFlow and PyTorch. -/
example : ∃ (kernel : NDArray ℝ → NDArray ℝ × List ℝ × NDArray ℝ) (t : NDArray ℝ),
    t.shape = [2, 2] ∧ t.get [0, 0] = 3 ∧ (∀ m, t.reshape [2, 2] = .ok m →
      IsSvd m (npKernel kernel m).1 (npKernel kernel m).2.1 (npKernel kernel m).2.2) ∧
    torchKeep [3, 1] none (some 1) false = .ok 1 := by
  refine ⟨fun _ => (⟨[2, 2], fun i => if i.getD 0 0 = i.getD 1 0 then 1 else 0⟩, [3, 1],
      ⟨[2, 2], fun i => if i.getD 0 0 = i.getD 1 0 then 1 else 0⟩),
    ⟨[2, 2], fun i => if i.getD 0 0 = i.getD 1 0 then (if i.getD 0 0 = 0 then 3 else 1) else 0⟩,
    rfl, by simp, ?_, ?_⟩
  · intro m hm
    rw [NDArray.reshape, if_pos rfl] at hm
    obtain rfl := Except.ok.inj hm
    refine ⟨⟨2, 2, rfl, rfl, rfl, rfl, ?_, ?_, ?_⟩, by simp [npKernel], by simp [npKernel]⟩
    · intro i hi j hj
      interval_cases i <;> interval_cases j <;>
        simp [npKernel, conjTranspose, ravel, unravel]
    · intro i hi j hj
      simp only [npKernel, List.length_cons, List.length_nil] at hi hj
      interval_cases i <;> interval_cases j <;>
        simp [npKernel]
    · intro i hi j hj
      simp only [npKernel, List.length_cons, List.length_nil] at hi hj
      interval_cases i <;> interval_cases j <;>
        simp [npKernel, conjTranspose]
  · rw [torchKeep_eq (by simp) (by simp)]
    have h : (1 : ℝ) < Real.sqrt (1 + 9) := by
      rw [Real.lt_sqrt (by norm_num)]; norm_num
    simp [numKeep, truncErrs, cumsum, List.countP_cons]
    norm_num at h ⊢
    simp [h]

end TN.Backends
