import Verif.GraphSplitNode2
import Mathlib.Analysis.RCLike.Basic
import Mathlib.Analysis.SpecialFunctions.Pow.Real

/-!
# Dense matrix decompositions

`svd`, `qr` and `rq` of `backends/numpy/decompositions.py`.  The three numerical kernels
`np.linalg.svd`, `np.linalg.qr` and `np.sign` are parameters; what is assumed of them is stated
in `IsSvd` and `IsQr`, in exact arithmetic.  The reshaping to and from matrices, the choice of the number of
singular values and the slicing are modelled.
-/

namespace TN.Decomp

open TN NDArray Finset

/-! ### Reshaping to a matrix and back -/

section
variable {R : Type*}

theorem sum_range_ravel [AddCommMonoid R] (s : List Nat) (f : Nat → R) :
    ∑ k ∈ range s.prod, f k = sumIdx s (fun i => f (ravel s i)) := by
  rw [← sum_range_unravel s (fun i => f (ravel s i))]
  exact Finset.sum_congr rfl fun k hk => by rw [ravel_unravel (Finset.mem_range.1 hk)]

/-- Two groups of axes become the rows and the columns. -/
theorem reshape_matrix {t : NDArray R} {A B : List Nat} (h : t.shape = A ++ B) :
    ∃ m, t.reshape [A.prod, B.prod] = .ok m ∧ m.shape = [A.prod, B.prod] ∧
      ∀ i j, InB A i → InB B j → m.get [ravel A i, ravel B j] = t.get (i ++ j) := by
  refine ⟨_, by rw [reshape, if_pos (by rw [h, List.prod_append]; simp)], rfl, fun i j hi hj => ?_⟩
  have h1 : ravel [A.prod, B.prod] [ravel A i, ravel B j] = ravel (A ++ B) (i ++ j) := by
    rw [ravel_append hi.length]
    simp [ravel]
  simp only [h1, h]
  rw [unravel_ravel (inB_append hi hj)]

/-- The rows and the columns are split into two groups of axes. -/
theorem reshape_tensor {m : NDArray R} {A B : List Nat} (h : m.shape = [A.prod, B.prod]) :
    ∃ t, m.reshape (A ++ B) = .ok t ∧ t.shape = A ++ B ∧
      ∀ i j, InB A i → InB B j → t.get (i ++ j) = m.get [ravel A i, ravel B j] := by
  refine ⟨_, by rw [reshape, if_pos (by rw [h, List.prod_append]; simp)], rfl, fun i j hi hj => ?_⟩
  have h1 : ravel (A ++ B) (i ++ j) = ravel [A.prod, B.prod] [ravel A i, ravel B j] := by
    rw [ravel_append hi.length]
    simp [ravel]
  simp only [h1, h]
  rw [unravel_ravel]
  simp [ravel_lt hi, ravel_lt hj]

end

/-! ### The model -/

variable {K : Type} [RCLike K]

/-- `np.linalg.qr(A)`: `A = q r`, the columns of `q` are orthonormal. -/
structure IsQr (A q r : NDArray K) : Prop where
  rows : ∃ m k n, A.shape = [m, n] ∧ q.shape = [m, k] ∧ r.shape = [k, n] ∧ k = min m n ∧
    (∀ i < m, ∀ j < n, A.get [i, j] = ∑ x ∈ range k, q.get [i, x] * r.get [x, j]) ∧
    ∀ x < k, ∀ y < k, ∑ i ∈ range m, star (q.get [i, x]) * q.get [i, y] = if x = y then 1 else 0

/-- `np.linalg.svd(A, full_matrices=False)`: `A = u diag(s) vh`, `s` is non-negative and
descending, the columns of `u` and the rows of `vh` are orthonormal. -/
structure IsSvd (A u : NDArray K) (s : List ℝ) (vh : NDArray K) : Prop where
  rows : ∃ m n, A.shape = [m, n] ∧ u.shape = [m, s.length] ∧ vh.shape = [s.length, n] ∧
    s.length = min m n ∧
    (∀ i < m, ∀ j < n, A.get [i, j] =
      ∑ x ∈ range s.length, u.get [i, x] * ((s.getD x 0 : ℝ) : K) * vh.get [x, j]) ∧
    (∀ x < s.length, ∀ y < s.length,
      ∑ i ∈ range m, star (u.get [i, x]) * u.get [i, y] = if x = y then 1 else 0) ∧
    ∀ x < s.length, ∀ y < s.length,
      ∑ j ∈ range n, vh.get [x, j] * star (vh.get [y, j]) = if x = y then 1 else 0
  nonneg : ∀ x ∈ s, 0 ≤ x
  sorted : s.Pairwise (· ≥ ·)

/-- `q * phases` and `phases.conj()[:, None] * r` (decompositions.py:87-90). -/
def fixPhases (sign : K → K) (q r : NDArray K) : NDArray K × NDArray K :=
  (⟨q.shape, fun i => q.get i * sign (r.get [i.getD 1 0, i.getD 1 0])⟩,
   ⟨r.shape, fun i => star (sign (r.get [i.getD 0 0, i.getD 0 0])) * r.get i⟩)

/-- `decompositions.qr` (backends/numpy/decompositions.py:73-95).  `kernel` is `np.linalg.qr`,
`sign` is `np.sign`. -/
def qr (kernel : NDArray K → NDArray K × NDArray K) (sign : K → K) (t : NDArray K) (pivot : Nat)
    (nonNegativeDiagonal : Bool) : Py (NDArray K × NDArray K) := do
  let left := t.shape.take pivot
  let right := t.shape.drop pivot
  let m ← t.reshape [left.prod, right.prod]
  let (q, r) := kernel m
  let (q, r) := if nonNegativeDiagonal then fixPhases sign q r else (q, r)
  let center := q.shape.getD 1 0
  let q ← q.reshape (left ++ [center])
  let r ← r.reshape (center :: right)
  pure (q, r)

/-- `np.conj(np.transpose(A))` of a matrix. -/
def conjTranspose (A : NDArray K) : NDArray K :=
  ⟨A.shape.reverse, fun i => star (A.get i.reverse)⟩

/-- `decompositions.rq` (backends/numpy/decompositions.py:98-122). -/
def rq (kernel : NDArray K → NDArray K × NDArray K) (sign : K → K) (t : NDArray K) (pivot : Nat)
    (nonNegativeDiagonal : Bool) : Py (NDArray K × NDArray K) := do
  let left := t.shape.take pivot
  let right := t.shape.drop pivot
  let m ← t.reshape [left.prod, right.prod]
  let (q, r) := kernel (conjTranspose m)
  let (q, r) := if nonNegativeDiagonal then fixPhases sign q r else (q, r)
  let (r, q) := (conjTranspose r, conjTranspose q)
  let center := r.shape.getD 1 0
  let r ← r.reshape (left ++ [center])
  let q ← q.reshape (center :: right)
  pure (r, q)

/-- `np.cumsum`, starting from `acc`. -/
def cumsum (acc : ℝ) : List ℝ → List ℝ
  | [] => []
  | x :: l => (acc + x) :: cumsum (acc + x) l

/-- `np.sqrt(np.cumsum(np.square(s[::-1])))` (decompositions.py:41). -/
noncomputable def truncErrs (s : List ℝ) : List ℝ :=
  (cumsum 0 (s.reverse.map (· ^ 2))).map Real.sqrt

/-- The number of singular values that are kept (decompositions.py:36-57). -/
noncomputable def numKeep (s : List ℝ) (maxS : Option Nat) (maxErr : Option ℝ) (relative : Bool) :
    Py Nat :=
  let maxS' := maxS.getD s.length
  match maxErr with
  | none => .ok maxS'
  | some err =>
    match relative, s with
    | true, [] => .error .indexError
    | true, s0 :: _ => .ok (min maxS' ((truncErrs s).countP (fun e => err * s0 < e)))
    | false, _ => .ok (min maxS' ((truncErrs s).countP (fun e => err < e)))

/-- `decompositions.svd` (backends/numpy/decompositions.py:21-70). -/
noncomputable def svd (kernel : NDArray K → NDArray K × List ℝ × NDArray K) (t : NDArray K)
    (pivot : Nat) (maxS : Option Nat) (maxErr : Option ℝ) (relative : Bool) :
    Py (NDArray K × NDArray K × NDArray K × NDArray K) := do
  let left := t.shape.take pivot
  let right := t.shape.drop pivot
  let m ← t.reshape [left.prod, right.prod]
  let (u, s, vh) := kernel m
  let keep ← numKeep s maxS maxErr relative
  let sRest := s.drop keep
  let s' := s.take keep
  let u' : NDArray K := ⟨[u.shape.getD 0 0, min keep (u.shape.getD 1 0)], u.get⟩
  let vh' : NDArray K := ⟨[min keep (vh.shape.getD 0 0), vh.shape.getD 1 0], vh.get⟩
  let u'' ← u'.reshape (left ++ [s'.length])
  let vh'' ← vh'.reshape (s'.length :: right)
  pure (u'', ⟨[s'.length], fun i => ((s'.getD (i.getD 0 0) 0 : ℝ) : K)⟩, vh'',
    ⟨[sRest.length], fun i => ((sRest.getD (i.getD 0 0) 0 : ℝ) : K)⟩)

/-! ### The number of kept values -/

/-- The Euclidean norm of a list. -/
noncomputable def norm2 (l : List ℝ) : ℝ := Real.sqrt ((l.map (· ^ 2)).sum)

theorem cumsum_eq (l : List ℝ) : ∀ acc, cumsum acc l =
    (List.range l.length).map (fun i => acc + (l.take (i + 1)).sum) := by
  induction l with
  | nil => intro acc; rfl
  | cons x l ih =>
    intro acc
    rw [cumsum, ih, List.length_cons, List.range_succ_eq_map, List.map_cons, List.map_map]
    congr 1
    · simp
    · refine List.map_congr_left fun i _ => ?_
      simp [add_assoc]

theorem truncErrs_eq (s : List ℝ) : truncErrs s =
    (List.range s.length).map (fun i => norm2 (s.drop (s.length - (i + 1)))) := by
  unfold truncErrs
  rw [cumsum_eq, List.map_map, List.length_map, List.length_reverse]
  refine List.map_congr_left fun i _ => ?_
  simp only [Function.comp, zero_add, norm2]
  congr 1
  rw [← List.map_take, List.take_reverse, List.map_reverse, List.sum_reverse]

theorem countP_range_prefix {p : Nat → Bool} (hp : ∀ k, p (k + 1) = true → p k = true) (n : Nat) :
    (∀ k < n, (p k = true ↔ k < (List.range n).countP p)) := by
  have hmono : ∀ k j, j ≤ k → p k = true → p j = true := by
    intro k
    induction k with
    | zero => intro j hj hk; obtain rfl : j = 0 := by omega
              exact hk
    | succ k ih =>
      intro j hj hk
      rcases Nat.lt_or_ge j (k + 1) with h | h
      · exact ih j (by omega) (hp k hk)
      · obtain rfl : j = k + 1 := by omega
        exact hk
  induction n with
  | zero => intro k hk; omega
  | succ n ih =>
    intro k hk
    rw [List.range_succ, List.countP_append]
    by_cases hpn : p n = true
    · have hall : (List.range n).countP p = n := by
        rw [List.countP_eq_length.2, List.length_range]
        intro a ha
        exact hmono n a (by simpa using (List.mem_range.1 ha).le) hpn
      have h1 : [n].countP p = 1 := by simp [hpn]
      rw [hall, h1]
      exact ⟨fun _ => hk, fun _ => hmono n k (by omega) hpn⟩
    · have h1 : [n].countP p = 0 := by simp [hpn]
      rw [h1, Nat.add_zero]
      rcases Nat.lt_or_ge k n with h | h
      · exact ih k h
      · obtain rfl : k = n := by omega
        have := List.countP_le_length (p := p) (l := List.range k)
        rw [List.length_range] at this
        exact ⟨fun hc => absurd hc hpn, fun hc => by omega⟩

theorem countP_range_reverse (p : Nat → Bool) (n : Nat) :
    (List.range n).countP (fun i => p (n - (i + 1))) = (List.range n).countP p := by
  have h : (List.range n).reverse = (List.range n).map (fun i => n - (i + 1)) := by
    apply List.ext_getElem
    · simp
    · intro i h1 h2
      simp only [List.getElem_reverse, List.getElem_range, List.getElem_map, List.length_range]
      omega
  conv_rhs => rw [← (List.reverse_perm (List.range n)).countP_eq, h, List.countP_map]
  rfl

theorem norm2_drop_anti (s : List ℝ) (k : Nat) : norm2 (s.drop (k + 1)) ≤ norm2 (s.drop k) := by
  apply Real.sqrt_le_sqrt
  by_cases h : k < s.length
  · rw [List.drop_eq_getElem_cons h, List.map_cons, List.sum_cons]
    have := sq_nonneg s[k]
    linarith
  · rw [List.drop_of_length_le (by omega), List.drop_of_length_le (by omega)]

/-- The count of decompositions.py:49-51 is the smallest number of values that has to be kept. -/
theorem count_truncErrs (s : List ℝ) (err : ℝ) :
    (truncErrs s).countP (fun e => err < e) ≤ s.length ∧
    ∀ k < s.length, (norm2 (s.drop k) ≤ err ↔ (truncErrs s).countP (fun e => err < e) ≤ k) := by
  have h1 : (truncErrs s).countP (fun e => err < e) =
      (List.range s.length).countP (fun k => err < norm2 (s.drop k)) := by
    rw [truncErrs_eq, List.countP_map,
      ← countP_range_reverse (fun k => decide (err < norm2 (s.drop k)))]
    rfl
  constructor
  · rw [h1]
    have := List.countP_le_length (p := fun k => decide (err < norm2 (s.drop k)))
      (l := List.range s.length)
    rwa [List.length_range] at this
  · intro k hk
    have := countP_range_prefix (p := fun k => decide (err < norm2 (s.drop k))) (by
      intro k hk
      simp only [decide_eq_true_eq] at hk ⊢
      exact lt_of_lt_of_le hk (norm2_drop_anti s k)) s.length k hk
    rw [h1]
    simp only [decide_eq_true_eq] at this
    constructor
    · intro h; by_contra hc; exact absurd (this.2 (by omega)) (not_lt.2 h)
    · intro h; by_contra hc; have := this.1 (not_le.1 hc); omega

/-! ### The factors multiply back -/

theorem InB.singleton {d x : Nat} (h : x < d) : InB [d] [x] := by simp [h]

/-- Two matrices reshaped to tensors. -/
theorem factorises_of_matrix {t m q r : NDArray K} {p : Nat} {k : Nat}
    (hm : ∀ i j, InB (t.shape.take p) i → InB (t.shape.drop p) j →
      m.get [ravel (t.shape.take p) i, ravel (t.shape.drop p) j] = t.get (i ++ j))
    (hq : q.shape = [(t.shape.take p).prod, k]) (hr : r.shape = [k, (t.shape.drop p).prod])
    (hmul : ∀ i < (t.shape.take p).prod, ∀ j < (t.shape.drop p).prod,
      m.get [i, j] = ∑ x ∈ range k, q.get [i, x] * r.get [x, j]) :
    ∃ q' r', q.reshape (t.shape.take p ++ [k]) = .ok q' ∧
      r.reshape (k :: t.shape.drop p) = .ok r' ∧ Graph.Factorises t p q' r' ∧
      (∀ i x, InB (t.shape.take p) i → x < k →
        q'.get (i ++ [x]) = q.get [ravel (t.shape.take p) i, x]) ∧
      ∀ x j, x < k → InB (t.shape.drop p) j →
        r'.get (x :: j) = r.get [x, ravel (t.shape.drop p) j] := by
  obtain ⟨q', q1, q2, q3⟩ := reshape_tensor (m := q) (A := t.shape.take p) (B := [k])
    (by simpa using hq)
  obtain ⟨r', r1, r2, r3⟩ := reshape_tensor (m := r) (A := [k]) (B := t.shape.drop p)
    (by simpa using hr)
  have q4 : ∀ i x, InB (t.shape.take p) i → x < k →
      q'.get (i ++ [x]) = q.get [ravel (t.shape.take p) i, x] := by
    intro i x hi hx
    rw [q3 i [x] hi (InB.singleton hx)]
    simp [ravel]
  have r4 : ∀ x j, x < k → InB (t.shape.drop p) j →
      r'.get (x :: j) = r.get [x, ravel (t.shape.drop p) j] := by
    intro x j hx hj
    have := r3 [x] j (InB.singleton hx) hj
    simpa [ravel] using this
  refine ⟨q', r', q1, r1, ⟨k, q2, r2, fun i j hi hj => ?_⟩, q4, r4⟩
  rw [← hm i j hi hj, hmul _ (ravel_lt hi) _ (ravel_lt hj)]
  refine Finset.sum_congr rfl fun x hx => ?_
  rw [q4 i x hi (Finset.mem_range.1 hx), r4 x j (Finset.mem_range.1 hx) hj]

/-- What `np.sign` must satisfy on the diagonal of `r` for the phases to cancel. -/
def PhaseOK (sign : K → K) (r : NDArray K) (k : Nat) : Prop :=
  ∀ x < k, sign (r.get [x, x]) * star (sign (r.get [x, x])) = 1

theorem fixPhases_mul {sign : K → K} {q r : NDArray K} {k : Nat} (hp : PhaseOK sign r k)
    (i j : Nat) : ∑ x ∈ range k, (fixPhases sign q r).1.get [i, x] * (fixPhases sign q r).2.get [x, j] =
      ∑ x ∈ range k, q.get [i, x] * r.get [x, j] := by
  refine Finset.sum_congr rfl fun x hx => ?_
  simp only [fixPhases, List.getD_cons_zero, List.getD_cons_succ]
  rw [mul_assoc, ← mul_assoc (sign _), hp x (Finset.mem_range.1 hx), one_mul]

/-- The columns of `q` are orthonormal: contracting the axes `left` of `q` with its conjugate gives
the identity. -/
def LeftIsometry (q : NDArray K) (left : List Nat) (k : Nat) : Prop :=
  ∀ x < k, ∀ y < k, sumIdx left (fun i => star (q.get (i ++ [x])) * q.get (i ++ [y])) =
    if x = y then 1 else 0

/-- The rows of `q` are orthonormal. -/
def RightIsometry (q : NDArray K) (right : List Nat) (k : Nat) : Prop :=
  ∀ x < k, ∀ y < k, sumIdx right (fun j => q.get (x :: j) * star (q.get (y :: j))) =
    if x = y then 1 else 0

/-- The matrices the QR step hands over. -/
theorem qr_step {kernel : NDArray K → NDArray K × NDArray K} {sign : K → K} {m : NDArray K}
    {nonneg : Bool} (hk : IsQr m (kernel m).1 (kernel m).2)
    (hph : nonneg = true → PhaseOK sign (kernel m).2 ((kernel m).1.shape.getD 1 0)) :
    IsQr m (if nonneg then fixPhases sign (kernel m).1 (kernel m).2 else
      ((kernel m).1, (kernel m).2)).1 (if nonneg then fixPhases sign (kernel m).1 (kernel m).2 else
      ((kernel m).1, (kernel m).2)).2 := by
  cases nonneg with
  | false => exact hk
  | true =>
    obtain ⟨a, k, b, h1, h2, h3, h4, h5, h6⟩ := hk
    have hk' : PhaseOK sign (kernel m).2 k := by
      have := hph rfl
      rw [h2] at this
      exact this
    refine ⟨a, k, b, h1, h2, h3, h4, fun i hi j hj => ?_, fun x hx y hy => ?_⟩
    · rw [if_pos rfl, fixPhases_mul hk', h5 i hi j hj]
    · simp only [if_true, fixPhases, List.getD_cons_succ, List.getD_cons_zero, star_mul']
      have : ∀ i, star ((kernel m).1.get [i, x]) * star (sign ((kernel m).2.get [x, x])) *
          ((kernel m).1.get [i, y] * sign ((kernel m).2.get [y, y])) =
          star (sign ((kernel m).2.get [x, x])) * sign ((kernel m).2.get [y, y]) *
            (star ((kernel m).1.get [i, x]) * (kernel m).1.get [i, y]) := fun i => by ring
      simp only [this]
      rw [← Finset.mul_sum, h6 x hx y hy]
      split_ifs with hxy
      · subst hxy
        rw [mul_one, mul_comm]
        exact hk' x hx
      · rw [mul_zero]

theorem reshape_shape {R : Type*} {t t' : NDArray R} {s : List Nat} (h : t.reshape s = .ok t') :
    t'.shape = s := by
  unfold reshape at h
  split_ifs at h
  cases h
  rfl

/-- `decompositions.qr` multiplies back to the tensor, and its first factor is an isometry. -/
theorem qr_factorises_shape {kernel : NDArray K → NDArray K × NDArray K} {sign : K → K} {t : NDArray K}
    {p : Nat} {nonneg : Bool}
    (hk : ∀ m, t.reshape [(t.shape.take p).prod, (t.shape.drop p).prod] = .ok m →
      IsQr m (kernel m).1 (kernel m).2 ∧
      (nonneg = true → PhaseOK sign (kernel m).2 ((kernel m).1.shape.getD 1 0))) :
    ∃ q r, qr kernel sign t p nonneg = .ok (q, r) ∧ Graph.Factorises t p q r ∧
      LeftIsometry q (t.shape.take p) (min (t.shape.take p).prod (t.shape.drop p).prod) ∧
      q.shape = t.shape.take p ++ [min (t.shape.take p).prod (t.shape.drop p).prod] := by
  obtain ⟨m, m1, m2, m3⟩ := reshape_matrix (List.take_append_drop p t.shape).symm
  have hst := qr_step (hk m m1).1 (hk m m1).2
  obtain ⟨Q, Rr, hQR⟩ : ∃ Q Rr, (if nonneg then fixPhases sign (kernel m).1 (kernel m).2 else
    ((kernel m).1, (kernel m).2)) = (Q, Rr) := ⟨_, _, rfl⟩
  rw [hQR] at hst
  obtain ⟨a, k, b, h1, h2, h3, h4, h5, h6⟩ := hst
  simp only at h2 h3 h5 h6
  rw [m2] at h1
  simp only [List.cons.injEq, and_true] at h1
  obtain ⟨rfl, rfl⟩ := h1
  obtain ⟨q', r', k1, k2, k3, k4, _⟩ := factorises_of_matrix m3 h2 h3 h5
  refine ⟨q', r', ?_, k3, ?_, by rw [reshape_shape k1, h4]⟩
  · unfold qr
    simp only [m1, bind, Except.bind]
    rw [hQR]
    simp only [h2, List.getD_cons_succ, List.getD_cons_zero]
    simp only [k1, k2]
    rfl
  · intro x hx y hy
    rw [← h4] at hx hy
    rw [← h6 x hx y hy, sum_range_ravel]
    refine sumIdx_congr fun i hi => ?_
    rw [k4 i x hi hx, k4 i y hi hy]

/-- `decompositions.rq` multiplies back to the tensor, and its second factor is an isometry. -/
theorem rq_factorises_shape {kernel : NDArray K → NDArray K × NDArray K} {sign : K → K} {t : NDArray K}
    {p : Nat} {nonneg : Bool}
    (hk : ∀ m, t.reshape [(t.shape.take p).prod, (t.shape.drop p).prod] = .ok m →
      IsQr (conjTranspose m) (kernel (conjTranspose m)).1 (kernel (conjTranspose m)).2 ∧
      (nonneg = true → PhaseOK sign (kernel (conjTranspose m)).2
        ((kernel (conjTranspose m)).1.shape.getD 1 0))) :
    ∃ r q, rq kernel sign t p nonneg = .ok (r, q) ∧ Graph.Factorises t p r q ∧
      RightIsometry q (t.shape.drop p) (min (t.shape.take p).prod (t.shape.drop p).prod) ∧
      q.shape = min (t.shape.take p).prod (t.shape.drop p).prod :: t.shape.drop p := by
  obtain ⟨m, m1, m2, m3⟩ := reshape_matrix (List.take_append_drop p t.shape).symm
  have hst := qr_step (hk m m1).1 (hk m m1).2
  obtain ⟨Q, Rr, hQR⟩ : ∃ Q Rr, (if nonneg then
      fixPhases sign (kernel (conjTranspose m)).1 (kernel (conjTranspose m)).2 else
    ((kernel (conjTranspose m)).1, (kernel (conjTranspose m)).2)) = (Q, Rr) := ⟨_, _, rfl⟩
  rw [hQR] at hst
  obtain ⟨a, k, b, h1, h2, h3, h4, h5, h6⟩ := hst
  simp only at h2 h3 h5 h6
  have hsh : (conjTranspose m).shape = [(t.shape.drop p).prod, (t.shape.take p).prod] := by
    simp [conjTranspose, m2]
  rw [hsh] at h1
  simp only [List.cons.injEq, and_true] at h1
  obtain ⟨rfl, rfl⟩ := h1
  have hq : (conjTranspose Q).shape = [k, (t.shape.drop p).prod] := by simp [conjTranspose, h2]
  have hr : (conjTranspose Rr).shape = [(t.shape.take p).prod, k] := by simp [conjTranspose, h3]
  have hmul : ∀ i < (t.shape.take p).prod, ∀ j < (t.shape.drop p).prod,
      m.get [i, j] = ∑ x ∈ range k, (conjTranspose Rr).get [i, x] * (conjTranspose Q).get [x, j] := by
    intro i hi j hj
    have := congrArg star (h5 j hj i hi)
    simp only [conjTranspose, List.reverse_cons, List.reverse_nil, List.nil_append,
      List.singleton_append, star_star, star_sum, star_mul'] at this ⊢
    rw [this]
    exact Finset.sum_congr rfl fun x _ => mul_comm _ _
  obtain ⟨r', q', k1, k2, k3, _, k5⟩ := factorises_of_matrix m3 hr hq hmul
  refine ⟨r', q', ?_, k3, ?_, by rw [reshape_shape k2, h4, min_comm]⟩
  · unfold rq
    simp only [m1, bind, Except.bind]
    rw [hQR]
    simp only [hr, List.getD_cons_succ, List.getD_cons_zero]
    simp only [k1, k2]
    rfl
  · intro x hx y hy
    rw [min_comm, ← h4] at hx hy
    rw [← h6 x hx y hy, sum_range_ravel]
    refine sumIdx_congr fun j hj => ?_
    rw [k5 x j hx hj, k5 y j hy hj]
    simp [conjTranspose]

/-- The factors of `decompositions.qr`. -/
theorem qr_factorises {kernel : NDArray K → NDArray K × NDArray K} {sign : K → K} {t : NDArray K}
    {p : Nat} {nonneg : Bool}
    (hk : ∀ m, t.reshape [(t.shape.take p).prod, (t.shape.drop p).prod] = .ok m →
      IsQr m (kernel m).1 (kernel m).2 ∧
      (nonneg = true → PhaseOK sign (kernel m).2 ((kernel m).1.shape.getD 1 0))) :
    ∃ q r, qr kernel sign t p nonneg = .ok (q, r) ∧ Graph.Factorises t p q r ∧
      LeftIsometry q (t.shape.take p) (min (t.shape.take p).prod (t.shape.drop p).prod) := by
  obtain ⟨q, r, h1, h2, h3, _⟩ := qr_factorises_shape hk
  exact ⟨q, r, h1, h2, h3⟩

/-- The factors of `decompositions.rq`. -/
theorem rq_factorises {kernel : NDArray K → NDArray K × NDArray K} {sign : K → K} {t : NDArray K}
    {p : Nat} {nonneg : Bool}
    (hk : ∀ m, t.reshape [(t.shape.take p).prod, (t.shape.drop p).prod] = .ok m →
      IsQr (conjTranspose m) (kernel (conjTranspose m)).1 (kernel (conjTranspose m)).2 ∧
      (nonneg = true → PhaseOK sign (kernel (conjTranspose m)).2
        ((kernel (conjTranspose m)).1.shape.getD 1 0))) :
    ∃ r q, rq kernel sign t p nonneg = .ok (r, q) ∧ Graph.Factorises t p r q ∧
      RightIsometry q (t.shape.drop p) (min (t.shape.take p).prod (t.shape.drop p).prod) := by
  obtain ⟨r, q, h1, h2, h3, _⟩ := rq_factorises_shape hk
  exact ⟨r, q, h1, h2, h3⟩

/-! ### Truncation -/

/-- The bound in force. -/
noncomputable def bound (S : List ℝ) (err : ℝ) (relative : Bool) : ℝ :=
  if relative then err * S.headD 0 else err

/-- **C29** for the number of kept values. -/
theorem numKeep_spec {S : List ℝ} {maxS : Option Nat} {err : ℝ} {relative : Bool} {keep : Nat}
    (hk : numKeep S maxS (some err) relative = .ok keep) (hb : 0 ≤ bound S err relative) :
    keep ≤ maxS.getD S.length ∧ keep ≤ S.length ∧
    (keep < maxS.getD S.length → norm2 (S.drop keep) ≤ bound S err relative) ∧
    ∀ k, norm2 (S.drop k) ≤ bound S err relative → keep ≤ k := by
  have key : ∀ e : ℝ, e = bound S err relative →
      keep = min (maxS.getD S.length) ((truncErrs S).countP (fun x => e < x)) →
      keep ≤ maxS.getD S.length ∧ keep ≤ S.length ∧
      (keep < maxS.getD S.length → norm2 (S.drop keep) ≤ bound S err relative) ∧
      ∀ k, norm2 (S.drop k) ≤ bound S err relative → keep ≤ k := by
    intro e he hkeep
    obtain ⟨c1, c2⟩ := count_truncErrs S e
    rw [← he] at hb ⊢
    refine ⟨by omega, by omega, fun hlt => ?_, fun k hk' => ?_⟩
    · by_cases h : keep < S.length
      · exact (c2 keep h).2 (by omega)
      · rw [List.drop_of_length_le (by omega)]
        simpa [norm2] using hb
    · by_cases h : k < S.length
      · have := (c2 k h).1 hk'; omega
      · omega
  unfold numKeep at hk
  cases relative with
  | false =>
    simp only at hk
    exact key err rfl (Except.ok.inj hk).symm
  | true =>
    cases S with
    | nil => simp at hk
    | cons s0 S =>
      simp only at hk
      exact key (err * s0) rfl (Except.ok.inj hk).symm

/-- The squared norm of a sum of orthonormal products. -/
theorem norm_sq_sum {m n : Nat} {ι : Finset Nat} {a b : Nat → Nat → K} {s : Nat → ℝ}
    (ha : ∀ x ∈ ι, ∀ y ∈ ι, ∑ i ∈ range m, star (a i x) * a i y = if x = y then 1 else 0)
    (hb : ∀ x ∈ ι, ∀ y ∈ ι, ∑ j ∈ range n, b x j * star (b y j) = if x = y then 1 else 0) :
    ∑ i ∈ range m, ∑ j ∈ range n, ‖∑ x ∈ ι, a i x * ((s x : ℝ) : K) * b x j‖ ^ 2 =
      ∑ x ∈ ι, s x ^ 2 := by
  apply (RCLike.ofReal_injective (K := K))
  push_cast
  have h1 : ∀ i j, ((‖∑ x ∈ ι, a i x * ((s x : ℝ) : K) * b x j‖ : ℝ) : K) ^ 2 =
      ∑ x ∈ ι, ∑ y ∈ ι, (((s x : ℝ) : K) * ((s y : ℝ) : K)) *
        ((star (a i x) * a i y) * (b y j * star (b x j))) := by
    intro i j
    rw [← RCLike.conj_mul, map_sum, Finset.sum_mul_sum]
    refine Finset.sum_congr rfl fun x _ => Finset.sum_congr rfl fun y _ => ?_
    rw [map_mul, map_mul, RCLike.conj_ofReal]
    change star (a i x) * _ * star (b x j) * _ = _
    ring
  simp only [h1]
  have h2 : ∑ i ∈ range m, ∑ j ∈ range n, ∑ x ∈ ι, ∑ y ∈ ι,
      (((s x : ℝ) : K) * ((s y : ℝ) : K)) * ((star (a i x) * a i y) * (b y j * star (b x j))) =
      ∑ x ∈ ι, ∑ y ∈ ι, (((s x : ℝ) : K) * ((s y : ℝ) : K)) *
        ((∑ i ∈ range m, star (a i x) * a i y) * ∑ j ∈ range n, b y j * star (b x j)) := by
    have e1 : ∀ i, ∑ j ∈ range n, ∑ x ∈ ι, ∑ y ∈ ι,
        (((s x : ℝ) : K) * ((s y : ℝ) : K)) * ((star (a i x) * a i y) * (b y j * star (b x j))) =
        ∑ x ∈ ι, ∑ y ∈ ι, (((s x : ℝ) : K) * ((s y : ℝ) : K)) *
          ((star (a i x) * a i y) * ∑ j ∈ range n, b y j * star (b x j)) := by
      intro i
      rw [Finset.sum_comm]
      refine Finset.sum_congr rfl fun x _ => ?_
      rw [Finset.sum_comm]
      refine Finset.sum_congr rfl fun y _ => ?_
      rw [← Finset.mul_sum, ← Finset.mul_sum]
    simp only [e1]
    rw [Finset.sum_comm]
    refine Finset.sum_congr rfl fun x _ => ?_
    rw [Finset.sum_comm]
    refine Finset.sum_congr rfl fun y _ => ?_
    rw [← Finset.mul_sum, ← Finset.sum_mul]
  rw [h2]
  refine Finset.sum_congr rfl fun x hx => ?_
  rw [Finset.sum_eq_single_of_mem x hx]
  · rw [ha x hx x hx, hb x hx x hx, if_pos rfl, mul_one, mul_one, sq]
  · intro y hy hne
    rw [ha x hx y hy, if_neg (Ne.symm hne), zero_mul, mul_zero]

theorem norm2_drop_sq (S : List ℝ) (k : Nat) :
    norm2 (S.drop k) ^ 2 = ∑ x ∈ Finset.Ico k S.length, S.getD x 0 ^ 2 := by
  unfold norm2
  rw [Real.sq_sqrt]
  · rw [Finset.sum_Ico_eq_sum_range]
    rw [← Fin.sum_univ_getElem, Finset.sum_range]
    refine Fintype.sum_equiv (finCongr (by simp)) _ _ fun i => ?_
    simp only [List.getElem_map, List.getElem_drop, finCongr_apply, Fin.val_cast]
    have : k + i.1 < S.length := by have := i.2; simp at this; omega
    rw [List.getD_eq_getElem _ _ this]
  · apply List.sum_nonneg
    intro x hx
    obtain ⟨y, _, rfl⟩ := List.mem_map.1 hx
    exact sq_nonneg y

/-- What the dense `svd` returns, for any number of kept values. -/
theorem svd_spec {kernel : NDArray K → NDArray K × List ℝ × NDArray K} {t : NDArray K} {p : Nat}
    {maxS : Option Nat} {maxErr : Option ℝ} {relative : Bool} {m : NDArray K}
    (hm : t.reshape [(t.shape.take p).prod, (t.shape.drop p).prod] = .ok m)
    (hk : IsSvd m (kernel m).1 (kernel m).2.1 (kernel m).2.2) {keep : Nat}
    (hkeep : numKeep (kernel m).2.1 maxS maxErr relative = .ok keep) :
    ∃ u s vh rest k, svd kernel t p maxS maxErr relative = .ok (u, s, vh, rest) ∧
      k = min keep (kernel m).2.1.length ∧
      u.shape = t.shape.take p ++ [k] ∧ s.shape = [k] ∧ vh.shape = k :: t.shape.drop p ∧
      rest.shape = [(kernel m).2.1.length - k] ∧
      (∀ x < k, s.get [x] = (((kernel m).2.1.getD x 0 : ℝ) : K)) ∧
      (∀ x, rest.get [x] = (((kernel m).2.1.getD (k + x) 0 : ℝ) : K)) ∧
      LeftIsometry u (t.shape.take p) k ∧ RightIsometry vh (t.shape.drop p) k ∧
      sumIdx (t.shape.take p) (fun i => sumIdx (t.shape.drop p) fun j =>
        ‖t.get (i ++ j) - ∑ x ∈ range k, u.get (i ++ [x]) * s.get [x] * vh.get (x :: j)‖ ^ 2) =
        norm2 ((kernel m).2.1.drop k) ^ 2 := by
  obtain ⟨U, S, V, hUSV⟩ : ∃ U S V, kernel m = (U, S, V) := ⟨_, _, _, rfl⟩
  rw [hUSV] at hk hkeep ⊢
  simp only at hk hkeep ⊢
  obtain ⟨⟨a, b, h1, h2, h3, h4, h5, h6, h7⟩, _, _⟩ := hk
  obtain ⟨m', m1, m2, m3⟩ := reshape_matrix (List.take_append_drop p t.shape).symm
  obtain rfl : m' = m := Except.ok.inj (m1.symm.trans hm)
  rw [m2] at h1
  simp only [List.cons.injEq, and_true] at h1
  obtain ⟨rfl, rfl⟩ := h1
  have hlen : (S.take keep).length = min keep S.length := List.length_take ..
  obtain ⟨k, hkk⟩ : ∃ k, k = min keep S.length := ⟨_, rfl⟩
  rw [← hkk] at hlen
  have hkS : k ≤ S.length := by omega
  obtain ⟨u, u1, u2, u3⟩ := reshape_tensor (m := ⟨[(t.shape.take p).prod, k], U.get⟩)
    (A := t.shape.take p) (B := [k]) (by simp)
  obtain ⟨v, v1, v2, v3⟩ := reshape_tensor (m := ⟨[k, (t.shape.drop p).prod], V.get⟩)
    (A := [k]) (B := t.shape.drop p) (by simp)
  have u4 : ∀ i x, InB (t.shape.take p) i → x < k →
      u.get (i ++ [x]) = U.get [ravel (t.shape.take p) i, x] := by
    intro i x hi hx
    rw [u3 i [x] hi (InB.singleton hx)]
    simp [ravel]
  have v4 : ∀ x j, x < k → InB (t.shape.drop p) j →
      v.get (x :: j) = V.get [x, ravel (t.shape.drop p) j] := by
    intro x j hx hj
    have := v3 [x] j (InB.singleton hx) hj
    simpa [ravel] using this
  have hdrop : S.drop keep = S.drop k := by
    rcases Nat.le_total keep S.length with h | h
    · rw [hkk, min_eq_left h]
    · rw [List.drop_of_length_le h, List.drop_of_length_le (by omega)]
  refine ⟨u, ⟨[k], fun i => (((S.take keep).getD (i.getD 0 0) 0 : ℝ) : K)⟩, v,
    ⟨[S.length - k], fun i => (((S.drop keep).getD (i.getD 0 0) 0 : ℝ) : K)⟩, k, ?_, hkk, u2, rfl,
    v2, rfl, ?_, ?_, ?_, ?_, ?_⟩
  · unfold svd
    simp only [m1, bind, Except.bind, hUSV, hkeep, h2, h3, List.getD_cons_zero, List.getD_cons_succ,
      hlen, ← hkk]
    simp only [u1]
    rw [show k :: t.shape.drop p = [k] ++ t.shape.drop p from rfl]
    simp only [v1, List.length_drop]
    have : S.length - keep = S.length - k := by omega
    rw [this]
    rfl
  · intro x hx
    simp only [List.getD_cons_zero]
    rw [List.getD_eq_getElem _ _ (by omega : x < (S.take keep).length),
      List.getD_eq_getElem _ _ (by omega : x < S.length), List.getElem_take]
  · intro x
    simp only [hdrop, List.getD_eq_getElem?_getD, List.getElem?_drop]
    rfl
  · intro x hx y hy
    rw [← h6 x (by omega) y (by omega), sum_range_ravel]
    refine sumIdx_congr fun i hi => ?_
    rw [u4 i x hi hx, u4 i y hi hy]
  · intro x hx y hy
    rw [← h7 x (by omega) y (by omega), sum_range_ravel]
    refine sumIdx_congr fun j hj => ?_
    rw [v4 x j hx hj, v4 y j hy hj]
  · rw [norm2_drop_sq, ← norm_sq_sum (K := K) (m := (t.shape.take p).prod)
      (n := (t.shape.drop p).prod) (a := fun i x => U.get [i, x]) (b := fun x j => V.get [x, j])
      (fun x hx y hy => h6 x (Finset.mem_Ico.1 hx).2 y (Finset.mem_Ico.1 hy).2)
      (fun x hx y hy => h7 x (Finset.mem_Ico.1 hx).2 y (Finset.mem_Ico.1 hy).2),
      sum_range_ravel]
    refine sumIdx_congr fun i hi => ?_
    rw [sum_range_ravel]
    refine sumIdx_congr fun j hj => ?_
    congr 2
    rw [← m3 i j hi hj, h5 _ (ravel_lt hi) _ (ravel_lt hj), Finset.range_eq_Ico,
      ← Finset.sum_Ico_consecutive _ (Nat.zero_le k) hkS]
    rw [sub_eq_iff_eq_add, add_comm]
    congr 1
    rw [← Finset.range_eq_Ico]
    refine Finset.sum_congr rfl fun x hx => ?_
    have hx' := Finset.mem_range.1 hx
    rw [u4 i x hi hx', v4 x j hx' hj]
    simp only [List.getD_cons_zero]
    rw [List.getD_eq_getElem _ _ (by omega : x < (S.take keep).length),
      List.getD_eq_getElem _ _ (by omega : x < S.length), List.getElem_take]

end TN.Decomp
