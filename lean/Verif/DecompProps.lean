import Verif.Decomp
import Mathlib.Tactic.IntervalCases
import Mathlib.Data.Real.Sign

/-!
# C29 and C48: dense decompositions

C29: truncation of the dense singular value decomposition.
C48: `qr` and `rq` multiply back to the tensor; false with `non_negative_diagonal=True` when the
triangular factor has a zero on the diagonal.
-/

namespace TN.Decomp

open TN NDArray Finset

variable {K : Type} [RCLike K]

/-- **C29.**  `svd(tensor, pivot, max_singular_values, max_truncation_error, relative)`, for a
valid matrix decomposition `A = U diag(S) V`: the kept values followed by the discarded values are `S`; the
Frobenius norm of the difference between the tensor and the product of the returned factors is
the Euclidean norm of the discarded values; that norm is at most the bound unless
`max_singular_values` stopped it, never more than `max_singular_values` are kept, and no smaller
number of values meets the bound. -/
theorem C29_svd_truncation {kernel : NDArray K → NDArray K × List ℝ × NDArray K} {t : NDArray K}
    {p : Nat} {maxS : Option Nat} {err : ℝ} {relative : Bool} {m U V : NDArray K} {S : List ℝ}
    (hm : t.reshape [(t.shape.take p).prod, (t.shape.drop p).prod] = .ok m)
    (hker : kernel m = (U, S, V)) (hk : IsSvd m U S V) (hS : S ≠ []) (herr : 0 ≤ err) :
    ∃ u s vh rest k, svd kernel t p maxS (some err) relative = .ok (u, s, vh, rest) ∧
      u.shape = t.shape.take p ++ [k] ∧ s.shape = [k] ∧ vh.shape = k :: t.shape.drop p ∧
      rest.shape = [S.length - k] ∧
      (∀ x < k, s.get [x] = ((S.getD x 0 : ℝ) : K)) ∧
      (∀ x, rest.get [x] = ((S.getD (k + x) 0 : ℝ) : K)) ∧
      sumIdx (t.shape.take p) (fun i => sumIdx (t.shape.drop p) fun j =>
        ‖t.get (i ++ j) - ∑ x ∈ range k, u.get (i ++ [x]) * s.get [x] * vh.get (x :: j)‖ ^ 2) =
        norm2 (S.drop k) ^ 2 ∧
      k ≤ S.length ∧ (∀ n, maxS = some n → k ≤ n) ∧
      ((∀ n, maxS = some n → k < n) →
        norm2 (S.drop k) ≤ if relative then err * S.headD 0 else err) ∧
      ∀ k', norm2 (S.drop k') ≤ (if relative then err * S.headD 0 else err) → k ≤ k' := by
  have hb : 0 ≤ bound S err relative := by
    unfold bound
    split_ifs
    · refine mul_nonneg herr ?_
      cases S with
      | nil => exact absurd rfl hS
      | cons a S => exact hk.nonneg a (by simp)
    · exact herr
  obtain ⟨keep, hkeep⟩ : ∃ keep, numKeep S maxS (some err) relative = .ok keep := by
    unfold numKeep
    cases relative with
    | false => exact ⟨_, rfl⟩
    | true =>
      cases S with
      | nil => exact absurd rfl hS
      | cons a S => exact ⟨_, rfl⟩
  obtain ⟨k1, k2, k3, k4⟩ := numKeep_spec hkeep hb
  have hspec := svd_spec (kernel := kernel) (maxS := maxS) (maxErr := some err)
    (relative := relative) hm (by rw [hker]; exact hk) (keep := keep) (by rw [hker]; exact hkeep)
  rw [hker] at hspec
  simp only at hspec
  obtain ⟨u, s, vh, rest, k, h1, h2, h3, h4, h5, h6, h7, h8, _, _, h9⟩ := hspec
  rw [min_eq_left k2] at h2
  subst h2
  refine ⟨u, s, vh, rest, k, h1, h3, h4, h5, h6, h7, h8, h9, k2, ?_, ?_, k4⟩
  · rintro n rfl
    exact k1
  · intro hn
    cases maxS with
    | some n => exact k3 (hn n rfl)
    | none =>
      rcases Nat.lt_or_ge k S.length with h | h
      · exact k3 h
      · rw [List.drop_of_length_le h]
        simpa [norm2, bound] using hb

/-- Without bounds on the number of values and the error nothing is discarded and the factors
multiply back to the tensor. -/
theorem C29_svd_exact {kernel : NDArray K → NDArray K × List ℝ × NDArray K} {t : NDArray K}
    {p : Nat} {relative : Bool} {m U V : NDArray K} {S : List ℝ}
    (hm : t.reshape [(t.shape.take p).prod, (t.shape.drop p).prod] = .ok m)
    (hker : kernel m = (U, S, V)) (hk : IsSvd m U S V) :
    ∃ u s vh rest, svd kernel t p none none relative = .ok (u, s, vh, rest) ∧
      u.shape = t.shape.take p ++ [S.length] ∧ s.shape = [S.length] ∧
      vh.shape = S.length :: t.shape.drop p ∧ rest.shape = [0] ∧
      (∀ x < S.length, s.get [x] = ((S.getD x 0 : ℝ) : K)) ∧
      LeftIsometry u (t.shape.take p) S.length ∧ RightIsometry vh (t.shape.drop p) S.length ∧
      ∀ i j, InB (t.shape.take p) i → InB (t.shape.drop p) j → t.get (i ++ j) =
        ∑ x ∈ range S.length, u.get (i ++ [x]) * s.get [x] * vh.get (x :: j) := by
  have hspec := svd_spec (kernel := kernel) (maxS := none) (maxErr := none)
    (relative := relative) hm (by rw [hker]; exact hk) (keep := S.length) (by rw [hker]; rfl)
  rw [hker] at hspec
  simp only [min_self] at hspec
  obtain ⟨u, s, vh, rest, k, h1, rfl, h3, h4, h5, h6, h7, _, h8, h9, h10⟩ := hspec
  refine ⟨u, s, vh, rest, h1, h3, h4, h5, by simpa using h6, h7, h8, h9, ?_⟩
  rw [List.drop_length] at h10
  have h0 : norm2 [] ^ 2 = 0 := by simp [norm2]
  rw [h0] at h10
  have nn : ∀ (s : List Nat) (f : List Nat → ℝ), (∀ i, 0 ≤ f i) → 0 ≤ sumIdx s f := by
    intro s f hf
    rw [← sum_range_unravel]
    exact Finset.sum_nonneg fun i _ => hf _
  have zero : ∀ (s : List Nat) (f : List Nat → ℝ), (∀ i, 0 ≤ f i) → sumIdx s f = 0 →
      ∀ i, InB s i → f i = 0 := by
    intro s f hf hs i hi
    rw [← sum_range_unravel, Finset.sum_eq_zero_iff_of_nonneg (fun i _ => hf _)] at hs
    have := hs (ravel s i) (Finset.mem_range.2 (ravel_lt hi))
    rwa [unravel_ravel hi] at this
  intro i j hi hj
  have z1 := zero _ _ (fun i => nn _ _ fun j => sq_nonneg _) h10 i hi
  have z2 := zero _ _ (fun j => sq_nonneg _) z1 j hj
  rw [sq_eq_zero_iff, norm_eq_zero, sub_eq_zero] at z2
  exact z2

/-- **C48** (partial).  `qr` multiplies back to the tensor and its first factor is an isometry; with
`non_negative_diagonal` this needs that no diagonal entry of the triangular factor vanishes
(`np.sign` must have modulus one there). -/
theorem C48_qr_partial {kernel : NDArray K → NDArray K × NDArray K} {sign : K → K} {t : NDArray K}
    {p : Nat} {nonneg : Bool} {m q0 r0 : NDArray K}
    (hm : t.reshape [(t.shape.take p).prod, (t.shape.drop p).prod] = .ok m)
    (hker : kernel m = (q0, r0)) (hk : IsQr m q0 r0)
    (hs : nonneg = true → ∀ x < q0.shape.getD 1 0,
      sign (r0.get [x, x]) * star (sign (r0.get [x, x])) = 1) :
    ∃ q r, qr kernel sign t p nonneg = .ok (q, r) ∧
      (∃ d, q.shape = t.shape.take p ++ [d] ∧ r.shape = d :: t.shape.drop p ∧
        (∀ i j, InB (t.shape.take p) i → InB (t.shape.drop p) j →
          t.get (i ++ j) = ∑ x ∈ range d, q.get (i ++ [x]) * r.get (x :: j))) ∧
      LeftIsometry q (t.shape.take p) (min (t.shape.take p).prod (t.shape.drop p).prod) :=
  qr_factorises fun m' hm' => by
    obtain rfl : m' = m := Except.ok.inj (hm'.symm.trans hm)
    rw [hker]
    exact ⟨hk, hs⟩

/-- **C48** (partial) for `rq`. -/
theorem C48_rq_partial {kernel : NDArray K → NDArray K × NDArray K} {sign : K → K} {t : NDArray K}
    {p : Nat} {nonneg : Bool} {m q0 r0 : NDArray K}
    (hm : t.reshape [(t.shape.take p).prod, (t.shape.drop p).prod] = .ok m)
    (hker : kernel (conjTranspose m) = (q0, r0)) (hk : IsQr (conjTranspose m) q0 r0)
    (hs : nonneg = true → ∀ x < q0.shape.getD 1 0,
      sign (r0.get [x, x]) * star (sign (r0.get [x, x])) = 1) :
    ∃ r q, rq kernel sign t p nonneg = .ok (r, q) ∧
      (∃ d, r.shape = t.shape.take p ++ [d] ∧ q.shape = d :: t.shape.drop p ∧
        (∀ i j, InB (t.shape.take p) i → InB (t.shape.drop p) j →
          t.get (i ++ j) = ∑ x ∈ range d, r.get (i ++ [x]) * q.get (x :: j))) ∧
      RightIsometry q (t.shape.drop p) (min (t.shape.take p).prod (t.shape.drop p).prod) :=
  rq_factorises fun m' hm' => by
    obtain rfl : m' = m := Except.ok.inj (hm'.symm.trans hm)
    rw [hker]
    exact ⟨hk, hs⟩

/-! ### Concrete cases -/

/-- A matrix given by its entries. -/
def mat (m n : Nat) (f : Nat → Nat → ℝ) : NDArray ℝ :=
  ⟨[m, n], fun i => f (i.getD 0 0) (i.getD 1 0)⟩

/-- The identity. -/
def eye (i j : Nat) : ℝ := if i = j then 1 else 0

/-- The matrix with the single entry 1 in the upper right corner. -/
def nilp : NDArray ℝ := mat 2 2 fun i j => if i = 0 ∧ j = 1 then 1 else 0

theorem nilp_isQr : IsQr nilp (mat 2 2 eye) nilp := by
  refine ⟨2, 2, 2, rfl, rfl, rfl, rfl, ?_, ?_⟩
  · intro i hi j hj
    interval_cases i <;> interval_cases j <;> simp [mat, nilp, eye]
  · intro i hi j hj
    interval_cases i <;> interval_cases j <;> simp [mat, eye]

theorem reshape_mat (m n : Nat) (f : Nat → Nat → ℝ) :
    ∃ a, (mat m n f).reshape [((mat m n f).shape.take 1).prod, ((mat m n f).shape.drop 1).prod] =
      .ok a ∧ a.shape = [m, n] ∧ ∀ i < m, ∀ j < n, a.get [i, j] = f i j := by
  obtain ⟨a, h1, h2, h3⟩ := reshape_matrix (t := mat m n f) (A := [m]) (B := [n]) rfl
  refine ⟨a, by simpa [mat] using h1, by simpa using h2, fun i hi j hj => ?_⟩
  have := h3 [i] [j] (InB.singleton hi) (InB.singleton hj)
  simpa [ravel, mat] using this

/-- **C48** is false: `qr(A, 1, non_negative_diagonal=True)` of `A = [[0, 1], [0, 0]]` with the valid
factorisation `A = 1 · A` returns factors whose product is zero, because `np.sign(0) = 0`. -/
theorem C48_qr_zero_diagonal_false : ∃ (kernel : NDArray ℝ → NDArray ℝ × NDArray ℝ)
    (t m q r : NDArray ℝ), t.reshape [(t.shape.take 1).prod, (t.shape.drop 1).prod] = .ok m ∧
      IsQr m (kernel m).1 (kernel m).2 ∧ qr kernel Real.sign t 1 true = .ok (q, r) ∧
      t.get [0, 1] ≠ ∑ x ∈ range 2, q.get [0, x] * r.get [x, 1] := by
  obtain ⟨a, h1, h2, h3⟩ := reshape_mat 2 2 fun i j => if i = 0 ∧ j = 1 then 1 else 0
  have hQ : IsQr a (mat 2 2 eye) nilp := by
    obtain ⟨m, k, n, e1, e2, e3, e4, e5, e6⟩ := nilp_isQr
    simp only [nilp, mat, List.cons.injEq, and_true] at e1
    obtain ⟨rfl, rfl⟩ := e1
    refine ⟨2, k, 2, h2, e2, e3, e4, fun i hi j hj => ?_, e6⟩
    rw [h3 i hi j hj, ← e5 i hi j hj]
    rfl
  obtain ⟨q', q1, q2, q3⟩ := reshape_tensor (m := (fixPhases Real.sign (mat 2 2 eye) nilp).1)
    (A := [2]) (B := [2]) rfl
  obtain ⟨r', r1, r2, r3⟩ := reshape_tensor (m := (fixPhases Real.sign (mat 2 2 eye) nilp).2)
    (A := [2]) (B := [2]) rfl
  refine ⟨fun _ => (mat 2 2 eye, nilp), nilp, a, q', r', h1, hQ, ?_, ?_⟩
  · unfold qr
    have h1' : nilp.reshape [(nilp.shape.take 1).prod, (nilp.shape.drop 1).prod] = .ok a := h1
    simp only [h1', bind, Except.bind, if_true]
    have e1 : (fixPhases Real.sign (mat 2 2 eye) nilp).1.reshape ([2] ++ [2]) = .ok q' := q1
    have e2 : (fixPhases Real.sign (mat 2 2 eye) nilp).2.reshape ([2] ++ [2]) = .ok r' := r1
    change Except.bind ((fixPhases Real.sign (mat 2 2 eye) nilp).1.reshape ([2] ++ [2]))
      (fun q => Except.bind ((fixPhases Real.sign (mat 2 2 eye) nilp).2.reshape ([2] ++ [2]))
        fun r => Except.ok (q, r)) = _
    rw [e1]
    change Except.bind ((fixPhases Real.sign (mat 2 2 eye) nilp).2.reshape ([2] ++ [2]))
        (fun r => Except.ok (q', r)) = _
    rw [e2]
    rfl
  · have hr : ∀ x < 2, r'.get [x, 1] = 0 := by
      intro x hx
      have := r3 [x] [1] (InB.singleton hx) (InB.singleton (by omega))
      rw [show [x] ++ [1] = [x, 1] from rfl] at this
      rw [this]
      interval_cases x <;> simp [fixPhases, nilp, mat, ravel]
    rw [Finset.sum_eq_zero fun x hx => by rw [hr x (Finset.mem_range.1 hx), mul_zero]]
    simp [nilp, mat]

/-- The hypotheses of `C48_qr_partial` hold for the identity matrix. -/
example : ∃ (kernel : NDArray ℝ → NDArray ℝ × NDArray ℝ) (m : NDArray ℝ),
    (mat 2 2 eye).reshape [((mat 2 2 eye).shape.take 1).prod, ((mat 2 2 eye).shape.drop 1).prod] =
      .ok m ∧ IsQr m (kernel m).1 (kernel m).2 ∧ ∀ x < (kernel m).1.shape.getD 1 0,
      Real.sign ((kernel m).2.get [x, x]) * star (Real.sign ((kernel m).2.get [x, x])) = 1 := by
  obtain ⟨a, h1, h2, h3⟩ := reshape_mat 2 2 eye
  refine ⟨fun _ => (mat 2 2 eye, mat 2 2 eye), a, h1, ⟨2, 2, 2, h2, rfl, rfl, rfl, ?_, ?_⟩, ?_⟩
  · intro i hi j hj
    rw [h3 i hi j hj]
    interval_cases i <;> interval_cases j <;> simp [mat, eye]
  · intro i hi j hj
    interval_cases i <;> interval_cases j <;> simp [mat, eye]
  · intro x hx
    simp [mat, eye]

/-- The hypotheses of `C29_svd_truncation` hold for the diagonal matrix with entries 3 and 1. -/
example : ∃ (kernel : NDArray ℝ → NDArray ℝ × List ℝ × NDArray ℝ) (t m U V : NDArray ℝ)
    (S : List ℝ), t.reshape [(t.shape.take 1).prod, (t.shape.drop 1).prod] = .ok m ∧
      kernel m = (U, S, V) ∧ IsSvd m U S V ∧ S ≠ [] ∧ S.length = 2 := by
  obtain ⟨a, h1, h2, h3⟩ := reshape_mat 2 2 fun i j => if i = j then (if i = 0 then 3 else 1) else 0
  refine ⟨fun _ => (mat 2 2 eye, [3, 1], mat 2 2 eye), _, a, _, _, _, h1, rfl,
    ⟨⟨2, 2, h2, rfl, rfl, rfl, ?_, ?_, ?_⟩, ?_, ?_⟩, by simp, rfl⟩
  · intro i hi j hj
    rw [h3 i hi j hj]
    interval_cases i <;> interval_cases j <;> simp [mat, eye]
  · intro i hi j hj
    simp only [List.length_cons, List.length_nil] at hi hj
    interval_cases i <;> interval_cases j <;> simp [mat, eye]
  · intro i hi j hj
    simp only [List.length_cons, List.length_nil] at hi hj
    interval_cases i <;> interval_cases j <;> simp [mat, eye]
  · intro x hx
    simp only [List.mem_cons, List.not_mem_nil, or_false] at hx
    rcases hx with rfl | rfl <;> norm_num
  · simp

end TN.Decomp
