import Verif.InfMps
import Verif.InfAlg
import Verif.MpsMeasureProps

/-!
# The unit cell as a family of matrices

The contractions of `canonicalize` and the transfer operators written with Mathlib's matrices.
-/

set_option linter.unusedSectionVars false

namespace TN.Inf

open TN NDArray Finset Ncon Mps Matrix

variable {K : Type} [RCLike K]

/-! ### Arrays as matrices -/

theorem toMat_apply (a b : Nat) (t : NDArray K) (i : Fin a) (j : Fin b) : toMat a b t i j = t.get [i, j] := rfl

theorem toMat_ofMat {a b : Nat} (M : Matrix (Fin a) (Fin b) K) : toMat a b (ofMat M) = M := by
  ext i j
  simp [toMat, ofMat]

theorem toMat_diagflat {n : Nat} (s : NDArray K) :
    toMat n n (diagflat s) = diagonal fun i : Fin n => s.get [(i : Nat)] := by
  ext i j
  rw [toMat_apply, diagflat_get, Matrix.diagonal_apply]
  simp only [Fin.ext_iff]

theorem toMat_diagVec {n : Nat} (v : Fin n → ℝ) :
    toMat n n (diagflat (ofVec v : NDArray K)) = diagonal fun i => (v i : K) := by
  rw [toMat_diagflat]
  congr 1
  funext i
  simp [ofVec]

theorem toMat_conjT (a b : Nat) (t : NDArray K) : toMat a b (conjT t) = (toMat a b t).map star := rfl

theorem sum_range_fin (n : Nat) (f : Nat → K) : ∑ x ∈ range n, f x = ∑ x : Fin n, f x :=
  Finset.sum_range f

theorem matmul_mat (so : SetOrder) {M N : NDArray K} {a b c : Nat} (hM : M.shape = [a, b])
    (hN : N.shape = [b, c]) : ∃ t, nconInt so [M, N] [[-1, 1], [1, -2]] = .ok t ∧ t.shape = [a, c] ∧
      toMat a c t = toMat a b M * toMat b c N := by
  obtain ⟨t, h1, h2, h3⟩ := ncon_matmul so hM hN
  refine ⟨t, h1, h2, ?_⟩
  ext i j
  rw [toMat_apply, h3 i i.2 j j.2, Matrix.mul_apply, sum_range_fin]
  rfl

theorem sqrtl_mat (so : SetOrder) {M N : NDArray K} {a b c : Nat} (hM : M.shape = [a, b])
    (hN : N.shape = [b, c]) : ∃ t, nconInt so [M, N] [[-2, 1], [1, -1]] = .ok t ∧ t.shape = [c, a] ∧
      toMat c a t = (toMat a b M * toMat b c N)ᵀ := by
  obtain ⟨t, h1, h2, h3⟩ := nconInt_spec so (ts := [M, N]) (l := [[-2, 1], [1, -1]])
    (closed := [1]) (out := [-1, -2])
    (dim := fun x => if x = -2 then a else if x = 1 then b else c)
    (by simp) rfl (by
      intro p hp
      simp only [List.zip_cons_cons, List.zip_nil_right, List.mem_cons, List.not_mem_nil, or_false] at hp
      rcases hp with rfl | rfl
      · exact hM
      · exact hN) (by decide)
  refine ⟨t, h1, h2, ?_⟩
  ext i j
  rw [toMat_apply, h3 [i, j] (inB_two i.2 j.2), Matrix.transpose_apply, Matrix.mul_apply]
  rw [show (∑ x : Fin b, toMat a b M j x * toMat b c N x i) = ∑ x ∈ range b, M.get [j, x] * N.get [x, i] from
    (sum_range_fin b fun x => M.get [j, x] * N.get [x, i]).symm]
  refine Finset.sum_congr rfl fun x _ => ?_
  show M.get [j, x] * (N.get [x, i] * 1) = _
  rw [mul_one]

theorem invl_mat (so : SetOrder) {M N : NDArray K} {a b c : Nat} (hM : M.shape = [a, b])
    (hN : N.shape = [c, b]) : ∃ t, nconInt so [M, N] [[-2, 1], [-1, 1]] = .ok t ∧ t.shape = [c, a] ∧
      toMat c a t = toMat c b N * (toMat a b M)ᵀ := by
  obtain ⟨t, h1, h2, h3⟩ := nconInt_spec so (ts := [M, N]) (l := [[-2, 1], [-1, 1]])
    (closed := [1]) (out := [-1, -2])
    (dim := fun x => if x = -2 then a else if x = 1 then b else c)
    (by simp) rfl (by
      intro p hp
      simp only [List.zip_cons_cons, List.zip_nil_right, List.mem_cons, List.not_mem_nil, or_false] at hp
      rcases hp with rfl | rfl
      · exact hM
      · exact hN) (by decide)
  refine ⟨t, h1, h2, ?_⟩
  ext i j
  rw [toMat_apply, h3 [i, j] (inB_two i.2 j.2), Matrix.mul_apply]
  simp only [Matrix.transpose_apply]
  rw [show (∑ x : Fin b, toMat c b N i x * toMat a b M j x) = ∑ x ∈ range b, N.get [i, x] * M.get [j, x] from
    (sum_range_fin b fun x => N.get [i, x] * M.get [j, x]).symm]
  refine Finset.sum_congr rfl fun x _ => ?_
  show M.get [j, x] * (N.get [i, x] * 1) = _
  rw [mul_one, mul_comm]

theorem invr_mat (so : SetOrder) {M N : NDArray K} {a b c : Nat} (hM : M.shape = [a, b])
    (hN : N.shape = [c, b]) : ∃ t, nconInt so [M, N] [[-1, 1], [-2, 1]] = .ok t ∧ t.shape = [a, c] ∧
      toMat a c t = toMat a b M * (toMat c b N)ᵀ := by
  obtain ⟨t, h1, h2, h3⟩ := nconInt_spec so (ts := [M, N]) (l := [[-1, 1], [-2, 1]])
    (closed := [1]) (out := [-1, -2])
    (dim := fun x => if x = -1 then a else if x = 1 then b else c)
    (by simp) rfl (by
      intro p hp
      simp only [List.zip_cons_cons, List.zip_nil_right, List.mem_cons, List.not_mem_nil, or_false] at hp
      rcases hp with rfl | rfl
      · exact hM
      · exact hN) (by decide)
  refine ⟨t, h1, h2, ?_⟩
  ext i j
  rw [toMat_apply, h3 [i, j] (inB_two i.2 j.2), Matrix.mul_apply]
  simp only [Matrix.transpose_apply]
  rw [show (∑ x : Fin b, toMat a b M i x * toMat c b N j x) = ∑ x ∈ range b, M.get [i, x] * N.get [j, x] from
    (sum_range_fin b fun x => M.get [i, x] * N.get [j, x]).symm]
  refine Finset.sum_congr rfl fun x _ => ?_
  show M.get [i, x] * (N.get [j, x] * 1) = _
  rw [mul_one]

/-! ### Tensors of rank three -/

/-- The matrix of a tensor for the value `i` of its physical index. -/
def slice (A : NDArray K) (l m i : Nat) : Matrix (Fin l) (Fin m) K := Matrix.of fun a b => A.get [a, i, b]

theorem slice_apply (A : NDArray K) (l m i : Nat) (a : Fin l) (b : Fin m) : slice A l m i a b = A.get [a, i, b] := rfl

/-- The matrix of the cell for the values `is` of its physical indices. -/
def cell (ts : List (NDArray K)) (l r : Nat) (is : List Nat) : Matrix (Fin l) (Fin r) K :=
  Matrix.of fun a b => amp ts a is b

theorem cell_apply (ts : List (NDArray K)) (l r : Nat) (is : List Nat) (a : Fin l) (b : Fin r) :
    cell ts l r is a b = amp ts a is b := rfl

theorem cell_nil (n : Nat) : cell ([] : List (NDArray K)) n n [] = 1 := by
  ext a b
  rw [cell_apply, amp, Matrix.one_apply]
  simp only [Fin.ext_iff]

theorem cell_cons {A : NDArray K} {ts : List (NDArray K)} {l p m : Nat} (hA : A.shape = [l, p, m]) (r i : Nat)
    (is : List Nat) : cell (A :: ts) l r (i :: is) = slice A l m i * cell ts m r is := by
  ext a b
  rw [cell_apply, amp_cons hA, Matrix.mul_apply, sum_range_fin]
  rfl

theorem cell_append {xs ys : List (NDArray K)} {l m : Nat} {d : List Nat} (h : Bonds xs l d m) {i : List Nat}
    (hi : i.length = d.length) (j : List Nat) (r : Nat) :
    cell (xs ++ ys) l r (i ++ j) = cell xs l m i * cell ys m r j := by
  ext a b
  rw [cell_apply, amp_append h a.2 hi, Matrix.mul_apply, sum_range_fin]
  rfl

theorem cell_one {A : NDArray K} {l p m : Nat} (hA : A.shape = [l, p, m]) (i : Nat) :
    cell [A] l m [i] = slice A l m i := by
  rw [cell_cons hA, cell_nil, Matrix.mul_one]

theorem first_mat (so : SetOrder) {P Q R A : NDArray K} {a b c d p m : Nat} (hP : P.shape = [a, b])
    (hQ : Q.shape = [b, c]) (hR : R.shape = [c, d]) (hA : A.shape = [d, p, m]) :
    ∃ t, nconInt so [P, Q, R, A] [[-1, 1], [1, 2], [2, 3], [3, -2, -3]] = .ok t ∧ t.shape = [a, p, m] ∧
      ∀ i < p, slice t a m i = toMat a b P * toMat b c Q * toMat c d R * slice A d m i := by
  obtain ⟨t, h1, h2, h3⟩ := nconInt_spec so (ts := [P, Q, R, A])
    (l := [[-1, 1], [1, 2], [2, 3], [3, -2, -3]]) (closed := [1, 2, 3]) (out := [-1, -2, -3])
    (dim := fun x => if x = -1 then a else if x = 1 then b else if x = 2 then c else if x = 3 then d
      else if x = -2 then p else m)
    (by simp) rfl (by
      intro p hp
      simp only [List.zip_cons_cons, List.zip_nil_right, List.mem_cons, List.not_mem_nil, or_false] at hp
      rcases hp with rfl | rfl | rfl | rfl
      · exact hP
      · exact hQ
      · exact hR
      · exact hA) (by decide)
  refine ⟨t, h1, h2, fun i hi => ?_⟩
  ext x y
  rw [slice_apply, h3 [x, i, y] (inB_three x.2 hi y.2)]
  simp only [Matrix.mul_assoc]
  rw [Matrix.mul_apply]
  simp only [Matrix.mul_apply, toMat_apply, slice_apply, Finset.mul_sum]
  refine Eq.trans (Finset.sum_range _) (Finset.sum_congr rfl fun e _ => ?_)
  refine Eq.trans (Finset.sum_range _) (Finset.sum_congr rfl fun f _ => ?_)
  refine Eq.trans (Finset.sum_range _) (Finset.sum_congr rfl fun g _ => ?_)
  show P.get [x, e] * (Q.get [e, f] * (R.get [f, g] * (A.get [g, i, y] * 1))) = _
  rw [mul_one]

theorem last_mat (so : SetOrder) {P Q R A : NDArray K} {l p a b c d : Nat} (hA : A.shape = [l, p, a])
    (hP : P.shape = [a, b]) (hQ : Q.shape = [b, c]) (hR : R.shape = [c, d]) :
    ∃ t, nconInt so [A, P, Q, R] [[-1, -2, 1], [1, 2], [2, 3], [3, -3]] = .ok t ∧ t.shape = [l, p, d] ∧
      ∀ i < p, slice t l d i = slice A l a i * (toMat a b P * toMat b c Q * toMat c d R) := by
  obtain ⟨t, h1, h2, h3⟩ := nconInt_spec so (ts := [A, P, Q, R])
    (l := [[-1, -2, 1], [1, 2], [2, 3], [3, -3]]) (closed := [1, 2, 3]) (out := [-1, -2, -3])
    (dim := fun x => if x = -1 then l else if x = 1 then a else if x = 2 then b else if x = 3 then c
      else if x = -2 then p else d)
    (by simp) rfl (by
      intro p hp
      simp only [List.zip_cons_cons, List.zip_nil_right, List.mem_cons, List.not_mem_nil, or_false] at hp
      rcases hp with rfl | rfl | rfl | rfl
      · exact hA
      · exact hP
      · exact hQ
      · exact hR) (by decide)
  refine ⟨t, h1, h2, fun i hi => ?_⟩
  ext x y
  rw [slice_apply, h3 [x, i, y] (inB_three x.2 hi y.2)]
  simp only [Matrix.mul_assoc]
  rw [Matrix.mul_apply]
  simp only [Matrix.mul_apply, toMat_apply, slice_apply, Finset.mul_sum]
  refine Eq.trans (Finset.sum_range _) (Finset.sum_congr rfl fun e _ => ?_)
  refine Eq.trans (Finset.sum_range _) (Finset.sum_congr rfl fun f _ => ?_)
  refine Eq.trans (Finset.sum_range _) (Finset.sum_congr rfl fun g _ => ?_)
  show A.get [x, i, e] * (P.get [e, f] * (Q.get [f, g] * (R.get [g, y] * 1))) = _
  rw [mul_one]

theorem rest_mat (so : SetOrder) {A M : NDArray K} {l p m k : Nat} (hA : A.shape = [l, p, m])
    (hM : M.shape = [m, k]) : ∃ t, nconInt so [A, M] [[-1, -2, 1], [1, -3]] = .ok t ∧ t.shape = [l, p, k] ∧
      ∀ i < p, slice t l k i = slice A l m i * toMat m k M := by
  obtain ⟨t, h1, h2, h3⟩ := ncon_rest_left so hA hM
  refine ⟨t, h1, h2, fun i hi => ?_⟩
  ext x y
  rw [slice_apply, h3 x x.2 i hi y y.2, Matrix.mul_apply, sum_range_fin]
  rfl

/-! ### The transfer operators -/

theorem transferL_mat (E : Env K) {A L : NDArray K} {l p m : Nat} (hA : A.shape = [l, p, m])
    (hL : L.shape = [l, l]) : ∃ t, transferL E A L = .ok t ∧ t.shape = [m, m] ∧
      (toMat m m t)ᵀ = ∑ i ∈ range p, (slice A l m i)ᴴ * (toMat l l L)ᵀ * slice A l m i := by
  obtain ⟨t, h1, h2, h3⟩ := nconInt_spec E.so (ts := [A, L, conjT A])
    (l := [[1, 2, -1], [1, 3], [3, 2, -2]]) (closed := [1, 2, 3]) (out := [-1, -2])
    (dim := fun x => if x = 1 ∨ x = 3 then l else if x = 2 then p else m)
    (by simp) rfl (by
      intro p hp
      simp only [List.zip_cons_cons, List.zip_nil_right, List.mem_cons, List.not_mem_nil, or_false] at hp
      rcases hp with rfl | rfl | rfl
      · exact hA
      · exact hL
      · exact hA) (by decide)
  refine ⟨t, h1, h2, ?_⟩
  ext y x
  rw [Matrix.transpose_apply, toMat_apply, h3 [x, y] (inB_two x.2 y.2), Matrix.sum_apply]
  show (∑ a ∈ range l, ∑ i ∈ range p, ∑ a' ∈ range l,
    A.get [a, i, x] * (L.get [a, a'] * ((conjT A).get [a', i, y] * 1))) = _
  rw [Finset.sum_comm]
  refine Finset.sum_congr rfl fun i _ => ?_
  rw [Matrix.mul_apply]
  simp only [Matrix.mul_apply, Matrix.conjTranspose_apply, Matrix.transpose_apply, toMat_apply, slice_apply,
    Finset.sum_mul, conjT_get]
  rw [Finset.sum_range]
  refine Finset.sum_congr rfl fun a _ => ?_
  rw [Finset.sum_range]
  exact Finset.sum_congr rfl fun a' _ => by ring

theorem transferR_mat (E : Env K) {A R : NDArray K} {l p m : Nat} (hA : A.shape = [l, p, m])
    (hR : R.shape = [m, m]) : ∃ t, transferR E A R = .ok t ∧ t.shape = [l, l] ∧
      toMat l l t = ∑ i ∈ range p, slice A l m i * toMat m m R * (slice A l m i)ᴴ := by
  obtain ⟨t, h1, h2, h3⟩ := nconInt_spec E.so (ts := [A, R, conjT A])
    (l := [[-1, 2, 1], [1, 3], [-2, 2, 3]]) (closed := [1, 2, 3]) (out := [-1, -2])
    (dim := fun x => if x = 1 ∨ x = 3 then m else if x = 2 then p else l)
    (by simp) rfl (by
      intro p hp
      simp only [List.zip_cons_cons, List.zip_nil_right, List.mem_cons, List.not_mem_nil, or_false] at hp
      rcases hp with rfl | rfl | rfl
      · exact hA
      · exact hR
      · exact hA) (by decide)
  refine ⟨t, h1, h2, ?_⟩
  ext x y
  rw [toMat_apply, h3 [x, y] (inB_two x.2 y.2), Matrix.sum_apply]
  show (∑ a ∈ range m, ∑ i ∈ range p, ∑ a' ∈ range m,
    A.get [x, i, a] * (R.get [a, a'] * ((conjT A).get [y, i, a'] * 1))) = _
  rw [Finset.sum_comm]
  refine Finset.sum_congr rfl fun i _ => ?_
  simp only [Matrix.mul_assoc]
  rw [Matrix.mul_apply]
  simp only [Matrix.mul_apply, Matrix.conjTranspose_apply, toMat_apply, slice_apply,
    Finset.mul_sum, conjT_get]
  rw [Finset.sum_range]
  refine Finset.sum_congr rfl fun a _ => ?_
  rw [Finset.sum_range]
  exact Finset.sum_congr rfl fun a' _ => by ring

theorem sumIdx_matMul {ι κ μ ν : Type} [Fintype κ] [Fintype μ] (s : List Nat) (M : Matrix ι κ K)
    (f : List Nat → Matrix κ μ K) (N : Matrix μ ν K) :
    M * sumIdx s f * N = sumIdx s fun i => M * f i * N := by
  rw [← sum_range_unravel, ← sum_range_unravel, Matrix.mul_sum, Matrix.sum_mul]

theorem cellL_mat (E : Env K) {ts : List (NDArray K)} : ∀ {l r : Nat} {ds : List Nat} {m : NDArray K},
    Bonds ts l ds r → m.shape = [l, l] → ∃ t, cellTransfer E ts .left m = .ok t ∧ t.shape = [r, r] ∧
      (toMat r r t)ᵀ = sumIdx ds fun is => (cell ts l r is)ᴴ * (toMat l l m)ᵀ * cell ts l r is := by
  unfold cellTransfer
  induction ts with
  | nil =>
    rintro l r ds m ⟨rfl, rfl⟩ hm
    refine ⟨m, rfl, hm, ?_⟩
    simp [sumIdx, cell_nil]
  | cons A ts ih =>
    rintro l r ds m ⟨p, k, ds', rfl, h1, h2⟩ hm
    obtain ⟨t, t1, t2, t3⟩ := transferL_mat E h1 hm
    obtain ⟨t', t1', t2', t3'⟩ := ih h2 t2
    refine ⟨t', ?_, t2', ?_⟩
    · simp only [List.foldlM_cons, applyTransfer, t1, bind, Except.bind]
      exact t1'
    · rw [t3', t3, sumIdx]
      simp only [Matrix.mul_sum, Matrix.sum_mul]
      rw [← sum_range_unravel, Finset.sum_comm]
      refine Finset.sum_congr rfl fun i _ => ?_
      rw [← sum_range_unravel]
      refine Finset.sum_congr rfl fun j _ => ?_
      rw [cell_cons h1, Matrix.conjTranspose_mul]
      simp only [Matrix.mul_assoc]

theorem cellR_mat (E : Env K) {ts : List (NDArray K)} : ∀ {l r : Nat} {ds : List Nat} {m : NDArray K},
    Bonds ts l ds r → m.shape = [r, r] → ∃ t, cellTransfer E ts .right m = .ok t ∧ t.shape = [l, l] ∧
      toMat l l t = sumIdx ds fun is => cell ts l r is * toMat r r m * (cell ts l r is)ᴴ := by
  unfold cellTransfer
  induction ts with
  | nil =>
    rintro l r ds m ⟨rfl, rfl⟩ hm
    refine ⟨m, rfl, hm, ?_⟩
    simp [sumIdx, cell_nil]
  | cons A ts ih =>
    rintro l r ds m ⟨p, k, ds', rfl, h1, h2⟩ hm
    obtain ⟨t, t1, t2, t3⟩ := ih h2 hm
    obtain ⟨t', t1', t2', t3'⟩ := transferR_mat E h1 t2
    refine ⟨t', ?_, t2', ?_⟩
    · simp only [List.reverse_cons, List.foldlM_append]
      simp only [applyTransfer] at t1
      simp only [bind, Except.bind, List.foldlM_cons, applyTransfer]
      rw [t1]
      simp only [t1']
      rfl
    · rw [t3', t3, sumIdx]
      refine Finset.sum_congr rfl fun i _ => ?_
      rw [sumIdx_matMul]
      refine sumIdx_congr fun is _ => ?_
      rw [cell_cons h1, Matrix.conjTranspose_mul]
      simp only [Matrix.mul_assoc]

end TN.Inf
