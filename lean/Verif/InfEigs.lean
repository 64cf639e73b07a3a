import Verif.InfCell

/-!
# The dominant eigenvectors of the transfer matrix

What `eigs` is assumed to return, and what `transfer_matrix_eigs` returns for an irreducible cell.
-/

set_option linter.unusedSectionVars false

namespace TN.Inf

open TN NDArray Finset Ncon Mps Matrix
open scoped ComplexOrder

variable {K : Type} [RCLike K]

/-! ### Assumptions -/

/-- The entries of a vector. -/
def entries (n : Nat) (v : NDArray K) : Fin n → K := fun i => v.get [i]

/-- The positive number `e` is an eigenvalue of `T` with the eigenvector `v`, it is simple, and the
powers of `T` grow no faster than those of `e`: every other eigenvalue has a smaller real part. -/
structure Dominant {n : Nat} (T : (Fin n → K) → Fin n → K) (e : ℝ) (v : Fin n → K) : Prop where
  pos : 0 < e
  ne : v ≠ 0
  eig : T v = (e : K) • v
  only : ∀ w, T w = (e : K) • w → ∃ c : K, w = c • v
  bound : ∀ w, ∃ C : ℝ, ∀ k, ‖T^[k] w‖ ≤ C * e ^ k

/-- `eigs` with `which='LR'` and `numeig=1` finds the dominant eigenvalue and an eigenvector. -/
def EigsOK (eigs : (NDArray K → Py (NDArray K)) → NDArray K → K × NDArray K) : Prop :=
  ∀ (n : Nat) (f : NDArray K → Py (NDArray K)) (T : (Fin n → K) →ₗ[K] (Fin n → K)) (v0 : NDArray K),
    v0.shape = [n] → entries n v0 ≠ 0 →
    (∀ x, x.shape = [n] → ∃ y, f x = .ok y ∧ y.shape = [n] ∧ entries n y = T (entries n x)) →
    ∀ (e : ℝ) (v : Fin n → K), Dominant T e v →
      (eigs f v0).1 = (e : K) ∧ (eigs f v0).2.shape = [n] ∧ ∃ c : K, c ≠ 0 ∧ entries n (eigs f v0).2 = c • v

/-- `np.linalg.inv` of an invertible matrix. -/
def InvOK (inv : NDArray K → Py (NDArray K)) : Prop :=
  (∀ (n : Nat) (M : NDArray K) (N : Matrix (Fin n) (Fin n) K), M.shape = [n, n] → toMat n n M * N = 1 →
    ∃ t, inv M = .ok t ∧ t.shape = [n, n] ∧ toMat n n t = N) ∧
  ∀ M t, inv M = .ok t → t.shape = M.shape

/-- A random vector is not the zero vector. -/
def RandOK (randn : Nat → NDArray K) : Prop := ∀ n, 0 < n → (randn n).shape = [n] ∧ entries n (randn n) ≠ 0

/-- All that is assumed of the kernels. -/
structure KernOK (E : Kern K) : Prop where
  qr : QrOK E.toEnv
  svd : SvdOK E.toEnv
  eigs : EigsOK E.eigs
  eigh : Lanczos.EighOK E.eigh
  inv : InvOK E.inv
  randn : RandOK E.randn

/-! ### Specification -/

/-- The transfer matrix of the cell acting from the left. -/
def cellPull (ts : List (NDArray K)) (n : Nat) (ds : List Nat) (X : Matrix (Fin n) (Fin n) K) :
    Matrix (Fin n) (Fin n) K := sumIdx ds fun is => (cell ts n n is)ᴴ * X * cell ts n n is

/-- The transfer matrix of the cell acting from the right. -/
def cellPush (ts : List (NDArray K)) (n : Nat) (ds : List Nat) (X : Matrix (Fin n) (Fin n) K) :
    Matrix (Fin n) (Fin n) K := sumIdx ds fun is => cell ts n n is * X * (cell ts n n is)ᴴ

/-- The transfer matrix has a simple eigenvalue `e` whose left and right eigenvectors `L`, `R` are
positive definite. -/
structure Irreducible (ts : List (NDArray K)) (n : Nat) (ds : List Nat) (e : ℝ) (L R : Matrix (Fin n) (Fin n) K) :
    Prop where
  pos : 0 < e
  left : L.PosDef
  right : R.PosDef
  eigL : cellPull ts n ds L = (e : K) • L
  eigR : cellPush ts n ds R = (e : K) • R
  onlyL : ∀ X, cellPull ts n ds X = (e : K) • X → ∃ c : K, X = c • L
  onlyR : ∀ X, cellPush ts n ds X = (e : K) • X → ∃ c : K, X = c • R

theorem cellPull_eq (ts : List (NDArray K)) (n : Nat) (ds : List Nat) (X : Matrix (Fin n) (Fin n) K) :
    cellPull ts n ds X = pull (range ds.prod) (fun k => cell ts n n (unravel ds k)) X :=
  (sum_range_unravel ds _).symm

theorem cellPush_eq (ts : List (NDArray K)) (n : Nat) (ds : List Nat) (X : Matrix (Fin n) (Fin n) K) :
    cellPush ts n ds X = push (range ds.prod) (fun k => cell ts n n (unravel ds k)) X :=
  (sum_range_unravel ds _).symm

/-! ### Vectors as matrices -/

/-- The matrix with the entries of a vector in C order. -/
def matE (n : Nat) : (Fin (n * n) → K) ≃ₗ[K] Matrix (Fin n) (Fin n) K where
  toFun w := Matrix.of fun i j => w (finProdFinEquiv (i, j))
  invFun M := fun x => M (finProdFinEquiv.symm x).1 (finProdFinEquiv.symm x).2
  map_add' _ _ := rfl
  map_smul' _ _ := rfl
  left_inv w := by
    funext x
    simp only [Matrix.of_apply, Prod.mk.eta]
    rw [Equiv.apply_symm_apply]
  right_inv M := by
    ext i j
    simp only [Matrix.of_apply]
    rw [Equiv.symm_apply_apply]

theorem matE_apply (n : Nat) (w : Fin (n * n) → K) (i j : Fin n) : matE n w i j = w (finProdFinEquiv (i, j)) := rfl

/-- Reshaping a vector to a square matrix. -/
theorem reshape_square {v : NDArray K} {n : Nat} (h : v.shape = [n * n]) :
    ∃ m, v.reshape [n, n] = .ok m ∧ m.shape = [n, n] ∧ toMat n n m = matE n (entries (n * n) v) := by
  unfold NDArray.reshape
  rw [if_pos (by simp [h])]
  refine ⟨_, rfl, rfl, ?_⟩
  ext i j
  rw [toMat_apply, matE_apply, entries]
  simp only [h, ravel, unravel, List.prod_cons, List.prod_nil, mul_one, Nat.div_one, finProdFinEquiv_apply_val]
  congr 2
  ring

/-- Reshaping a square matrix to a vector. -/
theorem reshape_vector {m : NDArray K} {n : Nat} (h : m.shape = [n, n]) :
    ∃ v, m.reshape [n * n] = .ok v ∧ v.shape = [n * n] ∧ matE n (entries (n * n) v) = toMat n n m := by
  unfold NDArray.reshape
  rw [if_pos (by simp [h])]
  refine ⟨_, rfl, rfl, ?_⟩
  ext i j
  rw [toMat_apply, matE_apply, entries]
  simp only [h, ravel, unravel, List.prod_cons, List.prod_nil, mul_one, Nat.div_one, finProdFinEquiv_apply_val]
  have h1 : ((j : Nat) + n * i) / n = i := by
    rw [Nat.add_mul_div_left _ _ (lt_of_le_of_lt (Nat.zero_le _) i.2), Nat.div_eq_of_lt j.2, zero_add]
  have h2 : ((j : Nat) + n * i) % n = j := by
    rw [Nat.add_mul_mod_self_left, Nat.mod_eq_of_lt j.2]
  simp only [add_zero, h1, h2]

theorem mv_mat (E : Env K) {ts : List (NDArray K)} {d : Dir} {n : Nat}
    {G : Matrix (Fin n) (Fin n) K →ₗ[K] Matrix (Fin n) (Fin n) K}
    (hG : ∀ m : NDArray K, m.shape = [n, n] → ∃ t, cellTransfer E ts d m = .ok t ∧ t.shape = [n, n] ∧
      toMat n n t = G (toMat n n m)) {v : NDArray K} (hv : v.shape = [n * n]) :
    ∃ r, mv E ts d n v = .ok r ∧ r.shape = [n * n] ∧
      matE n (entries (n * n) r) = G (matE n (entries (n * n) v)) := by
  obtain ⟨m, m1, m2, m3⟩ := reshape_square hv
  obtain ⟨t, t1, t2, t3⟩ := hG m m2
  obtain ⟨r, r1, r2, r3⟩ := reshape_vector t2
  refine ⟨r, ?_, r2, ?_⟩
  · unfold mv
    simp only [m1, t1, bind, Except.bind, r1]
  · rw [r3, t3, m3]

theorem iter_conj {n : Nat} (G : Matrix (Fin n) (Fin n) K →ₗ[K] Matrix (Fin n) (Fin n) K) (k : Nat)
    (w : Fin (n * n) → K) :
    (((matE n).symm.toLinearMap ∘ₗ G ∘ₗ (matE n).toLinearMap))^[k] w = (matE n).symm (G^[k] (matE n w)) := by
  induction k generalizing w with
  | zero => simp
  | succ k ih => rw [Function.iterate_succ_apply, Function.iterate_succ_apply, ih]; simp

theorem transferEigs_mat {E : Kern K} (hE : EigsOK E.eigs) {ts : List (NDArray K)} {d : Dir} {n p m : Nat}
    {A : NDArray K} (hA : ts[0]? = some A) (hs : A.shape = [n, p, m]) (hn : 0 < n)
    {G : Matrix (Fin n) (Fin n) K →ₗ[K] Matrix (Fin n) (Fin n) K}
    (hG : ∀ m : NDArray K, m.shape = [n, n] → ∃ t, cellTransfer E.toEnv ts d m = .ok t ∧ t.shape = [n, n] ∧
      toMat n n t = G (toMat n n m)) {init : Option (NDArray K)} {v0 : NDArray K}
    (hi : initialVector E n init = .ok v0) (hv0 : v0.shape = [n * n]) (hv : entries (n * n) v0 ≠ 0)
    {e : ℝ} {P : Matrix (Fin n) (Fin n) K} (he : 0 < e) (hP : P ≠ 0) (h1 : G P = (e : K) • P)
    (h2 : ∀ X, G X = (e : K) • X → ∃ c : K, X = c • P)
    (h3 : ∀ X, ∃ C : ℝ, ∀ k i j, ‖G^[k] X i j‖ ≤ C * e ^ k) :
    ∃ c : K, c ≠ 0 ∧ ∃ t, transferEigs E ts d init = .ok ((e : K), t) ∧ t.shape = [n, n] ∧ toMat n n t = c • P := by
  unfold transferEigs
  simp only [tensorAt, hA, bind, Except.bind, hs, List.getD_cons_zero, hi]
  by_cases hn1 : n = 1
  · subst hn1
    rw [if_pos rfl]
    have hz : Mps.norm v0 ≠ 0 := by
      intro h0
      refine hv ?_
      funext i
      exact Mps.norm_eq_zero h0 (by rw [hv0]; simp)
    have hnorm : ∀ t : NDArray K, t.shape = [1 * 1] → Mps.norm t = ‖t.get [0]‖ := by
      intro t ht
      rw [Mps.norm, ht]
      simp only [sumIdx]
      rw [one_mul, Finset.sum_range_one, Real.sqrt_sq (_root_.norm_nonneg _)]
    obtain ⟨v, hvd⟩ : ∃ v : NDArray K, v = ⟨v0.shape, fun i => v0.get i / (Mps.norm v0 : K)⟩ := ⟨_, rfl⟩
    have hd : divide v0 (Mps.norm v0) = .ok v := by rw [divide, if_neg hz, hvd]
    have hvs : v.shape = [1 * 1] := by rw [hvd]; exact hv0
    obtain ⟨r, r1, r2, r3⟩ := mv_mat E.toEnv hG hvs
    obtain ⟨t, t1, t2, t3⟩ := reshape_square r2
    -- every matrix is a multiple of `P`
    have hP0 : P 0 0 ≠ 0 := by
      intro h
      refine hP ?_
      ext i j
      rw [Subsingleton.elim i 0, Subsingleton.elim j 0, h]
      rfl
    have hall : ∀ X : Matrix (Fin 1) (Fin 1) K, X = (X 0 0 / P 0 0) • P := by
      intro X
      ext i j
      rw [Subsingleton.elim i 0, Subsingleton.elim j 0, Matrix.smul_apply, smul_eq_mul, div_mul_cancel₀ _ hP0]
    have hGX : ∀ X : Matrix (Fin 1) (Fin 1) K, G X = (e : K) • X := by
      intro X
      conv_lhs => rw [hall X]
      rw [map_smul, h1, smul_comm, ← hall X]
    rw [hGX] at r3
    have hr0 : r.get [0] = e * v.get [0] := by
      exact congrFun (congrFun r3 0) 0
    have hv1 : ‖v.get [0]‖ = 1 := by
      rw [hvd]
      simp only [norm_div, RCLike.norm_ofReal, abs_of_nonneg (Mps.norm_nonneg v0)]
      rw [← hnorm v0 hv0, div_self hz]
    have hv2 : v.get [0] ≠ 0 := by
      intro h; rw [h, norm_zero] at hv1; exact zero_ne_one hv1
    refine ⟨e * v.get [0] / P 0 0, div_ne_zero (mul_ne_zero (by exact_mod_cast he.ne') hv2) hP0, t, ?_, t2, ?_⟩
    · simp only [hd, r1, t1, pure, Except.pure]
      rw [hnorm r r2, hr0, norm_mul, hv1, mul_one, RCLike.norm_ofReal, abs_of_pos he]
    · rw [t3, r3, hall ((e : K) • (matE 1) (entries (1 * 1) v))]
      rfl
  · rw [if_neg hn1]
    obtain ⟨g1, g2, c, g3, g4⟩ := hE (n * n) (mv E.toEnv ts d n)
      ((matE n).symm.toLinearMap ∘ₗ G ∘ₗ (matE n).toLinearMap) v0 hv0 hv (fun x hx => by
        obtain ⟨y, y1, y2, y3⟩ := mv_mat E.toEnv hG hx
        refine ⟨y, y1, y2, ?_⟩
        rw [LinearMap.comp_apply, LinearMap.comp_apply]
        simp only [LinearEquiv.coe_coe]
        rw [← y3, LinearEquiv.symm_apply_apply]) e ((matE n).symm P) {
        pos := he
        ne := by simpa using hP
        eig := by
          rw [LinearMap.comp_apply, LinearMap.comp_apply]
          simp only [LinearEquiv.coe_coe]
          rw [LinearEquiv.apply_symm_apply, h1, map_smul]
        only := by
          intro w hw
          obtain ⟨c, hc⟩ := h2 (matE n w) (by
            have := congrArg (matE n) hw
            rw [LinearMap.comp_apply, LinearMap.comp_apply, map_smul] at this
            simp only [LinearEquiv.coe_coe] at this
            rwa [LinearEquiv.apply_symm_apply] at this)
          refine ⟨c, ?_⟩
          rw [← map_smul, ← hc, LinearEquiv.symm_apply_apply]
        bound := by
          intro w
          obtain ⟨C, hC⟩ := h3 (matE n w)
          refine ⟨C, fun k => ?_⟩
          have hb : 0 ≤ C * e ^ k := le_trans (_root_.norm_nonneg _) (hC k ⟨0, hn⟩ ⟨0, hn⟩)
          rw [pi_norm_le_iff_of_nonneg hb]
          intro x
          rw [iter_conj]
          exact hC k _ _ }
    obtain ⟨t, t1, t2, t3⟩ := reshape_square g2
    refine ⟨c, g3, t, ?_, t2, ?_⟩
    · simp only [t1, g1, pure, Except.pure]
    · rw [t3, g4, map_smul, LinearEquiv.apply_symm_apply]

/-- `pull` as a linear map on the transposed matrices. -/
def pullL {ι : Type} {n : Nat} (s : Finset ι) (A : ι → Matrix (Fin n) (Fin n) K) :
    Matrix (Fin n) (Fin n) K →ₗ[K] Matrix (Fin n) (Fin n) K where
  toFun X := (pull s A Xᵀ)ᵀ
  map_add' X Y := by
    simp only [pull, Matrix.transpose_add, Matrix.mul_add, Matrix.add_mul, Finset.sum_add_distrib]
  map_smul' c X := by
    simp only [pull, Matrix.transpose_smul, Matrix.mul_smul, Matrix.smul_mul, ← Finset.smul_sum, RingHom.id_apply]

/-- `push` as a linear map. -/
def pushL {ι : Type} {n : Nat} (s : Finset ι) (A : ι → Matrix (Fin n) (Fin n) K) :
    Matrix (Fin n) (Fin n) K →ₗ[K] Matrix (Fin n) (Fin n) K where
  toFun X := push s A X
  map_add' X Y := by
    simp only [push, Matrix.mul_add, Matrix.add_mul, Finset.sum_add_distrib]
  map_smul' c X := by
    simp only [push, Matrix.mul_smul, Matrix.smul_mul, ← Finset.smul_sum, RingHom.id_apply]

theorem pullL_iter {ι : Type} {n : Nat} (s : Finset ι) (A : ι → Matrix (Fin n) (Fin n) K) (k : Nat)
    (X : Matrix (Fin n) (Fin n) K) : (pullL s A)^[k] X = ((pull s A)^[k] Xᵀ)ᵀ := by
  induction k generalizing X with
  | zero => simp
  | succ k ih => rw [Function.iterate_succ_apply, Function.iterate_succ_apply, ih]; rfl

theorem push_fun {ι : Type} {n : Nat} (s : Finset ι) (A : ι → Matrix (Fin n) (Fin n) K) :
    ⇑(pushL s A) = pull s fun i => (A i)ᴴ := funext fun X => push_eq_pull s A X

theorem pos_ne_zero {n : Nat} (hn : 0 < n) {P : Matrix (Fin n) (Fin n) K} (h : P.PosDef) : P ≠ 0 := by
  rintro rfl
  have := h.diag_pos (i := ⟨0, hn⟩)
  simp at this

theorem transferEigs_left {E : Kern K} (hE : EigsOK E.eigs) {ts : List (NDArray K)} {n : Nat} {ds : List Nat}
    (hb : Bonds ts n ds n) (hne : ts ≠ []) (hn : 0 < n) {e : ℝ} {L R : Matrix (Fin n) (Fin n) K}
    (h : Irreducible ts n ds e L R) {init : Option (NDArray K)} {v0 : NDArray K}
    (hi : initialVector E n init = .ok v0) (hv0 : v0.shape = [n * n]) (hv : entries (n * n) v0 ≠ 0) :
    ∃ c : K, c ≠ 0 ∧ ∃ t, transferEigs E ts .left init = .ok ((e : K), t) ∧ t.shape = [n, n] ∧
      toMat n n t = c • Lᵀ := by
  cases ts with
  | nil => exact absurd rfl hne
  | cons A ts =>
  obtain ⟨p, m, ds', rfl, hs, _⟩ := id hb
  have h1 := h.eigL
  have h2 := h.eigR
  rw [cellPull_eq] at h1
  rw [cellPush_eq] at h2
  refine transferEigs_mat hE rfl hs hn (G := pullL (range (p :: ds').prod)
    (fun k => cell (A :: ts) n n (unravel (p :: ds') k))) (fun m hm => ?_) hi hv0 hv h.pos ?_ ?_ ?_ ?_
  · obtain ⟨t, t1, t2, t3⟩ := cellL_mat E.toEnv hb hm
    refine ⟨t, t1, t2, ?_⟩
    rw [← Matrix.transpose_transpose (toMat n n t), t3, ← sum_range_unravel]
    rfl
  · intro h0
    exact pos_ne_zero hn h.left (by rw [← Matrix.transpose_transpose L, h0]; rfl)
  · show (pull _ _ Lᵀᵀ)ᵀ = _
    rw [Matrix.transpose_transpose, h1, Matrix.transpose_smul]
  · intro X hX
    obtain ⟨c, hc⟩ := h.onlyL Xᵀ (by
      rw [cellPull_eq]
      have := congrArg Matrix.transpose hX
      rw [Matrix.transpose_smul] at this
      exact this)
    exact ⟨c, by rw [← Matrix.transpose_transpose X, hc, Matrix.transpose_smul]⟩
  · intro X
    obtain ⟨C, hC⟩ := pull_bounded h.left h.right h.pos h1 h2 Xᵀ
    refine ⟨C, fun k i j => ?_⟩
    rw [pullL_iter]
    exact hC k j i

theorem transferEigs_right {E : Kern K} (hE : EigsOK E.eigs) {ts : List (NDArray K)} {n : Nat} {ds : List Nat}
    (hb : Bonds ts n ds n) (hne : ts ≠ []) (hn : 0 < n) {e : ℝ} {L R : Matrix (Fin n) (Fin n) K}
    (h : Irreducible ts n ds e L R) {init : Option (NDArray K)} {v0 : NDArray K}
    (hi : initialVector E n init = .ok v0) (hv0 : v0.shape = [n * n]) (hv : entries (n * n) v0 ≠ 0) :
    ∃ c : K, c ≠ 0 ∧ ∃ t, transferEigs E ts .right init = .ok ((e : K), t) ∧ t.shape = [n, n] ∧
      toMat n n t = c • R := by
  cases ts with
  | nil => exact absurd rfl hne
  | cons A ts =>
  obtain ⟨p, m, ds', rfl, hs, _⟩ := id hb
  have h1 := h.eigL
  have h2 := h.eigR
  rw [cellPull_eq] at h1
  rw [cellPush_eq] at h2
  refine transferEigs_mat hE rfl hs hn (G := pushL (range (p :: ds').prod)
    (fun k => cell (A :: ts) n n (unravel (p :: ds') k))) (fun m hm => ?_) hi hv0 hv h.pos
    (pos_ne_zero hn h.right) h2 (fun X hX => h.onlyR X (by rw [cellPush_eq]; exact hX)) ?_
  · obtain ⟨t, t1, t2, t3⟩ := cellR_mat E.toEnv hb hm
    refine ⟨t, t1, t2, ?_⟩
    rw [t3, ← sum_range_unravel]
    rfl
  · intro X
    rw [push_fun]
    refine pull_bounded h.right h.left h.pos ?_ ?_ X
    · rw [← push_eq_pull]; exact h2
    · rw [push_eq_pull]
      simpa using h1

end TN.Inf
