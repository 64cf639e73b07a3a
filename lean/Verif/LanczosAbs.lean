import Mathlib.Analysis.InnerProductSpace.Symmetric
import Mathlib.Analysis.InnerProductSpace.Orthonormal
import Mathlib.LinearAlgebra.Matrix.Hermitian
import Mathlib.LinearAlgebra.UnitaryGroup

/-!
# The Lanczos recursion in an inner product space

What the loop of `eigsh_lanczos` keeps, stated for vectors of an inner product space and a symmetric operator.
-/

set_option linter.unusedSectionVars false

namespace TN.Lanczos

open Finset

variable {K : Type} [RCLike K] {V : Type} [NormedAddCommGroup V] [InnerProductSpace K V]

local notation "⟪" x ", " y "⟫" => inner K x y

/-- The entry of the tridiagonal matrix. -/
def tri (α : Nat → K) (β : Nat → ℝ) (i j : Nat) : K :=
  if i = j then α j else if i + 1 = j then (β j : K) else if j + 1 = i then (β i : K) else 0

/-- The Lanczos recursion after `m` steps: `q` are the Krylov vectors, `α` the diagonal, `β` the norms and `v` the
next vector before its normalisation. -/
structure Rec (L : V →ₗ[K] V) (m : Nat) (q : Nat → V) (α : Nat → K) (β : Nat → ℝ) (v : V) : Prop where
  ortho : ∀ i < m, ∀ j < m, ⟪q i, q j⟫ = if i = j then 1 else 0
  diag : ∀ j < m, α j = ⟪q j, L (q j)⟫
  step : ∀ j < m, L (q j) = (if 0 < j then (β j : K) • q (j - 1) else 0) + α j • q j +
    if j + 1 < m then (β (j + 1) : K) • q (j + 1) else v
  perp : ∀ j < m, ⟪q j, v⟫ = 0
  nonzero : ∀ j < m, β j ≠ 0

variable {L : V →ₗ[K] V}

theorem Rec.start (q : Nat → V) (α : Nat → K) (β : Nat → ℝ) (v : V) : Rec L 0 q α β v :=
  ⟨fun _ h => absurd h (by omega), fun _ h => absurd h (by omega), fun _ h => absurd h (by omega),
    fun _ h => absurd h (by omega), fun _ h => absurd h (by omega)⟩

/-- The matrix elements of the operator between Krylov vectors are those of the tridiagonal matrix. -/
theorem Rec.elem {m : Nat} {q : Nat → V} {α : Nat → K} {β : Nat → ℝ} {v : V} (r : Rec L m q α β v) :
    ∀ i < m, ∀ j < m, ⟪q i, L (q j)⟫ = tri α β i j := by
  intro i hi j hj
  rw [r.step j hj, inner_add_right, inner_add_right, inner_smul_right, r.ortho i hi j hj]
  have h1 : ⟪q i, (if 0 < j then (β j : K) • q (j - 1) else 0)⟫ = if i + 1 = j then (β j : K) else 0 := by
    by_cases h : 0 < j
    · rw [if_pos h, inner_smul_right, r.ortho i hi (j - 1) (by omega)]
      by_cases h' : i + 1 = j
      · rw [if_pos (by omega), if_pos h', mul_one]
      · rw [if_neg (by omega), if_neg h', mul_zero]
    · rw [if_neg h, inner_zero_right, if_neg (by omega)]
  have h2 : ⟪q i, (if j + 1 < m then (β (j + 1) : K) • q (j + 1) else v)⟫ =
      if j + 1 = i then (β i : K) else 0 := by
    by_cases h : j + 1 < m
    · rw [if_pos h, inner_smul_right, r.ortho i hi (j + 1) h]
      by_cases h' : j + 1 = i
      · rw [if_pos h'.symm, if_pos h', mul_one, h']
      · rw [if_neg (fun h => h' h.symm), if_neg h', mul_zero]
    · rw [if_neg h, r.perp i hi, if_neg (by omega)]
  rw [h1, h2]
  unfold tri
  by_cases a1 : i = j
  · rw [if_pos a1, if_pos a1, if_neg (by omega), if_neg (by omega)]; simp
  · rw [if_neg a1, if_neg a1]
    by_cases a2 : i + 1 = j
    · rw [if_pos a2, if_pos a2, if_neg (by omega)]; simp
    · rw [if_neg a2, if_neg a2]; simp

/-- One step of the loop. -/
theorem Rec.next (hL : L.IsSymmetric) {m : Nat} {q : Nat → V} {α : Nat → K} {β : Nat → ℝ} {v : V}
    (r : Rec L m q α β v) {x w : V} {q' : Nat → V} {α' : Nat → K} {β' : Nat → ℝ} (hv : v ≠ 0)
    (hx : v = ((‖v‖ : ℝ) : K) • x) (hq : ∀ j < m, q' j = q j) (hqm : q' m = x) (hα : ∀ j < m, α' j = α j)
    (hαm : α' m = ⟪x, L x⟫) (hβ : ∀ j < m, β' j = β j) (hβm : β' m = ‖v‖)
    (hw : w = L x - α' m • x - if 0 < m then (β' m : K) • q' (m - 1) else 0) :
    Rec L (m + 1) q' α' β' w := by
  have hz : ((‖v‖ : ℝ) : K) ≠ 0 := by
    rw [Ne, RCLike.ofReal_eq_zero]; exact norm_ne_zero_iff.2 hv
  have hxx : ⟪x, x⟫ = 1 := by
    have h1 : ⟪v, v⟫ = ((‖v‖ : ℝ) : K) * (((‖v‖ : ℝ) : K) * ⟪x, x⟫) := by
      conv_lhs => rw [hx]
      rw [inner_smul_left, inner_smul_right, RCLike.conj_ofReal]
    rw [inner_self_eq_norm_sq_to_K] at h1
    have h2 : ((‖v‖ : ℝ) : K) * ((‖v‖ : ℝ) : K) * ⟪x, x⟫ = ((‖v‖ : ℝ) : K) * ((‖v‖ : ℝ) : K) * 1 := by
      rw [mul_assoc, ← h1, mul_one, sq]
    exact mul_left_cancel₀ (mul_ne_zero hz hz) h2
  have hqx : ∀ j < m, ⟪q j, x⟫ = 0 := by
    intro j hj
    have h1 := r.perp j hj
    rw [hx, inner_smul_right] at h1
    exact (mul_eq_zero.1 h1).resolve_left hz
  have hxq : ∀ j < m, ⟪x, q j⟫ = 0 := by
    intro j hj
    rw [← inner_conj_symm, hqx j hj, map_zero]
  have hstep : ∀ j < m, L (q j) = (if 0 < j then (β j : K) • q (j - 1) else 0) + α j • q j +
      if j + 1 < m then (β (j + 1) : K) • q (j + 1) else ((‖v‖ : ℝ) : K) • x := by
    intro j hj
    rw [← hx]; exact r.step j hj
  have hxL : ∀ j < m, ⟪q j, L x⟫ = if j + 1 < m then 0 else ((‖v‖ : ℝ) : K) := by
    intro j hj
    rw [← hL, ← inner_conj_symm, hstep j hj, inner_add_right, inner_add_right, inner_smul_right, hxq j hj]
    have h1 : ⟪x, (if 0 < j then (β j : K) • q (j - 1) else 0)⟫ = 0 := by
      by_cases h : 0 < j
      · rw [if_pos h, inner_smul_right, hxq _ (by omega), mul_zero]
      · rw [if_neg h, inner_zero_right]
    have h2 : ⟪x, (if j + 1 < m then (β (j + 1) : K) • q (j + 1) else ((‖v‖ : ℝ) : K) • x)⟫ =
        if j + 1 < m then 0 else ((‖v‖ : ℝ) : K) := by
      by_cases h : j + 1 < m
      · rw [if_pos h, if_pos h, inner_smul_right, hxq _ h, mul_zero]
      · rw [if_neg h, if_neg h, inner_smul_right, hxx, mul_one]
    rw [h1, h2, mul_zero, zero_add, zero_add]
    by_cases h : j + 1 < m
    · rw [if_pos h, map_zero]
    · rw [if_neg h, RCLike.conj_ofReal]
  have hprev : ∀ j < m, ⟪q j, (if 0 < m then (β' m : K) • q' (m - 1) else 0)⟫ =
      if j + 1 < m then 0 else ((‖v‖ : ℝ) : K) := by
    intro j hj
    rw [if_pos (by omega), inner_smul_right, hq _ (by omega), r.ortho j hj _ (by omega), hβm]
    by_cases h : j + 1 < m
    · rw [if_neg (by omega), if_pos h, mul_zero]
    · rw [if_pos (by omega), if_neg h, mul_one]
  have hprevx : ⟪x, (if 0 < m then (β' m : K) • q' (m - 1) else 0)⟫ = 0 := by
    by_cases h : 0 < m
    · rw [if_pos h, inner_smul_right, hq _ (by omega), hxq _ (by omega), mul_zero]
    · rw [if_neg h, inner_zero_right]
  refine ⟨?_, ?_, ?_, ?_, ?_⟩
  · intro i hi j hj
    rcases Nat.lt_succ_iff_lt_or_eq.1 hi with hi | rfl
    · rcases Nat.lt_succ_iff_lt_or_eq.1 hj with hj | rfl
      · rw [hq i hi, hq j hj]; exact r.ortho i hi j hj
      · rw [hq i hi, hqm, hqx i hi, if_neg (by omega)]
    · rcases Nat.lt_succ_iff_lt_or_eq.1 hj with hj | rfl
      · rw [hq j hj, hqm, hxq j hj, if_neg (by omega)]
      · rw [hqm, hxx, if_pos rfl]
  · intro j hj
    rcases Nat.lt_succ_iff_lt_or_eq.1 hj with hj | rfl
    · rw [hq j hj, hα j hj]; exact r.diag j hj
    · rw [hqm, hαm]
  · intro j hj
    rcases Nat.lt_succ_iff_lt_or_eq.1 hj with hj | rfl
    · rw [hq j hj, hα j hj, hβ j hj, hstep j hj, if_pos (show j + 1 < m + 1 by omega)]
      congr 1
      · congr 1
        by_cases h : 0 < j
        · rw [if_pos h, if_pos h, hq _ (by omega)]
        · rw [if_neg h, if_neg h]
      · by_cases h : j + 1 < m
        · rw [if_pos h, hq _ h, hβ _ h]
        · have : j + 1 = m := by omega
          rw [if_neg h, this, hqm, hβm]
    · rw [hqm, if_neg (lt_irrefl (j + 1)), hw]
      abel
  · intro j hj
    rcases Nat.lt_succ_iff_lt_or_eq.1 hj with hj | rfl
    · rw [hq j hj, hw, inner_sub_right, inner_sub_right, inner_smul_right, hqx j hj, mul_zero, hxL j hj,
        hprev j hj, sub_zero, sub_self]
    · rw [hqm, hw, inner_sub_right, inner_sub_right, inner_smul_right, hprevx, hxx, hαm, mul_one, sub_self,
        sub_zero]
  · intro j hj
    rcases Nat.lt_succ_iff_lt_or_eq.1 hj with hj | rfl
    · rw [hβ j hj]; exact r.nonzero j hj
    · rw [hβm]; exact norm_ne_zero_iff.2 hv

/-- Vectors with coefficients in the Krylov vectors. -/
def comb (m : Nat) (q : Nat → V) (c : Fin m → K) : V := ∑ i, c i • q i

/-- The tridiagonal matrix. -/
def triM (m : Nat) (α : Nat → K) (β : Nat → ℝ) : Matrix (Fin m) (Fin m) K := fun i j => tri α β i j

theorem Rec.inner_comb {m : Nat} {q : Nat → V} {α : Nat → K} {β : Nat → ℝ} {v : V} (r : Rec L m q α β v)
    (c d : Fin m → K) : ⟪comb m q c, comb m q d⟫ = ∑ i, star (c i) * d i := by
  unfold comb
  rw [sum_inner]
  refine Finset.sum_congr rfl fun i _ => ?_
  rw [inner_smul_left, inner_sum, Finset.sum_eq_single i]
  · rw [inner_smul_right, r.ortho i i.2 i i.2, if_pos rfl, mul_one]; rfl
  · intro j _ hj
    rw [inner_smul_right, r.ortho i i.2 j j.2, if_neg (fun h => hj (Fin.ext h).symm), mul_zero]
  · intro h; simp at h

/-- The operator applied to a Krylov vector. -/
theorem Rec.apply {m : Nat} {q : Nat → V} {α : Nat → K} {β : Nat → ℝ} {v : V} (r : Rec L m q α β v)
    (j : Fin m) : L (q j) = (∑ i, triM m α β i j • q i) + if (j : Nat) + 1 = m then v else 0 := by
  have h0 : ∀ (f : Nat → V), ∑ i : Fin m, f i = ∑ i ∈ range m, f i := fun f => Fin.sum_univ_eq_sum_range f m
  have h1 : ∑ i : Fin m, triM m α β i j • q i = ∑ i ∈ range m, tri α β i j • q i :=
    h0 fun i => tri α β i j • q i
  have h2 : ∀ i ∈ range m, tri α β i j • q i = (if i + 1 = j then (β j : K) • q i else 0) +
      (if i = j then α j • q i else 0) + if i = j + 1 then (β i : K) • q i else 0 := by
    intro i _
    unfold tri
    by_cases a1 : i = j
    · rw [if_pos a1, if_pos a1, if_neg (by omega), if_neg (by omega)]; simp
    · rw [if_neg a1, if_neg a1]
      by_cases a2 : i + 1 = j
      · rw [if_pos a2, if_pos a2, if_neg (by omega)]; simp
      · rw [if_neg a2, if_neg a2]
        by_cases a3 : j + 1 = i
        · rw [if_pos a3, if_pos a3.symm]; simp
        · rw [if_neg a3, if_neg (fun h => a3 h.symm)]; simp
  rw [h1, Finset.sum_congr rfl h2, Finset.sum_add_distrib, Finset.sum_add_distrib, r.step j j.2,
    Finset.sum_ite_eq', if_pos (Finset.mem_range.2 j.2), Finset.sum_ite_eq', add_assoc, add_assoc, add_assoc]
  congr 1
  · by_cases h : 0 < (j : Nat)
    · rw [if_pos h, Finset.sum_eq_single ((j : Nat) - 1)]
      · rw [if_pos (by omega)]
      · intro b _ hb; rw [if_neg (by omega)]
      · intro hb; rw [Finset.mem_range] at hb; exact absurd (show (j : Nat) - 1 < m by omega) hb
    · rw [if_neg h]
      refine (Finset.sum_eq_zero fun i _ => ?_).symm
      rw [if_neg (by omega)]
  · congr 1
    by_cases h : (j : Nat) + 1 < m
    · rw [if_pos h, if_pos (Finset.mem_range.2 h), if_neg (by omega), add_zero]
    · have := j.2
      rw [if_neg h, if_neg (fun h' => h (Finset.mem_range.1 h')), if_pos (by omega), zero_add]

theorem Rec.apply_comb {m : Nat} {q : Nat → V} {α : Nat → K} {β : Nat → ℝ} {v : V} (r : Rec L m q α β v)
    (hm : 0 < m) (c : Fin m → K) :
    L (comb m q c) = comb m q ((triM m α β).mulVec c) + c ⟨m - 1, by omega⟩ • v := by
  unfold comb
  rw [map_sum]
  have h1 : ∀ j : Fin m, L (c j • q j) = (∑ i, (triM m α β i j * c j) • q i) +
      if j = ⟨m - 1, by omega⟩ then c j • v else 0 := by
    intro j
    rw [map_smul, r.apply j, smul_add, Finset.smul_sum]
    congr 1
    · refine Finset.sum_congr rfl fun i _ => ?_
      rw [smul_smul, mul_comm]
    · by_cases h : (j : Nat) + 1 = m
      · rw [if_pos h, if_pos (Fin.ext (by simp; omega))]
      · rw [if_neg h, if_neg (fun h' => h (by rw [h']; simp; omega)), smul_zero]
  rw [Finset.sum_congr rfl fun j _ => h1 j, Finset.sum_add_distrib, Finset.sum_comm, Finset.sum_ite_eq',
    if_pos (Finset.mem_univ _)]
  congr 1
  refine Finset.sum_congr rfl fun i _ => ?_
  rw [← Finset.sum_smul]
  rfl

theorem Rec.perp_comb {m : Nat} {q : Nat → V} {α : Nat → K} {β : Nat → ℝ} {v : V} (r : Rec L m q α β v)
    (c : Fin m → K) : ⟪comb m q c, v⟫ = 0 := by
  unfold comb
  rw [sum_inner]
  refine Finset.sum_eq_zero fun i _ => ?_
  rw [inner_smul_left, r.perp i i.2, mul_zero]

/-- The diagonal of the tridiagonal matrix is real. -/
theorem Rec.hermitian (hL : L.IsSymmetric) {m : Nat} {q : Nat → V} {α : Nat → K} {β : Nat → ℝ} {v : V}
    (r : Rec L m q α β v) : (triM m α β).IsHermitian := by
  ext i j
  rw [Matrix.conjTranspose_apply]
  unfold triM
  rw [← r.elem j j.2 i i.2, ← r.elem i i.2 j j.2, ← hL]
  exact inner_conj_symm _ _

/-- The diagonalisation of a Hermitian matrix: `np.linalg.eigh`. -/
structure IsEigh {m : Nat} (T : Matrix (Fin m) (Fin m) K) (l : Fin m → ℝ) (u : Matrix (Fin m) (Fin m) K) :
    Prop where
  left : u.conjTranspose * u = 1
  right : u * u.conjTranspose = 1
  eig : T * u = u * Matrix.diagonal fun i => (l i : K)
  sorted : Monotone l

/-- The vectors returned by the Lanczos method. -/
theorem Rec.ritz {m : Nat} {q : Nat → V} {α : Nat → K} {β : Nat → ℝ} {v : V}
    (r : Rec L m q α β v) (hm : 0 < m) {l : Fin m → ℝ} {u : Matrix (Fin m) (Fin m) K}
    (hu : IsEigh (triM m α β) l u) (a b : Fin m) :
    ⟪comb m q fun i => u i a, comb m q fun i => u i b⟫ = (if a = b then 1 else 0) ∧
    L (comb m q fun i => u i b) = (l b : K) • comb m q (fun i => u i b) + u ⟨m - 1, by omega⟩ b • v ∧
    ⟪comb m q fun i => u i a, L (comb m q fun i => u i b)⟫ = if a = b then (l b : K) else 0 := by
  have h1 : ∀ a b : Fin m, ⟪comb m q fun i => u i a, comb m q fun i => u i b⟫ = if a = b then 1 else 0 := by
    intro a b
    rw [r.inner_comb]
    have := congrFun (congrFun hu.left a) b
    rw [Matrix.mul_apply] at this
    rw [← Matrix.one_apply, ← this]
    rfl
  have h2 : L (comb m q fun i => u i b) =
      (l b : K) • comb m q (fun i => u i b) + u ⟨m - 1, by omega⟩ b • v := by
    rw [r.apply_comb hm]
    congr 1
    unfold comb
    rw [Finset.smul_sum]
    refine Finset.sum_congr rfl fun i _ => ?_
    have := congrFun (congrFun hu.eig i) b
    rw [Matrix.mul_diagonal] at this
    rw [smul_smul, mul_comm, ← this]
    rfl
  refine ⟨h1 a b, h2, ?_⟩
  rw [h2, inner_add_right, inner_smul_right, inner_smul_right, r.perp_comb, h1 a b]
  by_cases h : a = b
  · rw [if_pos h, if_pos h]; simp
  · rw [if_neg h, if_neg h]; simp

/-- The lowest Ritz value is a lower bound of the Rayleigh quotients in the Krylov space. -/
theorem Rec.lowest {m : Nat} {q : Nat → V} {α : Nat → K} {β : Nat → ℝ} {v : V}
    (r : Rec L m q α β v) (hm : 0 < m) {l : Fin m → ℝ} {u : Matrix (Fin m) (Fin m) K}
    (hu : IsEigh (triM m α β) l u) (c : Fin m → K) :
    l ⟨0, hm⟩ * ‖comb m q c‖ ^ 2 ≤ RCLike.re ⟪comb m q c, L (comb m q c)⟫ := by
  obtain ⟨d, hd⟩ : ∃ d, d = u.conjTranspose.mulVec c := ⟨_, rfl⟩
  have hc : c = u.mulVec d := by
    rw [hd, Matrix.mulVec_mulVec, hu.right, Matrix.one_mulVec]
  have hTc : (triM m α β).mulVec c = u.mulVec (fun i => (l i : K) * d i) := by
    rw [hc, Matrix.mulVec_mulVec, hu.eig, ← Matrix.mulVec_mulVec]
    congr 1
    ext i
    rw [Matrix.mulVec_diagonal]
  have hdot : ∀ x y : Fin m → K, ∑ i, star (u.mulVec x i) * u.mulVec y i = ∑ i, star (x i) * y i := by
    intro x y
    have h1 : star (u.mulVec x) ⬝ᵥ u.mulVec y = star x ⬝ᵥ y := by
      rw [Matrix.star_mulVec, Matrix.dotProduct_mulVec, Matrix.vecMul_vecMul, hu.left, Matrix.vecMul_one]
    exact h1
  have e1 : ⟪comb m q c, comb m q c⟫ = ∑ i, ((‖d i‖ ^ 2 : ℝ) : K) := by
    rw [r.inner_comb]
    conv_lhs => rw [hc]
    rw [hdot]
    refine Finset.sum_congr rfl fun i _ => ?_
    rw [RCLike.star_def, RCLike.conj_mul]; push_cast; rfl
  have e2 : ⟪comb m q c, L (comb m q c)⟫ = ∑ i, ((l i * ‖d i‖ ^ 2 : ℝ) : K) := by
    rw [r.apply_comb hm, inner_add_right, inner_smul_right, r.perp_comb, mul_zero, add_zero, r.inner_comb, hTc]
    conv_lhs => rw [hc]
    rw [hdot]
    refine Finset.sum_congr rfl fun i _ => ?_
    rw [mul_left_comm, RCLike.star_def, RCLike.conj_mul]; push_cast; rfl
  have e3 : ‖comb m q c‖ ^ 2 = ∑ i, ‖d i‖ ^ 2 := by
    have := congrArg RCLike.re e1
    rw [← RCLike.ofReal_sum, RCLike.ofReal_re, inner_self_eq_norm_sq] at this
    exact this
  rw [e3, e2, ← RCLike.ofReal_sum, RCLike.ofReal_re, Finset.mul_sum]
  refine Finset.sum_le_sum fun i _ => ?_
  exact mul_le_mul_of_nonneg_right (hu.sorted (Fin.le_def.2 (Nat.zero_le _))) (sq_nonneg _)

/-- Entries of a unitary matrix are at most one. -/
theorem IsEigh.entry_le {m : Nat} {T : Matrix (Fin m) (Fin m) K} {l : Fin m → ℝ} {u : Matrix (Fin m) (Fin m) K}
    (hu : IsEigh T l u) (a b : Fin m) : ‖u a b‖ ≤ 1 := by
  have h1 := congrFun (congrFun hu.left b) b
  rw [Matrix.mul_apply, Matrix.one_apply_eq] at h1
  have h2 : ∑ i, ‖u i b‖ ^ 2 = 1 := by
    have : ((∑ i, ‖u i b‖ ^ 2 : ℝ) : K) = ((1 : ℝ) : K) := by
      rw [RCLike.ofReal_sum, RCLike.ofReal_one, ← h1]
      refine Finset.sum_congr rfl fun i _ => ?_
      rw [Matrix.conjTranspose_apply, RCLike.star_def, RCLike.conj_mul]; push_cast; rfl
    exact_mod_cast this
  have h3 : ‖u a b‖ ^ 2 ≤ 1 := by
    rw [← h2]
    exact Finset.single_le_sum (f := fun i => ‖u i b‖ ^ 2) (fun i _ => sq_nonneg _) (Finset.mem_univ a)
  nlinarith [norm_nonneg (u a b)]

/-- The powers of the operator applied to the start vector lie in the span of the Krylov vectors. -/
theorem Rec.krylov {m : Nat} {q : Nat → V} {α : Nat → K} {β : Nat → ℝ} {v : V} (r : Rec L m q α β v)
    (x : V) (hx : 0 < m → ∃ z : K, x = z • q 0) : ∀ k < m, ∃ c : Nat → K, (∀ i, k < i → c i = 0) ∧
    (L ^ k) x = ∑ i ∈ range m, c i • q i := by
  intro k
  induction k with
  | zero =>
    intro hk
    obtain ⟨z, hz⟩ := hx hk
    refine ⟨fun i => if i = 0 then z else 0, fun i hi => if_neg (by omega), ?_⟩
    rw [pow_zero, Finset.sum_eq_single 0]
    · simpa using hz
    · intro b _ hb; simp [hb]
    · intro h; exact absurd (Finset.mem_range.2 hk) h
  | succ k ih =>
    intro hk
    obtain ⟨c, hc, he⟩ := ih (by omega)
    refine ⟨fun i => ∑ j ∈ range m, c j * tri α β i j, fun i hi => ?_, ?_⟩
    · refine Finset.sum_eq_zero fun j _ => ?_
      by_cases hj : k < j
      · rw [hc j hj, zero_mul]
      · unfold tri
        rw [if_neg (by omega), if_neg (by omega), if_neg (by omega), mul_zero]
    · rw [pow_succ', Module.End.mul_apply, he, map_sum]
      have h1 : ∀ j ∈ range m, L (c j • q j) = ∑ i ∈ range m, (c j * tri α β i j) • q i := by
        intro j hj
        rw [Finset.mem_range] at hj
        rw [map_smul, r.apply ⟨j, hj⟩, smul_add, Finset.smul_sum]
        have h2 : c j • (if ((⟨j, hj⟩ : Fin m) : Nat) + 1 = m then v else 0) = 0 := by
          by_cases h : j + 1 = m
          · rw [hc j (by omega), zero_smul]
          · rw [if_neg h, smul_zero]
        rw [h2, add_zero, ← Fin.sum_univ_eq_sum_range (fun i => (c j * tri α β i j) • q i) m]
        refine Finset.sum_congr rfl fun i _ => ?_
        rw [smul_smul]; rfl
      rw [Finset.sum_congr rfl h1, Finset.sum_comm]
      refine Finset.sum_congr rfl fun i _ => ?_
      rw [Finset.sum_smul]

/-- The Krylov space of dimension at most `m`. -/
def krylovSpace (L : V →ₗ[K] V) (x : V) (m : Nat) : Submodule K V :=
  Submodule.span K {y | ∃ k < m, y = (L ^ k) x}

theorem krylovSpace_mono (x : V) {m n : Nat} (h : m ≤ n) : krylovSpace L x m ≤ krylovSpace L x n :=
  Submodule.span_mono fun _ ⟨k, hk, e⟩ => ⟨k, by omega, e⟩

theorem krylovSpace_apply (x : V) {m : Nat} {y : V} (h : y ∈ krylovSpace L x m) : L y ∈ krylovSpace L x (m + 1) := by
  refine Submodule.span_induction (p := fun y _ => L y ∈ krylovSpace L x (m + 1)) ?_ ?_ ?_ ?_ h
  · rintro _ ⟨k, hk, rfl⟩
    refine Submodule.subset_span ⟨k + 1, by omega, ?_⟩
    rw [pow_succ', Module.End.mul_apply]
  · rw [map_zero]; exact Submodule.zero_mem _
  · intro a b _ _ ha hb; rw [map_add]; exact Submodule.add_mem _ ha hb
  · intro c a _ ha; rw [map_smul]; exact Submodule.smul_mem _ _ ha

/-- The Krylov vectors lie in the Krylov space. -/
theorem Rec.inside {m : Nat} {q : Nat → V} {α : Nat → K} {β : Nat → ℝ} {v : V} (r : Rec L m q α β v)
    (x : V) (hx : 0 < m → ∃ z : K, q 0 = z • x) : ∀ j < m, q j ∈ krylovSpace L x (j + 1) := by
  intro j
  induction j using Nat.strong_induction_on with
  | _ j ih =>
    intro hj
    rcases Nat.eq_zero_or_pos j with rfl | hp
    · obtain ⟨z, hz⟩ := hx hj
      rw [hz]
      exact Submodule.smul_mem _ _ (Submodule.subset_span ⟨0, by omega, by rw [pow_zero]; rfl⟩)
    · have hb : (β j : K) ≠ 0 := by
        rw [Ne, RCLike.ofReal_eq_zero]; exact r.nonzero j hj
      have h1 := r.step (j - 1) (by omega)
      rw [if_pos (show j - 1 + 1 < m by omega), show j - 1 + 1 = j by omega] at h1
      have h2 : q j = (β j : K)⁻¹ • (L (q (j - 1)) - (if 0 < j - 1 then (β (j - 1) : K) • q (j - 1 - 1) else 0) -
          α (j - 1) • q (j - 1)) := by
        rw [h1, eq_inv_smul_iff₀ hb]
        abel
      have h3 := ih (j - 1) (by omega) (by omega)
      have h4 := krylovSpace_apply x h3
      rw [show j - 1 + 1 + 1 = j + 1 by omega] at h4
      rw [h2]
      refine Submodule.smul_mem _ _ (Submodule.sub_mem _ (Submodule.sub_mem _ h4 ?_)
        (Submodule.smul_mem _ _ (krylovSpace_mono x (by omega) h3)))
      by_cases h : 0 < j - 1
      · rw [if_pos h]
        exact Submodule.smul_mem _ _ (krylovSpace_mono x (by omega) (ih (j - 1 - 1) (by omega) (by omega)))
      · rw [if_neg h]; exact Submodule.zero_mem _

/-- Every vector of the Krylov space is a combination of the Krylov vectors. -/
theorem Rec.span {m : Nat} {q : Nat → V} {α : Nat → K} {β : Nat → ℝ} {v : V} (r : Rec L m q α β v)
    (x : V) (hx : 0 < m → ∃ z : K, x = z • q 0) {y : V} (hy : y ∈ krylovSpace L x m) :
    ∃ c : Fin m → K, y = comb m q c := by
  refine Submodule.span_induction (p := fun y _ => ∃ c : Fin m → K, y = comb m q c) ?_ ?_ ?_ ?_ hy
  · rintro _ ⟨k, hk, rfl⟩
    obtain ⟨c, _, h⟩ := r.krylov x hx k hk
    exact ⟨fun i => c i, h.trans (Fin.sum_univ_eq_sum_range (fun i => c i • q i) m).symm⟩
  · exact ⟨fun _ => 0, by simp [comb]⟩
  · rintro a b _ _ ⟨c, rfl⟩ ⟨d, rfl⟩
    exact ⟨fun i => c i + d i, by simp [comb, add_smul, Finset.sum_add_distrib]⟩
  · rintro z a _ ⟨c, rfl⟩
    exact ⟨fun i => z * c i, by simp [comb, Finset.smul_sum, smul_smul]⟩

end TN.Lanczos
