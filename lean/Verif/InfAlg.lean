import Mathlib.Analysis.Matrix.Order

/-!
# Matrix algebra behind the canonical form of an infinite MPS

`A i` are the matrices of the unit cell, `i` running over the configurations of its sites.
-/

set_option linter.unusedSectionVars false

namespace TN.Inf

open Matrix Finset
open scoped ComplexOrder

variable {K : Type} [RCLike K] {ι : Type} {n : Nat}

/-- The matrices of the cell acting from the left: `X ↦ ∑ Aᴴ X A`. -/
def pull (s : Finset ι) (A : ι → Matrix (Fin n) (Fin n) K) (X : Matrix (Fin n) (Fin n) K) :
    Matrix (Fin n) (Fin n) K := ∑ i ∈ s, (A i)ᴴ * X * A i

/-- The matrices of the cell acting from the right: `X ↦ ∑ A X Aᴴ`. -/
def push (s : Finset ι) (A : ι → Matrix (Fin n) (Fin n) K) (X : Matrix (Fin n) (Fin n) K) :
    Matrix (Fin n) (Fin n) K := ∑ i ∈ s, A i * X * (A i)ᴴ

theorem push_eq_pull (s : Finset ι) (A : ι → Matrix (Fin n) (Fin n) K) (X : Matrix (Fin n) (Fin n) K) :
    push s A X = pull s (fun i => (A i)ᴴ) X := by
  simp [push, pull]

theorem pull_conj (s : Finset ι) (A : ι → Matrix (Fin n) (Fin n) K) (X : Matrix (Fin n) (Fin n) K) :
    (pull s A X)ᴴ = pull s A Xᴴ := by
  simp only [pull, conjTranspose_sum, conjTranspose_mul, conjTranspose_conjTranspose, Matrix.mul_assoc]

/-- The two actions are adjoint to each other. -/
theorem trace_pull (s : Finset ι) (A : ι → Matrix (Fin n) (Fin n) K) (X Y : Matrix (Fin n) (Fin n) K) :
    (Y * pull s A X).trace = (push s A Y * X).trace := by
  simp only [pull, push, Finset.mul_sum, Finset.sum_mul, trace_sum]
  refine Finset.sum_congr rfl fun i _ => ?_
  rw [← Matrix.mul_assoc, Matrix.trace_mul_comm]
  simp only [Matrix.mul_assoc]

open scoped MatrixOrder in
theorem posSemidef_factor {P : Matrix (Fin n) (Fin n) K} (h : P.PosSemidef) :
    ∃ B : Matrix (Fin n) (Fin n) K, P = Bᴴ * B :=
  CStarAlgebra.nonneg_iff_eq_star_mul_self.mp h.nonneg

theorem posDef_factor {P : Matrix (Fin n) (Fin n) K} (h : P.PosDef) :
    ∃ B : Matrix (Fin n) (Fin n) K, P = Bᴴ * B ∧ B⁻¹ * B = 1 ∧ B * B⁻¹ = 1 := by
  obtain ⟨B, hB⟩ := posSemidef_factor h.posSemidef
  have h1 : IsUnit (Bᴴ * B).det := by rw [← hB]; exact (Matrix.isUnit_iff_isUnit_det _).1 h.isUnit
  have h2 : IsUnit B.det := by rw [det_mul] at h1; exact isUnit_of_mul_isUnit_right h1
  exact ⟨B, hB, Matrix.nonsing_inv_mul _ h2, Matrix.mul_nonsing_inv _ h2⟩

/-- The trace of the product of two positive semidefinite matrices is not negative. -/
theorem trace_mul_nonneg {P Q : Matrix (Fin n) (Fin n) K} (hP : P.PosSemidef) (hQ : Q.PosSemidef) :
    0 ≤ RCLike.re (P * Q).trace := by
  obtain ⟨B, rfl⟩ := posSemidef_factor hP
  have := (hQ.mul_mul_conjTranspose_same B).trace_nonneg
  rw [Matrix.mul_assoc, Matrix.trace_mul_comm, Matrix.mul_assoc]
  rw [Matrix.mul_assoc] at this
  exact (RCLike.nonneg_iff.1 this).1

/-- Eigenvalues of the two actions with positive definite eigenvectors are equal. -/
theorem eigen_unique (hn : 0 < n) {s : Finset ι} {A : ι → Matrix (Fin n) (Fin n) K}
    {L R : Matrix (Fin n) (Fin n) K} (hL : L.PosDef) (hR : R.PosDef) {a b : ℝ}
    (h1 : pull s A L = (a : K) • L) (h2 : push s A R = (b : K) • R) : a = b := by
  have : Nonempty (Fin n) := ⟨⟨0, hn⟩⟩
  have h3 := trace_pull s A L R
  rw [h1, h2, Matrix.mul_smul, Matrix.smul_mul, trace_smul, trace_smul, smul_eq_mul, smul_eq_mul] at h3
  have h4 : (R * L).trace ≠ 0 := by
    obtain ⟨B, hB, hB', hB''⟩ := posDef_factor hR
    have h5 : (B * L * Bᴴ).PosDef := hL.mul_mul_conjTranspose_same (by
      intro v w hvw
      have := congrArg (fun z => Matrix.vecMul z B⁻¹) hvw
      simpa [Matrix.vecMul_vecMul, hB''] using this)
    have h6 := h5.trace_pos
    rw [hB, Matrix.mul_assoc, Matrix.trace_mul_comm]
    exact h6.ne'
  have h7 := mul_right_cancel₀ h4 h3
  exact_mod_cast h7

/-! ### The action is a contraction in the norm given by its positive eigenvectors -/

theorem pull_smul (s : Finset ι) (A : ι → Matrix (Fin n) (Fin n) K) (c : K) (X : Matrix (Fin n) (Fin n) K) :
    pull s A (c • X) = c • pull s A X := by
  simp only [pull, Finset.smul_sum, Matrix.mul_smul, Matrix.smul_mul]

/-- The Kadison-Schwarz inequality. -/
theorem kadison {s : Finset ι} {A : ι → Matrix (Fin n) (Fin n) K} {L : Matrix (Fin n) (Fin n) K}
    (hL : L.PosDef) {e : ℝ} (he : 0 < e) (h : pull s A L = (e : K) • L) (X : Matrix (Fin n) (Fin n) K) :
    ((e : K) • pull s A (Xᴴ * L⁻¹ * X) - (pull s A X)ᴴ * L⁻¹ * pull s A X).PosSemidef := by
  obtain ⟨T, hT⟩ : ∃ T, T = pull s A X := ⟨_, rfl⟩
  obtain ⟨G, hG⟩ : ∃ G, G = L⁻¹ := ⟨_, rfl⟩
  have hu : IsUnit L.det := (Matrix.isUnit_iff_isUnit_det _).1 hL.isUnit
  have hLG : L * G = 1 := by rw [hG]; exact Matrix.mul_nonsing_inv _ hu
  have hGL : G * L = 1 := by rw [hG]; exact Matrix.nonsing_inv_mul _ hu
  have hGp : G.PosSemidef := by rw [hG]; exact hL.posSemidef.inv
  have hGh : Gᴴ = G := hGp.isHermitian
  have hLh : Lᴴ = L := hL.isHermitian
  have h1 : (∑ i ∈ s, ((e : K) • (X * A i) - L * A i * G * T)ᴴ * G * ((e : K) • (X * A i) - L * A i * G * T)).PosSemidef :=
    posSemidef_sum _ fun i _ => hGp.conjTranspose_mul_mul_same _
  have hterm : ∀ i, ((e : K) • (X * A i) - L * A i * G * T)ᴴ * G * ((e : K) • (X * A i) - L * A i * G * T) =
      (e : K) • ((e : K) • ((A i)ᴴ * (Xᴴ * G * X) * A i)) - (e : K) • (((A i)ᴴ * Xᴴ * A i) * (G * T))
        - (e : K) • (Tᴴ * G * ((A i)ᴴ * X * A i)) + Tᴴ * G * ((A i)ᴴ * L * A i) * (G * T) := by
    intro i
    have a1 : ((A i)ᴴ * Xᴴ) * G * (L * A i * G * T) = (A i)ᴴ * Xᴴ * (G * L) * A i * G * T := by
      simp only [Matrix.mul_assoc]
    have a2 : (Tᴴ * G * (A i)ᴴ * L) * G * (X * A i) = Tᴴ * G * (A i)ᴴ * (L * G) * X * A i := by
      simp only [Matrix.mul_assoc]
    have a3 : (Tᴴ * G * (A i)ᴴ * L) * G * (L * A i * G * T) = Tᴴ * G * (A i)ᴴ * (L * G) * L * A i * G * T := by
      simp only [Matrix.mul_assoc]
    have a4 : (L * A i * G * T)ᴴ = Tᴴ * G * (A i)ᴴ * L := by
      simp only [conjTranspose_mul, hGh, hLh, Matrix.mul_assoc]
    have a5 : ((e : K) • (X * A i))ᴴ = (e : K) • ((A i)ᴴ * Xᴴ) := by
      rw [conjTranspose_smul, conjTranspose_mul]
      simp
    rw [conjTranspose_sub, a4, a5]
    rw [Matrix.sub_mul, Matrix.sub_mul, Matrix.mul_sub, Matrix.mul_sub]
    simp only [Matrix.smul_mul, Matrix.mul_smul]
    rw [a1, a2, a3, hGL, hLG]
    simp only [Matrix.mul_one, Matrix.mul_assoc]
    abel
  simp only [hterm, Finset.sum_add_distrib, Finset.sum_sub_distrib, ← Finset.smul_sum, ← Finset.mul_sum,
    ← Finset.sum_mul] at h1
  have e1 : ∑ i ∈ s, (A i)ᴴ * (Xᴴ * G * X) * A i = pull s A (Xᴴ * G * X) := rfl
  have e2 : ∑ i ∈ s, (A i)ᴴ * Xᴴ * A i = Tᴴ := by rw [hT, pull_conj]; rfl
  have e3 : ∑ i ∈ s, (A i)ᴴ * X * A i = T := by rw [hT]; rfl
  have e4 : ∑ i ∈ s, (A i)ᴴ * L * A i = (e : K) • L := h
  rw [e1, e2, e3, e4] at h1
  have e5 : Tᴴ * G * ((e : K) • L) * (G * T) = (e : K) • (Tᴴ * G * T) := by
    rw [Matrix.mul_smul, Matrix.smul_mul, Matrix.mul_assoc Tᴴ G L, hGL, Matrix.mul_one]
    simp only [Matrix.mul_assoc]
  rw [e5] at h1
  have h2 := h1.smul (a := ((e⁻¹ : ℝ) : K)) (by exact_mod_cast (inv_pos.2 he).le)
  have hek : ((e⁻¹ : ℝ) : K) * (e : K) = 1 := by
    rw [← RCLike.ofReal_mul, inv_mul_cancel₀ he.ne', RCLike.ofReal_one]
  rw [← hT, ← hG]
  convert h2 using 1
  have key : ∀ M : Matrix (Fin n) (Fin n) K, ((e⁻¹ : ℝ) : K) • ((e : K) • M) = M := fun M => by
    rw [smul_smul, hek, one_smul]
  rw [smul_add, smul_sub, smul_sub, key, key, key, ← Matrix.mul_assoc Tᴴ G T]
  abel

/-- The norm given by the positive eigenvectors `L` and `R`. -/
noncomputable def weight (L R X : Matrix (Fin n) (Fin n) K) : ℝ := RCLike.re (R * (Xᴴ * L⁻¹ * X)).trace

theorem weight_pull {s : Finset ι} {A : ι → Matrix (Fin n) (Fin n) K} {L R : Matrix (Fin n) (Fin n) K}
    (hL : L.PosDef) (hR : R.PosDef) {e : ℝ} (he : 0 < e) (h1 : pull s A L = (e : K) • L)
    (h2 : push s A R = (e : K) • R) (X : Matrix (Fin n) (Fin n) K) :
    weight L R (pull s A X) ≤ e ^ 2 * weight L R X := by
  have h3 := trace_mul_nonneg hR.posSemidef (kadison hL he h1 X)
  rw [Matrix.mul_sub, Matrix.trace_sub, Matrix.mul_smul, Matrix.trace_smul, trace_pull, h2, Matrix.smul_mul,
    Matrix.trace_smul, smul_eq_mul, smul_eq_mul, map_sub, RCLike.re_ofReal_mul, RCLike.re_ofReal_mul] at h3
  unfold weight
  nlinarith

theorem weight_iter {s : Finset ι} {A : ι → Matrix (Fin n) (Fin n) K} {L R : Matrix (Fin n) (Fin n) K}
    (hL : L.PosDef) (hR : R.PosDef) {e : ℝ} (he : 0 < e) (h1 : pull s A L = (e : K) • L)
    (h2 : push s A R = (e : K) • R) (X : Matrix (Fin n) (Fin n) K) (k : Nat) :
    weight L R ((pull s A)^[k] X) ≤ (e ^ k) ^ 2 * weight L R X := by
  induction k with
  | zero => simp
  | succ k ih =>
    rw [Function.iterate_succ_apply']
    have := weight_pull hL hR he h1 h2 ((pull s A)^[k] X)
    have h3 := mul_le_mul_of_nonneg_left ih (sq_nonneg e)
    calc _ ≤ _ := this
      _ ≤ _ := h3
      _ = _ := by ring

/-- Entries are bounded by the norm. -/
theorem weight_bound {L R : Matrix (Fin n) (Fin n) K} (hL : L.PosDef) (hR : R.PosDef) :
    ∃ C : ℝ, ∀ (X : Matrix (Fin n) (Fin n) K) (t : ℝ), 0 ≤ t → weight L R X ≤ t ^ 2 → ∀ i j, ‖X i j‖ ≤ C * t := by
  obtain ⟨S, hS, hS1, hS2⟩ := posDef_factor hL.inv
  obtain ⟨Q, hQ, hQ1, hQ2⟩ := posDef_factor hR
  refine ⟨∑ i, ∑ j, ∑ k, ∑ l, ‖S⁻¹ i j‖ * ‖(Qᴴ)⁻¹ k l‖, fun X t ht hX i j => ?_⟩
  obtain ⟨Z, hZ⟩ : ∃ Z, Z = S * X * Qᴴ := ⟨_, rfl⟩
  have hQ3 : Qᴴ * (Qᴴ)⁻¹ = 1 := by
    rw [← Matrix.conjTranspose_nonsing_inv, ← Matrix.conjTranspose_mul, hQ1, conjTranspose_one]
  have hw : weight L R X = ∑ a, ∑ b, ‖Z a b‖ ^ 2 := by
    unfold weight
    have h1 : (R * (Xᴴ * L⁻¹ * X)).trace = (Zᴴ * Z).trace := by
      rw [hQ, hS, hZ, conjTranspose_mul, conjTranspose_mul, conjTranspose_conjTranspose, Matrix.mul_assoc Qᴴ,
        Matrix.trace_mul_comm]
      simp only [Matrix.mul_assoc]
    rw [h1, Matrix.trace, map_sum, Finset.sum_comm]
    refine Finset.sum_congr rfl fun b _ => ?_
    rw [Matrix.diag_apply, Matrix.mul_apply, map_sum]
    refine Finset.sum_congr rfl fun a _ => ?_
    rw [conjTranspose_apply, RCLike.star_def, RCLike.conj_mul, ← RCLike.ofReal_pow, RCLike.ofReal_re]
  have hZb : ∀ a b, ‖Z a b‖ ≤ t := by
    intro a b
    have h1 : ‖Z a b‖ ^ 2 ≤ t ^ 2 := by
      refine le_trans ?_ (hw ▸ hX)
      refine le_trans (Finset.single_le_sum (f := fun b => ‖Z a b‖ ^ 2) (fun _ _ => sq_nonneg _) (Finset.mem_univ b)) ?_
      exact Finset.single_le_sum (f := fun a => ∑ b, ‖Z a b‖ ^ 2) (fun _ _ => Finset.sum_nonneg fun _ _ => sq_nonneg _)
        (Finset.mem_univ a)
    exact le_of_sq_le_sq h1 ht
  have hXZ : X = S⁻¹ * Z * (Qᴴ)⁻¹ := by
    rw [hZ]
    have : S⁻¹ * (S * X * Qᴴ) * (Qᴴ)⁻¹ = (S⁻¹ * S) * X * (Qᴴ * (Qᴴ)⁻¹) := by simp only [Matrix.mul_assoc]
    rw [this, hS1, hQ3, Matrix.one_mul, Matrix.mul_one]
  have h2 : ‖X i j‖ ≤ ∑ k, ∑ l, ‖S⁻¹ i l‖ * ‖(Qᴴ)⁻¹ k j‖ * t := by
    conv_lhs => rw [hXZ, Matrix.mul_apply]
    refine (norm_sum_le _ _).trans (Finset.sum_le_sum fun k _ => ?_)
    rw [Matrix.mul_apply, Finset.sum_mul]
    refine (norm_sum_le _ _).trans (Finset.sum_le_sum fun l _ => ?_)
    rw [norm_mul, norm_mul]
    have := hZb l k
    have := mul_le_mul_of_nonneg_left this (mul_nonneg (norm_nonneg (S⁻¹ i l)) (norm_nonneg ((Qᴴ)⁻¹ k j)))
    linarith
  refine h2.trans ?_
  rw [show (∑ k, ∑ l, ‖S⁻¹ i l‖ * ‖(Qᴴ)⁻¹ k j‖ * t) = (∑ k, ∑ l, ‖S⁻¹ i l‖ * ‖(Qᴴ)⁻¹ k j‖) * t by
    rw [Finset.sum_mul]; exact Finset.sum_congr rfl fun k _ => (Finset.sum_mul ..).symm]
  refine mul_le_mul_of_nonneg_right ?_ ht
  have hpos : ∀ a b c d, 0 ≤ ‖S⁻¹ a b‖ * ‖(Qᴴ)⁻¹ c d‖ := fun _ _ _ _ => mul_nonneg (norm_nonneg _) (norm_nonneg _)
  calc ∑ k, ∑ l, ‖S⁻¹ i l‖ * ‖(Qᴴ)⁻¹ k j‖ = ∑ l, ∑ k, ‖S⁻¹ i l‖ * ‖(Qᴴ)⁻¹ k j‖ := Finset.sum_comm
    _ ≤ ∑ l, ∑ k, ∑ m, ‖S⁻¹ i l‖ * ‖(Qᴴ)⁻¹ k m‖ := by
      refine Finset.sum_le_sum fun l _ => Finset.sum_le_sum fun k _ => ?_
      exact Finset.single_le_sum (f := fun m => ‖S⁻¹ i l‖ * ‖(Qᴴ)⁻¹ k m‖) (fun m _ => hpos _ _ _ _) (Finset.mem_univ j)
    _ ≤ _ := Finset.single_le_sum (f := fun i => ∑ l, ∑ k, ∑ m, ‖S⁻¹ i l‖ * ‖(Qᴴ)⁻¹ k m‖)
        (fun i _ => Finset.sum_nonneg fun l _ => Finset.sum_nonneg fun k _ => Finset.sum_nonneg fun m _ => hpos _ _ _ _)
        (Finset.mem_univ i)

/-- All powers of the action, divided by the eigenvalue, are bounded: no eigenvalue is larger in modulus. -/
theorem pull_bounded {s : Finset ι} {A : ι → Matrix (Fin n) (Fin n) K} {L R : Matrix (Fin n) (Fin n) K}
    (hL : L.PosDef) (hR : R.PosDef) {e : ℝ} (he : 0 < e) (h1 : pull s A L = (e : K) • L)
    (h2 : push s A R = (e : K) • R) (X : Matrix (Fin n) (Fin n) K) :
    ∃ C : ℝ, ∀ k i j, ‖(pull s A)^[k] X i j‖ ≤ C * e ^ k := by
  obtain ⟨C, hC⟩ := weight_bound hL hR
  obtain ⟨w, hw⟩ : ∃ w, w = Real.sqrt (max (weight L R X) 0) := ⟨_, rfl⟩
  refine ⟨C * w, fun k i j => ?_⟩
  have hek : 0 < e ^ k := pow_pos he k
  have h3 := hC ((pull s A)^[k] X) (w * e ^ k) (mul_nonneg (by rw [hw]; exact Real.sqrt_nonneg _) hek.le) (by
    refine (weight_iter hL hR he h1 h2 X k).trans ?_
    rw [mul_pow, hw, Real.sq_sqrt (le_max_right _ _), mul_comm]
    exact mul_le_mul_of_nonneg_right (le_max_left _ _) (sq_nonneg _)) i j
  linarith

/-! ### The change of gauge -/

/-- The matrices that occur in `canonicalize`: `X Y = U Λ V` with `U`, `V` unitary and `X`, `Y`
invertible. -/
structure Gauge (X Xi Y Yi U V : Matrix (Fin n) (Fin n) K) (lam : Fin n → ℝ) : Prop where
  xl : Xi * X = 1
  xr : X * Xi = 1
  yl : Yi * Y = 1
  yr : Y * Yi = 1
  ul : Uᴴ * U = 1
  ur : U * Uᴴ = 1
  vl : Vᴴ * V = 1
  vr : V * Vᴴ = 1
  svd : X * Y = U * diagonal (fun i => (lam i : K)) * V
  nonneg : ∀ i, 0 ≤ lam i

variable {X Xi Y Yi U V : Matrix (Fin n) (Fin n) K} {lam : Fin n → ℝ}

theorem Gauge.left (g : Gauge X Xi Y Yi U V lam) : diagonal (fun i => (lam i : K)) * V * Yi = Uᴴ * X := by
  have h : Uᴴ * (X * Y) * Yi = Uᴴ * (U * diagonal (fun i => (lam i : K)) * V) * Yi := by rw [g.svd]
  have h1 : Uᴴ * (X * Y) * Yi = Uᴴ * X * (Y * Yi) := by simp only [Matrix.mul_assoc]
  have h2 : Uᴴ * (U * diagonal (fun i => (lam i : K)) * V) * Yi =
    (Uᴴ * U) * (diagonal (fun i => (lam i : K)) * V * Yi) := by simp only [Matrix.mul_assoc]
  rw [h1, h2, g.yr, g.ul, Matrix.mul_one, Matrix.one_mul] at h
  exact h.symm

theorem Gauge.right (g : Gauge X Xi Y Yi U V lam) : Xi * U * diagonal (fun i => (lam i : K)) = Y * Vᴴ := by
  have h : Xi * (X * Y) * Vᴴ = Xi * (U * diagonal (fun i => (lam i : K)) * V) * Vᴴ := by rw [g.svd]
  have h1 : Xi * (X * Y) * Vᴴ = (Xi * X) * (Y * Vᴴ) := by simp only [Matrix.mul_assoc]
  have h2 : Xi * (U * diagonal (fun i => (lam i : K)) * V) * Vᴴ =
    (Xi * U * diagonal (fun i => (lam i : K))) * (V * Vᴴ) := by simp only [Matrix.mul_assoc]
  rw [h1, h2, g.xl, g.vr, Matrix.mul_one, Matrix.one_mul] at h
  exact h.symm

theorem Gauge.pos (g : Gauge X Xi Y Yi U V lam) (i : Fin n) : 0 < lam i := by
  refine lt_of_le_of_ne (g.nonneg i) fun h => ?_
  have h1 : diagonal (fun i => (lam i : K)) * (V * Yi * Xi * U) = 1 := by
    have h2 : diagonal (fun i => (lam i : K)) * (V * Yi * Xi * U) =
      (diagonal (fun i => (lam i : K)) * V * Yi) * (Xi * U) := by simp only [Matrix.mul_assoc]
    rw [h2, g.left]
    have h3 : Uᴴ * X * (Xi * U) = Uᴴ * (X * Xi) * U := by simp only [Matrix.mul_assoc]
    rw [h3, g.xr, Matrix.mul_one, g.ul]
  have h4 := congrFun (congrFun h1 i) i
  rw [Matrix.diagonal_mul, ← h] at h4
  simp at h4

/-- `Λ⁻¹`. -/
noncomputable def lamInv (lam : Fin n → ℝ) : Matrix (Fin n) (Fin n) K := diagonal fun i => ((lam i)⁻¹ : ℝ)

theorem Gauge.lam_inv (g : Gauge X Xi Y Yi U V lam) :
    diagonal (fun i => (lam i : K)) * lamInv lam = 1 ∧ lamInv lam * diagonal (fun i => (lam i : K)) = 1 := by
  unfold lamInv
  rw [Matrix.diagonal_mul_diagonal, Matrix.diagonal_mul_diagonal, ← Matrix.diagonal_one]
  constructor
  · congr 1
    ext i
    rw [← RCLike.ofReal_mul, mul_inv_cancel₀ (g.pos i).ne', RCLike.ofReal_one]
  · congr 1
    ext i
    rw [← RCLike.ofReal_mul, inv_mul_cancel₀ (g.pos i).ne', RCLike.ofReal_one]

/-- The new matrices of the cell: `Λ V Y⁻¹ A X⁻¹ U Λ`. -/
noncomputable def regauge (Xi Yi U V : Matrix (Fin n) (Fin n) K) (lam : Fin n → ℝ) (B : Matrix (Fin n) (Fin n) K) :
    Matrix (Fin n) (Fin n) K :=
  diagonal (fun i => (lam i : K)) * V * Yi * B * (Xi * U * diagonal (fun i => (lam i : K)))

/-- With the connector on the right the new matrices are similar to the old ones. -/
theorem Gauge.similar (g : Gauge X Xi Y Yi U V lam) (B : Matrix (Fin n) (Fin n) K) :
    regauge Xi Yi U V lam B * lamInv lam = Uᴴ * X * B * (Xi * U) ∧
    (Uᴴ * X) * (Xi * U) = 1 ∧ (Xi * U) * (Uᴴ * X) = 1 := by
  refine ⟨?_, ?_, ?_⟩
  · unfold regauge
    rw [g.left]
    have : Uᴴ * X * B * (Xi * U * diagonal (fun i => (lam i : K))) * lamInv lam =
      Uᴴ * X * B * (Xi * U) * (diagonal (fun i => (lam i : K)) * lamInv lam) := by simp only [Matrix.mul_assoc]
    rw [this, g.lam_inv.1, Matrix.mul_one]
  · have : Uᴴ * X * (Xi * U) = Uᴴ * (X * Xi) * U := by simp only [Matrix.mul_assoc]
    rw [this, g.xr, Matrix.mul_one, g.ul]
  · have : Xi * U * (Uᴴ * X) = Xi * (U * Uᴴ) * X := by simp only [Matrix.mul_assoc]
    rw [this, g.ur, Matrix.mul_one, g.xl]

/-- With the connector on the left the new matrices are similar to the old ones, too. -/
theorem Gauge.similar' (g : Gauge X Xi Y Yi U V lam) (B : Matrix (Fin n) (Fin n) K) :
    lamInv lam * regauge Xi Yi U V lam B = V * Yi * B * (Y * Vᴴ) := by
  unfold regauge
  rw [g.right]
  have : lamInv lam * (diagonal (fun i => (lam i : K)) * V * Yi * B * (Y * Vᴴ)) =
      (lamInv lam * diagonal (fun i => (lam i : K))) * (V * Yi * B * (Y * Vᴴ)) := by simp only [Matrix.mul_assoc]
  rw [this, g.lam_inv.2, Matrix.one_mul]

/-- The new cell with the connector on the right is left orthonormal. -/
theorem Gauge.leftIso (g : Gauge X Xi Y Yi U V lam) {s : Finset ι} {A : ι → Matrix (Fin n) (Fin n) K} {e : ℝ}
    (h : pull s A (Xᴴ * X) = (e : K) • (Xᴴ * X)) :
    ∑ i ∈ s, (regauge Xi Yi U V lam (A i) * lamInv lam)ᴴ * (regauge Xi Yi U V lam (A i) * lamInv lam) =
      (e : K) • 1 := by
  simp only [(g.similar _).1]
  have h1 : ∀ i, (Uᴴ * X * A i * (Xi * U))ᴴ * (Uᴴ * X * A i * (Xi * U)) =
      (Xi * U)ᴴ * ((A i)ᴴ * (Xᴴ * X) * A i) * (Xi * U) := by
    intro i
    have : (Uᴴ * X * A i * (Xi * U))ᴴ * (Uᴴ * X * A i * (Xi * U)) =
        (Xi * U)ᴴ * ((A i)ᴴ * (Xᴴ * (U * Uᴴ) * X) * A i) * (Xi * U) := by
      simp only [conjTranspose_mul, conjTranspose_conjTranspose, Matrix.mul_assoc]
    rw [this, g.ur, Matrix.mul_one]
  simp only [h1, ← Finset.mul_sum, ← Finset.sum_mul]
  have h2 : ∑ i ∈ s, (A i)ᴴ * (Xᴴ * X) * A i = (e : K) • (Xᴴ * X) := h
  rw [h2, Matrix.mul_smul, Matrix.smul_mul]
  have h3 : (Xi * U)ᴴ * (Xᴴ * X) * (Xi * U) = (X * Xi * U)ᴴ * (X * Xi * U) := by
    simp only [conjTranspose_mul, Matrix.mul_assoc]
  rw [h3, g.xr, Matrix.one_mul, g.ul]

/-- The new cell with the connector on the left is right orthonormal. -/
theorem Gauge.rightIso (g : Gauge X Xi Y Yi U V lam) {s : Finset ι} {A : ι → Matrix (Fin n) (Fin n) K} {e : ℝ}
    (h : push s A (Y * Yᴴ) = (e : K) • (Y * Yᴴ)) :
    ∑ i ∈ s, (lamInv lam * regauge Xi Yi U V lam (A i)) * (lamInv lam * regauge Xi Yi U V lam (A i))ᴴ =
      (e : K) • 1 := by
  simp only [g.similar']
  have h1 : ∀ i, (V * Yi * A i * (Y * Vᴴ)) * (V * Yi * A i * (Y * Vᴴ))ᴴ =
      (V * Yi) * (A i * (Y * Yᴴ) * (A i)ᴴ) * (V * Yi)ᴴ := by
    intro i
    have : (V * Yi * A i * (Y * Vᴴ)) * (V * Yi * A i * (Y * Vᴴ))ᴴ =
        (V * Yi) * (A i * (Y * (Vᴴ * V) * Yᴴ) * (A i)ᴴ) * (V * Yi)ᴴ := by
      simp only [conjTranspose_mul, conjTranspose_conjTranspose, Matrix.mul_assoc]
    rw [this, g.vl, Matrix.mul_one]
  simp only [h1, ← Finset.mul_sum, ← Finset.sum_mul]
  have h2 : ∑ i ∈ s, A i * (Y * Yᴴ) * (A i)ᴴ = (e : K) • (Y * Yᴴ) := h
  rw [h2, Matrix.mul_smul, Matrix.smul_mul]
  have h3 : (V * Yi) * (Y * Yᴴ) * (V * Yi)ᴴ = (V * (Yi * Y)) * (V * (Yi * Y))ᴴ := by
    simp only [conjTranspose_mul, Matrix.mul_assoc]
  rw [h3, g.yl, Matrix.mul_one, g.vr]

end TN.Inf
