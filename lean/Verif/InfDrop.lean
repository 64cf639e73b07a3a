import Verif.InfFinish
import Verif.LanczosProps2
import Mathlib.LinearAlgebra.Matrix.SchurComplement

/-!
# When no singular value is dropped
-/

set_option linter.unusedSectionVars false

namespace TN.Inf

open TN NDArray Finset Ncon Mps Matrix
open scoped ComplexOrder

variable {K : Type} [RCLike K] {n : Nat}

/-- A positive semidefinite matrix is at most its Frobenius norm. -/
theorem frob_bound {R : Matrix (Fin n) (Fin n) K} (hR : R.PosSemidef) :
    (((frob R : ℝ) : K) • (1 : Matrix (Fin n) (Fin n) K) - R).PosSemidef := by
  have h := Lanczos.someEigh_ok (K := K) n R hR.1
  obtain ⟨l, u, h⟩ : ∃ l u, Lanczos.IsEigh R l u := ⟨_, _, h⟩
  have h1 : ((frob R : ℝ) : K) • (1 : Matrix (Fin n) (Fin n) K) - R =
      u * diagonal (fun i => ((frob R - l i : ℝ) : K)) * uᴴ := by
    have h2 : diagonal (fun i => ((frob R - l i : ℝ) : K)) = ((frob R : ℝ) : K) • (1 : Matrix (Fin n) (Fin n) K) -
        diagonal (fun i => (l i : K)) := by
      rw [Matrix.smul_one_eq_diagonal, Matrix.diagonal_sub]
      congr 1
      funext i
      rw [RCLike.ofReal_sub]
    rw [h2, Matrix.mul_sub, Matrix.sub_mul, ← isEigh_eq h, Matrix.mul_smul, Matrix.mul_one, Matrix.smul_mul, h.right]
  rw [h1]
  refine PosSemidef.mul_mul_conjTranspose_same (Matrix.PosSemidef.diagonal fun i => ?_) u
  show (0 : K) ≤ ((frob R - l i : ℝ) : K)
  rw [RCLike.ofReal_nonneg, sub_nonneg, ← isEigh_frob h]
  refine Real.le_sqrt_of_sq_le ?_
  exact Finset.single_le_sum (f := fun i => l i ^ 2) (fun i _ => sq_nonneg _) (Finset.mem_univ i)

/-- The two Gram matrices of a square matrix have the same upper bounds. -/
theorem gram_swap {B : Matrix (Fin n) (Fin n) K} {c : ℝ} (hc : 0 < c)
    (h : ((c : K) • (1 : Matrix (Fin n) (Fin n) K) - Bᴴ * B).PosSemidef) :
    ((c : K) • (1 : Matrix (Fin n) (Fin n) K) - B * Bᴴ).PosSemidef := by
  have hcK : (0 : K) < (c : K) := by rwa [RCLike.ofReal_pos]
  have hD : ((c : K) • (1 : Matrix (Fin n) (Fin n) K)).PosDef := Matrix.PosDef.one.smul hcK
  have : Invertible (1 : Matrix (Fin n) (Fin n) K) := invertibleOne
  have : Invertible ((c : K) • (1 : Matrix (Fin n) (Fin n) K)) := hD.isUnit.invertible
  have h1 : (fromBlocks 1 B Bᴴ ((c : K) • (1 : Matrix (Fin n) (Fin n) K))).PosSemidef := by
    rw [Matrix.PosDef.one.fromBlocks₁₁, inv_one, Matrix.mul_one]
    exact h
  rw [hD.fromBlocks₂₂] at h1
  have h2 := h1.smul hcK.le
  have h3 : ((c : K) • (1 : Matrix (Fin n) (Fin n) K))⁻¹ = (c : K)⁻¹ • 1 := by
    refine Matrix.inv_eq_right_inv ?_
    rw [Matrix.smul_mul, Matrix.one_mul, smul_smul, mul_inv_cancel₀ hcK.ne', one_smul]
  rw [h3, Matrix.mul_smul, Matrix.mul_one, Matrix.smul_mul, smul_sub, smul_smul, mul_inv_cancel₀ hcK.ne', one_smul] at h2
  exact h2

/-- The two Gram matrices of an invertible matrix have the same lower bounds. -/
theorem gram_swap' {X Xi : Matrix (Fin n) (Fin n) K} (hr : X * Xi = 1) {d : ℝ} (hd : 0 < d)
    (h : (Xᴴ * X - (d : K) • (1 : Matrix (Fin n) (Fin n) K)).PosSemidef) :
    (X * Xᴴ - (d : K) • (1 : Matrix (Fin n) (Fin n) K)).PosSemidef := by
  have hdK : (0 : K) < (d : K) := by rwa [RCLike.ofReal_pos]
  have hdi : (((d⁻¹ : ℝ)) : K) = (d : K)⁻¹ := by push_cast; rfl
  have h1 := (h.conjTranspose_mul_mul_same Xi).smul (inv_nonneg.2 hdK.le)
  have h2 : (d : K)⁻¹ • (Xiᴴ * (Xᴴ * X - (d : K) • (1 : Matrix (Fin n) (Fin n) K)) * Xi) =
      ((d⁻¹ : ℝ) : K) • (1 : Matrix (Fin n) (Fin n) K) - Xiᴴ * Xi := by
    rw [Matrix.mul_sub, Matrix.sub_mul, Matrix.mul_smul, Matrix.smul_mul, Matrix.mul_one, smul_sub, smul_smul,
      inv_mul_cancel₀ hdK.ne', one_smul, show Xiᴴ * (Xᴴ * X) * Xi = (X * Xi)ᴴ * (X * Xi) by
        simp only [Matrix.conjTranspose_mul, Matrix.mul_assoc], hr, Matrix.conjTranspose_one, Matrix.one_mul, hdi]
  rw [h2] at h1
  have h3 := ((gram_swap (inv_pos.2 hd) h1).mul_mul_conjTranspose_same X).smul hdK.le
  have h4 : (d : K) • (X * (((d⁻¹ : ℝ) : K) • (1 : Matrix (Fin n) (Fin n) K) - Xi * Xiᴴ) * Xᴴ) =
      X * Xᴴ - (d : K) • (1 : Matrix (Fin n) (Fin n) K) := by
    rw [Matrix.mul_sub, Matrix.sub_mul, Matrix.mul_smul, Matrix.smul_mul, Matrix.mul_one, smul_sub, smul_smul, hdi,
      mul_inv_cancel₀ hdK.ne', one_smul, show X * (Xi * Xiᴴ) * Xᴴ = (X * Xi) * (X * Xi)ᴴ by
        simp only [Matrix.conjTranspose_mul, Matrix.mul_assoc], hr, Matrix.conjTranspose_one, Matrix.one_mul]
  rwa [h4] at h3

/-- The ratio of the singular values of `√L √R` stays above the cutoff that the eigenvalues of `L` and `R`
stay above. -/
theorem ratio_above {X Xi Y Yi U V L R : Matrix (Fin n) (Fin n) K} {lam : Fin n → ℝ}
    (g : Gauge X Xi Y Yi U V lam) {b b' : ℝ} (hb : 0 < b) (hb' : 0 < b') (hX : Xᴴ * X = (b : K) • L)
    (hY : Y * Yᴴ = (b' : K) • R) (hL : L.PosDef) (hR : R.PosDef) {x : ℝ} (hxL : AboveCutoff x L)
    (hxR : AboveCutoff x R) (i j : Fin n) : x * lam i < lam j := by
  rcases le_or_gt x 0 with hx | hx
  · exact lt_of_le_of_lt (mul_nonpos_of_nonpos_of_nonneg hx (g.nonneg i)) (g.pos j)
  have hbK : (0 : K) ≤ (b : K) := by rw [RCLike.ofReal_nonneg]; exact hb.le
  have hbK' : (0 : K) ≤ (b' : K) := by rw [RCLike.ofReal_nonneg]; exact hb'.le
  have hpos : ∀ {P : Matrix (Fin n) (Fin n) K}, P.PosDef → 0 < frob P := by
    intro P hP
    have h0 := (frob_bound hP.posSemidef).diag_nonneg (i := i)
    rw [Matrix.sub_apply, Matrix.smul_apply, Matrix.one_apply_eq, smul_eq_mul, mul_one] at h0
    have h1 : (0 : K) < ((frob P : ℝ) : K) := (hP.diag_pos (i := i)).trans_le (sub_nonneg.1 h0)
    rwa [RCLike.ofReal_pos] at h1
  have hlf := hpos hL
  have hrf := hpos hR
  -- bounds of the outer Gram matrix of `X`
  have hup : (((b * frob L : ℝ) : K) • (1 : Matrix (Fin n) (Fin n) K) - X * Xᴴ).PosSemidef := by
    refine gram_swap (mul_pos hb hlf) ?_
    have := (frob_bound hL.posSemidef).smul hbK
    rw [smul_sub, smul_smul, ← hX, ← RCLike.ofReal_mul] at this
    exact this
  have hlow : (X * Xᴴ - ((b * (x * frob L) : ℝ) : K) • (1 : Matrix (Fin n) (Fin n) K)).PosSemidef := by
    refine gram_swap' g.xr (mul_pos hb (mul_pos hx hlf)) ?_
    have := hxL.posSemidef.smul hbK
    rw [smul_sub, smul_smul, ← hX, ← RCLike.ofReal_mul] at this
    exact this
  -- the singular values
  have hgram : (Uᴴ * X) * Y * Yᴴ * (Uᴴ * X)ᴴ = diagonal fun k => ((lam k ^ 2 : ℝ) : K) := by
    have h1 : Uᴴ * X * Y = diagonal (fun k => (lam k : K)) * V := by
      rw [Matrix.mul_assoc, g.svd, Matrix.mul_assoc, ← Matrix.mul_assoc Uᴴ, g.ul, Matrix.one_mul]
    have h2 : (Uᴴ * X) * Y * Yᴴ * (Uᴴ * X)ᴴ = (Uᴴ * X * Y) * (Uᴴ * X * Y)ᴴ := by
      simp only [Matrix.conjTranspose_mul, Matrix.mul_assoc]
    rw [h2, h1, Matrix.conjTranspose_mul, star_diag, show diagonal (fun k => (lam k : K)) * V *
      (Vᴴ * diagonal (fun k => (lam k : K))) = diagonal (fun k => (lam k : K)) * (V * Vᴴ) *
      diagonal (fun k => (lam k : K)) by simp only [Matrix.mul_assoc], g.vr, Matrix.mul_one,
      Matrix.diagonal_mul_diagonal]
    congr 1
    funext k
    rw [← RCLike.ofReal_mul, pow_two]
  have hgram2 : (b' : K) • (Uᴴ * X * R * (Uᴴ * X)ᴴ) = diagonal fun k => ((lam k ^ 2 : ℝ) : K) := by
    rw [← hgram, Matrix.mul_assoc (Uᴴ * X) Y, hY, Matrix.mul_smul, Matrix.smul_mul]
  have hunit : ∀ M : Matrix (Fin n) (Fin n) K, Uᴴ * X * M * (Uᴴ * X)ᴴ = Uᴴ * (X * M * Xᴴ) * U := by
    intro M
    simp only [Matrix.conjTranspose_mul, Matrix.conjTranspose_conjTranspose, Matrix.mul_assoc]
  -- upper bound
  have hupper : ∀ k, lam k ^ 2 ≤ b' * frob R * (b * frob L) := by
    intro k
    have h1 := ((frob_bound hR.posSemidef).mul_mul_conjTranspose_same (Uᴴ * X)).smul hbK'
    have h2 := (hup.conjTranspose_mul_mul_same U).smul
      (show (0 : K) ≤ ((b' * frob R : ℝ) : K) by rw [RCLike.ofReal_nonneg]; exact (mul_pos hb' hrf).le)
    have h3 := (h1.add h2).diag_nonneg (i := k)
    have h4 : (b' : K) • (Uᴴ * X * (((frob R : ℝ) : K) • (1 : Matrix (Fin n) (Fin n) K) - R) * (Uᴴ * X)ᴴ) +
        ((b' * frob R : ℝ) : K) • (Uᴴ * (((b * frob L : ℝ) : K) • (1 : Matrix (Fin n) (Fin n) K) - X * Xᴴ) * U) =
        ((b' * frob R * (b * frob L) : ℝ) : K) • 1 - diagonal fun k => ((lam k ^ 2 : ℝ) : K) := by
      rw [← hgram2]
      simp only [Matrix.mul_sub, Matrix.sub_mul, Matrix.mul_smul, Matrix.smul_mul, Matrix.mul_one, smul_sub, smul_smul,
        g.ul, Matrix.conjTranspose_mul, Matrix.conjTranspose_conjTranspose, ← RCLike.ofReal_mul]
      simp only [Matrix.mul_assoc]
      abel
    rw [h4, Matrix.sub_apply, Matrix.smul_apply, Matrix.one_apply_eq, Matrix.diagonal_apply_eq, smul_eq_mul, mul_one,
      ← RCLike.ofReal_sub, RCLike.ofReal_nonneg] at h3
    linarith
  have hlower : ∀ k, b' * (x * frob R) * (b * (x * frob L)) < lam k ^ 2 := by
    intro k
    have hinv : IsUnit (Uᴴ * X) := by
      obtain ⟨_, q1, q2⟩ := g.similar 1
      exact ⟨⟨_, _, q1, q2⟩, rfl⟩
    have h1 := (((Matrix.PosDef.mul_mul_conjTranspose_same hxR (Matrix.vecMul_injective_of_isUnit hinv)))).smul
      (show (0 : K) < (b' : K) by rwa [RCLike.ofReal_pos])
    have h2 := (hlow.conjTranspose_mul_mul_same U).smul
      (show (0 : K) ≤ ((b' * (x * frob R) : ℝ) : K) by
        rw [RCLike.ofReal_nonneg]; exact (mul_pos hb' (mul_pos hx hrf)).le)
    have h3 := (h1.add_posSemidef h2).diag_pos (i := k)
    have h4 : (b' : K) • (Uᴴ * X * (R - ((x * frob R : ℝ) : K) • (1 : Matrix (Fin n) (Fin n) K)) * (Uᴴ * X)ᴴ) +
        ((b' * (x * frob R) : ℝ) : K) •
          (Uᴴ * (X * Xᴴ - ((b * (x * frob L) : ℝ) : K) • (1 : Matrix (Fin n) (Fin n) K)) * U) =
        (diagonal fun k => ((lam k ^ 2 : ℝ) : K)) - ((b' * (x * frob R) * (b * (x * frob L)) : ℝ) : K) • 1 := by
      rw [← hgram2]
      simp only [Matrix.mul_sub, Matrix.sub_mul, Matrix.mul_smul, Matrix.smul_mul, Matrix.mul_one, smul_sub, smul_smul,
        g.ul, Matrix.conjTranspose_mul, Matrix.conjTranspose_conjTranspose, ← RCLike.ofReal_mul]
      simp only [Matrix.mul_assoc]
      abel
    rw [h4, Matrix.sub_apply, Matrix.smul_apply, Matrix.one_apply_eq, Matrix.diagonal_apply_eq, smul_eq_mul, mul_one,
      ← RCLike.ofReal_sub, RCLike.ofReal_pos] at h3
    linarith
  have h1 : (x * lam i) ^ 2 < lam j ^ 2 := by
    have h2 := hlower j
    have h3 := mul_le_mul_of_nonneg_left (hupper i) (sq_nonneg x)
    rw [mul_pow]
    nlinarith
  exact lt_of_pow_lt_pow_left₀ 2 (g.pos j).le h1

end TN.Inf
