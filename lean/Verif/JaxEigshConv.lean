import Verif.JaxEigshThms
import Mathlib.Algebra.Order.Chebyshev

/-!
# How far converged pairs of `eigsh` are from eigenpairs
-/

set_option linter.unusedSectionVars false

namespace TN.Krylov

noncomputable section

open Classical Matrix

variable {𝕜 : Type} [RCLike 𝕜] {n m : Nat}

/-- An entry of an eigenvector is bounded through the entries of an orthonormal basis of eigenvectors. -/
theorem eig_entry {k : Nat} {H W : Mat 𝕜 k} {lam : Fin k → 𝕜} (hW : Wᴴ * W = 1)
    (hv : ∀ j, H *ᵥ (fun a => W a j) = lam j • fun a => W a j) {β M : ℝ} {z : 𝕜} (i : Fin k)
    (hM : ∀ j, lam j = z → β * ‖W i j‖ ≤ M) {t : Fin k → 𝕜} (ht : H *ᵥ t = z • t) (hβ : 0 ≤ β) :
    β * ‖t i‖ ≤ Real.sqrt k * M * Real.sqrt (∑ a, ‖t a‖ ^ 2) := by
  have hW' : W * Wᴴ = 1 := mul_eq_one_comm.mp hW
  set c : Fin k → 𝕜 := Wᴴ *ᵥ t with hc
  have htc : t = W *ᵥ c := by rw [hc, Matrix.mulVec_mulVec, hW', Matrix.one_mulVec]
  have hHW : H * W = W * Matrix.diagonal lam := by
    ext a j
    have := congrFun (hv j) a
    rw [Matrix.mul_diagonal]
    rw [Pi.smul_apply, smul_eq_mul] at this
    rw [mul_comm, ← this]; rfl
  have hlam : ∀ j, lam j * c j = z * c j := by
    have e1 : H *ᵥ t = W *ᵥ (Matrix.diagonal lam *ᵥ c) := by
      rw [Matrix.mulVec_mulVec, ← hHW, ← Matrix.mulVec_mulVec, ← htc]
    have e2 : z • t = W *ᵥ (z • c) := by rw [Matrix.mulVec_smul, ← htc]
    have e3 := congrArg (fun x => Wᴴ *ᵥ x) ((e1.symm.trans ht).trans e2)
    simp only [Matrix.mulVec_mulVec, hW, ← mul_assoc, one_mul, Matrix.one_mulVec] at e3
    intro j
    have := congrFun e3 j
    rw [Matrix.mulVec_diagonal] at this
    exact this
  have hsq : ∑ j, ‖c j‖ ^ 2 = ∑ a, ‖t a‖ ^ 2 := by
    have e : ∀ x : Fin k → 𝕜, ((∑ a, ‖x a‖ ^ 2 : ℝ) : 𝕜) = star x ⬝ᵥ x := by
      intro x
      rw [dotProduct]
      push_cast
      refine Finset.sum_congr rfl fun a _ => ?_
      rw [Pi.star_apply, RCLike.star_def, RCLike.conj_mul]
    have h1 : star c ⬝ᵥ c = star t ⬝ᵥ t := by
      rw [hc, Matrix.star_mulVec, Matrix.conjTranspose_conjTranspose, Matrix.dotProduct_mulVec, Matrix.vecMul_vecMul, hW',
        Matrix.vecMul_one]
    rw [← e, ← e] at h1
    exact_mod_cast h1
  have hti : t i = ∑ j, W i j * c j := congrFun htc i
  have hterm : ∀ j, β * ‖W i j * c j‖ ≤ M * ‖c j‖ := by
    intro j
    by_cases hcj : c j = 0
    · rw [hcj]; simp
    · have := hM j (mul_right_cancel₀ hcj (hlam j))
      rw [norm_mul, ← mul_assoc]
      exact mul_le_mul_of_nonneg_right this (norm_nonneg _)
  have hsum : ∑ j, ‖c j‖ ≤ Real.sqrt k * Real.sqrt (∑ j, ‖c j‖ ^ 2) := by
    rw [← Real.sqrt_mul (Nat.cast_nonneg k)]
    refine Real.le_sqrt_of_sq_le ?_
    have := sq_sum_le_card_mul_sum_sq (s := (Finset.univ : Finset (Fin k))) (f := fun j => ‖c j‖)
    rwa [Finset.card_univ, Fintype.card_fin] at this
  have hpre : β * ‖t i‖ ≤ M * ∑ j, ‖c j‖ := by
    rw [hti]
    refine (mul_le_mul_of_nonneg_left (norm_sum_le _ _) hβ).trans ?_
    rw [Finset.mul_sum, Finset.mul_sum]
    exact Finset.sum_le_sum fun j _ => hterm j
  by_cases hM0 : 0 ≤ M
  · refine hpre.trans ((mul_le_mul_of_nonneg_left hsum hM0).trans (le_of_eq ?_))
    rw [hsq]; ring
  · have hz : ∀ j, lam j ≠ z := fun j e => hM0 ((mul_nonneg hβ (norm_nonneg _)).trans (hM j e))
    have hc0 : ∀ j, c j = 0 := fun j => by
      by_contra hcj
      exact hz j (mul_right_cancel₀ hcj (hlam j))
    have ht0 : ∀ a, t a = 0 := fun a => by
      refine (congrFun htc a).trans ?_
      show ∑ j, W a j * c j = 0
      exact Finset.sum_eq_zero fun j _ => by rw [hc0, mul_zero]
    simp [ht0]

theorem leading_eq {H : Mat 𝕜 m} {k : Nat} (hk : k ≤ m) (a b : Fin k) :
    leading k H a b = H (Fin.castLE hk a) (Fin.castLE hk b) := by
  unfold leading readEntry
  have := a.isLt
  rw [dif_pos (by omega)]
  congr 1
  · exact Fin.ext (by show min a.val (m - 1) = a.val; omega)
  · exact Fin.ext (by show min b.val (m - 1) = b.val; omega)

/-- A sum over the first `k` indices. -/
theorem sum_castLE {k : Nat} (hk : k ≤ m) {M : Type} [AddCommMonoid M] (f : Fin m → M) (hf : ∀ a : Fin m, k ≤ a.val → f a = 0) :
    ∑ a, f a = ∑ a : Fin k, f (Fin.castLE hk a) := by
  have e : Finset.univ.map (Fin.castLEEmb hk) ⊆ (Finset.univ : Finset (Fin m)) := Finset.subset_univ _
  rw [← Finset.sum_subset e, Finset.sum_map]
  · rfl
  · intro a _ ha
    refine hf a ?_
    by_contra hc
    refine ha (Finset.mem_map.mpr ⟨⟨a.val, by omega⟩, Finset.mem_univ _, Fin.ext rfl⟩)

theorem Comp.norm_comb {A : Vec 𝕜 n →ₗ[𝕜] Vec 𝕜 n} {V : Fin m → Vec 𝕜 n} {H : Mat 𝕜 m} {k : Nat} (h : Comp A V H k)
    (u : Fin m → 𝕜) : ‖comb V u‖ = Real.sqrt (∑ a : Fin k, ‖u (Fin.castLE h.le a)‖ ^ 2) := by
  refine (Real.sqrt_eq_iff_mul_self_eq (by positivity) (norm_nonneg _)).mpr ?_ |>.symm
  have h1 : inner 𝕜 (comb V u) (comb V u) = ((∑ a : Fin k, ‖u (Fin.castLE h.le a)‖ ^ 2 : ℝ) : 𝕜) := by
    conv_lhs => rw [comb, sum_inner]
    rw [sum_castLE h.le]
    · push_cast
      refine Finset.sum_congr rfl fun a _ => ?_
      have := h.inner_comb u (a := Fin.castLE h.le a) a.isLt
      rw [comb] at this
      rw [inner_smul_left, this, RCLike.conj_mul]
    · intro a ha
      rw [h.zero a ha, smul_zero, inner_zero_left]
  rw [inner_self_eq_norm_sq_to_K] at h1
  have h2 : ‖comb V u‖ ^ 2 = ∑ a : Fin k, ‖u (Fin.castLE h.le a)‖ ^ 2 := by exact_mod_cast h1
  rw [← h2, sq]

/-- The Frobenius norm of the compression of a bounded operator. -/
theorem Comp.frob_le {A : Vec 𝕜 n →ₗ[𝕜] Vec 𝕜 n} {V : Fin m → Vec 𝕜 n} {H : Mat 𝕜 m} {k : Nat} (h : Comp A V H k) {C : ℝ}
    (hC : ∀ x, ‖A x‖ ≤ C * ‖x‖) : frob (leading k H) ≤ Real.sqrt k * C := by
  rcases Nat.eq_zero_or_pos k with hk | hk
  · subst hk
    unfold frob
    simp
  have hone : ∀ b : Fin k, ‖V (Fin.castLE h.le b)‖ = 1 := by
    intro b
    have := h.ortho (Fin.castLE h.le b) (Fin.castLE h.le b) b.isLt b.isLt
    rw [if_pos rfl, inner_self_eq_norm_sq_to_K] at this
    have h2 : ‖V (Fin.castLE h.le b)‖ ^ 2 = 1 := by exact_mod_cast this
    nlinarith [norm_nonneg (V (Fin.castLE h.le b))]
  have hC0 : 0 ≤ C := by
    have := (norm_nonneg _).trans (hC (V (Fin.castLE h.le ⟨0, hk⟩)))
    rwa [hone, mul_one] at this
  have hon : Orthonormal 𝕜 fun a : Fin k => V (Fin.castLE h.le a) := by
    rw [orthonormal_iff_ite]
    intro a b
    rw [h.ortho _ _ a.isLt b.isLt]
    exact if_congr ⟨fun e => Fin.castLE_injective h.le e, fun e => by rw [e]⟩ rfl rfl
  unfold frob
  rw [Finset.sum_comm]
  have hcol : ∀ b : Fin k, ∑ a, ‖leading k H a b‖ ^ 2 ≤ C ^ 2 := by
    intro b
    have := hon.sum_inner_products_le (A (V (Fin.castLE h.le b))) (s := Finset.univ)
    have h2 : ‖A (V (Fin.castLE h.le b))‖ ^ 2 ≤ C ^ 2 := by
      have := hC (V (Fin.castLE h.le b))
      rw [hone, mul_one] at this
      exact pow_le_pow_left₀ (norm_nonneg _) this 2
    refine le_trans (le_of_eq ?_) (this.trans h2)
    refine Finset.sum_congr rfl fun a _ => ?_
    rw [h.comp _ _ a.isLt b.isLt, leading_eq h.le]
  refine (Real.sqrt_le_sqrt (Finset.sum_le_sum fun b _ => hcol b)).trans (le_of_eq ?_)
  rw [Finset.sum_const, Finset.card_univ, Fintype.card_fin, nsmul_eq_mul, Real.sqrt_mul (Nat.cast_nonneg k),
    Real.sqrt_sq hC0]

/-- If the restarts have converged, all pairs but those with the value zero are eigenpairs up to the tolerance. -/
theorem C74_converged {K : Kernels 𝕜 m} (hK : K.HermOK) {numeig : Nat} {T : Kernels 𝕜 numeig} (hT : T.HermOK) {eps : ℝ}
    (he : 0 ≤ eps) (hn0 : 0 < numeig) {A : Vec 𝕜 n →ₗ[𝕜] Vec 𝕜 n} (hA : A.IsSymmetric) {C : ℝ} (hC : ∀ x, ‖A x‖ ≤ C * ‖x‖) {init : Vec 𝕜 n}
    {w : Which} {tol : ℝ} (h0 : 0 ≤ tol) {maxiter : Nat} (ht : LNoTie K T eps A init w tol maxiter)
    (hc : (eigshState K T eps A init w tol (maxiter - 1) : LOuter 𝕜 n m).converged = true)
    {l : List (𝕜 × Option (Vec 𝕜 n))} {k : Nat} (h : eigsh K T eps A init w tol maxiter = .ok (l, k)) :
    k = numeig ∧ ∀ p ∈ l, (p.1 = 0 ∧ k < m) ∨ ∃ v, p.2 = some v ∧ ‖v‖ = 1 ∧
      ‖A v - p.1 • v‖ ≤ Real.sqrt numeig * max (eps * (Real.sqrt numeig * C)) (‖p.1‖ * tol) := by
  obtain ⟨hw, hn, hnn, hmn, hk, hl⟩ := eigsh_ok h
  obtain ⟨r, hf⟩ := eigsh_final hK.qr hA hn0 hn hmn h0 ht
  generalize (eigshState K T eps A init w tol (maxiter - 1) : LOuter 𝕜 n m) = o at *
  obtain ⟨hkn, hconv⟩ := hf.conv hc
  rw [hkn] at hk
  replace hk := hk.symm
  subst hk
  refine ⟨rfl, fun p hp => ?_⟩
  rw [hl] at hp
  have hfact := hf.fact
  rw [hkn] at hfact
  have hcomp := hfact.comp
  have hherm := hcomp.cut_herm hA
  rcases hcomp.finish_mask (hK.eig _ hherm) hp with hz | ⟨u, v, hu, hout, hx, hv, hp2, hv1, hvA⟩
  · exact .inl hz
  · refine .inr ⟨v, hp2, hv1, ?_⟩
    have hpos : 0 < ‖comb (mask numeig o.V) u‖ := norm_pos_iff.mpr hx
    rw [hv, map_smul, smul_comm, ← smul_sub, norm_smul]
    have e : ‖((1 / ‖comb (mask numeig o.V) u‖ : ℝ) : 𝕜)‖ = 1 / ‖comb (mask numeig o.V) u‖ := by simp
    rw [e, one_div, inv_mul_le_iff₀ hpos, hfact.residual_eq hu hn0 (by omega), norm_smul, mul_comm]
    have hlead : (leading numeig (tri o.al o.be)).IsHermitian := by
      ext a b
      rw [Matrix.conjTranspose_apply, leading_eq hn, leading_eq hn]
      exact hcomp.herm hA a.isLt b.isLt
    have ht' : leading numeig (tri o.al o.be) *ᵥ (fun a => u (Fin.castLE hn a)) = p.1 • fun a => u (Fin.castLE hn a) := by
      funext a
      have := congrFun hu (Fin.castLE hn a)
      rw [Pi.smul_apply] at this ⊢
      rw [← this]
      show ∑ b, leading numeig (tri o.al o.be) a b * u (Fin.castLE hn b) =
        ∑ b, cut numeig (tri o.al o.be) (Fin.castLE hn a) b * u b
      rw [sum_castLE hn]
      · refine Finset.sum_congr rfl fun b _ => ?_
        rw [leading_eq hn, cut_in]
        · exact a.isLt
        · exact b.isLt
      · intro b hb
        rw [hout b hb, mul_zero]
    have hbound := eig_entry (hT.unitary _ hlead) (hT.eig _ hlead).vec (β := ‖r‖)
      (M := max (eps * (Real.sqrt numeig * C)) (‖p.1‖ * tol)) ⟨numeig - 1, by omega⟩ (fun j hj => ?_) ht' (norm_nonneg _)
    · rw [hcomp.norm_comb u]
      refine hbound.trans (le_of_eq ?_)
      ring
    · have := hconv j
      rw [← hf.norm] at this
      have e2 : readEntry (T.eig (leading numeig (tri o.al o.be))).2 (numeig - 1) j =
          (T.eig (leading numeig (tri o.al o.be))).2 ⟨numeig - 1, by omega⟩ j := by
        unfold readEntry
        rw [dif_pos hn0]
        exact congrArg₂ (T.eig (leading numeig (tri o.al o.be))).2 (Fin.ext (min_self _))
          (Fin.ext (show min j.val (numeig - 1) = j.val by omega))
      rw [e2, hj] at this
      exact this.le.trans (max_le_max (mul_le_mul_of_nonneg_left (hcomp.frob_le hC) he) (le_refl _))

end

end TN.Krylov
