import Verif.ArnoldiEigs
import Mathlib.Data.Fin.Tuple.Sort
import Mathlib.Analysis.Complex.Polynomial.Basic

/-!
# Kernels as assumed exist
-/

set_option linter.unusedSectionVars false

namespace TN.Krylov

noncomputable section

open Classical Matrix

variable {𝕜 : Type} [RCLike 𝕜] {n m : Nat}

/-- A column of a matrix as a vector. -/
def colVec (M : Mat 𝕜 m) (j : Fin m) : Vec 𝕜 m := WithLp.toLp 2 fun a => M a j

/-- A unit vector with entries in the first `k + 1` places that is orthogonal to `k` vectors. -/
theorem exists_unit_perp (q : Fin m → Vec 𝕜 m) {k : Nat} (hk : k < m) :
    ∃ x : Vec 𝕜 m, ‖x‖ = 1 ∧ (∀ a : Fin m, a.val < k → inner 𝕜 (q a) x = 0) ∧ ∀ a : Fin m, k < a.val → x a = 0 := by
  let emb : (Fin (k + 1) → 𝕜) →ₗ[𝕜] Vec 𝕜 m :=
    { toFun := fun c => WithLp.toLp 2 fun a => if h : a.val < k + 1 then c ⟨a, h⟩ else 0
      map_add' := fun c d => by ext a; simp only [PiLp.add_apply]; split_ifs <;> simp
      map_smul' := fun t c => by ext a; simp only [PiLp.smul_apply, RingHom.id_apply]; split_ifs <;> simp }
  let f : (Fin (k + 1) → 𝕜) →ₗ[𝕜] (Fin k → 𝕜) :=
    LinearMap.pi fun a => (innerSL 𝕜 (q ⟨a, by omega⟩)).toLinearMap ∘ₗ emb
  obtain ⟨c, hc, hc0⟩ := Submodule.exists_mem_ne_zero_of_ne_bot
    (LinearMap.ker_ne_bot_of_finrank_lt (f := f) (by simp))
  have hx0 : emb c ≠ 0 := by
    intro h
    apply hc0
    funext i
    have := congrArg (fun y : Vec 𝕜 m => y ⟨i, by omega⟩) h
    simp only [emb, LinearMap.coe_mk, AddHom.coe_mk, PiLp.zero_apply] at this
    rw [dif_pos i.isLt] at this
    exact this
  refine ⟨((1 / ‖emb c‖ : ℝ) : 𝕜) • emb c, norm_unit hx0, fun a ha => ?_, fun a ha => ?_⟩
  · have := congrFun (LinearMap.mem_ker.mp hc) ⟨a, ha⟩
    rw [inner_smul_right]
    have e : inner 𝕜 (q a) (emb c) = 0 := this
    rw [e, mul_zero]
  · rw [PiLp.smul_apply]
    have e : (emb c) a = 0 := dif_neg (by omega)
    rw [e, smul_zero]

/-- The first `k` columns of a QR decomposition. -/
theorem exists_cols (M : Mat 𝕜 m) : ∀ k ≤ m, ∃ q : Fin m → Vec 𝕜 m, Ortho q k ∧ (∀ a : Fin m, k ≤ a.val → q a = 0) ∧
    (∀ j : Fin m, j.val < k → colVec M j = ∑ l, (if l ≤ j then inner 𝕜 (q l) (colVec M j) else 0) • q l) ∧
    (Hess M → ∀ j : Fin m, j.val < k → ∀ a : Fin m, j.val + 1 < a.val → q j a = 0)
  | 0, _ => ⟨fun _ => 0, fun a b ha => absurd ha (by omega), fun _ _ => rfl, fun j hj => absurd hj (by omega),
      fun _ j hj => absurd hj (by omega)⟩
  | k + 1, hk => by
    obtain ⟨q, ho, hz, hc, hh⟩ := exists_cols M k (by omega)
    set c := colVec M ⟨k, hk⟩ with hcdef
    set w := (gsPass q c).1 with hw
    have hwp : ∀ a, inner 𝕜 (q a) w = 0 := fun a => gsPass_perp ho hz c a
    have hdec : c = (∑ l, inner 𝕜 (q l) c • q l) + w := by rw [hw, gsPass, add_sub_cancel]
    obtain ⟨x, hx1, hxp, hxw, hxh⟩ : ∃ x : Vec 𝕜 m, ‖x‖ = 1 ∧ (∀ a : Fin m, a.val < k → inner 𝕜 (q a) x = 0) ∧
        w = inner 𝕜 x c • x ∧ (Hess M → ∀ a : Fin m, k + 1 < a.val → x a = 0) := by
      by_cases hw0 : w = 0
      · obtain ⟨x, h1, h2, h3⟩ := exists_unit_perp q (show k < m by omega)
        refine ⟨x, h1, h2, ?_, fun _ a ha => h3 a (by omega)⟩
        rw [hw0, hdec, hw0, add_zero, inner_sum]
        rw [Finset.sum_eq_zero, zero_smul]
        intro l _
        rw [inner_smul_right]
        by_cases hl : l.val < k
        · rw [← inner_conj_symm x, h2 l hl, map_zero, mul_zero]
        · rw [hz l (by omega), inner_zero_right, mul_zero]
      · refine ⟨((1 / ‖w‖ : ℝ) : 𝕜) • w, norm_unit hw0, fun a _ => by rw [inner_smul_right, hwp, mul_zero], ?_, ?_⟩
        · have hwc : inner 𝕜 w c = (‖w‖ : 𝕜) ^ 2 := by
            rw [hdec, inner_add_right, inner_sum, Finset.sum_eq_zero, zero_add, inner_self_eq_norm_sq_to_K]
            intro l _
            rw [inner_smul_right, ← inner_conj_symm w, hwp, map_zero, mul_zero]
          have hne : (‖w‖ : 𝕜) ≠ 0 := by exact_mod_cast norm_ne_zero_iff.mpr hw0
          rw [inner_smul_left, hwc, smul_smul, RCLike.conj_ofReal]
          have : ((1 / ‖w‖ : ℝ) : 𝕜) * (‖w‖ : 𝕜) ^ 2 * ((1 / ‖w‖ : ℝ) : 𝕜) = 1 := by
            simp only [one_div, RCLike.ofReal_inv]
            field_simp
          rw [this, one_smul]
        · intro hM a ha
          rw [PiLp.smul_apply]
          have hwa : w a = 0 := by
            rw [hw, gsPass]
            simp only [PiLp.sub_apply, WithLp.ofLp_sum, Finset.sum_apply, PiLp.smul_apply]
            rw [Finset.sum_eq_zero, sub_zero]
            · exact hM a ⟨k, hk⟩ ha
            · intro l _
              by_cases hl : l.val < k
              · rw [hh hM l hl a (by omega), smul_zero]
              · rw [hz l (by omega)]; simp
          rw [hwa, smul_zero]
    refine ⟨setRow q k x, ho.setRow hx1 hxp, fun a ha => ?_, fun j hj => ?_, fun hM j hj a ha => ?_⟩
    · rw [setRow_other (by omega), hz a (by omega)]
    · rw [sum_setRow (fun a ha => hz a (by omega)), dif_pos (show k < m by omega)]
      by_cases hjk : j.val < k
      · conv_lhs => rw [hc j hjk]
        rw [if_neg (by show ¬ k ≤ j.val; omega), zero_smul, add_zero]
        refine Finset.sum_congr rfl fun l _ => ?_
        by_cases hl : l.val = k
        · rw [hz l (by omega), smul_zero, smul_zero]
        · rw [setRow_other hl]
      · have ej : j = ⟨k, hk⟩ := Fin.ext (by show j.val = k; omega)
        rw [ej, if_pos (le_refl _), setRow_self (show (⟨k, hk⟩ : Fin m).val = k from rfl), ← hxw]
        conv_lhs => rw [← hcdef, hdec]
        congr 1
        refine Finset.sum_congr rfl fun l _ => ?_
        by_cases hl : l.val < k
        · rw [if_pos (by show l.val ≤ k; omega), setRow_other (by omega)]
        · rw [hz l (by omega), smul_zero, smul_zero]
    · by_cases hjk : j.val < k
      · rw [setRow_other (by omega)]; exact hh hM j hjk a ha
      · rw [setRow_self (by omega)]; exact hxh hM a (by omega)

/-- Every matrix has a QR decomposition as assumed. -/
theorem exists_qr (M : Mat 𝕜 m) : ∃ Q R : Mat 𝕜 m, Q * R = M ∧ Qᴴ * Q = 1 ∧ (∀ a b : Fin m, b < a → R a b = 0) ∧
    (Hess M → Hess Q) := by
  obtain ⟨q, ho, -, hc, hh⟩ := exists_cols M m (le_refl _)
  refine ⟨Matrix.of fun a j => q j a, Matrix.of fun l j => if l ≤ j then inner 𝕜 (q l) (colVec M j) else 0, ?_, ?_, ?_, ?_⟩
  · ext a j
    rw [Matrix.mul_apply]
    simp only [Matrix.of_apply]
    have := congrArg (fun y : Vec 𝕜 m => y a) (hc j j.isLt)
    simp only [WithLp.ofLp_sum, Finset.sum_apply, PiLp.smul_apply] at this
    have e : M a j = (colVec M j) a := rfl
    rw [e, this]
    exact Finset.sum_congr rfl fun l _ => by rw [smul_eq_mul, mul_comm]
  · ext a b
    rw [Matrix.mul_apply, Matrix.one_apply, ← ho a b a.isLt b.isLt, PiLp.inner_apply]
    exact Finset.sum_congr rfl fun c _ => by
      rw [Matrix.conjTranspose_apply, RCLike.inner_apply, mul_comm]; rfl
  · intro a b hab
    exact if_neg (not_le.mpr hab)
  · intro hM a b hab
    exact hh hM b b.isLt a hab

/-- Every complex matrix has eigenvalues and eigenvectors as assumed. -/
theorem exists_eig (M : Mat ℂ m) : ∃ (z : Fin m → ℂ) (U : Mat ℂ m), (∀ j, M *ᵥ (fun a => U a j) = z j • fun a => U a j) ∧
    (∀ j, (fun a => U a j) ≠ 0) ∧ M.charpoly = ∏ j, (Polynomial.X - Polynomial.C (z j)) := by
  have hs : M.charpoly.Splits := IsAlgClosed.splits _
  have hcard : M.charpoly.roots.toList.length = m := by
    rw [Multiset.length_toList, ← hs.natDegree_eq_card_roots, Matrix.charpoly_natDegree_eq_dim, Fintype.card_fin]
  let z : Fin m → ℂ := fun j => M.charpoly.roots.toList[j.val]'(by rw [hcard]; exact j.isLt)
  have hroot : ∀ j, M.charpoly.IsRoot (z j) := fun j =>
    Polynomial.isRoot_of_mem_roots (Multiset.mem_toList.mp (List.getElem_mem _))
  have hvec : ∀ j, ∃ u : Fin m → ℂ, u ≠ 0 ∧ M *ᵥ u = z j • u := by
    intro j
    have h := hroot j
    rw [Polynomial.IsRoot, Matrix.eval_charpoly] at h
    obtain ⟨u, hu, h0⟩ := Matrix.exists_mulVec_eq_zero_iff.mpr h
    refine ⟨u, hu, ?_⟩
    rw [Matrix.sub_mulVec, sub_eq_zero] at h0
    rw [← h0]
    ext a
    simp [Matrix.scalar_apply, Matrix.mulVec_diagonal]
  choose u hu0 hu using hvec
  refine ⟨z, fun a j => u j a, hu, hu0, ?_⟩
  have e : (List.ofFn z) = M.charpoly.roots.toList := by
    refine List.ext_getElem (by simp [hcard]) fun i h1 h2 => ?_
    rw [List.getElem_ofFn]
  rw [← List.prod_ofFn]
  have : (List.ofFn fun j => Polynomial.X - Polynomial.C (z j)) = (List.ofFn z).map fun a => Polynomial.X - Polynomial.C a := by
    rw [List.map_ofFn]; rfl
  rw [this, e, ← Multiset.prod_coe, ← Multiset.map_coe, Multiset.coe_toList]
  exact hs.eq_prod_roots_of_monic (Matrix.charpoly_monic M)

/-- Kernels as assumed exist for every number of Krylov vectors. -/
theorem exists_kernels (m : Nat) : ∃ K : Kernels ℂ m, K.OK := by
  choose Q R h1 h2 h3 h4 using exists_qr (𝕜 := ℂ) (m := m)
  choose z U h5 h6 h7 using exists_eig (m := m)
  refine ⟨⟨fun M => (Q M, R M), fun M => (z M, U M), fun key => Tuple.sort fun j => -key j⟩, ⟨h1, h2, h3, h4⟩,
    fun M => ⟨h5 M, h6 M, h7 M⟩, ⟨fun key => (Tuple.sort fun j => -key j).bijective, fun key i j hij => ?_⟩⟩
  have := Tuple.monotone_sort (fun j => -key j) hij
  exact neg_le_neg_iff.mp this

end

end TN.Krylov
