import Verif.ArnoldiRestart
import Mathlib.Analysis.InnerProductSpace.PiL2
import Mathlib.LinearAlgebra.Charpoly.ToMatrix
import Mathlib.LinearAlgebra.Matrix.Block
import Mathlib.LinearAlgebra.Matrix.ToLinearEquiv
import Mathlib.LinearAlgebra.Matrix.Charpoly.Coeff

/-!
# Eigenpairs of the cut matrix and Ritz pairs
-/

set_option linter.unusedSectionVars false

namespace TN.Krylov

noncomputable section

open Classical Matrix

variable {𝕜 : Type} [RCLike 𝕜] {n m : Nat}

/-- What is assumed of `jax.numpy.linalg.eig` of the matrix `M`: eigenvectors that are not zero, and the eigenvalues
with their multiplicities. -/
structure Kernels.EigOK (K : Kernels 𝕜 m) (M : Mat 𝕜 m) : Prop where
  vec : ∀ j, M *ᵥ (fun a => (K.eig M).2 a j) = (K.eig M).1 j • fun a => (K.eig M).2 a j
  ne : ∀ j, (fun a => (K.eig M).2 a j) ≠ 0
  charpoly : M.charpoly = ∏ j, (Polynomial.X - Polynomial.C ((K.eig M).1 j))

/-- What is assumed of `argsort`: it lists all indices by non-increasing keys. -/
structure Kernels.SortOK (K : Kernels 𝕜 m) : Prop where
  bij : ∀ key, Function.Bijective (K.desc key)
  anti : ∀ (key : Fin m → ℝ) (i j : Fin m), i ≤ j → key (K.desc key j) ≤ key (K.desc key i)

theorem cut_in {H : Mat 𝕜 m} {k : Nat} {a b : Fin m} (ha : a.val < k) (hb : b.val < k) : cut k H a b = H a b :=
  if_pos ⟨ha, hb⟩

theorem cut_row {H : Mat 𝕜 m} {k : Nat} {a b : Fin m} (ha : k ≤ a.val) : cut k H a b = 0 := if_neg (by omega)

theorem cut_col {H : Mat 𝕜 m} {k : Nat} {a b : Fin m} (hb : k ≤ b.val) : cut k H a b = 0 := if_neg (by omega)

/-- The vector with the components `u` in the rows of `V`. -/
def comb (V : Fin m → Vec 𝕜 n) (u : Fin m → 𝕜) : Vec 𝕜 n := ∑ l, u l • V l

/-- `V` is orthonormal and `H` is the compression of `A` to its span. -/
structure Comp (A : Vec 𝕜 n →ₗ[𝕜] Vec 𝕜 n) (V : Fin m → Vec 𝕜 n) (H : Mat 𝕜 m) (k : Nat) : Prop where
  le : k ≤ m
  ortho : Ortho V k
  zero : ∀ a : Fin m, k ≤ a.val → V a = 0
  comp : ∀ a j : Fin m, a.val < k → j.val < k → inner 𝕜 (V a) (A (V j)) = H a j

theorem Fact.comp {A : Vec 𝕜 n →ₗ[𝕜] Vec 𝕜 n} {V : Fin m → Vec 𝕜 n} {H : Mat 𝕜 m} {k : Nat} {r : Vec 𝕜 n}
    (h : Fact A V H k r) : Comp A V H k := by
  refine ⟨h.le, h.ortho, h.zero, fun a j ha hj => ?_⟩
  rw [h.rel j hj, inner_add_right, h.ortho.inner_sum h.zero ha]
  split_ifs
  · rw [h.perp a ha, add_zero]
  · rw [inner_zero_right, add_zero]

theorem Comp.inner_comb {A : Vec 𝕜 n →ₗ[𝕜] Vec 𝕜 n} {V : Fin m → Vec 𝕜 n} {H : Mat 𝕜 m} {k : Nat} (h : Comp A V H k)
    (u : Fin m → 𝕜) {a : Fin m} (ha : a.val < k) : inner 𝕜 (V a) (comb V u) = u a := h.ortho.inner_sum h.zero ha u

theorem Comp.comb_eq_zero {A : Vec 𝕜 n →ₗ[𝕜] Vec 𝕜 n} {V : Fin m → Vec 𝕜 n} {H : Mat 𝕜 m} {k : Nat} (h : Comp A V H k)
    (u : Fin m → 𝕜) : comb V u = 0 ↔ ∀ a : Fin m, a.val < k → u a = 0 := by
  constructor
  · intro hx a ha
    rw [← h.inner_comb u ha, hx, inner_zero_right]
  · intro hu
    refine Finset.sum_eq_zero fun l _ => ?_
    by_cases hl : l.val < k
    · rw [hu l hl, zero_smul]
    · rw [h.zero l (by omega), smul_zero]

/-- The compression of `A` applied to a vector of the span. -/
theorem Comp.inner_map {A : Vec 𝕜 n →ₗ[𝕜] Vec 𝕜 n} {V : Fin m → Vec 𝕜 n} {H : Mat 𝕜 m} {k : Nat} (h : Comp A V H k)
    (u : Fin m → 𝕜) {a : Fin m} (ha : a.val < k) : inner 𝕜 (V a) (A (comb V u)) = (cut k H *ᵥ u) a := by
  rw [comb, map_sum, inner_sum]
  show _ = ∑ j, cut k H a j * u j
  refine Finset.sum_congr rfl fun j _ => ?_
  rw [map_smul, inner_smul_right]
  by_cases hj : j.val < k
  · rw [h.comp a j ha hj, cut_in ha hj, mul_comm]
  · rw [h.zero j (by omega), map_zero, inner_zero_right, mul_zero, cut_col (by omega), zero_mul]

/-- An eigenvector of the cut matrix gives a vector whose image is the multiple of itself, up to something orthogonal to all
the Krylov vectors. -/
theorem Comp.ritz {A : Vec 𝕜 n →ₗ[𝕜] Vec 𝕜 n} {V : Fin m → Vec 𝕜 n} {H : Mat 𝕜 m} {k : Nat} (h : Comp A V H k)
    {u : Fin m → 𝕜} {z : 𝕜} (hu : cut k H *ᵥ u = z • u) {a : Fin m} (ha : a.val < k) :
    inner 𝕜 (V a) (A (comb V u) - z • comb V u) = 0 := by
  rw [inner_sub_right, h.inner_map u ha, inner_smul_right, h.inner_comb u ha, hu]
  simp

theorem Comp.inner_self {A : Vec 𝕜 n →ₗ[𝕜] Vec 𝕜 n} {V : Fin m → Vec 𝕜 n} {H : Mat 𝕜 m} {k : Nat} (h : Comp A V H k)
    {u : Fin m → 𝕜} {z : 𝕜} (hu : cut k H *ᵥ u = z • u) :
    inner 𝕜 (comb V u) (A (comb V u)) = z * inner 𝕜 (comb V u) (comb V u) := by
  have h0 : inner 𝕜 (comb V u) (A (comb V u) - z • comb V u) = 0 := by
    conv_lhs => rw [comb, sum_inner]
    refine Finset.sum_eq_zero fun l _ => ?_
    rw [inner_smul_left]
    by_cases hl : l.val < k
    · have := h.ritz hu hl
      rw [comb] at this
      rw [this, mul_zero]
    · rw [h.zero l (by omega), inner_zero_left, mul_zero]
  rw [inner_sub_right, inner_smul_right, sub_eq_zero] at h0
  exact h0

/-- The residual of a Ritz pair. -/
theorem Fact.residual_eq {A : Vec 𝕜 n →ₗ[𝕜] Vec 𝕜 n} {V : Fin m → Vec 𝕜 n} {H : Mat 𝕜 m} {k : Nat} {r : Vec 𝕜 n}
    (h : Fact A V H k r) {u : Fin m → 𝕜} {z : 𝕜} (hu : cut k H *ᵥ u = z • u) (hk : 0 < k) (hkm : k - 1 < m) :
    A (comb V u) - z • comb V u = u ⟨k - 1, hkm⟩ • r := by
  have e1 : A (comb V u) = (∑ l, (cut k H *ᵥ u) l • V l) + u ⟨k - 1, hkm⟩ • r := by
    rw [comb, map_sum]
    have e : ∀ j : Fin m, A (u j • V j) = (∑ l, (cut k H l j * u j) • V l) +
        if j = ⟨k - 1, hkm⟩ then u ⟨k - 1, hkm⟩ • r else 0 := by
      intro j
      rw [map_smul]
      by_cases hj : j.val < k
      · rw [h.rel j hj, smul_add, Finset.smul_sum]
        congr 1
        · refine Finset.sum_congr rfl fun l _ => ?_
          rw [smul_smul]
          by_cases hl : l.val < k
          · rw [cut, if_pos ⟨hl, hj⟩, mul_comm]
          · rw [h.zero l (by omega), smul_zero, smul_zero]
        · by_cases hjk : j.val + 1 = k
          · have ej : j = ⟨k - 1, hkm⟩ := Fin.ext (by show j.val = k - 1; omega)
            rw [if_pos hjk, if_pos ej, ej]
          · rw [if_neg hjk, if_neg (fun ej => hjk (by rw [ej]; show k - 1 + 1 = k; omega)), smul_zero]
      · rw [h.zero j (by omega), map_zero, smul_zero, if_neg (fun ej => hj (by rw [ej]; show k - 1 < k; omega)), add_zero]
        refine (Finset.sum_eq_zero fun l _ => ?_).symm
        rw [cut, if_neg (by omega), zero_mul, zero_smul]
    rw [Finset.sum_congr rfl fun j _ => e j, Finset.sum_add_distrib, Finset.sum_comm, Finset.sum_ite_eq' Finset.univ]
    simp only [Finset.mem_univ, if_true]
    congr 1
    exact Finset.sum_congr rfl fun l _ => by rw [← Finset.sum_smul]; rfl
  rw [e1, hu, comb, Finset.smul_sum]
  have : ∀ l : Fin m, (z • u) l • V l = z • u l • V l := fun l => by rw [Pi.smul_apply, smul_eq_mul, mul_smul]
  rw [Finset.sum_congr rfl fun l _ => this l]
  abel

/-- The residual of a Ritz pair is a multiple of the residual of the factorisation. -/
theorem Fact.residual {A : Vec 𝕜 n →ₗ[𝕜] Vec 𝕜 n} {V : Fin m → Vec 𝕜 n} {H : Mat 𝕜 m} {k : Nat} {r : Vec 𝕜 n}
    (h : Fact A V H k r) {u : Fin m → 𝕜} {z : 𝕜} (hu : cut k H *ᵥ u = z • u) :
    ‖A (comb V u) - z • comb V u‖ ≤ ‖comb V u‖ * ‖r‖ := by
  have hc := h.comp
  rcases Nat.eq_zero_or_pos k with hk | hk
  · have : comb V u = 0 := (hc.comb_eq_zero u).2 fun a ha => by omega
    rw [this]; simp
  have hkm : k - 1 < m := by have := h.le; omega
  rw [h.residual_eq hu hk hkm, norm_smul]
  refine mul_le_mul_of_nonneg_right ?_ (norm_nonneg _)
  rw [← hc.inner_comb u (a := ⟨k - 1, hkm⟩) (by show k - 1 < k; omega)]
  refine (norm_inner_le_norm _ _).trans ?_
  have h1 : ‖V ⟨k - 1, hkm⟩‖ = 1 := by
    have := h.ortho ⟨k - 1, hkm⟩ ⟨k - 1, hkm⟩ (by show k - 1 < k; omega) (by show k - 1 < k; omega)
    rw [if_pos rfl, inner_self_eq_norm_sq_to_K] at this
    have h2 : ‖V ⟨k - 1, hkm⟩‖ ^ 2 = 1 := by exact_mod_cast this
    nlinarith [norm_nonneg (V ⟨k - 1, hkm⟩), h2, sq_nonneg (‖V ⟨k - 1, hkm⟩‖ - 1)]
  rw [h1, one_mul]

/-- If there are as many Krylov vectors as the dimension, Ritz pairs are eigenpairs. -/
theorem Comp.exact {A : Vec 𝕜 n →ₗ[𝕜] Vec 𝕜 n} {V : Fin n → Vec 𝕜 n} {H : Mat 𝕜 n} (h : Comp A V H n) :
    ∃ b : OrthonormalBasis (Fin n) 𝕜 (Vec 𝕜 n), (∀ a, b a = V a) := by
  have hon : Orthonormal 𝕜 V := by
    rw [orthonormal_iff_ite]
    exact fun a b => h.ortho a b a.isLt b.isLt
  have hr : Orthonormal 𝕜 ((Set.univ : Set (Fin n)).domRestrict V) := hon.comp _ Subtype.val_injective
  obtain ⟨b, hb⟩ := hr.exists_orthonormalBasis_extension_of_card_eq (by simp)
  exact ⟨b, fun a => hb a (Set.mem_univ a)⟩

theorem cut_full (H : Mat 𝕜 m) : cut m H = H := by
  funext a b
  rw [cut, if_pos ⟨a.isLt, b.isLt⟩]

theorem Comp.eigen {A : Vec 𝕜 n →ₗ[𝕜] Vec 𝕜 n} {V : Fin n → Vec 𝕜 n} {H : Mat 𝕜 n} (h : Comp A V H n)
    {u : Fin n → 𝕜} {z : 𝕜} (hu : cut n H *ᵥ u = z • u) : A (comb V u) = z • comb V u := by
  obtain ⟨b, hb⟩ := h.exact
  rw [← sub_eq_zero]
  apply b.repr.injective
  rw [map_zero]
  ext a
  rw [OrthonormalBasis.repr_apply_apply, hb, h.ritz hu a.isLt]
  rfl

theorem Comp.charpoly {A : Vec 𝕜 n →ₗ[𝕜] Vec 𝕜 n} {V : Fin n → Vec 𝕜 n} {H : Mat 𝕜 n} (h : Comp A V H n) :
    H.charpoly = A.charpoly := by
  obtain ⟨b, hb⟩ := h.exact
  rw [← LinearMap.charpoly_toMatrix A b.toBasis]
  congr 1
  ext a j
  rw [LinearMap.toMatrix_apply, OrthonormalBasis.coe_toBasis, OrthonormalBasis.coe_toBasis_repr_apply,
    OrthonormalBasis.repr_apply_apply, hb, hb, h.comp a j a.isLt j.isLt]

/-- The eigenvalues of the cut matrix that are zero are the ones outside of the cut, if the matrix within the cut is
injective. -/
theorem count_zero {K : Kernels 𝕜 m} {H : Mat 𝕜 m} {k : Nat} (hk : k ≤ m) (hE : K.EigOK (cut k H))
    (hinj : ∀ u : Fin m → 𝕜, (∀ a : Fin m, k ≤ a.val → u a = 0) → cut k H *ᵥ u = 0 → u = 0) :
    (Finset.univ.filter fun j => (K.eig (cut k H)).1 j = 0).card = m - k := by
  set p : Fin m → Prop := fun a => a.val < k with hp
  set M := cut k H with hM
  have hoff : ∀ i, ¬ p i → ∀ j, M i j = 0 := fun i hi j => if_neg (fun h => hi h.1)
  have hdet : M.charpoly = (toSquareBlockProp (charmatrix M) p).det * (toSquareBlockProp (charmatrix M) fun i => ¬ p i).det := by
    rw [Matrix.charpoly]
    refine Matrix.twoBlockTriangular_det _ p fun i hi j hj => ?_
    have hij : i ≠ j := fun e => hi (e ▸ hj)
    rw [charmatrix_apply_ne _ _ _ hij, hoff i hi j]; simp
  have h1 : toSquareBlockProp (charmatrix M) p = charmatrix (toSquareBlockProp M p) := by
    ext1 a b
    by_cases hab : a = b
    · subst hab; rw [charmatrix_apply_eq]; simp [toSquareBlockProp_def, charmatrix_apply_eq]
    · have : (a : Fin m) ≠ b := fun e => hab (Subtype.ext e)
      rw [charmatrix_apply_ne _ _ _ hab]
      simp [toSquareBlockProp_def, charmatrix_apply_ne _ _ _ this]
  have h2 : (toSquareBlockProp (charmatrix M) fun i => ¬ p i) = (Polynomial.X : Polynomial 𝕜) • 1 := by
    ext1 a b
    by_cases hab : a = b
    · subst hab; simp [toSquareBlockProp_def, charmatrix_apply_eq, hoff a a.2 a]
    · have : (a : Fin m) ≠ b := fun e => hab (Subtype.ext e)
      simp [toSquareBlockProp_def, charmatrix_apply_ne _ _ _ this, hoff a a.2 b, Matrix.one_apply_ne hab]
  have hcard : Fintype.card {i : Fin m // ¬ p i} = m - k := by
    rw [Fintype.card_subtype_compl, Fintype.card_fin]
    congr 1
    rw [Fintype.card_subtype]
    have : (Finset.univ.filter fun a : Fin m => p a) = Finset.univ.filter fun a : Fin m => a.val < k := rfl
    rw [this, Fin.card_filter_val_lt, min_eq_right hk]
  have hcp : M.charpoly = (toSquareBlockProp M p).charpoly * Polynomial.X ^ (m - k) := by
    rw [hdet, h1, h2, Matrix.det_smul, Matrix.det_one, mul_one, hcard]; rfl
  have hB : (toSquareBlockProp M p).charpoly.eval 0 ≠ 0 := by
    rw [Matrix.eval_charpoly]
    intro h0
    obtain ⟨v, hv, hv0⟩ := Matrix.exists_mulVec_eq_zero_iff.mpr h0
    apply hv
    let u : Fin m → 𝕜 := fun a => if h : p a then v ⟨a, h⟩ else 0
    have hu : u = 0 := by
      refine hinj u (fun a ha => dif_neg (by simp only [hp]; omega)) ?_
      funext a
      by_cases ha : p a
      · have := congrFun hv0 ⟨a, ha⟩
        simp only [map_zero, zero_sub, Matrix.neg_mulVec, Pi.neg_apply, Pi.zero_apply, neg_eq_zero] at this
        rw [Pi.zero_apply, ← this]
        have e1 : (M *ᵥ u) a = ∑ b, M a b * u b := rfl
        have e2 : (toSquareBlockProp M p *ᵥ v) ⟨a, ha⟩ = ∑ b : {i // p i}, M a b * v b := rfl
        rw [e1, e2, ← Fintype.sum_subtype_add_sum_subtype p]
        have z1 : ∑ b : {i // ¬ p i}, M a b * u b = 0 :=
          Finset.sum_eq_zero fun b _ => by simp only [u, dif_neg b.2, mul_zero]
        rw [z1, add_zero]
        exact Finset.sum_congr rfl fun b _ => by simp only [u, dif_pos b.2]
      · show ∑ b, M a b * u b = 0
        exact Finset.sum_eq_zero fun b _ => by rw [hoff a ha b, zero_mul]
    funext ⟨a, ha⟩
    have := congrFun hu a
    simp only [u, dif_pos ha] at this
    exact this
  have hroots : (Finset.univ.val.map (K.eig M).1) = (toSquareBlockProp M p).charpoly.roots + (m - k) • {0} := by
    have hne : (toSquareBlockProp M p).charpoly ≠ 0 := fun h => hB (by rw [h]; simp)
    rw [← Polynomial.roots_X_pow, ← Polynomial.roots_mul (mul_ne_zero hne (pow_ne_zero _ Polynomial.X_ne_zero)), ← hcp,
      hE.charpoly]
    have : ∏ j, (Polynomial.X - Polynomial.C ((K.eig M).1 j)) =
        ((Finset.univ.val.map (K.eig M).1).map fun a => Polynomial.X - Polynomial.C a).prod := by
      rw [Multiset.map_map]; rfl
    rw [this, Polynomial.roots_multiset_prod_X_sub_C]
  have hc := congrArg (Multiset.count 0) hroots
  rw [Multiset.count_add, Multiset.count_nsmul, Multiset.count_singleton_self, mul_one, Multiset.count_eq_zero.mpr
    (fun h => hB (Polynomial.isRoot_of_mem_roots h)), zero_add, Multiset.count_map] at hc
  rw [← hc]
  rw [Finset.card_def, Finset.filter_val]
  refine congrArg Multiset.card ?_
  exact Multiset.filter_congr fun x _ => eq_comm

end

end TN.Krylov
