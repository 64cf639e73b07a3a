import Verif.JaxLanczosInv
import Mathlib.Data.Fin.Tuple.Sort
import Mathlib.LinearAlgebra.Dimension.OrzechProperty

/-!
# Properties of `eigsh_lanczos` of the jax backend
-/

set_option linter.unusedSectionVars false

namespace TN.Krylov

noncomputable section

open Classical Matrix

variable {𝕜 : Type} [RCLike 𝕜] {n m : Nat}

/-- What is assumed of `jax.numpy.linalg.eigh`: the eigenvalues of a Hermitian matrix with their multiplicities in ascending
order and an orthonormal basis of eigenvectors. -/
structure EighOK (eigh : Mat 𝕜 m → (Fin m → 𝕜) × Mat 𝕜 m) : Prop where
  vec : ∀ M : Mat 𝕜 m, M.IsHermitian → ∀ j, M *ᵥ (fun a => (eigh M).2 a j) = (eigh M).1 j • fun a => (eigh M).2 a j
  unitary : ∀ M : Mat 𝕜 m, M.IsHermitian → (eigh M).2ᴴ * (eigh M).2 = 1
  charpoly : ∀ M : Mat 𝕜 m, M.IsHermitian → M.charpoly = ∏ j, (Polynomial.X - Polynomial.C ((eigh M).1 j))
  asc : ∀ M : Mat 𝕜 m, M.IsHermitian → ∀ i j : Fin m, i ≤ j → RCLike.re ((eigh M).1 i) ≤ RCLike.re ((eigh M).1 j)

/-! ### The loop -/

theorem JInv.loop {A : Vec 𝕜 n →ₗ[𝕜] Vec 𝕜 n} (hA : A.IsSymmetric) {reortho : Bool} {init : Vec 𝕜 n} {delta : ℝ} :
    ∀ (fuel : Nat) {s : JCarry 𝕜 n m} {k : Nat} {r : Vec 𝕜 n}, JInv A reortho init s k r → k + fuel = m →
      (jlLoop reortho A delta fuel s = none ∧ ∃ k' < m, ∃ s' : JCarry 𝕜 n m, JInv A reortho init s' k' 0) ∨
      ∃ s' k' r', jlLoop reortho A delta fuel s = some s' ∧ JInv A reortho init s' k' r' ∧ k ≤ k' ∧
        (k' < m → readAt s'.be k' ≤ delta)
  | 0, s, k, r, h, hk => .inr ⟨s, k, r, rfl, h, le_refl _, fun h => absurd h (by omega)⟩
  | fuel + 1, s, k, r, h, hk => by
    rw [jlLoop, h.i]
    by_cases hd : delta < readAt s.be (k + 1 - 1)
    · rw [if_pos ⟨by omega, hd⟩]
      by_cases hr : r = 0
      · subst hr
        rw [h.nan]
        exact .inl ⟨rfl, k, by omega, s, h⟩
      · obtain ⟨s', hb, -, -, -, h'⟩ := h.body hA (by omega) hr
        rw [hb]
        rcases JInv.loop hA fuel h' (by omega) with h1 | ⟨s2, k2, r2, h1, h2, h3, h4⟩
        · exact .inl h1
        · exact .inr ⟨s2, k2, r2, h1, h2, by omega, h4⟩
    · rw [if_neg (fun h => hd h.2)]
      exact .inr ⟨s, k, r, rfl, h, le_refl _, fun _ => not_lt.mp hd⟩

/-- Without and with reorthogonalisation the loop does the same. -/
theorem JInv.sim {A : Vec 𝕜 n →ₗ[𝕜] Vec 𝕜 n} (hA : A.IsSymmetric) {init : Vec 𝕜 n} {delta : ℝ} :
    ∀ (fuel : Nat) {s t : JCarry 𝕜 n m} {k : Nat} {r : Vec 𝕜 n}, JInv A true init s k r → JInv A false init t k r →
      s.al = t.al → s.be = t.be → mask k s.rows = mask k t.rows → k + fuel = m →
      (jlLoop true A delta fuel s = none ∧ jlLoop false A delta fuel t = none) ∨
      ∃ s' t' k', jlLoop true A delta fuel s = some s' ∧ jlLoop false A delta fuel t = some t' ∧ s'.i = k' + 1 ∧
        t'.i = k' + 1 ∧ k' ≤ m ∧ s'.al = t'.al ∧ s'.be = t'.be ∧ mask k' s'.rows = mask k' t'.rows
  | 0, s, t, k, r, h, g, e1, e2, e3, hk => .inr ⟨s, t, k, rfl, rfl, h.i, g.i, by omega, e1, e2, e3⟩
  | fuel + 1, s, t, k, r, h, g, e1, e2, e3, hk => by
    rw [jlLoop, jlLoop, h.i, g.i, ← e2]
    by_cases hd : delta < readAt s.be (k + 1 - 1)
    · rw [if_pos ⟨by omega, hd⟩, if_pos ⟨by omega, hd⟩]
      by_cases hr : r = 0
      · subst hr
        rw [h.nan, g.nan]
        exact .inl ⟨rfl, rfl⟩
      · obtain ⟨s', hb, h1, h2, h3, h'⟩ := h.body hA (by omega) hr
        obtain ⟨t', gb, g1, g2, g3, g'⟩ := g.body hA (by omega) hr
        rw [hb, gb]
        rw [← e3] at g' g1
        exact JInv.sim hA fuel h' g' (by rw [h2, g2, e1]) (by rw [h3, g3, e2]) (by rw [h1, g1]) (by omega)
    · rw [if_neg (fun h => hd h.2), if_neg (fun h => hd h.2)]
      exact .inr ⟨s, t, k, rfl, rfl, h.i, g.i, by omega, e1, e2, e3⟩

theorem JInv.cut_mat {A : Vec 𝕜 n →ₗ[𝕜] Vec 𝕜 n} {reortho : Bool} {init : Vec 𝕜 n} {s : JCarry 𝕜 n m} {k : Nat} {r : Vec 𝕜 n}
    (h : JInv A reortho init s k r) : cut k s.mat = s.mat := by
  funext a b
  by_cases hab : a.val < k ∧ b.val < k
  · exact cut_in hab.1 hab.2
  · rw [cut, if_neg hab]
    symm
    unfold JCarry.mat
    by_cases h1 : a.val = b.val
    · rw [tri_diag _ _ h1]; exact h.alz a (by omega)
    · by_cases h2 : a.val = b.val + 1
      · rw [tri_sub _ _ h2, h.bez _ (by show k < b.val + 2; omega), RCLike.ofReal_zero]
      · by_cases h3 : b.val = a.val + 1
        · rw [tri_sup _ _ h3, h.bez _ (by show k < a.val + 2; omega), RCLike.ofReal_zero, map_zero]
        · exact tri_far _ _ h1 h2 h3

/-! ### `eigh` as a kernel -/

/-- `eigh` with an order of the eigenvalues that leaves them where they are. -/
def asKernels (eigh : Mat 𝕜 m → (Fin m → 𝕜) × Mat 𝕜 m) : Kernels 𝕜 m where
  qr := fun M => (M, M)
  eig := eigh
  desc := fun key => if ∀ i j : Fin m, i ≤ j → key j ≤ key i then id else Tuple.sort fun j => -key j

theorem asKernels_sort (eigh : Mat 𝕜 m → (Fin m → 𝕜) × Mat 𝕜 m) : (asKernels eigh).SortOK := by
  refine ⟨fun key => ?_, fun key i j hij => ?_⟩
  · unfold asKernels
    simp only
    split_ifs
    · exact Function.bijective_id
    · exact (Tuple.sort fun j => -key j).bijective
  · unfold asKernels
    simp only
    split_ifs with h
    · exact h i j hij
    · have := Tuple.monotone_sort (fun j => -key j) hij
      exact neg_le_neg_iff.mp this

theorem EighOK.eigOK {eigh : Mat 𝕜 m → (Fin m → 𝕜) × Mat 𝕜 m} (h : EighOK eigh) {M : Mat 𝕜 m} (hM : M.IsHermitian) :
    (asKernels eigh).EigOK M := by
  refine ⟨h.vec M hM, fun j hj => ?_, h.charpoly M hM⟩
  have h1 := congrFun (congrFun (h.unitary M hM) j) j
  rw [Matrix.one_apply_eq, Matrix.mul_apply] at h1
  have h2 : ∀ a, (eigh M).2 a j = 0 := fun a => congrFun hj a
  rw [Finset.sum_eq_zero fun a _ => by rw [h2 a, mul_zero]] at h1
  exact zero_ne_one h1

theorem EighOK.order {eigh : Mat 𝕜 m → (Fin m → 𝕜) × Mat 𝕜 m} (h : EighOK eigh) {M : Mat 𝕜 m} (hM : M.IsHermitian) (j : Fin m) :
    Krylov.order (asKernels eigh) .SA (eigh M).1 j = j := by
  unfold Krylov.order asKernels
  simp only
  rw [if_pos]
  · rfl
  · intro i j hij
    exact neg_le_neg (h.asc M hM i j hij)

/-- What is returned, written as in `eigsh`. -/
theorem result_finish {eigh : Mat 𝕜 m → (Fin m → 𝕜) × Mat 𝕜 m} (hE : EighOK eigh) {s : JCarry 𝕜 n m} {k : Nat}
    (hc : cut k s.mat = s.mat) (hM : s.mat.IsHermitian) (numeig : Nat) :
    (List.ofFn fun j => ((eigh s.mat).1 j, getVector s.rows fun a => (eigh s.mat).2 a j)).take numeig =
      finish (asKernels eigh) .SA numeig s.rows s.mat k := by
  unfold finish
  simp only
  rw [hc]
  have : ∀ j, Krylov.order (asKernels eigh) .SA ((asKernels eigh).eig s.mat).1 j = j := hE.order hM
  simp only [this]
  rfl

/-- The smallest eigenvalue of a Hermitian matrix is a bound of its form. -/
theorem EighOK.rayleigh {eigh : Mat 𝕜 m → (Fin m → 𝕜) × Mat 𝕜 m} (h : EighOK eigh) {M : Mat 𝕜 m} (hM : M.IsHermitian)
    (hm : 0 < m) (u : Fin m → 𝕜) :
    RCLike.re ((eigh M).1 ⟨0, hm⟩) * ∑ a, ‖u a‖ ^ 2 ≤ RCLike.re (star u ⬝ᵥ (M *ᵥ u)) := by
  have hasc := h.asc M hM ⟨0, hm⟩
  have hU := h.unitary M hM
  have hvec := h.vec M hM
  generalize (eigh M).2 = U at *
  generalize (eigh M).1 = d at *
  have hU' : U * Uᴴ = 1 := mul_eq_one_comm.mp hU
  have hMU : M * U = U * Matrix.diagonal d := by
    ext a j
    have := congrFun (hvec j) a
    rw [Matrix.mul_diagonal, Matrix.mul_apply, mul_comm]
    exact this
  set c := Uᴴ *ᵥ u with hc
  have hu : u = U *ᵥ c := by rw [hc, Matrix.mulVec_mulVec, hU', Matrix.one_mulVec]
  have hstar : star u = star c ᵥ* Uᴴ := by
    conv_lhs => rw [hu]
    rw [Matrix.star_mulVec]
  have h1 : star u ⬝ᵥ (M *ᵥ u) = ∑ j, star (c j) * (d j * c j) := by
    rw [hstar, hu, Matrix.mulVec_mulVec, hMU, ← Matrix.dotProduct_mulVec, Matrix.mulVec_mulVec, ← Matrix.mul_assoc, hU,
      Matrix.one_mul]
    refine Finset.sum_congr rfl fun j _ => ?_
    rw [Matrix.mulVec_diagonal]; rfl
  have h2 : star u ⬝ᵥ u = ∑ j, star (c j) * c j := by
    rw [hstar, ← Matrix.dotProduct_mulVec]; rfl
  have h3 : ∀ z : 𝕜, star z * z = ((‖z‖ ^ 2 : ℝ) : 𝕜) := fun z => by
    rw [RCLike.star_def, RCLike.conj_mul]; simp
  have h4 : ∑ a, ‖u a‖ ^ 2 = ∑ j, ‖c j‖ ^ 2 := by
    have e1 : star u ⬝ᵥ u = ((∑ a, ‖u a‖ ^ 2 : ℝ) : 𝕜) := by
      rw [RCLike.ofReal_sum]; exact Finset.sum_congr rfl fun a _ => h3 (u a)
    have e2 : ∑ j, star (c j) * c j = ((∑ j, ‖c j‖ ^ 2 : ℝ) : 𝕜) := by
      rw [RCLike.ofReal_sum]; exact Finset.sum_congr rfl fun a _ => h3 (c a)
    rw [e1, e2] at h2
    exact RCLike.ofReal_injective h2
  rw [h1, h4, Finset.mul_sum, map_sum]
  refine Finset.sum_le_sum fun j _ => ?_
  have e : star (c j) * (d j * c j) = ((‖c j‖ ^ 2 : ℝ) : 𝕜) * d j := by rw [← h3]; ring
  rw [e, RCLike.re_ofReal_mul, mul_comm]
  exact mul_le_mul_of_nonneg_left (hasc j (Fin.le_def.mpr (Nat.zero_le _))) (by positivity)

/-! ### What is returned -/

theorem eigshLanczos_ok {eigh : Mat 𝕜 m → (Fin m → 𝕜) × Mat 𝕜 m} {A : Vec 𝕜 n →ₗ[𝕜] Vec 𝕜 n} (hA : A.IsSymmetric)
    {init : Vec 𝕜 n} {numeig : Nat} {delta : ℝ} {reortho : Bool} {l : List (𝕜 × Option (Vec 𝕜 n))} {k : Nat}
    (h : eigshLanczos eigh A init numeig delta reortho = .ok (some (l, k + 1))) :
    numeig ≤ m ∧ ∃ (s : JCarry 𝕜 n m) (r : Vec 𝕜 n), JInv A reortho init s k r ∧
      l = (List.ofFn fun j => ((eigh s.mat).1 j, getVector s.rows fun a => (eigh s.mat).2 a j)).take numeig := by
  unfold eigshLanczos at h
  split_ifs at h with h1 h2
  injection h with h
  refine ⟨by omega, ?_⟩
  rcases (JInv.init (m := m) A reortho init).loop hA (delta := delta) m (by omega) with ⟨h3, -⟩ | ⟨s, k', r, h3, h4, -, -⟩
  · rw [h3] at h; cases h
  · rw [h3] at h
    injection h with h
    injection h with e1 e2
    have : k' = k := by have := h4.i; omega
    subst this
    exact ⟨s, r, h4, e1.symm⟩

theorem JInv.herm {A : Vec 𝕜 n →ₗ[𝕜] Vec 𝕜 n} (hA : A.IsSymmetric) {reortho : Bool} {init : Vec 𝕜 n} {s : JCarry 𝕜 n m} {k : Nat}
    {r : Vec 𝕜 n} (h : JInv A reortho init s k r) : s.mat.IsHermitian := by
  have := h.fact.comp.cut_herm hA
  rwa [h.cut_mat] at this

/-- `eigsh_lanczos` raises a ValueError exactly for too few Krylov vectors and for several eigenvalues without
reorthogonalisation. -/
theorem C75_errors (eigh : Mat 𝕜 m → (Fin m → 𝕜) × Mat 𝕜 m) (A : Vec 𝕜 n → Vec 𝕜 n) (init : Vec 𝕜 n) (numeig : Nat) (delta : ℝ)
    (reortho : Bool) : (eigshLanczos eigh A init numeig delta reortho = .error .valueError ↔
      m < numeig ∨ (1 < numeig ∧ reortho = false)) ∧
    ∀ e, eigshLanczos eigh A init numeig delta reortho = .error e → e = .valueError := by
  unfold eigshLanczos
  split_ifs with h1 h2
  · simp [h1]
  · simp [h2]
  · refine ⟨⟨fun h => ?_, fun h => ?_⟩, fun e h => ?_⟩
    · exact h.elim
    · rcases h with h | h
      · exact absurd h h1
      · exact absurd h h2
    · exact h.elim

/-- What `eigsh_lanczos` returns for a Hermitian operator if it is not NaN: `numeig` pairs by increasing values.  Each of them
is a unit vector `v` of the Krylov space and a value `z` such that `A v - z v` is orthogonal to the Krylov space, or a zero if
the iteration stopped early.  If there are as many vectors as the dimension, `v` is an eigenvector. -/
theorem C75_pairs_partial {eigh : Mat 𝕜 m → (Fin m → 𝕜) × Mat 𝕜 m} (hE : EighOK eigh) {A : Vec 𝕜 n →ₗ[𝕜] Vec 𝕜 n}
    (hA : A.IsSymmetric) {init : Vec 𝕜 n} {numeig : Nat} {delta : ℝ} {reortho : Bool} {l : List (𝕜 × Option (Vec 𝕜 n))} {k : Nat}
    (h : eigshLanczos eigh A init numeig delta reortho = .ok (some (l, k + 1))) :
    l.length = numeig ∧ (l.map fun p => RCLike.re p.1).Pairwise (· ≤ ·) ∧
    ∀ p ∈ l, (p.1 = 0 ∧ k < m) ∨ ∃ v, p.2 = some v ∧ ‖v‖ = 1 ∧ v ∈ krylov A init k ∧ inner 𝕜 v (A v) = p.1 ∧
      (∀ x ∈ krylov A init k, inner 𝕜 x (A v - p.1 • v) = 0) ∧ (k = n → A v = p.1 • v) := by
  obtain ⟨hn, s, r, hs, hl⟩ := eigshLanczos_ok hA h
  have hM := hs.herm hA
  rw [result_finish hE hs.cut_mat hM] at hl
  refine ⟨by rw [hl]; exact finish_length _ _ hn _ _ _, ?_, ?_⟩
  · have := finish_sorted (asKernels_sort eigh) .SA numeig s.rows s.mat k
    rw [← hl] at this
    rw [List.pairwise_map] at this ⊢
    exact this.imp fun h => neg_le_neg_iff.mp h
  · intro p hp
    rw [hl] at hp
    have hcomp := hs.fact.comp
    have hEig : (asKernels eigh).EigOK (cut k s.mat) := by rw [hs.cut_mat]; exact hE.eigOK hM
    rcases hcomp.finish_mask hEig hp with hz | ⟨u, v, hu, -, hx, hv, hp2, hv1, hvA⟩
    · exact .inl hz
    · have hmem : v ∈ krylov A init k := by
        rw [hv, ← hs.span]
        exact Submodule.smul_mem _ _ (Submodule.sum_mem _ fun a _ => Submodule.smul_mem _ _ (Submodule.subset_span ⟨a, rfl⟩))
      have hres : A v - p.1 • v = ((1 / ‖comb (mask k s.rows) u‖ : ℝ) : 𝕜) •
          (A (comb (mask k s.rows) u) - p.1 • comb (mask k s.rows) u) := by
        rw [hv, map_smul, smul_comm p.1, ← smul_sub]
      refine .inr ⟨v, hp2, hv1, hmem, hvA, fun x hx => ?_, fun hkn => ?_⟩
      · rw [← hs.span, Submodule.mem_span_range_iff_exists_fun] at hx
        obtain ⟨c, rfl⟩ := hx
        rw [sum_inner]
        refine Finset.sum_eq_zero fun a _ => ?_
        rw [inner_smul_left, hres, inner_smul_right]
        by_cases ha : a.val < k
        · rw [hcomp.ritz hu ha, mul_zero, mul_zero]
        · rw [mask_ge (by omega), inner_zero_left, mul_zero, mul_zero]
      · subst hkn
        have h1 := hs.fact.residual hu
        rw [hs.fact.residual_zero, norm_zero, mul_zero] at h1
        have h2 := norm_le_zero_iff.mp h1
        rw [h2, smul_zero] at hres
        exact sub_eq_zero.mp hres

/-- The smallest value that is returned is not above the mean value of the operator in any vector of the Krylov space, in
particular in the initial state; if the iteration did not stop early it is the smallest one of these mean values. -/
theorem C75_variational {eigh : Mat 𝕜 m → (Fin m → 𝕜) × Mat 𝕜 m} (hE : EighOK eigh) {A : Vec 𝕜 n →ₗ[𝕜] Vec 𝕜 n}
    (hA : A.IsSymmetric) {init : Vec 𝕜 n} {numeig : Nat} (h0 : 0 < numeig) {delta : ℝ} {reortho : Bool}
    {l : List (𝕜 × Option (Vec 𝕜 n))} {k : Nat}
    (h : eigshLanczos eigh A init numeig delta reortho = .ok (some (l, k + 1))) :
    ∃ p, l[0]? = some p ∧ (∀ x ∈ krylov A init k, RCLike.re p.1 * ‖x‖ ^ 2 ≤ RCLike.re (inner 𝕜 x (A x))) ∧
      (k = m → ∃ v ∈ krylov A init k, p.2 = some v ∧ ‖v‖ = 1 ∧ inner 𝕜 v (A v) = p.1) := by
  have hp := C75_pairs_partial hE hA h
  obtain ⟨hn, s, r, hs, hl⟩ := eigshLanczos_ok hA h
  have hM := hs.herm hA
  have hm : 0 < m := by omega
  have hget : l[0]? = some ((eigh s.mat).1 ⟨0, hm⟩, getVector s.rows fun a => (eigh s.mat).2 a ⟨0, hm⟩) := by
    rw [hl, List.getElem?_take_of_lt h0, List.getElem?_ofFn, dif_pos hm]
  refine ⟨_, hget, fun x hx => ?_, fun hk => ?_⟩
  · rw [← hs.span, Submodule.mem_span_range_iff_exists_fun] at hx
    obtain ⟨c, rfl⟩ := hx
    set u : Fin m → 𝕜 := fun a => if a.val < k then c a else 0 with hu
    have hx : ∑ a, c a • mask k s.rows a = comb (mask k s.rows) u := by
      refine Finset.sum_congr rfl fun a _ => ?_
      by_cases ha : a.val < k
      · rw [hu]; simp only [if_pos ha]
      · rw [mask_ge (by omega), smul_zero, smul_zero]
    have hcomp := hs.fact.comp
    have e1 : ∀ y : Vec 𝕜 n, inner 𝕜 (comb (mask k s.rows) u) y = ∑ a, star (u a) * inner 𝕜 (mask k s.rows a) y := by
      intro y
      rw [comb, sum_inner]
      exact Finset.sum_congr rfl fun a _ => inner_smul_left _ _ _
    have hz : ∀ a : Fin m, ¬ a.val < k → u a = 0 := fun a ha => if_neg ha
    have e2 : inner 𝕜 (comb (mask k s.rows) u) (A (comb (mask k s.rows) u)) = star u ⬝ᵥ (s.mat *ᵥ u) := by
      rw [e1]
      refine Finset.sum_congr rfl fun a _ => ?_
      by_cases ha : a.val < k
      · rw [hcomp.inner_map u ha, hs.cut_mat]; rfl
      · rw [hz a ha, star_zero, zero_mul, Pi.star_apply, hz a ha, star_zero, zero_mul]
    have e3 : ‖comb (mask k s.rows) u‖ ^ 2 = ∑ a, ‖u a‖ ^ 2 := by
      have : inner 𝕜 (comb (mask k s.rows) u) (comb (mask k s.rows) u) = ((∑ a, ‖u a‖ ^ 2 : ℝ) : 𝕜) := by
        rw [e1, RCLike.ofReal_sum]
        refine Finset.sum_congr rfl fun a _ => ?_
        by_cases ha : a.val < k
        · rw [hcomp.inner_comb u ha, RCLike.star_def, RCLike.conj_mul]; simp
        · rw [hz a ha]; simp
      rw [inner_self_eq_norm_sq_to_K] at this
      exact_mod_cast this
    rw [hx, e2, e3]
    exact hE.rayleigh hM hm u
  · rcases hp.2.2 _ (List.mem_of_getElem? hget) with ⟨-, h1⟩ | ⟨v, h1, h2, h3, h4, -⟩
    · exact absurd h1 (by omega)
    · exact ⟨v, h3, h1, h2, h4⟩

/-- If the iteration finds as many vectors as the dimension, `eigsh_lanczos` returns the smallest ones among the eigenvalues of
the operator, with their multiplicities, and as many zeros as there are more Krylov vectors than dimensions. -/
theorem C75_exact {eigh : Mat 𝕜 m → (Fin m → 𝕜) × Mat 𝕜 m} (hE : EighOK eigh) {A : Vec 𝕜 n →ₗ[𝕜] Vec 𝕜 n}
    (hA : A.IsSymmetric) {init : Vec 𝕜 n} {numeig : Nat} {delta : ℝ} {reortho : Bool} {l : List (𝕜 × Option (Vec 𝕜 n))}
    (h : eigshLanczos eigh A init numeig delta reortho = .ok (some (l, n + 1))) :
    ∃ others : Multiset 𝕜, A.charpoly.roots + Multiset.replicate (m - n) 0 = (↑(l.map Prod.fst) : Multiset 𝕜) + others ∧
      ∀ p ∈ l, ∀ z ∈ others, RCLike.re p.1 ≤ RCLike.re z := by
  obtain ⟨hn, s, r, hs, hl⟩ := eigshLanczos_ok hA h
  have hM := hs.herm hA
  rw [result_finish hE hs.cut_mat hM] at hl
  have hEig : (asKernels eigh).EigOK (cut n s.mat) := by rw [hs.cut_mat]; exact hE.eigOK hM
  obtain ⟨others, h1, h2⟩ := finish_roots (asKernels_sort eigh) hEig .SA numeig s.rows
  refine ⟨others, ?_, fun p hp z hz => ?_⟩
  · rw [hl, ← h1, hs.fact.comp.charpoly_cut, Polynomial.roots_mul (mul_ne_zero (LinearMap.charpoly_monic A).ne_zero
      (pow_ne_zero _ Polynomial.X_ne_zero)), Polynomial.roots_X_pow, Multiset.nsmul_singleton]
  · rw [hl] at hp
    exact neg_le_neg_iff.mp (h2 p hp z hz)

/-- `reorthogonalize` makes no difference in exact arithmetic: the values are the same, and so are the vectors unless the
iteration stopped early. -/
theorem C75_reorthogonalize (eigh : Mat 𝕜 m → (Fin m → 𝕜) × Mat 𝕜 m) {A : Vec 𝕜 n →ₗ[𝕜] Vec 𝕜 n} (hA : A.IsSymmetric)
    (init : Vec 𝕜 n) {numeig : Nat} (hn : numeig ≤ m) (h1 : numeig ≤ 1) (delta : ℝ) :
    (eigshLanczos eigh A init numeig delta true = .ok none ∧ eigshLanczos eigh A init numeig delta false = .ok none) ∨
    ∃ l l' k, eigshLanczos eigh A init numeig delta true = .ok (some (l, k + 1)) ∧
      eigshLanczos eigh A init numeig delta false = .ok (some (l', k + 1)) ∧ l.map Prod.fst = l'.map Prod.fst ∧
      (k = m → l = l') := by
  unfold eigshLanczos
  rw [if_neg (by omega), if_neg (by omega), if_neg (by omega), if_neg (by omega)]
  rcases JInv.sim hA (delta := delta) m (JInv.init (m := m) A true init) (JInv.init (m := m) A false init) rfl rfl rfl (by omega) with
    ⟨e1, e2⟩ | ⟨s, t, k, e1, e2, hi, hi', hk, ha, hb, hr⟩
  · left
    rw [e1, e2]
    exact ⟨rfl, rfl⟩
  · right
    rw [e1, e2]
    have hmat : s.mat = t.mat := by unfold JCarry.mat; rw [ha, hb]
    refine ⟨_, _, k, congrArg Except.ok (congrArg some (Prod.ext rfl hi)), congrArg Except.ok (congrArg some (Prod.ext rfl hi')),
      ?_, fun hkm => ?_⟩
    · rw [List.map_take, List.map_take, List.map_ofFn, List.map_ofFn, ← hmat]; rfl
    · subst hkm
      rw [mask_full, mask_full] at hr
      rw [hr, hmat]

/-- All that is returned is NaN only if the vectors `init`, `A init`, ..., `A ^ (num_krylov_vecs - 1) init` are linearly
dependent. -/
theorem C75_nan (eigh : Mat 𝕜 m → (Fin m → 𝕜) × Mat 𝕜 m) {A : Vec 𝕜 n →ₗ[𝕜] Vec 𝕜 n} (hA : A.IsSymmetric)
    {init : Vec 𝕜 n} {numeig : Nat} {delta : ℝ} {reortho : Bool}
    (h : eigshLanczos eigh A init numeig delta reortho = .ok none) :
    ¬ LinearIndependent 𝕜 fun j : Fin m => (A ^ j.val) init := by
  unfold eigshLanczos at h
  split_ifs at h with h1 h2
  injection h with h
  rcases (JInv.init (m := m) A reortho init).loop hA (delta := delta) m (by omega) with ⟨-, k, hk, s, hs⟩ | ⟨s, k', r, h3, -⟩
  · intro hli
    obtain ⟨c, hc, hd⟩ := hs.dir
    have hmem : (A ^ k) init ∈ krylov A init k := by
      rw [zero_sub, Submodule.neg_mem_iff] at hd
      have := Submodule.smul_mem _ c⁻¹ hd
      rwa [smul_smul, inv_mul_cancel₀ hc, one_smul] at this
    have := hli.notMem_span_image (s := {j : Fin m | j.val < k}) (x := ⟨k, hk⟩) (fun e => absurd (show k < k from e) (lt_irrefl _))
    apply this
    have hsub : Set.range (fun j : Fin k => (A ^ j.val) init) = (fun j : Fin m => (A ^ j.val) init) '' {j : Fin m | j.val < k} := by
      ext x
      constructor
      · rintro ⟨j, rfl⟩
        exact ⟨⟨j.val, by omega⟩, j.isLt, rfl⟩
      · rintro ⟨j, hj, rfl⟩
        exact ⟨⟨j.val, hj⟩, rfl⟩
    rw [← hsub]
    exact hmem
  · rw [h3] at h
    cases h

/-- If these vectors are linearly dependent, which is so if there are more of them than dimensions, all that is returned is NaN,
or the iteration stopped early. -/
theorem C75_dependent (eigh : Mat 𝕜 m → (Fin m → 𝕜) × Mat 𝕜 m) {A : Vec 𝕜 n →ₗ[𝕜] Vec 𝕜 n} (hA : A.IsSymmetric)
    {init : Vec 𝕜 n} (hli : ¬ LinearIndependent 𝕜 fun j : Fin m => (A ^ j.val) init) {numeig : Nat} (hn : numeig ≤ m)
    {delta : ℝ} {reortho : Bool} (hr : numeig ≤ 1 ∨ reortho = true) :
    eigshLanczos eigh A init numeig delta reortho = .ok none ∨
      ∃ l, ∃ k < m, eigshLanczos eigh A init numeig delta reortho = .ok (some (l, k + 1)) := by
  have hcond : ¬ (1 < numeig ∧ reortho = false) := by
    rintro ⟨a, b⟩
    rcases hr with h | h
    · omega
    · rw [h] at b; exact Bool.noConfusion b
  unfold eigshLanczos
  rw [if_neg (by omega), if_neg hcond]
  rcases (JInv.init (m := m) A reortho init).loop hA (delta := delta) m (by omega) with ⟨h3, -⟩ | ⟨s, k, r, h3, h4, -, -⟩
  · left; rw [h3]; rfl
  · right
    rw [h3]
    refine ⟨_, k, ?_, congrArg Except.ok (congrArg some (Prod.ext rfl h4.i))⟩
    by_contra hk
    have hkm : k = m := by have := h4.fact.le; omega
    subst hkm
    apply hli
    rw [linearIndependent_iff_card_eq_finrank_span, Fintype.card_fin]
    have h5 : Set.finrank 𝕜 (Set.range fun j : Fin k => (A ^ j.val) init) = Module.finrank 𝕜 (krylov A init k) := rfl
    rw [h5, ← h4.span, mask_full]
    have ho : Orthonormal 𝕜 s.rows := by
      rw [orthonormal_iff_ite]
      have := h4.fact.ortho
      rw [mask_full] at this
      exact fun a b => this a b a.isLt b.isLt
    rw [finrank_span_eq_card ho.linearIndependent, Fintype.card_fin]

/-- If these vectors are linearly independent and `delta` is zero, the iteration does not stop early. -/
theorem C75_independent (eigh : Mat 𝕜 m → (Fin m → 𝕜) × Mat 𝕜 m) {A : Vec 𝕜 n →ₗ[𝕜] Vec 𝕜 n} (hA : A.IsSymmetric)
    {init : Vec 𝕜 n} (hli : LinearIndependent 𝕜 fun j : Fin m => (A ^ j.val) init) {numeig : Nat} (hn : numeig ≤ m)
    {delta : ℝ} (hd : delta ≤ 0) {reortho : Bool} (hr : numeig ≤ 1 ∨ reortho = true) :
    ∃ l, eigshLanczos eigh A init numeig delta reortho = .ok (some (l, m + 1)) := by
  have hnan := C75_nan (numeig := numeig) (delta := delta) (reortho := reortho) eigh hA (init := init)
  have hcond : ¬ (1 < numeig ∧ reortho = false) := by
    rintro ⟨a, b⟩
    rcases hr with h | h
    · omega
    · rw [h] at b; exact Bool.noConfusion b
  unfold eigshLanczos at hnan ⊢
  rw [if_neg (by omega), if_neg hcond] at hnan ⊢
  rcases (JInv.init (m := m) A reortho init).loop hA (delta := delta) m (by omega) with ⟨h3, -⟩ | ⟨s, k, r, h3, h4, -, h5⟩
  · rw [h3] at hnan
    exact absurd hli (hnan rfl)
  · rw [h3]
    have hk : k = m := by
      by_contra hk
      have hle := h4.fact.le
      have h6 := h5 (by omega)
      unfold readAt at h6
      rw [dif_pos (by omega)] at h6
      have h7 := h4.pos ⟨min k (m + 1 - 1), by omega⟩ (by show min k (m + 1 - 1) ≤ k; omega)
      linarith
    subst hk
    exact ⟨_, congrArg Except.ok (congrArg some (Prod.ext rfl h4.i))⟩

/-- An initial state that is not longer than `delta` ends the iteration after one vector. -/
theorem C75_short (eigh : Mat 𝕜 m → (Fin m → 𝕜) × Mat 𝕜 m) {A : Vec 𝕜 n →ₗ[𝕜] Vec 𝕜 n} (hA : A.IsSymmetric)
    {init : Vec 𝕜 n} (hi : init ≠ 0) {numeig : Nat} (hn : numeig ≤ m) (hm : 0 < m) {delta : ℝ} (hd : delta < 1)
    (hid : ‖init‖ ≤ delta) {reortho : Bool} (hr : numeig ≤ 1 ∨ reortho = true) :
    ∃ l, eigshLanczos eigh A init numeig delta reortho = .ok (some (l, 2)) := by
  have hcond : ¬ (1 < numeig ∧ reortho = false) := by
    rintro ⟨a, b⟩
    rcases hr with h | h
    · omega
    · rw [h] at b; exact Bool.noConfusion b
  unfold eigshLanczos
  rw [if_neg (by omega), if_neg hcond]
  suffices hs : ∃ s : JCarry 𝕜 n m, jlLoop reortho A delta m (jlInit init : JCarry 𝕜 n m) = some s ∧ s.i = 2 by
    obtain ⟨s, h1, h2⟩ := hs
    rw [h1]
    exact ⟨_, congrArg Except.ok (congrArg some (Prod.ext rfl h2))⟩
  have h0 := JInv.init (m := m) A reortho init
  obtain ⟨f, hf⟩ : ∃ f, m = f + 1 := ⟨m - 1, by omega⟩
  have hloop : ∀ f', f' = f + 1 → ∃ s : JCarry 𝕜 n m, jlLoop reortho A delta f' (jlInit init : JCarry 𝕜 n m) = some s ∧
      s.i = 2 := by
    rintro _ rfl
    have hbe : readAt (jlInit init : JCarry 𝕜 n m).be 0 = 1 := by
      unfold readAt jlInit setAt
      simp only
      rw [dif_pos (by omega), if_pos (by simp)]
    rw [jlLoop, h0.i, if_pos ⟨by omega, by rw [show 0 + 1 - 1 = 0 from rfl, hbe]; exact hd⟩]
    obtain ⟨s, hb, h1, h2, h3, hs⟩ := h0.body hA (by omega) hi
    rw [hb]
    have hbe1 : readAt s.be 1 = ‖init‖ := by
      unfold readAt
      rw [dif_pos (by omega), h3]
      exact if_pos (by show min 1 (m + 1 - 1) = 0 + 1; omega)
    refine ⟨s, ?_, hs.i⟩
    show jlLoop reortho A delta f s = some s
    cases f with
    | zero => rfl
    | succ g =>
      rw [jlLoop, hs.i, if_neg]
      rintro ⟨-, h⟩
      rw [show 0 + 1 + 1 - 1 = 1 from rfl, hbe1] at h
      linarith
  exact hloop m hf

/-- An initial state that is an eigenvector gives NaN. -/
theorem C75_eigenvector_false (eigh : Mat 𝕜 m → (Fin m → 𝕜) × Mat 𝕜 m) {A : Vec 𝕜 n →ₗ[𝕜] Vec 𝕜 n} (hA : A.IsSymmetric)
    {init : Vec 𝕜 n} {z : 𝕜} (hz : A init = z • init) {numeig : Nat} (hn : numeig ≤ m) (hm : 2 ≤ m)
    {delta : ℝ} (hd : delta < 1) (hi : delta < ‖init‖) {reortho : Bool} (hr : numeig ≤ 1 ∨ reortho = true) :
    eigshLanczos eigh A init numeig delta reortho = .ok none := by
  have hcond : ¬ (1 < numeig ∧ reortho = false) := by
    rintro ⟨a, b⟩
    rcases hr with h | h
    · omega
    · rw [h] at b; exact Bool.noConfusion b
  unfold eigshLanczos
  rw [if_neg (by omega), if_neg hcond]
  suffices hnone : jlLoop reortho A delta m (jlInit init : JCarry 𝕜 n m) = none by rw [hnone]; rfl
  have h0 := JInv.init (m := m) A reortho init
  obtain ⟨f, hf⟩ : ∃ f, m = f + 2 := ⟨m - 2, by omega⟩
  have hloop : ∀ f', f' = f + 2 → jlLoop reortho A delta f' (jlInit init : JCarry 𝕜 n m) = none := by
    rintro _ rfl
    have hbe : readAt (jlInit init : JCarry 𝕜 n m).be 0 = 1 := by
      unfold readAt jlInit setAt
      simp only
      rw [dif_pos (by omega), if_pos (by simp)]
    rw [jlLoop, h0.i, if_pos ⟨by omega, by rw [show 0 + 1 - 1 = 0 from rfl, hbe]; exact hd⟩]
    by_cases hi0 : init = 0
    · have h0' := h0
      rw [hi0] at h0' ⊢
      rw [h0'.nan]; rfl
    · obtain ⟨s, hb, h1, h2, h3, hs⟩ := h0.body hA (by omega) hi0
      have hzero : (gsPass (setRow (mask 0 (jlInit init : JCarry 𝕜 n m).rows) 0 (((1 / ‖init‖ : ℝ) : 𝕜) • init))
          (A (((1 / ‖init‖ : ℝ) : 𝕜) • init))).1 = 0 := by
        have hw : ‖((1 / ‖init‖ : ℝ) : 𝕜) • init‖ = 1 := norm_unit hi0
        have hAw : A (((1 / ‖init‖ : ℝ) : 𝕜) • init) = z • (((1 / ‖init‖ : ℝ) : 𝕜) • init) := by
          rw [map_smul, hz, smul_comm]
        generalize ((1 / ‖init‖ : ℝ) : 𝕜) • init = w at *
        unfold gsPass
        simp only
        rw [Finset.sum_eq_single (⟨0, by omega⟩ : Fin m), setRow_self (show (⟨0, by omega⟩ : Fin m).val = 0 from rfl), hAw, inner_smul_right, inner_self_eq_norm_sq_to_K, hw]
        · simp
        · intro b _ hb
          rw [setRow_other (fun e => hb (Fin.ext e)), mask_ge (Nat.zero_le _), smul_zero]
        · intro h; exact absurd (Finset.mem_univ _) h
      rw [hzero] at hs
      rw [hb]
      show jlLoop reortho A delta (f + 1) s = none
      have hbe1 : readAt s.be 1 = ‖init‖ := by
        unfold readAt
        rw [dif_pos (by omega), h3]
        exact if_pos (by show min 1 (m + 1 - 1) = 0 + 1; omega)
      rw [jlLoop, hs.i, if_pos ⟨by omega, by rw [show 0 + 1 + 1 - 1 = 1 from rfl, hbe1]; exact hi⟩, hs.nan]
      rfl
  exact hloop m hf

/-- For a positive definite operator, whenever the iteration stops early the first values that are returned are zeros, which
are no eigenvalues. -/
theorem C75_smallest_false {eigh : Mat 𝕜 m → (Fin m → 𝕜) × Mat 𝕜 m} (hE : EighOK eigh) {A : Vec 𝕜 n →ₗ[𝕜] Vec 𝕜 n}
    (hA : A.IsSymmetric) (hpos : ∀ v : Vec 𝕜 n, v ≠ 0 → 0 < RCLike.re (inner 𝕜 v (A v))) {init : Vec 𝕜 n} {numeig : Nat}
    {delta : ℝ} {reortho : Bool} {l : List (𝕜 × Option (Vec 𝕜 n))} {k : Nat}
    (h : eigshLanczos eigh A init numeig delta reortho = .ok (some (l, k + 1))) (i : Nat) (hi : i < numeig) (hik : i + k < m) :
    (∃ v, l[i]? = some (0, v)) ∧ ∀ v, v ≠ 0 → A v ≠ (0 : 𝕜) • v := by
  have hne : ∀ v : Vec 𝕜 n, v ≠ 0 → inner 𝕜 v (A v) ≠ 0 := by
    intro v hv e
    have := hpos v hv; rw [e] at this; simp at this
  refine ⟨?_, fun v hv e => hne v hv (by rw [e]; simp)⟩
  obtain ⟨hn, s, r, hs, hl⟩ := eigshLanczos_ok hA h
  have hM := hs.herm hA
  rw [result_finish hE hs.cut_mat hM] at hl
  have hcomp := hs.fact.comp
  have hEig : (asKernels eigh).EigOK (cut k s.mat) := by rw [hs.cut_mat]; exact hE.eigOK hM
  rw [hl, finish_getElem _ _ hn _ _ _ _ hi]
  have hc := count_zero hcomp.le hEig (hcomp.definite_inj hne)
  have hz := zeros_first (asKernels_sort eigh) .SA hc (fun j hj => by
    obtain ⟨hx, hv⟩ := hcomp.re_value (hEig.ne j) (hEig.vec j) hj
    have hx' : 0 < ‖comb (mask k s.rows) fun a => ((asKernels eigh).eig (cut k s.mat)).2 a j‖ ^ 2 := by
      have := norm_pos_iff.mpr hx; positivity
    have := hpos _ hx
    rw [hv] at this
    simp only [Which.key, map_zero, neg_zero]
    exact neg_lt_zero.mpr ((pos_iff_pos_of_mul_pos this).2 hx')) ⟨i, by omega⟩ (by show i < m - k; omega)
  exact ⟨_, by rw [hz]⟩

/-- With more Krylov vectors than dimensions, no run finds the smallest eigenvalue of a positive definite operator: all that is
returned is NaN, or the first value is zero. -/
theorem C75_dimension_false {eigh : Mat 𝕜 m → (Fin m → 𝕜) × Mat 𝕜 m} (hE : EighOK eigh) {A : Vec 𝕜 n →ₗ[𝕜] Vec 𝕜 n}
    (hA : A.IsSymmetric) (hpos : ∀ v : Vec 𝕜 n, v ≠ 0 → 0 < RCLike.re (inner 𝕜 v (A v))) (init : Vec 𝕜 n) {numeig : Nat}
    (h0 : 0 < numeig) (hn : numeig ≤ m) (hnm : n < m) (delta : ℝ) {reortho : Bool} (hr : numeig ≤ 1 ∨ reortho = true) :
    eigshLanczos eigh A init numeig delta reortho = .ok none ∨
      ∃ l k v, eigshLanczos eigh A init numeig delta reortho = .ok (some (l, k)) ∧ l[0]? = some (0, v) := by
  have hli : ¬ LinearIndependent 𝕜 fun j : Fin m => (A ^ j.val) init := by
    intro hli
    have := hli.fintype_card_le_finrank
    rw [Fintype.card_fin, finrank_euclideanSpace_fin] at this
    omega
  rcases C75_dependent eigh hA hli hn hr with h | ⟨l, k, hk, h⟩
  · exact .inl h
  · obtain ⟨⟨v, hv⟩, -⟩ := C75_smallest_false hE hA hpos h 0 h0 (by omega)
    exact .inr ⟨l, k + 1, v, h, hv⟩

end

end TN.Krylov
