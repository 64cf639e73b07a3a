import Verif.JaxLanczosThms
import Verif.JaxEigshExamples

/-!
# Cases that meet the hypotheses of the theorems on `eigsh_lanczos` of the jax backend
-/

set_option linter.unusedSectionVars false

namespace TN.Krylov

noncomputable section

open Classical Matrix

variable {𝕜 : Type} [RCLike 𝕜] {n m : Nat}

/-- An `eigh` as assumed exists for every size. -/
theorem exists_eigh (m : Nat) : ∃ eigh : Mat 𝕜 m → (Fin m → 𝕜) × Mat 𝕜 m, EighOK eigh := by
  obtain ⟨K, hK⟩ := exists_herm_kernels (𝕜 := 𝕜) m
  refine ⟨fun M => (fun j => (K.eig M).1 (Tuple.sort (fun i => RCLike.re ((K.eig M).1 i)) j),
    fun a j => (K.eig M).2 a (Tuple.sort (fun i => RCLike.re ((K.eig M).1 i)) j)), fun M hM j => ?_, fun M hM => ?_,
    fun M hM => ?_, fun M hM i j hij => ?_⟩
  · exact (hK.eig M hM).vec _
  · have h := hK.unitary M hM
    generalize Tuple.sort (fun i => RCLike.re ((K.eig M).1 i)) = σ
    ext i j
    have := congrFun (congrFun h (σ i)) (σ j)
    rw [Matrix.mul_apply] at this ⊢
    refine this.trans ?_
    rw [Matrix.one_apply, Matrix.one_apply]
    exact if_congr σ.injective.eq_iff rfl rfl
  · rw [(hK.eig M hM).charpoly]
    exact (Equiv.prod_comp (Tuple.sort fun i => RCLike.re ((K.eig M).1 i))
      fun j => Polynomial.X - Polynomial.C ((K.eig M).1 j)).symm
  · exact Tuple.monotone_sort (fun i => RCLike.re ((K.eig M).1 i)) hij

theorem chain_independent : LinearIndependent ℝ fun j : Fin 3 => (chain ^ j.val) (site 0) := by
  rw [Fintype.linearIndependent_iff]
  intro g hg
  have e0 : (chain ^ (0 : Fin 3).val) (site 0) = site 0 := rfl
  have e1 : (chain ^ (1 : Fin 3).val) (site 0) = chain (site 0) := by simp
  have e2 : (chain ^ (2 : Fin 3).val) (site 0) = chain (chain (site 0)) := by
    rw [show (2 : Fin 3).val = 2 from rfl, pow_two]; rfl
  rw [Fin.sum_univ_three, e0, e1, e2, chain_site0, map_add, map_smul, chain_site0, chain_site1] at hg
  have h2 := congrArg (fun x : Vec ℝ 3 => x 2) hg
  have h1 := congrArg (fun x : Vec ℝ 3 => x 1) hg
  have h0 := congrArg (fun x : Vec ℝ 3 => x 0) hg
  simp [site] at h0 h1 h2
  have g2 : g 2 = 0 := by linarith
  have g1 : g 1 = 0 := by rw [g2] at h1; linarith
  have g0 : g 0 = 0 := by rw [g2, g1] at h0; linarith
  intro i
  fin_cases i
  · exact g0
  · exact g1
  · exact g2

/-- With three Krylov vectors and `delta = 0`, `eigsh_lanczos` finds the two smallest eigenvalues of the chain and their
eigenvectors. -/
example : ∃ eigh : Mat ℝ 3 → (Fin 3 → ℝ) × Mat ℝ 3, EighOK eigh ∧ ∃ l, eigshLanczos eigh chain (site 0) 2 0 true = .ok (some (l, 4)) ∧
    l.length = 2 ∧ (∃ others : Multiset ℝ, chain.charpoly.roots = (↑(l.map Prod.fst) : Multiset ℝ) + others ∧
      ∀ p ∈ l, ∀ z ∈ others, p.1 ≤ z) ∧ ∀ p ∈ l, ∃ v, p.2 = some v ∧ ‖v‖ = 1 ∧ chain v = p.1 • v := by
  obtain ⟨eigh, hE⟩ := exists_eigh (𝕜 := ℝ) 3
  obtain ⟨l, hl⟩ := C75_independent eigh chain_symmetric chain_independent (numeig := 2) (delta := 0) (reortho := true) (by omega)
    (le_refl _) (.inr rfl)
  obtain ⟨others, h1, h2⟩ := C75_exact hE chain_symmetric hl
  obtain ⟨hlen, -, hp⟩ := C75_pairs_partial hE chain_symmetric hl
  refine ⟨eigh, hE, l, hl, hlen, ⟨others, by simpa using h1, h2⟩, fun p hp' => ?_⟩
  rcases hp p hp' with ⟨-, h⟩ | ⟨v, h3, h4, -, -, -, h5⟩
  · exact absurd h (lt_irrefl _)
  · exact ⟨v, h3, h4, h5 rfl⟩

/-- One eigenvalue of the same chain, with and without reorthogonalisation: the same pair, whose value is at most the mean value
in the initial state. -/
example : ∃ eigh : Mat ℝ 3 → (Fin 3 → ℝ) × Mat ℝ 3, EighOK eigh ∧ ∃ z v, eigshLanczos eigh chain (site 0) 1 0 true = .ok (some ([(z, v)], 4)) ∧
    eigshLanczos eigh chain (site 0) 1 0 false = .ok (some ([(z, v)], 4)) ∧ z ≤ 100 := by
  obtain ⟨eigh, hE⟩ := exists_eigh (𝕜 := ℝ) 3
  obtain ⟨l, hl⟩ := C75_independent eigh chain_symmetric chain_independent (numeig := 1) (delta := 0) (reortho := true) (by omega)
    (le_refl _) (.inr rfl)
  have hlen := (C75_pairs_partial hE chain_symmetric hl).1
  obtain ⟨p, hp, hvar, -⟩ := C75_variational hE chain_symmetric (by omega) hl
  match l, hlen with
  | [x], _ =>
    have hx : x = p := by simpa using hp
    subst hx
    refine ⟨eigh, hE, x.1, x.2, hl, ?_, ?_⟩
    · rcases C75_reorthogonalize eigh chain_symmetric (site 0) (numeig := 1) (by omega) (by omega) 0 with ⟨h, -⟩ | ⟨l, l', k, h1, h2, -, h4⟩
      · rw [hl] at h; cases h
      · rw [hl] at h1
        injection h1 with h1
        injection h1 with h1
        injection h1 with e1 e2
        have hk : k = 3 := by omega
        rw [← h4 hk, hk, ← e1] at h2
        exact h2
    · have := hvar (site 0) (Submodule.subset_span ⟨0, rfl⟩)
      rw [norm_site, chain_site0, inner_add_right, inner_smul_right, inner_site, inner_site] at this
      simpa using this

/-- The identity in three dimensions and the default of twenty Krylov vectors: NaN for every initial state that is longer than the
default `delta`. -/
example (eigh : Mat ℝ 20 → (Fin 20 → ℝ) × Mat ℝ 20) (init : Vec ℝ 3) (hi : 1e-8 < ‖init‖) :
    eigshLanczos eigh (LinearMap.id : Vec ℝ 3 →ₗ[ℝ] Vec ℝ 3) init 1 1e-8 false = .ok none :=
  C75_eigenvector_false eigh (fun x y => rfl) (z := 1) (by simp) (by omega) (by omega) (by norm_num) hi (.inl (le_refl _))

/-- The chain and the default of twenty Krylov vectors: NaN, or the value zero, though all the eigenvalues are above 98. -/
example (init : Vec ℝ 3) : ∃ eigh : Mat ℝ 20 → (Fin 20 → ℝ) × Mat ℝ 20, EighOK eigh ∧
    (eigshLanczos eigh chain init 1 1e-8 false = .ok none ∨
      ∃ l k v, eigshLanczos eigh chain init 1 1e-8 false = .ok (some (l, k)) ∧ l[0]? = some (0, v)) := by
  obtain ⟨eigh, hE⟩ := exists_eigh (𝕜 := ℝ) 20
  exact ⟨eigh, hE, C75_dimension_false hE chain_symmetric chain_positive init (by omega) (by omega) (by omega) _ (.inl (le_refl _))⟩

/-- A short initial state of the chain: the first two of the three values are zeros. -/
example : ∃ eigh : Mat ℝ 3 → (Fin 3 → ℝ) × Mat ℝ 3, EighOK eigh ∧ ∃ l v w,
    eigshLanczos eigh chain ((1 / 2 : ℝ) • site 0) 3 (3 / 4) true = .ok (some (l, 2)) ∧ l[0]? = some (0, v) ∧ l[1]? = some (0, w) := by
  obtain ⟨eigh, hE⟩ := exists_eigh (𝕜 := ℝ) 3
  have hn : ‖(1 / 2 : ℝ) • site 0‖ = 1 / 2 := by rw [norm_smul, norm_site]; norm_num
  obtain ⟨l, hl⟩ := C75_short eigh chain_symmetric (init := (1 / 2 : ℝ) • site 0) (fun e => by rw [e, norm_zero] at hn; norm_num at hn)
    (numeig := 3) (by omega) (by omega) (delta := 3 / 4) (by norm_num) (by rw [hn]; norm_num) (reortho := true) (.inr rfl)
  obtain ⟨⟨v, hv⟩, -⟩ := C75_smallest_false hE chain_symmetric chain_positive hl 0 (by omega) (by omega)
  obtain ⟨⟨w, hw⟩, -⟩ := C75_smallest_false hE chain_symmetric chain_positive hl 1 (by omega) (by omega)
  exact ⟨eigh, hE, l, v, w, hl, hv, hw⟩

end

end TN.Krylov
