import Verif.LanczosProps
import Mathlib.Analysis.Matrix.Spectrum
import Mathlib.Data.Fin.Tuple.Sort

/-!
# C57: consequences, and that the hypotheses can be met
-/

set_option linter.unusedSectionVars false

namespace TN.Lanczos

open TN NDArray Finset

variable {K : Type} [RCLike K]

/-- C57: with one eigenvalue requested, the Lanczos method returns a unit vector and its expectation value, which
is not larger than the expectation value of the initial vector. -/
theorem C57_ground {s : List Nat} {L : EuclideanSpace K (Fin s.prod) →ₗ[K] EuclideanSpace K (Fin s.prod)}
    (hL : L.IsSymmetric) {eigh : Eigh K} (hE : EighOK eigh)
    {A : NDArray K → Py (NDArray K)} (hA : ActsAs s A L) {o : Opts} (hd : 0 < o.delta) (hd1 : o.delta ≤ 1)
    (hn : o.ndiag ≠ 0) (hk : 0 < o.numKrylov) (h1 : o.numeig = 1) {x0 : NDArray K} (hs : x0.shape = s)
    (h0 : vec s x0 ≠ 0) : ∃ r e t, eigshLanczos eigh A o x0 = .ok r ∧ r.vals = [e] ∧ r.vecs = [t] ∧ t.shape = s ∧
      ‖vec s t‖ = 1 ∧ inner K (vec s t) (L (vec s t)) = (e : K) ∧
      e * ‖vec s x0‖ ^ 2 ≤ RCLike.re (inner K (vec s x0) (L (vec s x0))) := by
  obtain ⟨r, m, e1, z, _⟩ := C57_lanczos hL hE hA hd hd1 hn hk (by omega) (Or.inl (by omega)) hs h0
  have hm := z.pos
  have hl1 := z.vals
  have hl2 := z.vecs
  rw [h1, min_eq_left (by omega)] at hl1 hl2
  obtain ⟨e, he⟩ := List.length_eq_one_iff.1 hl1
  obtain ⟨t, ht⟩ := List.length_eq_one_iff.1 hl2
  have ht0 : r.vecs[0]? = some t := by rw [ht]; rfl
  have he0 : r.vals[0]? = some e := by rw [he]; rfl
  refine ⟨r, e, t, e1, he, ht, z.shape t (by rw [ht]; simp), ?_, ?_, ?_⟩
  · have h2 := z.ortho 0 0 t t ht0 ht0
    rw [if_pos rfl, inner_self_eq_norm_sq_to_K] at h2
    have h3 : ‖vec s t‖ ^ 2 = 1 := by exact_mod_cast h2
    exact (pow_eq_one_iff_of_nonneg (norm_nonneg _) two_ne_zero).1 h3
  · have h2 := z.elem 0 0 t t e ht0 ht0 he0
    rwa [if_pos rfl] at h2
  · exact z.lowest e (by rw [he]; simp) _ (Submodule.subset_span ⟨0, hm, by rw [pow_zero]; rfl⟩)

/-- C57: with more Krylov vectors than the dimension and `tol` switched off, every pair returned is an eigenpair up
to `delta`. -/
theorem C57_converged {s : List Nat} {L : EuclideanSpace K (Fin s.prod) →ₗ[K] EuclideanSpace K (Fin s.prod)}
    (hL : L.IsSymmetric) {eigh : Eigh K} (hE : EighOK eigh)
    {A : NDArray K → Py (NDArray K)} (hA : ActsAs s A L) {o : Opts} (hd : 0 < o.delta) (hd1 : o.delta ≤ 1)
    (hn : o.ndiag ≠ 0) (hk : s.prod < o.numKrylov) (ht : o.tol ≤ 0) (hk1 : o.numeig ≤ o.numKrylov)
    (hre : o.numeig ≤ 1 ∨ o.reorth = true) {x0 : NDArray K} (hs : x0.shape = s) (h0 : vec s x0 ≠ 0) :
    ∃ r, eigshLanczos eigh A o x0 = .ok r ∧ ∀ (j : Nat) (t : NDArray K) (e : ℝ), r.vecs[j]? = some t →
      r.vals[j]? = some e → ‖L (vec s t) - (e : K) • vec s t‖ < o.delta := by
  obtain ⟨r, m, e1, z, _⟩ := C57_lanczos hL hE hA hd hd1 hn (by omega) hk1 hre hs h0
  exact ⟨r, e1, z.residual ht (lt_of_le_of_lt z.le_dim hk)⟩

/-- The arguments that are refused. -/
theorem C57_refused (eigh : Eigh K) (A : NDArray K → Py (NDArray K)) (o : Opts) (x0 : NDArray K)
    (h : o.numKrylov < o.numeig ∨ 1 < o.numeig ∧ o.reorth = false) :
    eigshLanczos eigh A o x0 = .error .valueError := by
  unfold eigshLanczos
  by_cases h1 : o.numKrylov < o.numeig
  · rw [if_pos h1]
  · rw [if_neg h1, if_pos (h.resolve_left h1)]

/-- The initial state of the caller is changed unless it is normalised. -/
theorem C57_initial_changed {s : List Nat} {L : EuclideanSpace K (Fin s.prod) →ₗ[K] EuclideanSpace K (Fin s.prod)}
    (hL : L.IsSymmetric) {eigh : Eigh K} (hE : EighOK eigh)
    {A : NDArray K → Py (NDArray K)} (hA : ActsAs s A L) {o : Opts} (hd : 0 < o.delta) (hd1 : o.delta ≤ 1)
    (hn : o.ndiag ≠ 0) (hk : 0 < o.numKrylov) (hk1 : o.numeig ≤ o.numKrylov) (hre : o.numeig ≤ 1 ∨ o.reorth = true)
    {x0 : NDArray K} (hs : x0.shape = s) (h0 : vec s x0 ≠ 0) (h1 : ‖vec s x0‖ ≠ 1) :
    ∃ r, eigshLanczos eigh A o x0 = .ok r ∧ ‖vec s r.initial‖ = 1 ∧ vec s r.initial ≠ vec s x0 := by
  obtain ⟨r, m, e1, z, _, e2⟩ := C57_lanczos hL hE hA hd hd1 hn hk hk1 hre hs h0
  have h2 : ‖vec s r.initial‖ = 1 := by
    have := congrArg norm e2
    rw [norm_smul, RCLike.norm_ofReal, abs_norm] at this
    exact mul_left_cancel₀ (norm_ne_zero_iff.2 h0) (this.symm.trans (mul_one _).symm)
  exact ⟨r, e1, h2, fun h => h1 (by rw [← h, h2])⟩

/-! ### A kernel and an operator that meet the hypotheses -/

open Classical in
/-- A diagonalisation by Mathlib's spectral theorem, sorted. -/
noncomputable def someEigh : Eigh K := fun _ T =>
  if h : T.IsHermitian then (h.eigenvalues ∘ Tuple.sort h.eigenvalues,
    (h.eigenvectorUnitary : Matrix _ _ K).submatrix id (Tuple.sort h.eigenvalues)) else (fun _ => 0, 1)

theorem someEigh_ok : EighOK (someEigh (K := K)) := by
  intro m T h
  unfold someEigh
  rw [dif_pos h]
  obtain ⟨σ, hσ⟩ : ∃ σ, σ = Tuple.sort h.eigenvalues := ⟨_, rfl⟩
  obtain ⟨U, hU⟩ : ∃ U, U = (h.eigenvectorUnitary : Matrix (Fin m) (Fin m) K) := ⟨_, rfl⟩
  have h1 : star U * U = 1 := by rw [hU]; exact Unitary.coe_star_mul_self _
  have h2 : U * star U = 1 := by rw [hU]; exact Unitary.coe_mul_star_self _
  have h3 : ∀ j, T.mulVec (fun i => U i j) = (h.eigenvalues j : K) • fun i => U i j := by
    intro j
    have := h.mulVec_eigenvectorBasis j
    have e : (fun i => U i j) = (h.eigenvectorBasis j).ofLp := by
      ext i; rw [hU, h.eigenvectorUnitary_apply]
    rw [e, this]
    ext i
    simp [Algebra.smul_def]
  rw [← hσ, ← hU]
  refine ⟨?_, ?_, ?_, ?_⟩
  · ext a b
    have := congrFun (congrFun h1 (σ a)) (σ b)
    have h4 : (1 : Matrix (Fin m) (Fin m) K) a b = (1 : Matrix (Fin m) (Fin m) K) (σ a) (σ b) := by
      rw [Matrix.one_apply, Matrix.one_apply]
      by_cases hab : a = b
      · rw [if_pos hab, if_pos (congrArg σ hab)]
      · rw [if_neg hab, if_neg fun h => hab (σ.injective h)]
    rw [h4, ← this]
    rfl
  · ext a b
    have := congrFun (congrFun h2 a) b
    rw [← this, Matrix.mul_apply, Matrix.mul_apply]
    exact Equiv.sum_comp σ (fun j => U a j * star U j b)
  · ext a b
    have := congrFun (h3 (σ b)) a
    rw [Matrix.mul_diagonal]
    refine Eq.trans ?_ (this.trans (mul_comm _ _))
    rfl
  · rw [hσ]; exact Tuple.monotone_sort h.eigenvalues

/-- Multiplication by a matrix, on arrays of shape `s`. -/
def matvec (s : List Nat) (H : Nat → Nat → K) (x : NDArray K) : Py (NDArray K) :=
  .ok ⟨s, fun i => ∑ k ∈ range s.prod, H (ravel s i) k * x.get (unravel s k)⟩

theorem matvec_acts (s : List Nat) (H : Nat → Nat → K) :
    ActsAs s (matvec s H) (Matrix.toEuclideanLin (Matrix.of fun i j : Fin s.prod => H i j)) := by
  intro x hx
  refine ⟨_, rfl, rfl, ?_⟩
  ext k
  rw [vec_apply]
  show ∑ j ∈ range s.prod, H (ravel s (unravel s k)) j * x.get (unravel s j) = _
  rw [ravel_unravel k.2, ← Fin.sum_univ_eq_sum_range (fun j => H k j * x.get (unravel s j))]
  rfl

theorem matvec_symmetric (s : List Nat) (H : Nat → Nat → K) (h : ∀ i j, star (H j i) = H i j) :
    (Matrix.toEuclideanLin (Matrix.of fun i j : Fin s.prod => H i j)).IsSymmetric := by
  rw [Matrix.isSymmetric_toEuclideanLin_iff]
  ext i j
  exact h i j

/-- A vector of shape (2, 3). -/
noncomputable def startVector : NDArray ℂ := ⟨[2, 3], fun i => if i = [1, 2] then 3 else 1⟩

theorem startVector_ne : vec [2, 3] startVector ≠ 0 := by
  intro h
  have h1 : vec [2, 3] startVector ⟨5, by decide⟩ = 0 := by rw [h]; rfl
  rw [vec_apply] at h1
  have h2 : unravel [2, 3] 5 = [1, 2] := by decide
  simp [startVector, h2] at h1

noncomputable def someOpts : Opts := ⟨5, 1, 0, 1 / 2, 2, true⟩

def someMatrix (i j : Nat) : ℂ := i + j

theorem someMatrix_symmetric (i j : Nat) : star (someMatrix j i) = someMatrix i j := by
  simp [someMatrix, add_comm]

/-- An operator on arrays of shape (2, 3) and a vector that is no eigenvector. -/
example : ∃ r e t, eigshLanczos someEigh (matvec [2, 3] someMatrix) someOpts startVector = .ok r ∧ r.vals = [e] ∧
    r.vecs = [t] ∧ t.shape = [2, 3] ∧ ‖vec [2, 3] t‖ = 1 := by
  obtain ⟨r, e, t, h1, h2, h3, h4, h5, _⟩ := C57_ground
    (matvec_symmetric [2, 3] someMatrix someMatrix_symmetric) someEigh_ok (matvec_acts [2, 3] someMatrix)
    (o := someOpts) (by norm_num [someOpts]) (by norm_num [someOpts]) (by simp [someOpts]) (by simp [someOpts]) rfl
    (x0 := startVector) rfl startVector_ne
  exact ⟨r, e, t, h1, h2, h3, h4, h5⟩

/-- With seven Krylov vectors all six pairs are eigenpairs up to one half. -/
example : ∃ r, eigshLanczos someEigh (matvec [2, 3] someMatrix) ⟨7, 6, 0, 1 / 2, 2, true⟩ startVector = .ok r ∧
    ∀ (j : Nat) (t : NDArray ℂ) (e : ℝ), r.vecs[j]? = some t → r.vals[j]? = some e →
      ‖Matrix.toEuclideanLin (Matrix.of fun i j : Fin ([2, 3] : List Nat).prod => someMatrix i j) (vec [2, 3] t) -
        (e : ℂ) • vec [2, 3] t‖ < 1 / 2 :=
  C57_converged (matvec_symmetric [2, 3] someMatrix someMatrix_symmetric) someEigh_ok (matvec_acts [2, 3] someMatrix)
    (o := ⟨7, 6, 0, 1 / 2, 2, true⟩) (by norm_num) (by norm_num) (by simp) (by simp) le_rfl (by simp) (Or.inr rfl)
    (x0 := startVector) rfl startVector_ne

end TN.Lanczos
