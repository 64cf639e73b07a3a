import Verif.JaxEigshConv
import Verif.ArnoldiKernels
import Mathlib.Analysis.Matrix.Spectrum

/-!
# Cases that meet the hypotheses of the theorems on `eigsh` of the jax backend
-/

set_option linter.unusedSectionVars false

namespace TN.Krylov

noncomputable section

open Classical Matrix

variable {𝕜 : Type} [RCLike 𝕜] {n m : Nat}

/-- Kernels as assumed exist for every size. -/
theorem exists_herm_kernels (m : Nat) : ∃ K : Kernels 𝕜 m, K.HermOK := by
  choose Q R h1 h2 h3 h4 using exists_qr (𝕜 := 𝕜) (m := m)
  refine ⟨⟨fun M => (Q M, R M), fun M => if h : M.IsHermitian then
    (fun j => (h.eigenvalues j : 𝕜), (h.eigenvectorUnitary : Mat 𝕜 m)) else (0, 0), fun key => Tuple.sort fun j => -key j⟩,
    ⟨h1, h2, h3, h4⟩, fun M hM => ?_, fun M hM => ?_, ⟨fun key => (Tuple.sort fun j => -key j).bijective, fun key i j hij => ?_⟩⟩
  · have hcol : ∀ j, (fun a => (hM.eigenvectorUnitary : Mat 𝕜 m) a j) = ⇑(hM.eigenvectorBasis j) := fun j =>
      hM.eigenvectorUnitary_col_eq j
    refine ⟨fun j => ?_, fun j => ?_, ?_⟩
    · simp only [dif_pos hM, hcol]
      rw [hM.mulVec_eigenvectorBasis j]
      ext a
      simp [RCLike.real_smul_eq_coe_mul]
    · simp only [dif_pos hM, hcol]
      intro h
      have := hM.eigenvectorBasis.orthonormal.ne_zero j
      exact this (by ext a; exact congrFun h a)
    · simp only [dif_pos hM]
      exact hM.charpoly_eq
  · simp only [dif_pos hM]
    have := hM.eigenvectorUnitary.2
    rw [Matrix.mem_unitaryGroup_iff'] at this
    exact this
  · have := Tuple.monotone_sort (fun j => -key j) hij
    exact neg_le_neg_iff.mp this

/-! ### The identity -/

/-- The factorisation of the identity stops after one iteration with no residual. -/
theorem lanczosFact_id {tol : ℝ} (h0 : 0 < tol) {init : Vec 𝕜 n} (hi : tol < ‖init‖) (hm : 2 ≤ m) :
    (lanczosFact (LinearMap.id : Vec 𝕜 n →ₗ[𝕜] Vec 𝕜 n) tol init (fun _ => 0) (fun _ => 0) (fun _ => 0) 0 :
      LCarry 𝕜 n m).norm = 0 := by
  set v := normalize tol init with hv
  have hv1 : ‖v‖ = 1 := norm_normalize h0.le hi
  have ho : Ortho (setRow (fun _ : Fin m => (0 : Vec 𝕜 n)) 0 v) 1 :=
    Ortho.setRow (fun a b ha => absurd ha (by omega)) hv1 fun a ha => absurd ha (by omega)
  have hz0 : ∀ a : Fin m, 1 ≤ a.val → setRow (fun _ : Fin m => (0 : Vec 𝕜 n)) 0 v a = 0 := fun a ha =>
    setRow_other (by omega)
  have hg : (gramSchmidt (upTo 0 (setRow (fun _ : Fin m => (0 : Vec 𝕜 n)) 0 v))
      ((LinearMap.id : Vec 𝕜 n →ₗ[𝕜] Vec 𝕜 n) v)).1 = 0 := by
    rw [upTo_eq (fun a ha => hz0 a ha), gramSchmidt_eq ho hz0, gsPass, sum_setRow (fun _ _ => rfl), dif_pos (by omega),
      setRow_self (show (⟨0, by omega⟩ : Fin m).val = 0 from rfl), LinearMap.id_apply, inner_self_eq_norm_sq_to_K, hv1]
    simp
  obtain ⟨k, rfl⟩ : ∃ k, m = k + 2 := ⟨m - 2, by omega⟩
  have hb : (lanczosBody (LinearMap.id : Vec 𝕜 n →ₗ[𝕜] Vec 𝕜 n) tol
      (⟨setRow (fun _ => 0) 0 v, fun _ => 0, fun _ => 0, v, ‖init‖, 0⟩ : LCarry 𝕜 n (k + 2))).norm = 0 := by
    unfold lanczosBody
    simp only
    rw [if_pos (by omega)]
    show ‖_‖ = 0
    rw [hg, norm_zero]
  show (lanczosLoop (LinearMap.id : Vec 𝕜 n →ₗ[𝕜] Vec 𝕜 n) tol (k + 2)
    (⟨setRow (fun _ => 0) 0 v, fun _ => 0, fun _ => 0, v, ‖init‖, 0⟩ : LCarry 𝕜 n (k + 2))).norm = 0
  rw [lanczosLoop, if_pos ⟨by show 0 < k + 2; omega, hi⟩, lanczosLoop, if_neg]
  · exact hb
  · rintro ⟨-, h2⟩
    rw [hb] at h2
    linarith

/-- With the default number of Krylov vectors and the default `which`, `eigsh` finds the eigenvalue 0 of the identity in three
dimensions, with vectors of NaNs, whatever the initial state and the number of restarts. -/
example : ∃ (K : Kernels ℝ 50) (T : Kernels ℝ 2), K.HermOK ∧ T.HermOK ∧ ∀ (init : Vec ℝ 3) (maxiter : Nat), 1 / 2 < ‖init‖ →
    ∃ k, eigsh K T 0 (LinearMap.id : Vec ℝ 3 →ₗ[ℝ] Vec ℝ 3) init .SA (1 / 2) maxiter = .ok ([(0, none), (0, none)], k) := by
  obtain ⟨K, hK⟩ := exists_herm_kernels (𝕜 := ℝ) 50
  obtain ⟨T, hT⟩ := exists_herm_kernels (𝕜 := ℝ) 2
  refine ⟨K, T, hK, hT, fun init maxiter hi => ?_⟩
  have hnorm := lanczosFact_id (𝕜 := ℝ) (n := 3) (m := 50) (tol := 1 / 2) (by norm_num) hi (by omega)
  have ht : LNoTie K T 0 (LinearMap.id : Vec ℝ 3 →ₗ[ℝ] Vec ℝ 3) init .SA (1 / 2) maxiter := by
    intro i _ _
    unfold eigshState
    rw [louterLoop_stop]
    · show LCarry.norm _ ≠ _
      rw [hnorm]; norm_num
    · right
      show decide _ = true
      rw [hnorm]; norm_num
  obtain ⟨k, -, hk⟩ := C74_default_false hK (A := (LinearMap.id : Vec ℝ 3 →ₗ[ℝ] Vec ℝ 3)) (fun x y => rfl) (fun v hv => by
    rw [LinearMap.id_apply, inner_self_eq_norm_sq_to_K]
    have := norm_pos_iff.mpr hv
    simp only [RCLike.ofReal_real_eq_id, id_eq, RCLike.re_to_real]
    positivity) (by norm_num) ht (by omega) (by omega) (by omega)
  exact ⟨k, hk⟩

/-! ### A chain of three sites -/

/-- One hundred times the identity plus the exchange of neighbours. -/
def chain : Vec ℝ 3 →ₗ[ℝ] Vec ℝ 3 where
  toFun x := !₂[100 * x 0 + x 1, x 0 + 100 * x 1 + x 2, x 1 + 100 * x 2]
  map_add' x y := by ext i; fin_cases i <;> simp <;> ring
  map_smul' t x := by ext i; fin_cases i <;> simp <;> ring

theorem chain_symmetric : chain.IsSymmetric := by
  intro x y
  simp only [PiLp.inner_apply, Fin.sum_univ_three, chain, LinearMap.coe_mk, AddHom.coe_mk]
  simp
  ring

theorem chain_positive (v : Vec ℝ 3) (hv : v ≠ 0) : 0 < RCLike.re (inner ℝ v (chain v)) := by
  have h1 : inner ℝ v v = ‖v‖ ^ 2 := real_inner_self_eq_norm_sq v
  have h2 : 0 < ‖v‖ ^ 2 := by have := norm_pos_iff.mpr hv; positivity
  rw [← h1] at h2
  simp only [PiLp.inner_apply, Fin.sum_univ_three, chain, LinearMap.coe_mk, AddHom.coe_mk] at h2 ⊢
  simp at h2 ⊢
  nlinarith [sq_nonneg (v 0 + v 1), sq_nonneg (v 1 + v 2)]

theorem chain_near (x : Vec ℝ 3) : ‖chain x - (100 : ℝ) • x‖ ≤ 3 / 2 * ‖x‖ := by
  refine (sq_le_sq₀ (norm_nonneg _) (by positivity)).mp ?_
  rw [mul_pow, ← real_inner_self_eq_norm_sq, ← real_inner_self_eq_norm_sq]
  simp only [PiLp.inner_apply, Fin.sum_univ_three, chain, LinearMap.coe_mk, AddHom.coe_mk]
  simp
  nlinarith [sq_nonneg (x 0 - x 2), sq_nonneg (x 0), sq_nonneg (x 1), sq_nonneg (x 2)]

theorem chain_bound (x : Vec ℝ 3) : ‖chain x‖ ≤ 102 * ‖x‖ := by
  have h1 := chain_near x
  have h2 := norm_add_le (chain x - (100 : ℝ) • x) ((100 : ℝ) • x)
  rw [sub_add_cancel, norm_smul] at h2
  have h3 : ‖(100 : ℝ)‖ = 100 := by norm_num
  rw [h3] at h2
  nlinarith [norm_nonneg x]

/-- A basis vector. -/
def site (i : Fin 3) : Vec ℝ 3 := EuclideanSpace.single i 1

theorem inner_site (i j : Fin 3) : inner ℝ (site i) (site j) = if i = j then 1 else 0 := by
  rw [site, site, EuclideanSpace.inner_single_left]
  simp

theorem norm_site (i : Fin 3) : ‖site i‖ = 1 := by simp [site]

theorem chain_site0 : chain (site 0) = (100 : ℝ) • site 0 + site 1 := by ext i; fin_cases i <;> simp [chain, site]

theorem chain_site1 : chain (site 1) = site 0 + (100 : ℝ) • site 1 + site 2 := by ext i; fin_cases i <;> simp [chain, site]

theorem normalize_site (i : Fin 3) : normalize (1 / 2) (site i) = site i := by
  rw [normalize, norm_site, if_pos (by norm_num)]; simp

theorem lanczosBody_i (A : Vec 𝕜 n → Vec 𝕜 n) (tol : ℝ) (c : LCarry 𝕜 n m) : (lanczosBody A tol c).i = c.i + 1 := by
  unfold lanczosBody
  simp only
  split_ifs <;> rfl

/-- Two iterations of the factorisation, each with a residual of length one. -/
theorem chain_steps (hm : 2 ≤ m) : ∃ c : LCarry ℝ 3 m, c.i = 2 ∧ c.norm = 1 ∧
    lanczosFact chain (1 / 2) (site 0) (fun _ => 0) (fun _ => 0) (fun _ => 0) 0 = lanczosLoop chain (1 / 2) (m - 2) c := by
  set V0 : Fin m → Vec ℝ 3 := setRow (fun _ => 0) 0 (site 0) with hV0
  have ho : Ortho V0 1 :=
    Ortho.setRow (fun a b ha => absurd ha (by omega)) (norm_site 0) fun a ha => absurd ha (by omega)
  have hz0 : ∀ a : Fin m, 1 ≤ a.val → V0 a = 0 := fun a ha => setRow_other (by omega)
  have v0 : ∀ h, V0 ⟨0, h⟩ = site 0 := fun h => setRow_self rfl
  have hg : (gramSchmidt (upTo 0 V0) (chain (site 0))).1 = site 1 := by
    rw [upTo_eq (fun a ha => hz0 a ha), gramSchmidt_eq ho hz0, gsPass]
    simp only
    have : ∀ x, ∑ l, inner ℝ (V0 l) x • V0 l = inner ℝ (site 0) x • site 0 := by
      intro x
      rw [Finset.sum_eq_single ⟨0, by omega⟩, v0]
      · intro b _ hb
        rw [hz0 b (Nat.one_le_iff_ne_zero.mpr fun e => hb (Fin.ext e)), smul_zero]
      · intro h; exact absurd (Finset.mem_univ _) h
    rw [this, chain_site0, inner_add_right, inner_smul_right, inner_site, inner_site]
    simp
  set V1 : Fin m → Vec ℝ 3 := setRow V0 1 (site 1) with hV1
  have ho1 : Ortho V1 2 := by
    refine ho.setRow (norm_site 1) fun a ha => ?_
    have : a = ⟨0, by omega⟩ := Fin.ext (by show a.val = 0; omega)
    rw [this, v0, inner_site]; simp
  have hz1 : ∀ a : Fin m, 2 ≤ a.val → V1 a = 0 := fun a ha => by rw [hV1, setRow_other (by omega), hz0 a (by omega)]
  have hg1 : (gramSchmidt (upTo 1 V1) (chain (site 1))).1 = site 2 := by
    rw [upTo_eq (fun a ha => hz1 a ha), gramSchmidt_eq ho1 hz1, gsPass]
    simp only
    have : ∀ x, ∑ l, inner ℝ (V1 l) x • V1 l = inner ℝ (site 0) x • site 0 + inner ℝ (site 1) x • site 1 := by
      intro x
      rw [Finset.sum_eq_add (⟨0, by omega⟩ : Fin m) ⟨1, by omega⟩ (by simp)]
      · rw [hV1, setRow_other (show (⟨0, by omega⟩ : Fin m).val ≠ 1 by simp), v0,
          setRow_self (show (⟨1, by omega⟩ : Fin m).val = 1 from rfl)]
      · rintro c - ⟨h1, h2⟩
        have e1 : c.val ≠ 0 := fun e => h1 (Fin.ext e)
        have e2 : c.val ≠ 1 := fun e => h2 (Fin.ext e)
        rw [hz1 c (by omega), smul_zero]
      · intro h; exact absurd (Finset.mem_univ _) h
      · intro h; exact absurd (Finset.mem_univ _) h
    rw [this, chain_site1]
    simp only [inner_add_right, inner_smul_right, inner_site]
    simp
  obtain ⟨al, be, hb⟩ : ∃ al be, (lanczosBody chain (1 / 2) ⟨V0, fun _ => 0, fun _ => 0, site 0, 1, 0⟩ : LCarry ℝ 3 m) =
      ⟨V1, al, be, site 1, 1, 1⟩ := by
    unfold lanczosBody
    simp only
    rw [if_pos (by omega), hg, normalize_site, norm_site]
    exact ⟨_, _, rfl⟩
  have hb1 : (lanczosBody chain (1 / 2) ⟨V1, al, be, site 1, 1, 1⟩ : LCarry ℝ 3 m).norm = 1 := by
    unfold lanczosBody
    simp only
    rw [hg1]
    split_ifs <;> exact norm_site 2
  refine ⟨lanczosBody chain (1 / 2) ⟨V1, al, be, site 1, 1, 1⟩, lanczosBody_i _ _ _, hb1, ?_⟩
  obtain ⟨k, rfl⟩ : ∃ k, m = k + 2 := ⟨m - 2, by omega⟩
  show lanczosLoop chain (1 / 2) (k + 2) ⟨setRow (fun _ => 0) 0 (normalize (1 / 2) (site 0)), fun _ => 0, fun _ => 0,
    normalize (1 / 2) (site 0), ‖site 0‖, 0⟩ = _
  rw [normalize_site, norm_site, lanczosLoop, if_pos ⟨by show 0 < k + 2; omega, by show (1 / 2 : ℝ) < 1; norm_num⟩, ← hV0, hb,
    lanczosLoop, if_pos ⟨by show 1 < k + 2; omega, by show (1 / 2 : ℝ) < 1; norm_num⟩]
  rfl

/-- With three Krylov vectors `eigsh` finds the smallest eigenvalue of the chain: all hypotheses of `C74_pairs_partial` and
`C74_exact` hold. -/
example : ∃ (K : Kernels ℝ 3) (T : Kernels ℝ 1), K.HermOK ∧ LNoTie K T 0 chain (site 0) .SA (1 / 2) 1 ∧
    ∃ l, eigsh K T 0 chain (site 0) .SA (1 / 2) 1 = .ok (l, 3) ∧ ∃ others : Multiset ℝ,
      chain.charpoly.roots = (↑(l.map Prod.fst) : Multiset ℝ) + others ∧ (∀ p ∈ l, ∀ z ∈ others, p.1 ≤ z) ∧
      ∀ p ∈ l, ∃ v, p.2 = some v ∧ ‖v‖ = 1 ∧ chain v = p.1 • v := by
  obtain ⟨K, hK⟩ := exists_herm_kernels (𝕜 := ℝ) 3
  obtain ⟨T, hT⟩ := exists_herm_kernels (𝕜 := ℝ) 1
  have ht : LNoTie K T 0 chain (site 0) .SA (1 / 2) 1 := fun i hi => absurd hi (by omega)
  obtain ⟨c, hc, hn, he⟩ := chain_steps (m := 3) (by omega)
  have h3 : (lanczosFact chain (1 / 2) (site 0) (fun _ => 0) (fun _ => 0) (fun _ => 0) 0 : LCarry ℝ 3 3).i = 3 := by
    rw [he, lanczosLoop, if_pos ⟨by omega, by rw [hn]; norm_num⟩, lanczosLoop, lanczosBody_i, hc]
  obtain ⟨l, hl⟩ : ∃ l, eigsh K T 0 chain (site 0) .SA (1 / 2) 1 = .ok (l, 3) := by
    unfold eigsh
    rw [if_neg (by simp), if_neg (by omega), if_neg (by omega), if_neg (by omega)]
    refine ⟨_, congrArg Except.ok (Prod.ext rfl ?_)⟩
    exact h3
  obtain ⟨others, h1, h2⟩ := C74_exact hK chain_symmetric (by norm_num) (by omega) ht hl
  refine ⟨K, T, hK, ht, l, hl, others, ?_, fun p hp z hz => ?_, fun p hp => ?_⟩
  · simpa using h1
  · have := h2 p hp z hz
    simpa [Which.key] using this
  · rcases (C74_pairs_partial hK chain_symmetric (by norm_num) ht hl).2.2 p hp with ⟨-, h⟩ | ⟨v, h1, h2, -, -, h3⟩
    · exact absurd h (lt_irrefl _)
    · exact ⟨v, h1, h2, h3 rfl⟩

/-- The residual of a factorisation of length one of the chain, and its only value. -/
theorem chain_fact {V : Fin 2 → Vec ℝ 3} {H : Mat ℝ 2} {f : Vec ℝ 3} (h : Fact chain V H 1 f) :
    ‖f‖ ≤ 3 / 2 ∧ 98 ≤ ‖H 0 0‖ := by
  have h1 := h.rel 0 (by decide)
  rw [Fin.sum_univ_two, h.zero 1 (by decide), smul_zero, add_zero, if_pos (by decide)] at h1
  have hn : ‖V 0‖ = 1 := by
    have := h.ortho 0 0 (by decide) (by decide)
    rw [if_pos rfl, real_inner_self_eq_norm_sq] at this
    nlinarith [norm_nonneg (V 0)]
  have h2 : chain (V 0) - (100 : ℝ) • V 0 = f + (H 0 0 - 100) • V 0 := by rw [h1, sub_smul]; abel
  have h3 := chain_near (V 0)
  rw [h2, hn, mul_one] at h3
  have hp : inner ℝ f ((H 0 0 - 100) • V 0) = 0 := by
    rw [inner_smul_right, real_inner_comm, h.perp 0 (by decide), mul_zero]
  have h4 := norm_add_sq_eq_norm_sq_add_norm_sq_of_inner_eq_zero _ _ hp
  rw [norm_smul, hn, mul_one] at h4
  have h5 : ‖f‖ * ‖f‖ + ‖H 0 0 - 100‖ * ‖H 0 0 - 100‖ ≤ 9 / 4 := by
    rw [← h4]
    nlinarith [norm_nonneg (f + (H 0 0 - 100) • V 0)]
  constructor
  · nlinarith [norm_nonneg f, mul_self_nonneg ‖H 0 0 - 100‖]
  · have h6 : ‖H 0 0 - 100‖ ≤ 3 / 2 := by nlinarith [norm_nonneg (H 0 0 - 100), mul_self_nonneg ‖f‖]
    rw [Real.norm_eq_abs] at h6 ⊢
    have := (abs_le.mp h6).1
    exact le_trans (by linarith) (le_abs_self _)

/-- The restart of this run converges. -/
theorem chain_converged {K : Kernels ℝ 2} (hK : K.HermOK) {T : Kernels ℝ 1} (hT : T.HermOK) (w : Which) :
    (eigshState K T 0 chain (site 0) w (1 / 2) 1 : LOuter ℝ 3 2).converged = true := by
  obtain ⟨r, hd, -⟩ := lanczosFact_done (A := chain) (tol := 1 / 2) (m := 2) chain_symmetric (by norm_num)
    (lfact_zero chain (site 0)) (by omega)
  have hi := hd.inv T 0
  unfold eigshState
  have hn : (lanczosFact chain (1 / 2) (site 0) (fun _ => 0) (fun _ => 0) (fun _ => 0) 0 : LCarry ℝ 3 2).norm = 1 := by
    obtain ⟨c, hc, hn, he⟩ := chain_steps (m := 2) (by omega)
    rw [he]; exact hn
  generalize ho : (lanczosFact chain (1 / 2) (site 0) (fun _ => 0) (fun _ => 0) (fun _ => 0) 0 : LCarry ℝ 3 2).toOuter
    (1 / 2) = o at *
  have hn : o.norm = 1 := by rw [← ho]; exact hn
  have hc : o.converged = false := by rw [← ho]; rfl
  obtain ⟨hcut, hlead⟩ := hi.cut hK.qr chain_symmetric (by omega) (by omega) hc (by rw [hn]; norm_num) (w := w) rfl
  rw [louterLoop, if_neg, louterLoop]
  · unfold louterBody
    simp only
    rw [if_pos]
    intro j
    obtain ⟨hf, hH⟩ := chain_fact hcut
    rw [← hlead 0 0 (by decide) (by decide)] at hH
    generalize shiftedQR K o.V (tri o.al o.be) o.f (shifts K w 1 (K.eig (tri o.al o.be)).1) 1 = s at *
    have hherm : (leading 1 s.2.1).IsHermitian := by
      ext a b
      rw [Matrix.conjTranspose_apply, Subsingleton.elim a b]; rfl
    have hU := hT.unitary _ hherm
    have hj : j = 0 := Subsingleton.elim _ _
    subst hj
    have hE := congrFun ((hT.eig _ hherm).vec 0) 0
    have hU' := congrFun (congrFun hU 0) 0
    rw [Matrix.mul_apply, Fin.sum_univ_one, Matrix.conjTranspose_apply, Matrix.one_apply_eq, star_trivial] at hU'
    have hE' : leading 1 s.2.1 0 0 * (T.eig (leading 1 s.2.1)).2 0 0 =
        (T.eig (leading 1 s.2.1)).1 0 * (T.eig (leading 1 s.2.1)).2 0 0 := by
      refine Eq.trans ?_ hE
      exact (Fin.sum_univ_one fun b => leading 1 s.2.1 0 b * (T.eig (leading 1 s.2.1)).2 b 0).symm
    have hne : (T.eig (leading 1 s.2.1)).2 0 0 ≠ 0 := fun e => by rw [e] at hU'; simp at hU'
    have hval : (T.eig (leading 1 s.2.1)).1 0 = s.2.1 0 0 := (mul_right_cancel₀ hne hE').symm
    have hu : ‖(T.eig (leading 1 s.2.1)).2 0 0‖ = 1 := by
      have : ‖(T.eig (leading 1 s.2.1)).2 0 0‖ * ‖(T.eig (leading 1 s.2.1)).2 0 0‖ = 1 := by
        rw [← norm_mul, hU', norm_one]
      nlinarith [norm_nonneg ((T.eig (leading 1 s.2.1)).2 0 0)]
    have hre : readEntry (T.eig (leading 1 s.2.1)).2 (1 - 1) (0 : Fin 1) = (T.eig (leading 1 s.2.1)).2 0 0 := rfl
    rw [hre, hu, hval, mul_one]
    refine lt_of_le_of_lt hf (lt_of_lt_of_le ?_ (le_max_right _ _))
    linarith
  · rintro (h | h)
    · rw [hc] at h; exact Bool.noConfusion h
    · have := hi.ar hc
      rw [h, hn] at this
      exact absurd (of_decide_eq_true this.symm) (by norm_num)

/-- A run that converges after a restart: `eigsh` finds the eigenvalue 0 with the default `which`, though all the eigenvalues
are above 98, and the theorem on converged pairs says nothing about it. -/
example : ∃ (K : Kernels ℝ 2) (T : Kernels ℝ 1), K.HermOK ∧ T.HermOK ∧ LNoTie K T 0 chain (site 0) .SA (1 / 2) 2 ∧
    (eigshState K T 0 chain (site 0) .SA (1 / 2) (2 - 1) : LOuter ℝ 3 2).converged = true ∧
    ∃ v, eigsh K T 0 chain (site 0) .SA (1 / 2) 2 = .ok ([(0, v)], 1) := by
  obtain ⟨K, hK⟩ := exists_herm_kernels (𝕜 := ℝ) 2
  obtain ⟨T, hT⟩ := exists_herm_kernels (𝕜 := ℝ) 1
  have hc := chain_converged hK hT .SA
  have ht : LNoTie K T 0 chain (site 0) .SA (1 / 2) 2 := by
    intro i hi _
    have : i = 0 := by omega
    subst this
    show (lanczosFact chain (1 / 2) (site 0) (fun _ => 0) (fun _ => 0) (fun _ => 0) 0 : LCarry ℝ 3 2).norm ≠ 1 / 2
    obtain ⟨c, -, hn, he⟩ := chain_steps (m := 2) (by omega)
    rw [he]
    show c.norm ≠ 1 / 2
    rw [hn]; norm_num
  refine ⟨K, T, hK, hT, ht, hc, ?_⟩
  obtain ⟨⟨l, k⟩, hr⟩ : ∃ x, eigsh K T 0 chain (site 0) .SA (1 / 2) 2 = .ok x := by
    unfold eigsh
    rw [if_neg (by simp), if_neg (by omega), if_neg (by omega), if_neg (by omega)]
    exact ⟨_, rfl⟩
  obtain ⟨hk, -⟩ := C74_converged hK hT (le_refl 0) (by omega) chain_symmetric chain_bound (by norm_num) ht hc hr
  have hl := (C74_pairs_partial hK chain_symmetric (by norm_num) ht hr).1
  subst hk
  obtain ⟨⟨v, hv⟩, -⟩ := C74_smallest_false hK chain_symmetric (.inl ⟨rfl, chain_positive⟩) (by norm_num) ht hr 0 (by omega)
    (by omega)
  refine ⟨v, ?_⟩
  rw [hr]
  match l, hl with
  | [x], _ =>
    have : x = (0, v) := by simpa using hv
    rw [this]

/-- The same run with `which = 'LA'` gives a positive value and a unit vector that are an eigenpair up to the tolerance. -/
example : ∃ (K : Kernels ℝ 2) (T : Kernels ℝ 1), K.HermOK ∧ T.HermOK ∧ ∃ z v,
    eigsh K T 0 chain (site 0) .LA (1 / 2) 2 = .ok ([(z, some v)], 1) ∧ 0 < z ∧ ‖v‖ = 1 ∧ ‖chain v - z • v‖ ≤ z / 2 := by
  obtain ⟨K, hK⟩ := exists_herm_kernels (𝕜 := ℝ) 2
  obtain ⟨T, hT⟩ := exists_herm_kernels (𝕜 := ℝ) 1
  have hc := chain_converged hK hT .LA
  have ht : LNoTie K T 0 chain (site 0) .LA (1 / 2) 2 := by
    intro i hi _
    have : i = 0 := by omega
    subst this
    show (lanczosFact chain (1 / 2) (site 0) (fun _ => 0) (fun _ => 0) (fun _ => 0) 0 : LCarry ℝ 3 2).norm ≠ 1 / 2
    obtain ⟨c, -, hn, he⟩ := chain_steps (m := 2) (by omega)
    rw [he]
    show c.norm ≠ 1 / 2
    rw [hn]; norm_num
  refine ⟨K, T, hK, hT, ?_⟩
  obtain ⟨⟨l, k⟩, hr⟩ : ∃ x, eigsh K T 0 chain (site 0) .LA (1 / 2) 2 = .ok x := by
    unfold eigsh
    rw [if_neg (by simp), if_neg (by omega), if_neg (by omega), if_neg (by omega)]
    exact ⟨_, rfl⟩
  obtain ⟨hk, hp⟩ := C74_converged hK hT (le_refl 0) (by omega) chain_symmetric chain_bound (by norm_num) ht hc hr
  have hl := (C74_pairs_partial hK chain_symmetric (by norm_num) ht hr).1
  subst hk
  obtain ⟨z, v, hv, hz, hv1, -⟩ := C74_positive hK chain_symmetric chain_positive (by simp) (by norm_num) ht hr 0 (by omega)
    (by omega)
  refine ⟨z, v, ?_⟩
  rw [hr]
  match l, hl with
  | [x], _ =>
    have hx : x = (z, some v) := by simpa using hv
    have hz : 0 < z := hz
    refine ⟨by rw [hx], hz, hv1, ?_⟩
    rcases hp x (by simp) with ⟨h1, -⟩ | ⟨v', h1, h2, h3⟩
    · rw [hx] at h1
      exact absurd h1 hz.ne'
    · rw [hx] at h1 h3
      injection h1 with h1
      subst h1
      simp only [Nat.cast_one, Real.sqrt_one, zero_mul, one_mul] at h3
      rw [Real.norm_of_nonneg hz.le, max_eq_right (by positivity)] at h3
      linarith

end

end TN.Krylov
