import Verif.ArnoldiKernels

/-!
# Cases that meet the hypotheses of the theorems on `eigs` of the jax backend
-/

set_option linter.unusedSectionVars false

namespace TN.Krylov

noncomputable section

open Classical Matrix

variable {n m : Nat}

/-- Without restarts there is no tie, and the method runs for every operator. -/
theorem eigs_one (K : Kernels ℂ m) (eps tol : ℝ) (A : Vec ℂ n →ₗ[ℂ] Vec ℂ n) (init : Vec ℂ n) (numeig : Nat)
    (h1 : numeig ≤ m) (h2 : m ≤ n) : NoTie K eps A init numeig .LR tol 1 ∧
      ∃ l, eigs K eps A init numeig .LR tol 1 =
        .ok (l, (arnoldiFact A tol init (fun _ => 0) 0 0 : Carry ℂ n m).i) := by
  refine ⟨fun i hi => absurd hi (by omega), ?_⟩
  unfold eigs
  rw [if_neg (by simp), if_neg (by omega), if_neg (by omega)]
  exact ⟨_, rfl⟩

theorem arnoldiBody_i (A : Vec ℂ n → Vec ℂ n) (tol : ℝ) (c : Carry ℂ n m) : (arnoldiBody A tol c).i = c.i + 1 := by
  unfold arnoldiBody
  simp only
  split_ifs <;> rfl

/-- The exchange of the two components. -/
def swap : Vec ℂ 2 →ₗ[ℂ] Vec ℂ 2 where
  toFun x := !₂[x 1, x 0]
  map_add' x y := by ext i; fin_cases i <;> simp
  map_smul' t x := by ext i; fin_cases i <;> simp

/-- The first basis vector. -/
def e0 : Vec ℂ 2 := EuclideanSpace.single 0 1

theorem norm_e0 : ‖e0‖ = 1 := by simp [e0]

theorem swap_e0 : swap e0 = EuclideanSpace.single 1 1 := by
  ext i; fin_cases i <;> simp [swap, e0]

/-- The factorisation of the exchange from a basis vector takes two steps. -/
theorem swap_steps : (arnoldiFact swap (1 / 2) e0 (fun _ => 0) 0 0 : Carry ℂ 2 2).i = 2 := by
  have hv : normalize (1 / 2) e0 = e0 := by
    rw [normalize, norm_e0, if_pos (by norm_num)]; simp
  show (arnoldiLoop swap (1 / 2) 2 ⟨setRow (fun _ => 0) 0 (normalize (1 / 2) e0), 0, normalize (1 / 2) e0, ‖e0‖, 0⟩ :
    Carry ℂ 2 2).i = 2
  rw [hv, arnoldiLoop, if_pos ⟨by show 0 < 2; omega, by show _ < ‖e0‖; rw [norm_e0]; norm_num⟩, arnoldiLoop, if_pos,
    arnoldiLoop, arnoldiBody_i, arnoldiBody_i]
  have ho : Ortho (setRow (fun _ : Fin 2 => (0 : Vec ℂ 2)) 0 e0) 1 :=
    Ortho.setRow (fun a b ha => absurd ha (by omega)) norm_e0 fun a ha => absurd ha (by omega)
  have hz0 : ∀ a : Fin 2, 1 ≤ a.val → setRow (fun _ : Fin 2 => (0 : Vec ℂ 2)) 0 e0 a = 0 := fun a ha =>
    setRow_other (by omega)
  have hg : (gramSchmidt (upTo 0 (setRow (fun _ : Fin 2 => (0 : Vec ℂ 2)) 0 e0)) (swap e0)).1 = swap e0 := by
    rw [upTo_eq (fun a ha => hz0 a ha), gramSchmidt_eq ho hz0, gsPass, sum_setRow (fun _ _ => rfl), dif_pos (by omega),
      setRow_self (show (⟨0, by omega⟩ : Fin 2).val = 0 from rfl)]
    have : inner ℂ e0 (swap e0) = 0 := by rw [swap_e0, e0, EuclideanSpace.inner_single_left]; simp
    rw [this]
    simp
  refine ⟨by rw [arnoldiBody_i]; show 1 < 2; omega, ?_⟩
  have : (arnoldiBody swap (1 / 2) ⟨setRow (fun _ => 0) 0 e0, 0, e0, ‖e0‖, 0⟩ : Carry ℂ 2 2).norm = 1 := by
    unfold arnoldiBody
    simp only
    rw [if_pos (by omega)]
    show ‖_‖ = 1
    rw [hg, swap_e0]
    simp
  rw [this]; norm_num

/-- `eigs` of the exchange: all hypotheses of `C73_pairs_partial` and `C73_exact` hold. -/
example : ∃ K : Kernels ℂ 2, K.OK ∧ NoTie K 0 swap e0 1 .LR (1 / 2) 1 ∧
    ∃ l, eigs K 0 swap e0 1 .LR (1 / 2) 1 = .ok (l, 2) ∧ ∃ others : Multiset ℂ,
      swap.charpoly.roots = ↑(l.map Prod.fst) + others ∧ ∀ p ∈ l, ∃ v, p.2 = some v ∧ ‖v‖ = 1 ∧ swap v = p.1 • v := by
  obtain ⟨K, hK⟩ := exists_kernels 2
  obtain ⟨ht, l, hl⟩ := eigs_one K 0 (1 / 2) swap e0 1 (by omega) (by omega)
  rw [swap_steps] at hl
  obtain ⟨others, ho, -⟩ := C73_exact hK (by norm_num) (by omega) ht hl
  refine ⟨K, hK, ht, l, hl, others, ho, fun p hp => ?_⟩
  rcases (C73_pairs_partial hK (by norm_num) ht hl).2.2 p hp with ⟨-, h⟩ | ⟨v, h1, h2, -, -, h3⟩
  · exact absurd h (lt_irrefl _)
  · exact ⟨v, h1, h2, h3 rfl⟩

/-- An operator with positive real part, for `C73_positive`. -/
example : ∀ v : Vec ℂ 2, v ≠ 0 → 0 < (inner ℂ v ((LinearMap.id : Vec ℂ 2 →ₗ[ℂ] Vec ℂ 2) v)).re := by
  intro v hv
  have : inner ℂ v v = (‖v‖ : ℂ) ^ 2 := inner_self_eq_norm_sq_to_K v
  rw [LinearMap.id_apply, this, ← Complex.ofReal_pow, Complex.ofReal_re]
  have := norm_pos_iff.mpr hv
  positivity

/-- The negative of the identity has negative real part and every vector is an eigenvector, but `eigs` finds the eigenvalue 0
with every number of restarts. -/
example : ∃ K : Kernels ℂ 2, K.OK ∧ ∀ (init : Vec ℂ 3) (maxiter : Nat), 1 / 2 < ‖init‖ →
    eigs K 0 (-LinearMap.id : Vec ℂ 3 →ₗ[ℂ] Vec ℂ 3) init 1 .LR (1 / 2) maxiter = .ok ([(0, none)], 1) := by
  obtain ⟨K, hK⟩ := exists_kernels 2
  refine ⟨K, hK, fun init maxiter hi => C73_eigenvector_false hK (by norm_num) (fun v hv => ?_) hi (z := -1) (by simp)
    (by omega) (by omega) maxiter⟩
  have : inner ℂ v v = (‖v‖ : ℂ) ^ 2 := inner_self_eq_norm_sq_to_K v
  rw [LinearMap.neg_apply, LinearMap.id_apply, inner_neg_right, this, ← Complex.ofReal_pow, Complex.neg_re, Complex.ofReal_re]
  have := norm_pos_iff.mpr hv
  have : 0 < ‖v‖ ^ 2 := by positivity
  linarith

/-! ### A run that converges after a restart -/

/-- Minus one hundred times the identity plus the cyclic exchange of the components. -/
def cyc : Vec ℂ 3 →ₗ[ℂ] Vec ℂ 3 where
  toFun x := !₂[x 2 - 100 * x 0, x 0 - 100 * x 1, x 1 - 100 * x 2]
  map_add' x y := by ext i; fin_cases i <;> simp <;> ring
  map_smul' t x := by ext i; fin_cases i <;> simp <;> ring

/-- The cyclic exchange. -/
theorem norm_cyc (x : Vec ℂ 3) : ‖cyc x + (100 : ℂ) • x‖ = ‖x‖ := by
  have e : cyc x + (100 : ℂ) • x = !₂[x 2, x 0, x 1] := by
    ext i; fin_cases i <;> simp [cyc]
  rw [e, EuclideanSpace.norm_eq, EuclideanSpace.norm_eq]
  congr 1
  simp [Fin.sum_univ_three]
  ring

theorem cyc_value {x : Vec ℂ 3} {z : ℂ} (hx : x ≠ 0) (h : inner ℂ x (cyc x) = z * (‖x‖ : ℂ) ^ 2) : ‖z + 100‖ ≤ 1 := by
  have h1 : inner ℂ x (cyc x + (100 : ℂ) • x) = (z + 100) * (‖x‖ : ℂ) ^ 2 := by
    rw [inner_add_right, inner_smul_right, h, inner_self_eq_norm_sq_to_K]
    simp only [RCLike.ofReal_eq_complex_ofReal]; ring
  have h2 := norm_inner_le_norm (𝕜 := ℂ) x (cyc x + (100 : ℂ) • x)
  rw [h1, norm_cyc, norm_mul] at h2
  have hp := norm_pos_iff.mpr hx
  have h3 : ‖(‖x‖ : ℂ) ^ 2‖ = ‖x‖ * ‖x‖ := by simp [sq]
  rw [h3] at h2
  have : 0 < ‖x‖ * ‖x‖ := by positivity
  by_contra hc
  nlinarith

theorem cyc_dissipative {x : Vec ℂ 3} (hx : x ≠ 0) : (inner ℂ x (cyc x)).re < 0 := by
  have hp := norm_pos_iff.mpr hx
  have e : inner ℂ x (cyc x) = (inner ℂ x (cyc x) / (‖x‖ : ℂ) ^ 2) * (‖x‖ : ℂ) ^ 2 := by
    have : (‖x‖ : ℂ) ≠ 0 := by exact_mod_cast hp.ne'
    field_simp
  have h1 := cyc_value hx e
  rw [e, re_value]
  generalize inner ℂ x (cyc x) / (‖x‖ : ℂ) ^ 2 = z at *
  have h2 := (Complex.abs_re_le_norm (z + 100)).trans h1
  have h3 : (z + 100).re = z.re + 100 := by simp
  rw [h3] at h2
  have := (abs_le.mp h2).2
  have : 0 < ‖x‖ ^ 2 := by positivity
  nlinarith

/-- A basis vector. -/
def ex (i : Fin 3) : Vec ℂ 3 := EuclideanSpace.single i 1

theorem inner_ex (i j : Fin 3) : inner ℂ (ex i) (ex j) = if i = j then 1 else 0 := by
  rw [ex, ex, EuclideanSpace.inner_single_left]
  simp

theorem norm_ex (i : Fin 3) : ‖ex i‖ = 1 := by simp [ex]

theorem cyc_ex0 : cyc (ex 0) = ex 1 - (100 : ℂ) • ex 0 := by ext i; fin_cases i <;> simp [cyc, ex]

theorem cyc_ex1 : cyc (ex 1) = ex 2 - (100 : ℂ) • ex 1 := by ext i; fin_cases i <;> simp [cyc, ex]

theorem normalize_ex (i : Fin 3) : normalize (1 / 2) (ex i) = ex i := by
  rw [normalize, norm_ex, if_pos (by norm_num)]; simp

/-- The first factorisation has two steps and a residual of length one. -/
theorem cyc_steps : (arnoldiFact cyc (1 / 2) (ex 0) (fun _ => 0) 0 0 : Carry ℂ 3 2).i = 2 ∧
    (arnoldiFact cyc (1 / 2) (ex 0) (fun _ => 0) 0 0 : Carry ℂ 3 2).norm = 1 := by
  set V0 : Fin 2 → Vec ℂ 3 := setRow (fun _ => 0) 0 (ex 0) with hV0
  have ho : Ortho V0 1 :=
    Ortho.setRow (fun a b ha => absurd ha (by omega)) (norm_ex 0) fun a ha => absurd ha (by omega)
  have hz0 : ∀ a : Fin 2, 1 ≤ a.val → V0 a = 0 := fun a ha => setRow_other (by omega)
  have v0 : V0 0 = ex 0 := setRow_self rfl
  have v1 : V0 1 = 0 := setRow_other (by decide)
  have hg : (gramSchmidt (upTo 0 V0) (cyc (ex 0))).1 = ex 1 := by
    rw [upTo_eq (fun a ha => hz0 a ha), gramSchmidt_eq ho hz0, gsPass, Fin.sum_univ_two, v0, v1, cyc_ex0, inner_sub_right,
      inner_smul_right, inner_ex, inner_ex]
    simp
  set V1 : Fin 2 → Vec ℂ 3 := setRow V0 1 (ex 1) with hV1
  have w0 : V1 0 = ex 0 := by rw [hV1, setRow_other (by decide), v0]
  have w1 : V1 1 = ex 1 := setRow_self rfl
  have ho1 : Ortho V1 2 := by
    refine ho.setRow (norm_ex 1) fun a ha => ?_
    have : a = 0 := Fin.ext (by omega)
    rw [this, v0, inner_ex]; simp
  have hg1 : (gramSchmidt (upTo 1 V1) (cyc (ex 1))).1 = ex 2 := by
    rw [upTo_eq (fun a ha => absurd a.isLt (by omega)), gramSchmidt_eq ho1 (fun a ha => absurd a.isLt (by omega)), gsPass,
      Fin.sum_univ_two, w0, w1, cyc_ex1, inner_sub_right, inner_sub_right, inner_smul_right, inner_smul_right, inner_ex,
      inner_ex, inner_ex, inner_ex]
    simp
  obtain ⟨H1, hb⟩ : ∃ H1, (arnoldiBody cyc (1 / 2) ⟨V0, 0, ex 0, 1, 0⟩ : Carry ℂ 3 2) = ⟨V1, H1, ex 1, 1, 1⟩ := by
    unfold arnoldiBody
    simp only
    rw [if_pos (by omega), hg, normalize_ex, norm_ex]
    exact ⟨_, rfl⟩
  have hb1 : (arnoldiBody cyc (1 / 2) ⟨V1, H1, ex 1, 1, 1⟩ : Carry ℂ 3 2).i = 2 ∧
      (arnoldiBody cyc (1 / 2) ⟨V1, H1, ex 1, 1, 1⟩ : Carry ℂ 3 2).norm = 1 := by
    unfold arnoldiBody
    simp only
    rw [if_neg (by omega), hg1, norm_ex]
    exact ⟨rfl, rfl⟩
  have e : (arnoldiFact cyc (1 / 2) (ex 0) (fun _ => 0) 0 0 : Carry ℂ 3 2) =
      arnoldiBody cyc (1 / 2) ⟨V1, H1, ex 1, 1, 1⟩ := by
    show arnoldiLoop cyc (1 / 2) 2 ⟨setRow (fun _ => 0) 0 (normalize (1 / 2) (ex 0)), 0, normalize (1 / 2) (ex 0),
      ‖ex 0‖, 0⟩ = _
    rw [normalize_ex, norm_ex, arnoldiLoop, if_pos ⟨by show 0 < 2; omega, by show (1 / 2 : ℝ) < 1; norm_num⟩, ← hV0, hb,
      arnoldiLoop, if_pos ⟨by show 1 < 2; omega, by show (1 / 2 : ℝ) < 1; norm_num⟩, arnoldiLoop]
  rw [e]
  exact hb1

/-- Kernels whose eigenvectors have entries of at most one. -/
theorem exists_small_kernels (m : Nat) : ∃ K : Kernels ℂ m, K.OK ∧ ∀ M a j, ‖(K.eig M).2 a j‖ ≤ 1 := by
  obtain ⟨K, hK⟩ := exists_kernels m
  have hpos : ∀ M j, 0 < ∑ b, ‖(K.eig M).2 b j‖ := by
    intro M j
    obtain ⟨a, ha⟩ := Function.ne_iff.mp ((hK.eig M).ne j)
    exact Finset.sum_pos' (fun _ _ => norm_nonneg _) ⟨a, Finset.mem_univ _, norm_pos_iff.mpr ha⟩
  refine ⟨{ K with eig := fun M => ((K.eig M).1, fun a j => ((∑ b, ‖(K.eig M).2 b j‖ : ℝ) : ℂ)⁻¹ * (K.eig M).2 a j) },
    ⟨⟨hK.qr.mul, hK.qr.unitary, hK.qr.upper, hK.qr.hess⟩, fun M => ⟨fun j => ?_, fun j => ?_, (hK.eig M).charpoly⟩,
      ⟨hK.sort.bij, hK.sort.anti⟩⟩, fun M a j => ?_⟩
  · have e : (fun a => ((∑ b, ‖(K.eig M).2 b j‖ : ℝ) : ℂ)⁻¹ * (K.eig M).2 a j) =
        ((∑ b, ‖(K.eig M).2 b j‖ : ℝ) : ℂ)⁻¹ • fun a => (K.eig M).2 a j := rfl
    show M *ᵥ (fun a => ((∑ b, ‖(K.eig M).2 b j‖ : ℝ) : ℂ)⁻¹ * (K.eig M).2 a j) = _ • (fun a => _ * _)
    rw [e, Matrix.mulVec_smul, (hK.eig M).vec j, smul_comm]
  · intro h
    obtain ⟨a, ha⟩ := Function.ne_iff.mp ((hK.eig M).ne j)
    have := congrFun h a
    simp only [Pi.zero_apply, mul_eq_zero, inv_eq_zero] at this
    rcases this with h1 | h1
    · exact (hpos M j).ne' (by exact_mod_cast h1)
    · exact ha h1
  · show ‖((∑ b, ‖(K.eig M).2 b j‖ : ℝ) : ℂ)⁻¹ * (K.eig M).2 a j‖ ≤ 1
    rw [norm_mul, norm_inv, Complex.norm_real, Real.norm_of_nonneg (hpos M j).le, inv_mul_le_iff₀ (hpos M j), mul_one]
    exact Finset.single_le_sum (f := fun b => ‖(K.eig M).2 b j‖) (fun _ _ => norm_nonneg _) (Finset.mem_univ a)

/-- The residual of a factorisation of length one is at most one. -/
theorem fact_residual_le {V : Fin 2 → Vec ℂ 3} {H : Mat ℂ 2} {f : Vec ℂ 3} (h : Fact cyc V H 1 f) : ‖f‖ ≤ 1 := by
  have h1 := h.rel 0 (by decide)
  rw [Fin.sum_univ_two, h.zero 1 (by decide), smul_zero, add_zero, if_pos (by decide)] at h1
  have h2 : cyc (V 0) + (100 : ℂ) • V 0 = f + (H 0 0 + 100) • V 0 := by rw [h1, add_smul]; abel
  have hn : ‖V 0‖ = 1 := by
    have := h.ortho 0 0 (by decide) (by decide)
    rw [if_pos rfl, inner_self_eq_norm_sq_to_K] at this
    have h2 : ‖V 0‖ ^ 2 = 1 := by
      rw [← Complex.ofReal_inj]; push_cast; exact this
    nlinarith [norm_nonneg (V 0), h2, sq_nonneg (‖V 0‖ - 1)]
  have h3 := norm_cyc (V 0)
  rw [h2, hn] at h3
  have hp : inner ℂ f ((H 0 0 + 100) • V 0) = 0 := by
    rw [inner_smul_right, ← inner_conj_symm f, h.perp 0 (by decide), map_zero, mul_zero]
  have h4 := norm_add_sq_eq_norm_sq_add_norm_sq_of_inner_eq_zero _ _ hp
  rw [h3] at h4
  nlinarith [norm_nonneg f, norm_nonneg ((H 0 0 + 100) • V 0)]

/-- The restart of this run converges. -/
theorem cyc_converged {K : Kernels ℂ 2} (hK : K.OK) (hs : ∀ M a j, ‖(K.eig M).2 a j‖ ≤ 1) :
    (eigsState K 0 cyc (ex 0) 1 .LR (1 / 2) 1 : Outer ℂ 3 2).converged = true := by
  obtain ⟨r, hd, -⟩ := arnoldiFact_done (A := cyc) (tol := 1 / 2) (m := 2) (by norm_num) (fact_zero cyc (ex 0)) (by omega)
  have hi := hd.inv 1
  unfold eigsState
  set o := (arnoldiFact cyc (1 / 2) (ex 0) (fun _ => 0) 0 0 : Carry ℂ 3 2).toOuter (1 / 2) with ho
  have hn : o.norm = 1 := cyc_steps.2
  obtain ⟨hm, hf⟩ := hi.full rfl (by rw [hn]; norm_num)
  have hfact : Fact cyc o.V o.H 2 o.f := by
    have := hi.fact
    rw [hm] at this
    rw [hf]; exact this
  obtain ⟨hr, hq⟩ := Rel.foldl hK.qr (shifts K .LR 1 (K.eig o.H).1)
    (o.V, o.H, fun j => if j.val + 1 = 2 then 1 else 0) 0 hfact.toRel (fun j hj => if_neg (by omega))
  have hcomp := Comp.foldl hK.qr (shifts K .LR 1 (K.eig o.H).1)
    (o.V, o.H, fun j => if j.val + 1 = 2 then 1 else 0) hfact.comp
  rw [shifts_length K .LR (by omega)] at hq
  have hcut := hr.cut (k := 1) (by omega) (by omega) (fun j hj => hq j (by omega))
  have hfk := shiftedQR_f K o.V o.H o.f (shifts K .LR 1 (K.eig o.H).1) (k := 1) (by omega)
  rw [outerLoop, if_neg, outerLoop]
  · unfold outerBody
    simp only
    rw [if_pos]
    intro j hj
    have hlam : 99 ≤ ‖(K.eig (shiftedQR K o.V o.H o.f (shifts K .LR 1 (K.eig o.H).1) 1).2.1).1 j‖ := by
      have hE := hK.eig (shiftedQR K o.V o.H o.f (shifts K .LR 1 (K.eig o.H).1) 1).2.1
      have hv := hE.vec j
      rw [← cut_full (shiftedQR K o.V o.H o.f (shifts K .LR 1 (K.eig o.H).1) 1).2.1] at hv
      have hx : comb (shiftedQR K o.V o.H o.f (shifts K .LR 1 (K.eig o.H).1) 1).1 (fun a => (K.eig (cut 2
          (shiftedQR K o.V o.H o.f (shifts K .LR 1 (K.eig o.H).1) 1).2.1)).2 a j) ≠ 0 := by
        intro hx
        rw [cut_full] at hx
        exact hE.ne j (funext fun a => (hcomp.comb_eq_zero _).1 hx a a.isLt)
      have h1 := hcomp.inner_self hv
      rw [inner_self_eq_norm_sq_to_K] at h1
      have h2 := cyc_value hx h1
      rw [cut_full] at h2
      generalize (K.eig (shiftedQR K o.V o.H o.f (shifts K .LR 1 (K.eig o.H).1) 1).2.1).1 j = z at *
      have h3 := norm_sub_norm_le (-100 : ℂ) (-(z + 100))
      have h4 : (-100 : ℂ) - -(z + 100) = z := by ring
      have h5 : ‖(-100 : ℂ)‖ = 100 := by simp
      rw [h4, norm_neg (z + 100), h5] at h3
      linarith
    have hbeta : ‖(shiftedQR K o.V o.H o.f (shifts K .LR 1 (K.eig o.H).1) 1).2.2‖ ≤ 1 := by
      rw [hfk]
      refine fact_residual_le hcut
    have hu : ‖readEntry (K.eig (shiftedQR K o.V o.H o.f (shifts K .LR 1 (K.eig o.H).1) 1).2.1).2 (1 - 1) j‖ ≤ 1 := by
      unfold readEntry
      rw [dif_pos (by omega)]
      exact hs _ _ _
    refine lt_of_le_of_lt (mul_le_mul hbeta hu (norm_nonneg _) zero_le_one) ?_
    refine lt_of_lt_of_le ?_ (le_max_right _ _)
    linarith
  · rintro (h | h)
    · exact Bool.noConfusion h
    · have := hi.ar rfl
      rw [h, hn] at this
      exact absurd (of_decide_eq_true this.symm) (by norm_num)

/-- A run that converges after a restart: `eigs` finds the eigenvalue 0 of an operator all of whose eigenvalues have real
parts below -99, and a vector of NaNs, without a warning. -/
example : ∃ K : Kernels ℂ 2, K.OK ∧ NoTie K 0 cyc (ex 0) 1 .LR (1 / 2) 2 ∧
    (eigsState K 0 cyc (ex 0) 1 .LR (1 / 2) (2 - 1) : Outer ℂ 3 2).converged = true ∧
    eigs K 0 cyc (ex 0) 1 .LR (1 / 2) 2 = .ok ([(0, none)], 1) := by
  obtain ⟨K, hK, hs⟩ := exists_small_kernels 2
  have hc := cyc_converged hK hs
  have ht : NoTie K 0 cyc (ex 0) 1 .LR (1 / 2) 2 := by
    intro i hi _
    have : i = 0 := by omega
    subst this
    show (arnoldiFact cyc (1 / 2) (ex 0) (fun _ => 0) 0 0 : Carry ℂ 3 2).norm ≠ 1 / 2
    rw [cyc_steps.2]; norm_num
  refine ⟨K, hK, ht, hc, ?_⟩
  obtain ⟨⟨l, k⟩, hr⟩ : ∃ x, eigs K 0 cyc (ex 0) 1 .LR (1 / 2) 2 = .ok x := by
    unfold eigs
    rw [if_neg (by simp), if_neg (by omega), if_neg (by omega)]
    exact ⟨_, rfl⟩
  obtain ⟨hk, hd⟩ := C73_converged_false hK (by omega) (by omega) (by norm_num) ht (fun v hv => cyc_dissipative hv) hc hr
  have hl := (C73_pairs_partial hK (by norm_num) ht hr).1
  subst hk
  rw [hr]
  match l, hl with
  | [x], _ =>
    have : x = (0, none) := by simpa using hd
    rw [this]

end

end TN.Krylov
