import Verif.GmresProps

/-!
# C71: what `gmres` of the jax backend does not do
-/

set_option linter.unusedSectionVars false

namespace TN.Gmres

noncomputable section

open Classical Finset

variable {n : Nat}

local notation "⟪" x ", " y "⟫" => inner ℝ x y

/-- If the tolerance is at least one, the first iteration is the last one. -/
theorem restart_short {solve : Nat → (Nat → Nat → ℝ) → (Nat → ℝ) → Nat → ℝ} {A : Vec ℝ n →ₗ[ℝ] Vec ℝ n}
    (hA : Function.Injective A) {b : Vec ℝ n} {tol : ℝ} (ht : 1 ≤ tol) (hb : tol < ‖b‖) {nk : Nat} (hk : 0 < nk) :
    ∃ c : ℝ, restart Real.sqrt solve A b nk 0 tol (some 0) = (decide (2 < nk), some (c • b)) := by
  have hz : b ≠ 0 := by rintro rfl; rw [norm_zero] at hb; linarith
  have hp : 0 < ‖b‖ := by linarith
  have hI := Inv.start A hz nk
  have hb0 : (start b).beta (start b).k ≠ 0 := by simpa [start] using hz
  have hn := hI.no_nan hA hk rfl hb0 tol ‖b‖
  obtain ⟨e', p', s', col, v, u, σ, d, i1, i2, i3, i4, i5, i6, i7, i8⟩ := hI.step hk rfl hb0 tol ‖b‖ hn
  have hβ : (start b).beta (start b).k = ‖b‖ := by simp [start]
  have hle : |σ * (start b).beta (start b).k| ≤ ‖b‖ := by
    rw [hβ, abs_mul, abs_norm]
    nlinarith
  have hkr : krylov Real.sqrt A nk b tol ‖b‖ = work Real.sqrt A tol ‖b‖ nk (start b) := by
    rw [krylov, loop, if_pos, loop, if_neg]
    · rintro ⟨_, he, _⟩
      rw [i4, Exceeds] at he
      simp only at he
      rw [if_neg hp.ne', lt_div_iff₀ hp] at he
      nlinarith
    · refine ⟨rfl, ?_, Nat.zero_le _⟩
      rw [Exceeds]
      simpa [start] using hb
  have hV : (work Real.sqrt A tol ‖b‖ nk (start b)).V 0 = (1 / ‖b‖) • b := by
    have hk' : (start b).k < nk := hk
    rw [work, if_pos hk']
    simp only [RCLike.ofReal_real_eq_id, id]
    split <;> simp [start]
  rw [restart]
  simp only [map_zero, sub_zero]
  rw [hkr, hn, i2]
  have hm : min ((start b).k + 1) nk = 1 := by simp [start]; omega
  refine ⟨solve 1 (work Real.sqrt A tol ‖b‖ nk (start b)).R (work Real.sqrt A tol ‖b‖ nk (start b)).beta 0 * (1 / ‖b‖), ?_⟩
  rw [update, i2, hm, range_one, sum_singleton, hV, smul_smul, zero_add]
  rfl

/-- The cyclic shift of three entries. -/
def shift3 : Vec ℝ 3 →ₗ[ℝ] Vec ℝ 3 where
  toFun v := !₂[v 2, v 0, v 1]
  map_add' v w := by ext i; fin_cases i <;> simp
  map_smul' c v := by ext i; fin_cases i <;> simp

theorem shift3_injective : Function.Injective shift3 := by
  intro v w h
  have h0 := congrFun (congrArg WithLp.ofLp h) 0
  have h1 := congrFun (congrArg WithLp.ofLp h) 1
  have h2 := congrFun (congrArg WithLp.ofLp h) 2
  simp [shift3] at h0 h1 h2
  ext i
  fin_cases i
  · exact h1
  · exact h2
  · exact h0

/-- **C71, negation.**  `gmres` compares the residual divided by the norm of `b` with a tolerance that has been multiplied
with that norm.  The residual of what it returns is up to any factor greater than the tolerance, although `info` says that
it has converged, and although enough Krylov vectors and restarts are allowed. -/
theorem C71_tolerance_false (solve : Nat → (Nat → Nat → ℝ) → (Nat → ℝ) → Nat → ℝ) (B : ℝ) (hB : 1 < B) (maxiter : Nat)
    (hi : 0 < maxiter) :
    ∃ (b x : Vec ℝ 3), gmres Real.sqrt solve shift3 b none 0 (some 1) 3 maxiter = .ok (some x, 0) ∧
      B * max (0 * ‖b‖) 1 ≤ ‖b - shift3 x‖ := by
  have hnorm : ‖(!₂[B, 0, 0] : Vec ℝ 3)‖ = B := by
    rw [EuclideanSpace.norm_eq, Fin.sum_univ_three]
    simp
    exact Real.sqrt_sq (by linarith)
  obtain ⟨c, hc⟩ := restart_short (solve := solve) shift3_injective (b := !₂[B, 0, 0]) (tol := 1) (le_refl 1)
    (by rw [hnorm]; exact hB) (nk := 3) (by omega)
  refine ⟨!₂[B, 0, 0], c • !₂[B, 0, 0], ?_, ?_⟩
  · have hg : gmres Real.sqrt solve shift3 !₂[B, 0, 0] none 0 (some 1) 3 maxiter =
        gmres Real.sqrt solve shift3 !₂[B, 0, 0] (some 0) 0 (some 1) 3 maxiter := rfl
    have hT : effTol 0 (some 1) (!₂[B, 0, 0] : Vec ℝ 3) = 1 := by simp [effTol]
    obtain ⟨rest, rfl⟩ : ∃ rest, maxiter = rest + 1 := ⟨maxiter - 1, by omega⟩
    rw [hg, gmres_eq solve shift3 _ 0 (le_refl 0) (by simp) (by omega) (by omega), hT]
    have hk : (min (3 : Int) ((3 : Nat) : Int)).toNat = 3 := by omega
    rw [hk, restarts, hc]
    simp [Except.map]
  · rw [zero_mul, max_eq_right zero_le_one, mul_one, EuclideanSpace.norm_eq, Fin.sum_univ_three]
    apply Real.le_sqrt_of_sq_le
    simp [shift3]
    positivity

/-- A rotation by a right angle, scaled. -/
def turn (ε : ℝ) : Vec ℝ 2 →ₗ[ℝ] Vec ℝ 2 where
  toFun v := !₂[-ε * v 1, ε * v 0]
  map_add' v w := by ext i; fin_cases i <;> simp <;> ring
  map_smul' c v := by ext i; fin_cases i <;> simp <;> ring

theorem turn_injective {ε : ℝ} (h : ε ≠ 0) : Function.Injective (turn ε) := by
  intro v w e
  have h0 := congrFun (congrArg WithLp.ofLp e) 0
  have h1 := congrFun (congrArg WithLp.ofLp e) 1
  simp [turn, h] at h0 h1
  ext i
  fin_cases i
  · exact h1
  · exact h0

/-- **C71, negation.**  `info` is zero although nothing has converged: with one Krylov vector the residual for this
operator stays what it was. -/
theorem C71_info_false {solve : Nat → (Nat → Nat → ℝ) → (Nat → ℝ) → Nat → ℝ} (hs : TriSolve solve) :
    ∃ x : Vec ℝ 2, gmres Real.sqrt solve (turn 1) !₂[1, 0] none 0 none 1 1 = .ok (some x, 0) ∧
      ‖!₂[1, 0] - turn 1 x‖ = ‖(!₂[1, 0] : Vec ℝ 2)‖ := by
  obtain ⟨x, hx⟩ := C71_total solve (turn 1) (turn_injective one_ne_zero) !₂[1, 0] 0 (le_refl 0) (atol := none) (by simp)
    (m := 1) (by omega) (by omega) (Or.inl (by simp))
  refine ⟨x, hx, ?_⟩
  obtain ⟨q, q1, _, q2, _⟩ := C71_minimal hs (turn 1) !₂[1, 0] 0 (le_refl 0) (by simp) (by omega) (by omega) hx
  apply le_antisymm
  · have := C71_residual hs (turn 1) !₂[1, 0] 0 (le_refl 0) (by simp) (by omega) (by omega) hx
    simpa using this
  · have h1 := kry_mono (turn 1) (!₂[1, 0] - turn 1 0) (show q ≤ 1 by omega) q2.1
    rw [map_zero, sub_zero, sub_zero] at h1
    have h2 : ∃ c : ℝ, x = c • !₂[1, 0] := by
      rw [Kry, Set.range_unique, Submodule.mem_span_singleton] at h1
      obtain ⟨c, hc⟩ := h1
      exact ⟨c, by simpa using hc.symm⟩
    obtain ⟨c, rfl⟩ := h2
    rw [EuclideanSpace.norm_eq, EuclideanSpace.norm_eq]
    apply Real.sqrt_le_sqrt
    simp [turn]
    positivity

/-- **C71, negation.**  If the operator is small compared to the tolerance, then the result is NaN although the operator is
invertible. -/
theorem C71_nan_false (solve : Nat → (Nat → Nat → ℝ) → (Nat → ℝ) → Nat → ℝ) {ε tol : ℝ} (h0 : 0 < ε) (h1 : ε ≤ tol)
    (h2 : tol < 1) : gmres Real.sqrt solve (turn ε) !₂[1, 0] none tol none 2 1 = .ok (none, 0) := by
  have hb : ‖(!₂[1, 0] : Vec ℝ 2)‖ = 1 := by
    rw [EuclideanSpace.norm_eq, Fin.sum_univ_two]
    simp
  have hg : gmres Real.sqrt solve (turn ε) !₂[1, 0] none tol none 2 1 =
      gmres Real.sqrt solve (turn ε) !₂[1, 0] (some 0) tol none 2 1 := rfl
  have hT : effTol tol none (!₂[1, 0] : Vec ℝ 2) = tol := by simp [effTol, hb]
  have hk : (min (2 : Int) ((2 : Nat) : Int)).toNat = 2 := by omega
  rw [hg, gmres_one solve (turn ε) _ 0 (by linarith) (by simp) (by omega) (by omega), hT, hk, restart]
  simp only [map_zero, sub_zero]
  rw [hb]
  have hV : (start (!₂[1, 0] : Vec ℝ 2)).V 0 = !₂[1, 0] := by simp [start, hb]
  have hV' : ∀ i, 0 < i → (start (!₂[1, 0] : Vec ℝ 2)).V i = 0 := by
    intro i hi
    simp [start, Function.update_of_ne (show i ≠ 0 by omega)]
  have hin : ⟪(!₂[1, 0] : Vec ℝ 2), turn ε !₂[1, 0]⟫ = 0 := by
    rw [PiLp.inner_apply, Fin.sum_univ_two]
    simp [turn]
  have hgs : gsScan (start (!₂[1, 0] : Vec ℝ 2)).V (turn ε !₂[1, 0]) 3 = (turn ε !₂[1, 0], fun _ => 0) := by
    simp only [gsScan, hV, hin, hV' 1 (by omega), hV' 2 (by omega), inner_zero_left, zero_smul, sub_zero]
    refine Prod.ext rfl ?_
    funext i
    simp [Function.update_apply]
  have hnt : ‖turn ε !₂[1, 0]‖ = ε := by
    rw [EuclideanSpace.norm_eq, Fin.sum_univ_two]
    simp [turn]
    exact Real.sqrt_sq h0.le
  obtain ⟨st1, hst1⟩ : ∃ st1, st1 = work Real.sqrt (turn ε) tol 1 2 (start !₂[1, 0]) := ⟨_, rfl⟩
  have hw : st1.k = 1 ∧ st1.V 1 = 0 ∧ st1.err = (1, 1) ∧ st1.nan = false := by
    have hk0 : (start (!₂[1, 0] : Vec ℝ 2)).k = 0 := rfl
    have hs : Real.sqrt (0 ^ 2 + ε ^ 2) = ε := by rw [zero_pow two_ne_zero, zero_add, Real.sqrt_sq h0.le]
    have hgr : givensRotation Real.sqrt 0 ε = some (0, -1) := by
      rw [givensRotation, hs, if_neg h0.ne', zero_div, neg_div, div_self h0.ne']
    have hc0 : (Function.update (fun _ => (0 : ℝ)) 1 ε) 0 = 0 := rfl
    have hc1 : (Function.update (fun _ => (0 : ℝ)) 1 ε) 1 = ε := rfl
    rw [hst1, work, hk0, if_pos (by omega), hV, hgs]
    simp only [RCLike.ofReal_real_eq_id, id, applyRotations, zero_add, hnt, hc0, hc1, hgr, if_neg (not_lt.2 h1)]
    simp [start, hb]
  obtain ⟨w1, w2, w3, w4⟩ := hw
  have hkr : (krylov Real.sqrt (turn ε) 2 !₂[1, 0] tol 1).nan = true := by
    have hw2 := work_breakdown (A := turn ε) (nk := 2) (st := st1) (by omega) (by rw [w1]; exact w2) tol 1
    rw [krylov, loop, if_pos, ← hst1, loop, if_pos, loop_nan hw2]
    · exact hw2
    · refine ⟨w4, ?_, by omega⟩
      rw [w3, Exceeds]
      simpa using h2
    · refine ⟨rfl, ?_, Nat.zero_le _⟩
      rw [Exceeds]
      simpa [start, hb] using h2
  rw [hkr]
  rfl

/-- An operator on two complex unknowns. -/
def cplx : Vec ℂ 2 →ₗ[ℂ] Vec ℂ 2 where
  toFun v := !₂[Complex.I * v 0, 2 * v 0 + v 1]
  map_add' v w := by ext i; fin_cases i <;> simp <;> ring
  map_smul' c v := by ext i; fin_cases i <;> simp <;> ring

theorem cplx_injective : Function.Injective cplx := by
  intro v w e
  have h0 := congrFun (congrArg WithLp.ofLp e) 0
  have h1 := congrFun (congrArg WithLp.ofLp e) 1
  simp [cplx] at h0 h1
  rw [h0] at h1
  ext i
  fin_cases i
  · exact h0
  · simpa using h1

/-- **C71, negation.**  For complex operators the rotations are not unitary, and the result is worse than the initial guess,
whichever square root is taken. -/
theorem C71_complex_false {sq : ℂ → ℂ} (hsq : ∀ z, sq z * sq z = z)
    {solve : Nat → (Nat → Nat → ℂ) → (Nat → ℂ) → Nat → ℂ} (hs : TriSolve solve) :
    ∃ x : Vec ℂ 2, gmres sq solve cplx !₂[1, 0] none 0 none 1 1 = .ok (some x, 0) ∧
      ‖!₂[1, 0] - cplx 0‖ < ‖!₂[1, 0] - cplx x‖ := by
  have hb : ‖(!₂[1, 0] : Vec ℂ 2)‖ = 1 := by
    rw [EuclideanSpace.norm_eq, Fin.sum_univ_two]
    simp
  refine ⟨(Complex.I / 3) • !₂[1, 0], ?_, ?_⟩
  · have hk : (min (1 : Int) ((2 : Nat) : Int)).toNat = 1 := by omega
    have hk0 : ¬ min (1 : Int) ((2 : Nat) : Int) ≤ 0 := by omega
    rw [gmres]
    simp only [Option.getD_none, lt_irrefl, if_false, zero_mul, max_self, restarts, or_true, if_true, bind, Except.bind, ite_self]
    rw [if_neg hk0, hk, restart]
    simp only [map_zero, sub_zero]
    rw [hb]
    have hV : (start (!₂[1, 0] : Vec ℂ 2)).V 0 = !₂[1, 0] := by simp [start, hb]
    have hV' : (start (!₂[1, 0] : Vec ℂ 2)).V 1 = 0 := by simp [start]
    have hin : inner ℂ (!₂[1, 0] : Vec ℂ 2) (cplx !₂[1, 0]) = Complex.I := by
      rw [PiLp.inner_apply, Fin.sum_univ_two]
      simp [cplx]
    have hsub : cplx !₂[1, 0] - Complex.I • !₂[1, 0] = !₂[0, 2] := by
      ext i
      fin_cases i <;> simp [cplx]
    have hgs : gsScan (start (!₂[1, 0] : Vec ℂ 2)).V (cplx !₂[1, 0]) 2 =
        (!₂[0, 2], Function.update (fun _ => 0) 0 Complex.I) := by
      simp only [gsScan, hV, hin, hV', inner_zero_left, zero_smul, sub_zero, hsub]
      refine Prod.ext rfl ?_
      funext i
      by_cases e : i = 1
      · subst e; simp
      · exact Function.update_of_ne e _ _
    have hnt : ‖(!₂[0, 2] : Vec ℂ 2)‖ = 2 := by
      rw [EuclideanSpace.norm_eq, Fin.sum_univ_two]
      simp
    obtain ⟨t, ht⟩ : ∃ t, t = sq 3 := ⟨_, rfl⟩
    have ht3 : t * t = 3 := by rw [ht]; exact hsq 3
    have ht0 : t ≠ 0 := by rintro rfl; norm_num at ht3
    obtain ⟨st1, hst1⟩ : ∃ st1, st1 = work sq cplx 0 1 1 (start !₂[1, 0]) := ⟨_, rfl⟩
    have hw : st1.k = 1 ∧ st1.V 0 = !₂[1, 0] ∧ st1.err.2 = 1 ∧ 0 < st1.err.1 ∧ st1.nan = false ∧ st1.R 0 0 = t ∧
        st1.beta 0 = Complex.I / t := by
      have hk0 : (start (!₂[1, 0] : Vec ℂ 2)).k = 0 := rfl
      have hc0 : (Function.update (Function.update (fun _ => (0 : ℂ)) 0 Complex.I) 1 2) 0 = Complex.I := rfl
      have hc1 : (Function.update (Function.update (fun _ => (0 : ℂ)) 0 Complex.I) 1 2) 1 = 2 := rfl
      have hgr : givensRotation sq Complex.I 2 = some (Complex.I / t, -2 / t) := by
        have : Complex.I ^ 2 + 2 ^ 2 = (3 : ℂ) := by rw [Complex.I_sq]; norm_num
        rw [givensRotation, this, ← ht, if_neg ht0]
      have hβ : (start (!₂[1, 0] : Vec ℂ 2)).beta 0 = 1 := by simp [start, hb]
      have h2 : (((2 : ℝ) : ℂ)) = 2 := by norm_num
      rw [hst1, work, hk0, if_pos (by omega), hV, hgs]
      simp only [applyRotations, zero_add, hnt]
      simp only [Complex.coe_algebraMap, Complex.ofReal_ofNat, hc0, hc1, hgr, hβ]
      refine ⟨trivial, ?_, trivial, ?_, trivial, ?_, ?_⟩
      · rw [Function.update_of_ne (by omega), hV]
      · simpa using ht0
      · simp
        field_simp
        rw [Complex.I_sq, pow_two t, ht3]
        norm_num
      · simp
    obtain ⟨w1, w2, w3, w4, w5, w6, w7⟩ := hw
    obtain ⟨st2, hst2⟩ : ∃ st2, st2 = work sq cplx 0 1 1 st1 := ⟨_, rfl⟩
    have hw2 : st2.k = 2 ∧ st2.V 0 = !₂[1, 0] ∧ st2.nan = false ∧ st2.R 0 0 = t ∧ st2.beta 0 = Complex.I / t := by
      rw [hst2, work, if_neg (by omega)]
      simp only
      refine ⟨by omega, w2, w5, w6, ?_⟩
      rw [w1, Function.update_of_ne (by omega), w7]
    obtain ⟨v1, v2, v3, v4, v5⟩ := hw2
    have hkr : krylov sq cplx 1 !₂[1, 0] 0 1 = st2 := by
      rw [krylov, loop, if_pos, ← hst1, loop, if_pos, ← hst2, loop, if_neg]
      · omega
      · refine ⟨w5, ?_, by omega⟩
        rw [Exceeds, w3, if_neg one_ne_zero, div_one]
        exact w4
      · refine ⟨rfl, ?_, Nat.zero_le _⟩
        rw [Exceeds]
        simp [start, hb]
    have hy := hs 1 st2.R st2.beta (by intro i hi j hj; omega) (by intro i hi; rw [show i = 0 by omega, v4]; exact ht0) 0
      (by omega)
    rw [sum_range_one, v4, v5] at hy
    have hy' : solve 1 st2.R st2.beta 0 = Complex.I / 3 := by
      rw [← ht3, div_mul_eq_div_div, eq_div_iff ht0, mul_comm]
      exact hy
    rw [hkr, v3, update, v1]
    simp [hy', v2]
  · rw [map_zero, sub_zero, hb, EuclideanSpace.norm_eq, Fin.sum_univ_two]
    apply Real.lt_sqrt_of_sq_lt
    have e0 : ((!₂[1, 0] : Vec ℂ 2) - cplx ((Complex.I / 3) • !₂[1, 0])) 0 = 4 / 3 := by
      simp [cplx]
      rw [div_mul_eq_mul_div, Complex.I_mul_I]
      norm_num
    rw [e0, one_pow]
    have : (1 : ℝ) < ‖(4 / 3 : ℂ)‖ ^ 2 := by
      rw [norm_div]
      norm_num
    nlinarith [sq_nonneg ‖((!₂[1, 0] : Vec ℂ 2) - cplx ((Complex.I / 3) • !₂[1, 0])) 1‖]

/-! ## The hypotheses of the theorems of `GmresProps` are met -/

example : ∃ x : Vec ℝ 3, gmres Real.sqrt backSolve shift3 !₂[1, 2, 3] (some !₂[1, 0, 0]) 0 none 5 1 = .ok (some x, 0) ∧
    shift3 x = !₂[1, 2, 3] :=
  C71_exact backSolve_spec shift3 shift3_injective _ _ (by omega) (by omega)

/-- Rotations shrink no vector, so that any tolerance will do. -/
example : ∃ x : Vec ℝ 2, gmres Real.sqrt backSolve (turn 1) !₂[1, 2] (some 0) (1 / 10) (some (1 / 100)) 7 1 = .ok (some x, 0) ∧
    ‖!₂[1, 2] - turn 1 x‖ ≤ max (1 / 10 * ‖(!₂[1, 2] : Vec ℝ 2)‖) (1 / 100) * max 1 ‖(!₂[1, 2] : Vec ℝ 2)‖ := by
  have hn : ∀ v : Vec ℝ 2, ‖turn 1 v‖ = ‖v‖ := by
    intro v
    rw [EuclideanSpace.norm_eq, EuclideanSpace.norm_eq, Fin.sum_univ_two, Fin.sum_univ_two]
    simp [turn, add_comm]
  obtain ⟨x, hx⟩ := C71_total backSolve (turn 1) (turn_injective one_ne_zero) !₂[1, 2] 0 (tol := 1 / 10)
    (atol := some (1 / 100)) (by norm_num) (by intro a ha; simp at ha; rw [← ha]; norm_num) (m := 7) (by omega) (by omega)
    (Or.inr (by intro v; rw [map_zero, sub_zero, hn]))
  exact ⟨x, hx, C71_bound_partial backSolve_spec (turn 1) (turn_injective one_ne_zero) !₂[1, 2] 0 (by norm_num)
    (by intro a ha; simp at ha; rw [← ha]; norm_num) (by omega) (by omega) hx⟩

example : gmres Real.sqrt backSolve (turn 1) !₂[1, 0] (some 0) 0 none 2 2 = .ok (some 0, 0) :=
  C71_restart_false backSolve_spec (turn 1) (turn_injective one_ne_zero) !₂[1, 0] 0
    (by
      intro h
      have := congrFun (congrArg WithLp.ofLp h) 0
      simp at this) (by omega) 2 (le_refl 2)

example : gmres Real.sqrt backSolve (turn (1 / 1000000)) !₂[1, 0] none (1 / 100000) none 2 1 = .ok (none, 0) :=
  C71_nan_false backSolve (by norm_num) (by norm_num) (by norm_num)

end
end TN.Gmres
