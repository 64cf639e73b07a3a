import Verif.GmresLoop

/-!
# C71: what `gmres` of the jax backend returns
-/

set_option linter.unusedSectionVars false

namespace TN.Gmres

noncomputable section

open Classical Finset

variable {n : Nat}

local notation "⟪" x ", " y "⟫" => inner ℝ x y

/-- Back substitution. -/
def backSolve {𝕜 : Type} [RCLike 𝕜] : Nat → (Nat → Nat → 𝕜) → (Nat → 𝕜) → Nat → 𝕜
  | 0, _, _ => fun _ => 0
  | q + 1, R, β => Function.update (backSolve q R (fun i => β i - R i q * (β q / R q q))) q (β q / R q q)

theorem backSolve_spec {𝕜 : Type} [RCLike 𝕜] : TriSolve (𝕜 := 𝕜) backSolve := by
  intro q
  induction q with
  | zero => intro _ _ _ _ i hi; omega
  | succ q ih =>
    intro R β h1 h2 i hi
    have hs : ∀ i, ∑ j ∈ range q, R i j * backSolve (q + 1) R β j =
        ∑ j ∈ range q, R i j * backSolve q R (fun i => β i - R i q * (β q / R q q)) j := by
      intro i
      apply sum_congr rfl
      intro j hj
      rw [mem_range] at hj
      rw [backSolve, Function.update_of_ne (by omega)]
    rw [sum_range_succ, hs, backSolve, Function.update_self]
    by_cases e : i = q
    · subst e
      rw [sum_eq_zero, zero_add, mul_div_cancel₀ _ (h2 i hi)]
      intro j hj
      rw [mem_range] at hj
      rw [h1 i hi j hj, zero_mul]
    · rw [ih R _ (fun i hi j hj => h1 i (by omega) j hj) (fun i hi => h2 i (by omega)) i (by omega)]
      ring

/-- The tolerance that the loop works with. -/
def effTol (tol : ℝ) (atol : Option ℝ) (b : Vec ℝ n) : ℝ := max (tol * ‖b‖) (atol.getD tol)

theorem gmres_eq (solve : Nat → (Nat → Nat → ℝ) → (Nat → ℝ) → Nat → ℝ) (A : Vec ℝ n → Vec ℝ n) (b x0 : Vec ℝ n)
    {tol : ℝ} (ht : 0 ≤ tol) {atol : Option ℝ} (ha : ∀ a ∈ atol, 0 ≤ a) {m : Int} (hm : 0 < m) (hn : 0 < n) (maxiter : Nat) :
    gmres Real.sqrt solve A b (some x0) tol atol m maxiter =
      (restarts Real.sqrt solve A b (min m n).toNat x0 (effTol tol atol b) maxiter 0 (some x0)).map
        (fun t => (t.1, if t.2.2 then 0 else t.2.1)) := by
  have h1 : ¬ atol.getD tol < 0 := by
    cases atol with
    | none => simpa using ht
    | some a => simpa using ha a rfl
  have h2 : ¬ min m (n : Int) ≤ 0 := by omega
  rw [gmres]
  simp only [Option.getD_some]
  rw [if_neg (by linarith), if_neg h1, if_neg h2]
  simp only [effTol, bind, Except.bind, Except.map]

theorem gmres_one (solve : Nat → (Nat → Nat → ℝ) → (Nat → ℝ) → Nat → ℝ) (A : Vec ℝ n → Vec ℝ n) (b x0 : Vec ℝ n)
    {tol : ℝ} (ht : 0 ≤ tol) {atol : Option ℝ} (ha : ∀ a ∈ atol, 0 ≤ a) {m : Int} (hm : 0 < m) (hn : 0 < n) :
    gmres Real.sqrt solve A b (some x0) tol atol m 1 =
      .ok ((restart Real.sqrt solve A b (min m n).toNat x0 (effTol tol atol b) (some x0)).2, 0) := by
  rw [gmres_eq solve A b x0 ht ha hm hn, restarts]
  simp [Except.map]

theorem effTol_nonneg {tol : ℝ} (ht : 0 ≤ tol) (atol : Option ℝ) (b : Vec ℝ n) : 0 ≤ effTol tol atol b :=
  le_max_of_le_left (mul_nonneg ht (norm_nonneg b))

/-- **C71.**  A single restart returns the vector with the smallest residual among those that differ from the initial
guess by an element of a Krylov space of the initial residual.  That space has as many dimensions as was asked for, unless
the residual is small enough. -/
theorem C71_minimal {solve : Nat → (Nat → Nat → ℝ) → (Nat → ℝ) → Nat → ℝ} (hs : TriSolve solve)
    (A : Vec ℝ n →ₗ[ℝ] Vec ℝ n) (b x0 : Vec ℝ n) {tol : ℝ} (ht : 0 ≤ tol) {atol : Option ℝ} (ha : ∀ a ∈ atol, 0 ≤ a)
    {m : Int} (hm : 0 < m) (hn : 0 < n) {x : Vec ℝ n} {info : Nat}
    (h : gmres Real.sqrt solve A b (some x0) tol atol m 1 = .ok (some x, info)) :
    ∃ q : Nat, (q : Int) ≤ m ∧ q ≤ n ∧ Minimises A b x0 q x ∧ Module.finrank ℝ (Kry A (b - A x0) q) = q ∧
      ((q : Int) = m ∨ q = n ∨ ‖b - A x‖ ≤ max (max (tol * ‖b‖) (atol.getD tol) * ‖b‖) (max (tol * ‖b‖) (atol.getD tol))) := by
  rw [gmres_one solve A b x0 ht ha hm hn] at h
  simp only [Except.ok.injEq, Prod.mk.injEq] at h
  obtain ⟨q, q1, q2, q3, _, q4⟩ := restart_spec hs (effTol_nonneg ht atol b) (Prod.ext rfl h.1)
  refine ⟨q, by omega, by omega, q2, q3, ?_⟩
  rcases q4 with q4 | q4 | ⟨_, e, q4⟩
  · omega
  · exact Or.inr (Or.inr (le_max_of_le_left q4))
  · exact Or.inr (Or.inr (le_max_of_le_right (by rw [e]; exact q4)))

/-- **C71.**  The residual never grows. -/
theorem C71_residual {solve : Nat → (Nat → Nat → ℝ) → (Nat → ℝ) → Nat → ℝ} (hs : TriSolve solve)
    (A : Vec ℝ n →ₗ[ℝ] Vec ℝ n) (b x0 : Vec ℝ n) {tol : ℝ} (ht : 0 ≤ tol) {atol : Option ℝ} (ha : ∀ a ∈ atol, 0 ≤ a)
    {m : Int} (hm : 0 < m) (hn : 0 < n) {x : Vec ℝ n} {info : Nat}
    (h : gmres Real.sqrt solve A b (some x0) tol atol m 1 = .ok (some x, info)) : ‖b - A x‖ ≤ ‖b - A x0‖ := by
  obtain ⟨q, _, _, ⟨_, q2⟩, _⟩ := C71_minimal hs A b x0 ht ha hm hn h
  have := q2 0 (Submodule.zero_mem _)
  rwa [add_zero] at this

theorem restart_total {solve : Nat → (Nat → Nat → ℝ) → (Nat → ℝ) → Nat → ℝ} {A : Vec ℝ n →ₗ[ℝ] Vec ℝ n}
    (hA : Function.Injective A) {b x0 : Vec ℝ n} {tol : ℝ} (ht : 0 ≤ tol) (x : Vec ℝ n)
    (hc : tol = 0 ∨ ∀ v, ‖b - A x‖ * ‖v‖ ≤ ‖b‖ * ‖A v‖) (nk : Nat) :
    ∃ y, (restart Real.sqrt solve A b nk x0 tol (some x)).2 = some y := by
  rw [restart]
  simp only
  obtain ⟨r, hr⟩ : ∃ r, r = b - A x := ⟨_, rfl⟩
  rw [← hr] at hc ⊢
  have hn : (krylov Real.sqrt A nk r tol ‖b‖).nan = false := by
    by_cases hz : r = 0
    · rw [krylov, loop, if_neg]
      · rfl
      · rintro ⟨_, he, _⟩
        rw [Exceeds] at he
        simp [start, hz] at he
        linarith
    · exact loop_total hA ht hc (nk + 2) (start r) _ _ _ (Inv.start A hz nk) (Or.inl ⟨rfl, by simp [start]⟩) (fun _ => rfl)
  rw [hn]
  exact ⟨_, rfl⟩

/-- **C71.**  An invertible operator does not lead to NaN if the tolerance is zero, or if the operator shrinks no vector
by more than the ratio of the norms of the initial residual and of `b`. -/
theorem C71_total (solve : Nat → (Nat → Nat → ℝ) → (Nat → ℝ) → Nat → ℝ)
    (A : Vec ℝ n →ₗ[ℝ] Vec ℝ n) (hA : Function.Injective A) (b x0 : Vec ℝ n) {tol : ℝ} (ht : 0 ≤ tol) {atol : Option ℝ}
    (ha : ∀ a ∈ atol, 0 ≤ a) {m : Int} (hm : 0 < m) (hn : 0 < n)
    (hc : max (tol * ‖b‖) (atol.getD tol) = 0 ∨ ∀ v, ‖b - A x0‖ * ‖v‖ ≤ ‖b‖ * ‖A v‖) :
    ∃ x, gmres Real.sqrt solve A b (some x0) tol atol m 1 = .ok (some x, 0) := by
  rw [gmres_one solve A b x0 ht ha hm hn]
  obtain ⟨y, hy⟩ := restart_total (solve := solve) hA (effTol_nonneg ht atol b) (x0 := x0) x0 hc (min m n).toNat
  exact ⟨y, by rw [hy]⟩

/-- A Krylov space of full dimension contains the solution. -/
theorem exact_of_full {A : Vec ℝ n →ₗ[ℝ] Vec ℝ n} (hA : Function.Injective A) {b x0 x : Vec ℝ n}
    (h : Minimises A b x0 n x) (hd : Module.finrank ℝ (Kry A (b - A x0) n) = n) : A x = b := by
  have htop : Kry A (b - A x0) n = ⊤ := by
    apply Submodule.eq_top_of_finrank_eq
    rw [hd, finrank_euclideanSpace_fin]
  obtain ⟨y, hy⟩ := (LinearMap.injective_iff_surjective.1 hA) b
  have := h.2 (y - x0) (by rw [htop]; trivial)
  rw [add_sub_cancel, hy, sub_self, norm_zero] at this
  exact (sub_eq_zero.1 (norm_le_zero_iff.1 this)).symm

/-- **C71.**  With tolerance zero and as many Krylov vectors as there are unknowns, the result solves the equation. -/
theorem C71_exact {solve : Nat → (Nat → Nat → ℝ) → (Nat → ℝ) → Nat → ℝ} (hs : TriSolve solve)
    (A : Vec ℝ n →ₗ[ℝ] Vec ℝ n) (hA : Function.Injective A) (b x0 : Vec ℝ n) {m : Int} (hm : n ≤ m) (hn : 0 < n) :
    ∃ x, gmres Real.sqrt solve A b (some x0) 0 none m 1 = .ok (some x, 0) ∧ A x = b := by
  obtain ⟨x, hx⟩ := C71_total solve A hA b x0 (le_refl 0) (atol := none) (by simp) (m := m) (by omega) hn
    (Or.inl (by simp))
  refine ⟨x, hx, ?_⟩
  obtain ⟨q, q1, q2, q3, q4, q5⟩ := C71_minimal hs A b x0 (le_refl 0) (by simp) (by omega) hn hx
  have key : q = n → A x = b := by
    intro e
    subst e
    exact exact_of_full hA q3 q4
  rcases q5 with q5 | q5 | q5
  · exact key (by omega)
  · exact key q5
  · simp only [zero_mul, Option.getD_none, max_self] at q5
    exact (sub_eq_zero.1 (norm_le_zero_iff.1 q5)).symm

/-- **C71.**  With as many Krylov vectors as there are unknowns, the residual is bounded by the tolerance, times the norm
of `b` if that is greater than one. -/
theorem C71_bound_partial {solve : Nat → (Nat → Nat → ℝ) → (Nat → ℝ) → Nat → ℝ} (hs : TriSolve solve)
    (A : Vec ℝ n →ₗ[ℝ] Vec ℝ n) (hA : Function.Injective A) (b x0 : Vec ℝ n) {tol : ℝ} (ht : 0 ≤ tol) {atol : Option ℝ}
    (ha : ∀ a ∈ atol, 0 ≤ a) {m : Int} (hm : n ≤ m) (hn : 0 < n) {x : Vec ℝ n} {info : Nat}
    (h : gmres Real.sqrt solve A b (some x0) tol atol m 1 = .ok (some x, info)) :
    ‖b - A x‖ ≤ max (tol * ‖b‖) (atol.getD tol) * max 1 ‖b‖ := by
  obtain ⟨q, q1, q2, q3, q4, q5⟩ := C71_minimal hs A b x0 ht ha (by omega) hn h
  have h0 : 0 ≤ max (tol * ‖b‖) (atol.getD tol) := effTol_nonneg ht atol b
  have key : q = n → ‖b - A x‖ ≤ max (tol * ‖b‖) (atol.getD tol) * max 1 ‖b‖ := by
    intro e
    subst e
    rw [exact_of_full hA q3 q4, sub_self, norm_zero]
    exact mul_nonneg h0 (le_max_of_le_left zero_le_one)
  rcases q5 with q5 | q5 | q5
  · exact key (by omega)
  · exact key q5
  · refine q5.trans (max_le (mul_le_mul_of_nonneg_left (le_max_right _ _) h0) ?_)
    exact le_mul_of_one_le_right h0 (le_max_left _ _)

/-- **C71.**  Negative tolerances and numbers of Krylov vectors that are not positive are rejected. -/
theorem C71_errors {𝕜 : Type} [RCLike 𝕜] (sq : 𝕜 → 𝕜) (solve : Nat → (Nat → Nat → 𝕜) → (Nat → 𝕜) → Nat → 𝕜)
    (A : Vec 𝕜 n → Vec 𝕜 n) (b : Vec 𝕜 n) (x0 : Option (Vec 𝕜 n)) (tol : ℝ) (atol : Option ℝ) (m : Int) {maxiter : Nat}
    (hi : 0 < maxiter) :
    (∃ r, gmres sq solve A b x0 tol atol m maxiter = .ok r) ↔ 0 ≤ tol ∧ (∀ a ∈ atol, 0 ≤ a) ∧ 0 < m ∧ 0 < n := by
  have key : ∀ (nk : Nat) (y : Vec 𝕜 n) (T : ℝ) (k : Nat) (i : Nat) (x : Option (Vec 𝕜 n)), 0 < k →
      ∃ t, restarts sq solve A b nk y T k i x = .ok t := by
    intro nk y T k
    induction k with
    | zero => intro _ _ h; omega
    | succ k ih =>
      intro i x _
      rw [restarts]
      split_ifs with hc
      · exact ⟨_, rfl⟩
      · exact ih _ _ (by rw [not_or] at hc; omega)
  rw [gmres]
  simp only
  split_ifs with h1 h2 h3
  · constructor
    · rintro ⟨_, h⟩; cases h
    · rintro ⟨h, _⟩; linarith
  · constructor
    · rintro ⟨_, h⟩; cases h
    · rintro ⟨h, h', _⟩
      cases atol with
      | none => simp at h2; linarith
      | some a => have := h' a rfl; simp at h2; linarith
  · constructor
    · rintro ⟨_, h⟩; cases h
    · rintro ⟨_, _, h, h'⟩; omega
  · obtain ⟨t, ht⟩ := key (min m n).toNat (x0.getD 0) (max (tol * ‖b‖) (atol.getD tol)) maxiter 0 (some (x0.getD 0)) hi
    constructor
    · intro _
      refine ⟨by linarith, ?_, by omega, by omega⟩
      intro a e
      rw [e] at h2
      simpa using h2
    · intro _
      rw [ht]
      exact ⟨_, rfl⟩

/-- **C71.**  Whatever fails is a `ValueError`. -/
theorem C71_value_error {𝕜 : Type} [RCLike 𝕜] (sq : 𝕜 → 𝕜) (solve : Nat → (Nat → Nat → 𝕜) → (Nat → 𝕜) → Nat → 𝕜)
    (A : Vec 𝕜 n → Vec 𝕜 n) (b : Vec 𝕜 n) (x0 : Option (Vec 𝕜 n)) (tol : ℝ) (atol : Option ℝ) (m : Int) {maxiter : Nat}
    (hi : 0 < maxiter) {e : PyErr} (h : gmres sq solve A b x0 tol atol m maxiter = .error e) : e = .valueError := by
  by_cases hok : 0 ≤ tol ∧ (∀ a ∈ atol, 0 ≤ a) ∧ 0 < m ∧ 0 < n
  · obtain ⟨r, hr⟩ := (C71_errors sq solve A b x0 tol atol m hi).2 hok
    rw [hr] at h
    cases h
  · rw [gmres] at h
    simp only at h
    split_ifs at h with h1 h2 h3
    · cases h; rfl
    · cases h; rfl
    · cases h; rfl
    · exfalso
      apply hok
      refine ⟨by linarith, ?_, by omega, by omega⟩
      intro a e
      rw [e] at h2
      simpa using h2

/-! ## What the code lacks -/

/-- **C71, `info`.**  With a single restart, which is the default, `info` is zero whatever the result. -/
theorem C71_info_zero {𝕜 : Type} [RCLike 𝕜] (sq : 𝕜 → 𝕜) (solve : Nat → (Nat → Nat → 𝕜) → (Nat → 𝕜) → Nat → 𝕜)
    (A : Vec 𝕜 n → Vec 𝕜 n) (b : Vec 𝕜 n) (x0 : Option (Vec 𝕜 n)) (tol : ℝ) (atol : Option ℝ) (m : Int)
    {x : Option (Vec 𝕜 n)} {info : Nat} (h : gmres sq solve A b x0 tol atol m 1 = .ok (x, info)) : info = 0 := by
  rw [gmres] at h
  simp only [restarts, or_true, if_true] at h
  split_ifs at h
  simp only [bind, Except.bind, Except.ok.injEq, Prod.mk.injEq, ite_self] at h
  exact h.2.symm

/-- A second restart forgets what the first one found: if the first one converges only in its last two iterations, the
initial guess is returned and is said to have converged. -/
theorem restart_loses {solve : Nat → (Nat → Nat → ℝ) → (Nat → ℝ) → Nat → ℝ} {A : Vec ℝ n → Vec ℝ n} {b x0 x : Vec ℝ n}
    {tol : ℝ} {nk : Nat} (hk : 2 ≤ nk) (h : restart Real.sqrt solve A b nk x0 tol (some x0) = (false, some x))
    (hx : ‖b - A x‖ ≤ tol) (rest : Nat) :
    restarts Real.sqrt solve A b nk x0 tol (rest + 2) 0 (some x0) = .ok (some x0, 1, true) := by
  have hst : krylov Real.sqrt A nk (b - A x) tol ‖b‖ = start (b - A x) := by
    rw [krylov, loop, if_neg]
    rintro ⟨_, he, _⟩
    rw [Exceeds] at he
    simp [start] at he
    linarith
  have h2 : restart Real.sqrt solve A b nk x0 tol (some x) = (true, some x0) := by
    rw [restart, hst]
    have hn : (start (b - A x)).nan = false := rfl
    rw [hn]
    simp [start, update]
    omega
  rw [restarts, h]
  simp only [Bool.false_eq_true, false_or, Nat.add_eq_zero_iff, one_ne_zero, and_false, if_false]
  rw [restarts, h2]
  simp

/-- **C71, negation.**  For every invertible operator on two unknowns, every `b` and every initial guess that is not the
solution, allowing a second restart makes `gmres` return the initial guess, and `info` says that it has converged. -/
theorem C71_restart_false {solve : Nat → (Nat → Nat → ℝ) → (Nat → ℝ) → Nat → ℝ} (hs : TriSolve solve)
    (A : Vec ℝ 2 →ₗ[ℝ] Vec ℝ 2) (hA : Function.Injective A) (b x0 : Vec ℝ 2) (h0 : A x0 ≠ b) {m : Int} (hm : 2 ≤ m)
    (maxiter : Nat) (hi : 2 ≤ maxiter) :
    gmres Real.sqrt solve A b (some x0) 0 none m maxiter = .ok (some x0, 0) := by
  obtain ⟨x, hx, he⟩ := C71_exact hs A hA b x0 (m := m) hm (by omega)
  rw [gmres_one solve A b x0 (le_refl 0) (by simp) (by omega) (by omega)] at hx
  simp only [Except.ok.injEq, Prod.mk.injEq, and_true] at hx
  have hT : effTol 0 none b = 0 := by simp [effTol]
  have hnk : (min m ((2 : Nat) : Int)).toNat = 2 := by omega
  rw [hT, hnk] at hx
  have hd : (restart Real.sqrt solve A b 2 x0 0 (some x0)).1 = false := by
    cases hc : (restart Real.sqrt solve A b 2 x0 0 (some x0)).1 with
    | false => rfl
    | true =>
      exfalso
      obtain ⟨q, q1, q2, q3, q4, q5⟩ := restart_spec hs (le_refl 0) (Prod.ext hc hx)
      have hq := q4 rfl
      have hq0 : q = 0 := by omega
      subst hq0
      have h1 := q2.1
      rw [Kry, Set.range_eq_empty, Submodule.span_empty, Submodule.mem_bot, sub_eq_zero] at h1
      rw [h1] at he
      exact h0 he
  obtain ⟨rest, rfl⟩ : ∃ rest, maxiter = rest + 2 := ⟨maxiter - 2, by omega⟩
  rw [gmres_eq solve A b x0 (le_refl 0) (by simp) (by omega) (by omega), hT, hnk,
    restart_loses (le_refl 2) (Prod.ext hd hx) (by rw [he, sub_self, norm_zero])]
  rfl

end
end TN.Gmres
