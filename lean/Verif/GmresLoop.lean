import Verif.GmresInv
import Mathlib.LinearAlgebra.FiniteDimensional.Basic

/-!
# What `gmres` returns (real operators)
-/

set_option linter.unusedSectionVars false

namespace TN.Gmres

noncomputable section

open Classical Finset

variable {n : Nat}

local notation "⟪" x ", " y "⟫" => inner ℝ x y

/-- The error belongs to the last entry of `beta_vec`. -/
def ErrOK (bNorm : ℝ) (st : Carry ℝ n) : Prop :=
  (st.k = 0 ∧ st.err = (|st.beta st.k|, 1)) ∨ (0 < st.k ∧ st.err = (|st.beta st.k|, bNorm))

theorem ErrOK.nonzero {bNorm tol : ℝ} {st : Carry ℝ n} (h : ErrOK bNorm st) (ht : 0 ≤ tol) (he : Exceeds tol st.err) :
    st.beta st.k ≠ 0 := by
  intro h0
  rcases h with ⟨_, h⟩ | ⟨_, h⟩
  · rw [h, Exceeds] at he
    simp [h0] at he
    linarith
  · rw [h, Exceeds] at he
    simp [h0] at he
    linarith [he.2]

theorem ErrOK.small {bNorm tol : ℝ} {st : Carry ℝ n} (h : ErrOK bNorm st) (hb : 0 ≤ bNorm) (he : ¬ Exceeds tol st.err) :
    (st.k = 0 ∧ |st.beta st.k| ≤ tol) ∨ |st.beta st.k| ≤ tol * bNorm := by
  rcases h with ⟨h1, h⟩ | ⟨h1, h⟩
  · left
    refine ⟨h1, ?_⟩
    rw [h, Exceeds] at he
    simpa using he
  · right
    rw [h, Exceeds] at he
    simp only at he
    split_ifs at he with hz
    · rw [hz, mul_zero]; exact not_lt.1 he
    · rw [not_lt, div_le_iff₀ (lt_of_le_of_ne hb (Ne.symm hz))] at he
      exact he

/-- After a breakdown the next iteration gives NaN. -/
theorem work_breakdown {A : Vec ℝ n →ₗ[ℝ] Vec ℝ n} {nk : Nat} {st : Carry ℝ n} (hk : st.k < nk) (hV : st.V st.k = 0)
    (tol bNorm : ℝ) : (work Real.sqrt A tol bNorm nk st).nan = true := by
  obtain ⟨g1, g2⟩ := gsScan_of_zero st.V (nk + 1)
  rw [work, if_pos hk]
  simp only [RCLike.ofReal_real_eq_id, id]
  rw [hV, map_zero, g1, norm_zero]
  have h0 := applyRotations_of_zero st.cs st.sn (a := Function.update (gsScan st.V 0 (nk + 1)).2 (st.k + 1) 0) (by
    intro i
    by_cases e : i = st.k + 1
    · rw [e, Function.update_self]
    · rw [Function.update_of_ne e, g2]) st.k
  rw [h0, h0]
  simp [givensRotation]

theorem loop_nan {A : Vec ℝ n → Vec ℝ n} {tol bNorm : ℝ} {nk : Nat} {st : Carry ℝ n} (h : st.nan = true) :
    ∀ fuel, loop Real.sqrt A tol bNorm nk fuel st = st
  | 0 => rfl
  | fuel + 1 => by rw [loop, if_neg (by simp [h])]

/-- What the loop ends with: `st` is the state after at most `nk` iterations, `st'` the final one. -/
structure Final (A : Vec ℝ n →ₗ[ℝ] Vec ℝ n) (r : Vec ℝ n) (tol bNorm : ℝ) (nk : Nat) (st' st : Carry ℝ n) : Prop where
  inv : ∃ e p s, Inv A r nk st e p s
  err : ErrOK bNorm st
  k : st.k = min st'.k nk
  V : st'.V = st.V
  R : st'.R = st.R
  beta : ∀ i < st.k, st'.beta i = st.beta i
  stop : st.k < nk → ¬ Exceeds tol st.err

theorem loop_spec {A : Vec ℝ n →ₗ[ℝ] Vec ℝ n} {r : Vec ℝ n} {tol bNorm : ℝ} (ht : 0 ≤ tol) {nk : Nat} :
    ∀ (fuel : Nat) (st : Carry ℝ n) (e p : Nat → Vec ℝ n) (s : Vec ℝ n), Inv A r nk st e p s → ErrOK bNorm st →
      nk + 2 ≤ fuel + st.k → (loop Real.sqrt A tol bNorm nk fuel st).nan = false →
      ∃ st₁, Final A r tol bNorm nk (loop Real.sqrt A tol bNorm nk fuel st) st₁
  | 0, st, e, p, s, h, _, hf, _ => by have := h.le; omega
  | fuel + 1, st, e, p, s, h, he, hf, hn => by
    rw [loop] at hn ⊢
    split_ifs at hn ⊢ with hc
    · obtain ⟨_, c2, c3⟩ := hc
      have hb := he.nonzero ht c2
      by_cases hk : st.k < nk
      · have hnw : (work Real.sqrt A tol bNorm nk st).nan = false := by
          by_contra hw
          rw [Bool.not_eq_false] at hw
          rw [loop_nan hw, hw] at hn
          exact absurd hn (by simp)
        rcases h.last with hV | hV
        · obtain ⟨e', p', s', col, v, u, σ, _, i1, i2, i3, i4, _⟩ := h.step hk hV hb tol bNorm hnw
          exact loop_spec ht fuel _ e' p' s' i1 (Or.inr ⟨by rw [i2]; omega, by rw [i4, i2, i3]⟩) (by rw [i2]; omega) hn
        · rw [work_breakdown hk hV] at hnw
          exact absurd hnw (by simp)
      · have hk' : st.k = nk := by have := h.le; omega
        have hw : work Real.sqrt A tol bNorm nk st = { st with
            k := st.k + 1
            beta := Function.update st.beta st.k (st.cs (nk - 1) * st.beta st.k)
            err := (‖st.sn (nk - 1) * st.beta st.k‖, bNorm) } := by rw [work, if_neg hk]
        have hl : loop Real.sqrt A tol bNorm nk fuel (work Real.sqrt A tol bNorm nk st) = work Real.sqrt A tol bNorm nk st := by
          cases fuel with
          | zero => rfl
          | succ f =>
            rw [loop, if_neg]
            rw [hw]
            simp only
            omega
        rw [hl, hw]
        refine ⟨st, ⟨e, p, s, h⟩, he, ?_, rfl, rfl, ?_, fun h' => absurd h' hk⟩
        · simp only; omega
        · intro i hi
          simp only
          rw [Function.update_of_ne (by omega)]
    · refine ⟨st, ⟨e, p, s, h⟩, he, ?_, rfl, rfl, fun _ _ => rfl, ?_⟩
      · have := h.le; omega
      · intro hk hex
        exact hc ⟨h.nan, hex, h.le⟩

/-! ## The smallest residual -/

theorem span_eq {A : Vec ℝ n →ₗ[ℝ] Vec ℝ n} {r : Vec ℝ n} {nk : Nat} {st : Carry ℝ n} {e p : Nat → Vec ℝ n} {s : Vec ℝ n}
    (h : Inv A r nk st e p s) :
    Submodule.span ℝ (Set.range (fun i : Fin st.k => e i)) = Kry A r st.k ∧ Module.finrank ℝ (Kry A r st.k) = st.k := by
  have ho : Orthonormal ℝ (fun i : Fin st.k => e i) := by
    rw [orthonormal_iff_ite]
    intro i j
    rw [h.orth i i.2 j j.2]
    simp [Fin.ext_iff]
  have hf : Module.finrank ℝ (Submodule.span ℝ (Set.range (fun i : Fin st.k => e i))) = st.k := by
    rw [finrank_span_eq_card ho.linearIndependent, Fintype.card_fin]
  have hle : Submodule.span ℝ (Set.range (fun i : Fin st.k => e i)) ≤ Kry A r st.k := by
    rw [Submodule.span_le]
    rintro _ ⟨i, rfl⟩
    have := h.kry i (by omega)
    rw [h.eV i i.2] at this
    exact kry_mono A r (by omega) this
  have hc : Module.finrank ℝ (Kry A r st.k) ≤ st.k := by
    have := finrank_range_le_card (R := ℝ) (fun i : Fin st.k => (A ^ (i : Nat)) r)
    rwa [Fintype.card_fin] at this
  have := Submodule.eq_of_le_of_finrank_le hle (by rw [hf]; exact hc)
  exact ⟨this, by rw [← this, hf]⟩

theorem Inv.minimal {A : Vec ℝ n →ₗ[ℝ] Vec ℝ n} {r : Vec ℝ n} {nk : Nat} {st : Carry ℝ n} {e p : Nat → Vec ℝ n}
    {s : Vec ℝ n} (h : Inv A r nk st e p s) {y : Nat → ℝ}
    (hy : ∀ i < st.k, ∑ j ∈ range st.k, st.R i j * y j = st.beta i) :
    ‖r - A (∑ j ∈ range st.k, y j • st.V j)‖ = |st.beta st.k| ∧
      (∑ j ∈ range st.k, y j • st.V j) ∈ Kry A r st.k ∧
      ∀ z ∈ Kry A r st.k, |st.beta st.k| ≤ ‖r - A z‖ := by
  have hV : ∀ y : Nat → ℝ, ∑ j ∈ range st.k, y j • st.V j = ∑ j ∈ range st.k, y j • e j := by
    intro y
    apply sum_congr rfl
    intro j hj
    rw [h.eV j (mem_range.1 hj)]
  have hA : ∀ y : Nat → ℝ, r - A (∑ j ∈ range st.k, y j • e j) =
      ∑ i ∈ range st.k, (st.beta i - ∑ j ∈ range st.k, st.R i j * y j) • p i + st.beta st.k • s := by
    intro y
    have : A (∑ j ∈ range st.k, y j • e j) = ∑ i ∈ range st.k, (∑ j ∈ range st.k, st.R i j * y j) • p i := by
      rw [map_sum]
      have : ∀ j ∈ range st.k, A (y j • e j) = ∑ i ∈ range st.k, (st.R i j * y j) • p i := by
        intro j hj
        rw [map_smul, h.col j (mem_range.1 hj), smul_sum]
        apply sum_congr rfl
        intro i _
        rw [smul_smul, mul_comm]
      rw [sum_congr rfl this, sum_comm]
      apply sum_congr rfl
      intro i _
      rw [sum_smul]
    rw [this]
    conv_lhs => rw [h.res]
    have : ∑ i ∈ range st.k, (st.beta i - ∑ j ∈ range st.k, st.R i j * y j) • p i =
        ∑ i ∈ range st.k, st.beta i • p i - ∑ i ∈ range st.k, (∑ j ∈ range st.k, st.R i j * y j) • p i := by
      rw [← sum_sub_distrib]
      apply sum_congr rfl
      intro i _
      rw [sub_smul]
    rw [this]
    abel
  have hw : ‖st.beta st.k • s‖ = |st.beta st.k| := by
    rw [norm_smul, Real.norm_eq_abs]
    rcases h.unit with ⟨h1, _⟩ | h1
    · rw [real_inner_self_eq_norm_sq] at h1
      have : ‖s‖ = 1 := by nlinarith [norm_nonneg s]
      rw [this, mul_one]
    · rw [h1, abs_zero, zero_mul]
  obtain ⟨k1, _⟩ := span_eq h
  refine ⟨?_, ?_, ?_⟩
  · rw [hV, hA]
    have : ∑ i ∈ range st.k, (st.beta i - ∑ j ∈ range st.k, st.R i j * y j) • p i = 0 := by
      apply sum_eq_zero
      intro i hi
      rw [hy i (mem_range.1 hi), sub_self, zero_smul]
    rw [this, zero_add, hw]
  · apply Submodule.sum_mem
    intro j hj
    rw [mem_range] at hj
    exact Submodule.smul_mem _ _ (kry_mono A r (by omega) (h.kry j hj.le))
  · intro z hz
    rw [← k1, Submodule.mem_span_range_iff_exists_fun] at hz
    obtain ⟨c, rfl⟩ := hz
    have : ∑ i : Fin st.k, c i • e i = ∑ j ∈ range st.k, (if hj : j < st.k then c ⟨j, hj⟩ else 0) • e j := by
      rw [sum_range]
      apply sum_congr rfl
      intro i _
      rw [dif_pos i.2]
    rw [this, hA]
    obtain ⟨x, hx⟩ : ∃ x, x = ∑ i ∈ range st.k, (st.beta i - ∑ j ∈ range st.k, st.R i j *
      (if hj : j < st.k then c ⟨j, hj⟩ else 0)) • p i := ⟨_, rfl⟩
    rw [← hx]
    have hin : ⟪x, st.beta st.k • s⟫ = 0 := by
      rw [hx, sum_inner]
      apply sum_eq_zero
      intro i hi
      rw [real_inner_smul_left, real_inner_smul_right, h.pperp i (mem_range.1 hi)]
      simp
    have := norm_add_sq_real x (st.beta st.k • s)
    rw [hin, hw] at this
    have h2 : |st.beta st.k| ^ 2 ≤ ‖x + st.beta st.k • s‖ ^ 2 := by rw [this]; nlinarith [sq_nonneg ‖x‖]
    exact (sq_le_sq₀ (abs_nonneg _) (norm_nonneg _)).1 h2

/-! ## No breakdown -/

/-- The rotated basis consists of images of Krylov vectors. -/
theorem Inv.image {A : Vec ℝ n →ₗ[ℝ] Vec ℝ n} {r : Vec ℝ n} {nk : Nat} {st : Carry ℝ n} {e p : Nat → Vec ℝ n}
    {s : Vec ℝ n} (h : Inv A r nk st e p s) :
    ∀ i < st.k, ∃ w, (∀ x, (∀ j < st.k, ⟪e j, x⟫ = 0) → ⟪w, x⟫ = 0) ∧ A w = p i := by
  intro i
  induction i using Nat.strong_induction_on with
  | _ i ih =>
    intro hi
    have hc : A (e i) = ∑ j ∈ range i, st.R j i • p j + st.R i i • p i := by
      rw [h.col i hi, ← sum_subset (range_mono (by omega : i + 1 ≤ st.k)), sum_range_succ]
      intro j _ hj
      rw [mem_range] at hj
      rw [h.tri i hi j (by omega), zero_smul]
    choose! w w1 w2 using ih
    refine ⟨(st.R i i)⁻¹ • (e i - ∑ j ∈ range i, st.R j i • w j), ?_, ?_⟩
    · intro x hx
      rw [real_inner_smul_left, inner_sub_left, hx i hi, sum_inner, sum_eq_zero]
      · simp
      · intro j hj
        rw [mem_range] at hj
        rw [real_inner_smul_left, w1 j hj (by omega) x hx, mul_zero]
    · rw [map_smul, map_sub, map_sum, hc]
      have : ∑ j ∈ range i, A (st.R j i • w j) = ∑ j ∈ range i, st.R j i • p j := by
        apply sum_congr rfl
        intro j hj
        rw [mem_range] at hj
        rw [map_smul, w2 j hj (by omega)]
      rw [this, add_sub_cancel_left, smul_smul, inv_mul_cancel₀ (h.diag i hi), one_smul]

/-- What the new column adds is the image of a vector of norm at least one. -/
theorem StepData.lower {A : Vec ℝ n →ₗ[ℝ] Vec ℝ n} {r : Vec ℝ n} {nk : Nat} {st : Carry ℝ n} {e p : Nat → Vec ℝ n}
    {s : Vec ℝ n} (h : Inv A r nk st e p s) (hb : st.beta st.k ≠ 0) {col : Nat → ℝ} {v : ℝ} {u : Vec ℝ n}
    (d : StepData A nk st e p s col v u) :
    ∃ w, 1 ≤ ‖w‖ ∧ ‖A w‖ = Real.sqrt (col st.k ^ 2 + v ^ 2) := by
  obtain ⟨hs, he⟩ := h.unit.resolve_right hb
  obtain ⟨_, su⟩ := h.pin u d.perp
  have hi := h.image
  choose! w w1 w2 using hi
  refine ⟨e st.k - ∑ i ∈ range st.k, col i • w i, ?_, ?_⟩
  · have h1 : ⟪∑ i ∈ range st.k, col i • w i, e st.k⟫ = 0 := by
      rw [sum_inner, sum_eq_zero]
      intro i hi
      rw [mem_range] at hi
      rw [real_inner_smul_left, w1 i hi _ h.perp, mul_zero]
    have h2 : ⟪e st.k - ∑ i ∈ range st.k, col i • w i, e st.k⟫ = 1 := by rw [inner_sub_left, h1, he, sub_zero]
    have h3 := real_inner_le_norm (e st.k - ∑ i ∈ range st.k, col i • w i) (e st.k)
    rw [h2] at h3
    have h4 : ‖e st.k‖ = 1 := by
      rw [real_inner_self_eq_norm_sq] at he
      nlinarith [norm_nonneg (e st.k)]
    rwa [h4, mul_one] at h3
  · have h1 : A (e st.k - ∑ i ∈ range st.k, col i • w i) = col st.k • s + v • u := by
      rw [map_sub, map_sum, d.image]
      have : ∑ i ∈ range st.k, A (col i • w i) = ∑ i ∈ range st.k, col i • p i := by
        apply sum_congr rfl
        intro j hj
        rw [map_smul, w2 j (mem_range.1 hj)]
      rw [this]
      abel
    rw [h1, norm_eq_sqrt_real_inner]
    congr 1
    simp only [inner_add_left, inner_add_right, real_inner_smul_left, real_inner_smul_right]
    rw [real_inner_comm s u, su, hs]
    have : v * (v * ⟪u, u⟫) = v ^ 2 := by
      by_cases hz : v = 0
      · rw [hz]; ring
      · rw [d.unit hz]; ring
    rw [this]
    ring

theorem Inv.beta_le {A : Vec ℝ n →ₗ[ℝ] Vec ℝ n} {r : Vec ℝ n} {nk : Nat} {st : Carry ℝ n} {e p : Nat → Vec ℝ n}
    {s : Vec ℝ n} (h : Inv A r nk st e p s) : |st.beta st.k| ≤ ‖r‖ := by
  by_cases hb : st.beta st.k = 0
  · rw [hb, abs_zero]; exact norm_nonneg _
  obtain ⟨hs, _⟩ := h.unit.resolve_right hb
  have h1 : ⟪r, s⟫ = st.beta st.k := by
    rw [h.res, inner_add_left, sum_inner, sum_eq_zero, real_inner_smul_left, hs]
    · simp
    · intro i hi
      rw [real_inner_smul_left, h.pperp i (mem_range.1 hi), mul_zero]
  have h2 := abs_real_inner_le_norm r s
  have h3 : ‖s‖ = 1 := by
    rw [real_inner_self_eq_norm_sq] at hs
    nlinarith [norm_nonneg s]
  rwa [h1, h3, mul_one] at h2

theorem Inv.no_nan {A : Vec ℝ n →ₗ[ℝ] Vec ℝ n} (hA : Function.Injective A) {r : Vec ℝ n} {nk : Nat} {st : Carry ℝ n}
    {e p : Nat → Vec ℝ n} {s : Vec ℝ n} (h : Inv A r nk st e p s) (hk : st.k < nk) (hV : st.V st.k = e st.k)
    (hb : st.beta st.k ≠ 0) (tol bNorm : ℝ) : (work Real.sqrt A tol bNorm nk st).nan = false := by
  have d := h.data hk hV hb
  rw [work, if_pos hk]
  simp only [RCLike.ofReal_real_eq_id, id]
  split
  · rename_i hg
    exfalso
    obtain ⟨g1, g2⟩ := givens_none hg
    obtain ⟨w, w1, w2⟩ := d.lower h hb
    rw [d.above] at g2
    rw [g1, g2] at w2
    simp only [ne_eq, OfNat.ofNat_ne_zero, not_false_eq_true, zero_pow, add_zero, Real.sqrt_zero, norm_eq_zero] at w2
    have : w = 0 := hA (by rw [w2, map_zero])
    rw [this, norm_zero] at w1
    linarith
  · rfl

theorem loop_total {A : Vec ℝ n →ₗ[ℝ] Vec ℝ n} (hA : Function.Injective A) {r b : Vec ℝ n} {tol : ℝ} (ht : 0 ≤ tol)
    (hc : tol = 0 ∨ ∀ v, ‖r‖ * ‖v‖ ≤ ‖b‖ * ‖A v‖) {nk : Nat} :
    ∀ (fuel : Nat) (st : Carry ℝ n) (e p : Nat → Vec ℝ n) (s : Vec ℝ n), Inv A r nk st e p s → ErrOK ‖b‖ st →
      (Exceeds tol st.err → st.V st.k = e st.k) → (loop Real.sqrt A tol ‖b‖ nk fuel st).nan = false
  | 0, st, e, p, s, h, _, _ => h.nan
  | fuel + 1, st, e, p, s, h, he, hV => by
    rw [loop]
    split_ifs with hcond
    · obtain ⟨_, c2, c3⟩ := hcond
      have hb := he.nonzero ht c2
      by_cases hk : st.k < nk
      · have hn := h.no_nan hA hk (hV c2) hb tol ‖b‖
        obtain ⟨e', p', s', col, v, u, σ, d, i1, i2, i3, i4, i5, i6, i7, i8⟩ := h.step hk (hV c2) hb tol ‖b‖ hn
        refine loop_total hA ht hc fuel _ e' p' s' i1 (Or.inr ⟨by rw [i2]; omega, by rw [i4, i2, i3]⟩) ?_
        intro hex
        rw [i2]
        by_cases hv : tol < v
        · exact i8 hv
        · exfalso
          rw [not_lt] at hv
          have hsmall : |σ * st.beta st.k| ≤ tol * ‖b‖ := by
            rcases hc with h0 | hc
            · have hv0 : v = 0 := le_antisymm (by rw [← h0]; exact hv) d.nonneg
              rw [hv0] at i5
              have : σ = 0 := by
                rw [hv0] at i6
                exact abs_eq_zero.1 ((mul_eq_zero.1 i5).resolve_right i6.ne')
              rw [this, zero_mul, abs_zero, h0, zero_mul]
            · obtain ⟨w, w1, w2⟩ := d.lower h hb
              have h1 := hc w
              rw [w2] at h1
              have h2 : ‖r‖ ≤ ‖b‖ * Real.sqrt (col st.k ^ 2 + v ^ 2) := by nlinarith [norm_nonneg r]
              have h3 := h.beta_le
              rw [abs_mul]
              calc |σ| * |st.beta st.k| ≤ |σ| * (‖b‖ * Real.sqrt (col st.k ^ 2 + v ^ 2)) :=
                    mul_le_mul_of_nonneg_left (h3.trans h2) (abs_nonneg _)
                _ = ‖b‖ * (|σ| * Real.sqrt (col st.k ^ 2 + v ^ 2)) := by ring
                _ = ‖b‖ * v := by rw [i5]
                _ ≤ ‖b‖ * tol := mul_le_mul_of_nonneg_left hv (norm_nonneg b)
                _ = tol * ‖b‖ := mul_comm _ _
          rw [i4, Exceeds] at hex
          simp only at hex
          split_ifs at hex with hz
          · rw [hz, mul_zero] at hsmall; linarith
          · rw [lt_div_iff₀ (lt_of_le_of_ne (norm_nonneg b) (Ne.symm hz))] at hex
            linarith
      · have hw : work Real.sqrt A tol ‖b‖ nk st = { st with
            k := st.k + 1
            beta := Function.update st.beta st.k (st.cs (nk - 1) * st.beta st.k)
            err := (‖st.sn (nk - 1) * st.beta st.k‖, ‖b‖) } := by rw [work, if_neg hk]
        have hl : loop Real.sqrt A tol ‖b‖ nk fuel (work Real.sqrt A tol ‖b‖ nk st) = work Real.sqrt A tol ‖b‖ nk st := by
          cases fuel with
          | zero => rfl
          | succ f =>
            rw [loop, if_neg]
            rw [hw]
            simp only
            omega
        rw [hl, hw]
        exact h.nan
    · exact h.nan

/-- One restart from the initial guess. -/
theorem restart_spec {solve : Nat → (Nat → Nat → ℝ) → (Nat → ℝ) → Nat → ℝ} (hs : TriSolve solve)
    {A : Vec ℝ n →ₗ[ℝ] Vec ℝ n} {b x0 : Vec ℝ n} {tol : ℝ} (ht : 0 ≤ tol) {nk : Nat} {x : Vec ℝ n} {done : Bool}
    (h : restart Real.sqrt solve A b nk x0 tol (some x0) = (done, some x)) :
    ∃ q ≤ nk, Minimises A b x0 q x ∧ Module.finrank ℝ (Kry A (b - A x0) q) = q ∧ (done = true → q + 1 < nk) ∧
      (q = nk ∨ ‖b - A x‖ ≤ tol * ‖b‖ ∨ q = 0 ∧ x = x0 ∧ ‖b - A x0‖ ≤ tol) := by
  rw [restart] at h
  simp only [Prod.mk.injEq] at h
  obtain ⟨h1, h2⟩ := h
  obtain ⟨r, hr⟩ : ∃ r, r = b - A x0 := ⟨_, rfl⟩
  rw [← hr] at h1 h2 ⊢
  by_cases hz : r = 0
  · have hst : krylov Real.sqrt A nk r tol ‖b‖ = start r := by
      rw [krylov, loop, if_neg]
      rintro ⟨_, he, _⟩
      rw [Exceeds] at he
      simp [start, hz] at he
      linarith
    rw [hst] at h1 h2
    have hx : x = x0 := by
      have hn : (start r).nan = false := rfl
      rw [hn] at h2
      simp only [Bool.false_eq_true, if_false, Option.some.injEq] at h2
      rw [← h2, update]
      simp [start]
    have hA : b - A x = 0 := by rw [hx, ← hr, hz]
    refine ⟨0, by omega, ⟨by rw [hx, sub_self]; exact Submodule.zero_mem _, fun z _ => by rw [hA, norm_zero]; exact norm_nonneg _⟩,
      ?_, ?_, Or.inr (Or.inr ⟨rfl, hx, by rw [hz, norm_zero]; exact ht⟩)⟩
    · rw [Kry]
      have : Set.range (fun i : Fin 0 => (A ^ (i : Nat)) r) = ∅ := Set.range_eq_empty _
      rw [this, Submodule.span_empty, finrank_bot]
    · intro hd
      rw [hd] at h1
      simp [start] at h1
      omega
  · have hn : (krylov Real.sqrt A nk r tol ‖b‖).nan = false := by
      cases hc : (krylov Real.sqrt A nk r tol ‖b‖).nan with
      | false => rfl
      | true => rw [hc] at h2; simp at h2
    rw [hn] at h2
    simp only [Bool.false_eq_true, if_false, Option.some.injEq] at h2
    obtain ⟨st, f⟩ := loop_spec (bNorm := ‖b‖) ht (nk + 2) (start r) _ _ _ (Inv.start A hz nk)
      (Or.inl ⟨rfl, by simp [start]⟩) (by simp [start]) (by rw [krylov] at hn; exact hn)
    rw [← krylov] at f
    obtain ⟨e, p, s, hi⟩ := f.inv
    obtain ⟨st', hst'⟩ : ∃ st', st' = krylov Real.sqrt A nk r tol ‖b‖ := ⟨_, rfl⟩
    rw [← hst'] at f h1 h2
    have hy := hs st.k st'.R st'.beta (fun i hi' j hj => by rw [f.R]; exact hi.tri j (by omega) i hj)
      (fun i hi' => by rw [f.R]; exact hi.diag i hi')
    obtain ⟨y, hyd⟩ : ∃ y, y = solve st.k st'.R st'.beta := ⟨_, rfl⟩
    rw [← hyd, f.R] at hy
    obtain ⟨m1, m2, m3⟩ := hi.minimal (y := y) (fun i hi' => by rw [hy i hi', f.beta i hi'])
    have hx : x = x0 + ∑ j ∈ range st.k, y j • st.V j := by
      rw [← h2, update, ← f.k, f.V, hyd]
    have hres : ∀ z, b - A (x0 + z) = r - A z := by intro z; rw [hr, map_add]; abel
    refine ⟨st.k, hi.le, ⟨?_, ?_⟩, (span_eq hi).2, ?_, ?_⟩
    · rw [← hr, hx, add_sub_cancel_left]; exact m2
    · intro z hz'
      rw [← hr] at hz'
      rw [hx, hres, hres, m1]
      exact m3 z hz'
    · intro hd
      rw [hd, decide_eq_true_eq] at h1
      have := f.k
      omega
    · by_cases hk : st.k < nk
      · right
        rcases f.err.small (norm_nonneg b) (f.stop hk) with ⟨k1, k2⟩ | k2
        · right
          have hx0 : x = x0 := by rw [hx, k1]; simp
          refine ⟨k1, hx0, ?_⟩
          rw [← m1, k1] at k2
          simpa using k2
        · left
          rw [hx, hres, m1]
          exact k2
      · left; have := hi.le; omega

end
end TN.Gmres
