import Verif.Gmres

/-!
# What the loop of `gmres` keeps (real operators)
-/

set_option linter.unusedSectionVars false

namespace TN.Gmres

noncomputable section

open Classical Finset

variable {n : Nat}

local notation "⟪" x ", " y "⟫" => inner ℝ x y

/-! ## Rotations and orthogonalisation -/

theorem applyRotations_above (cs sn a : Nat → ℝ) : ∀ i j, i < j → applyRotations cs sn a i j = a j
  | 0, j, _ => rfl
  | i + 1, j, h => by
    simp only [applyRotations]
    rw [Function.update_of_ne (by omega), Function.update_of_ne (by omega), applyRotations_above cs sn a i j (by omega)]

theorem applyRotations_congr {cs sn cs' sn' : Nat → ℝ} (a : Nat → ℝ) :
    ∀ i, (∀ j < i, cs j = cs' j) → (∀ j < i, sn j = sn' j) → applyRotations cs sn a i = applyRotations cs' sn' a i
  | 0, _, _ => rfl
  | i + 1, h1, h2 => by
    simp only [applyRotations]
    rw [applyRotations_congr a i (fun j hj => h1 j (by omega)) (fun j hj => h2 j (by omega)), h1 i (by omega),
      h2 i (by omega)]

/-- Entries above do not matter for those below. -/
theorem applyRotations_local {cs sn a a' : Nat → ℝ} :
    ∀ i, (∀ j ≤ i, a j = a' j) → ∀ j ≤ i, applyRotations cs sn a i j = applyRotations cs sn a' i j
  | 0, h, j, hj => h j hj
  | i + 1, h, j, hj => by
    have ih := applyRotations_local (cs := cs) (sn := sn) i (fun j hj => h j (by omega))
    have h1 : applyRotations cs sn a i (i + 1) = applyRotations cs sn a' i (i + 1) := by
      rw [applyRotations_above _ _ _ _ _ (by omega), applyRotations_above _ _ _ _ _ (by omega), h _ le_rfl]
    simp only [applyRotations]
    rw [ih i le_rfl, h1]
    by_cases e1 : j = i + 1
    · rw [e1, Function.update_self, Function.update_self]
    · rw [Function.update_of_ne e1, Function.update_of_ne e1]
      by_cases e2 : j = i
      · rw [e2, Function.update_self, Function.update_self]
      · rw [Function.update_of_ne e2, Function.update_of_ne e2, ih j (by omega)]

theorem gsScan_sum (V : Nat → Vec ℝ n) (v : Vec ℝ n) : ∀ m, v = ∑ i ∈ range m, (gsScan V v m).2 i • V i + (gsScan V v m).1
  | 0 => by simp [gsScan]
  | m + 1 => by
    have ih := gsScan_sum V v m
    rw [sum_range_succ]
    simp only [gsScan]
    rw [Function.update_self]
    have : ∑ i ∈ range m, (Function.update (gsScan V v m).2 m ⟪V m, (gsScan V v m).1⟫) i • V i =
        ∑ i ∈ range m, (gsScan V v m).2 i • V i := by
      apply sum_congr rfl
      intro i hi
      rw [Function.update_of_ne (by rw [mem_range] at hi; omega)]
    rw [this]
    conv_lhs => rw [ih]
    abel

theorem gsScan_above (V : Nat → Vec ℝ n) (v : Vec ℝ n) : ∀ m i, m ≤ i → (gsScan V v m).2 i = 0
  | 0, i, _ => rfl
  | m + 1, i, h => by
    simp only [gsScan]
    rw [Function.update_of_ne (by omega), gsScan_above V v m i (by omega)]

theorem gsScan_perp {V : Nat → Vec ℝ n} (v : Vec ℝ n) (M : Nat) (h0 : ∀ i < M, ∀ j < M, i ≠ j → ⟪V i, V j⟫ = 0)
    (h1 : ∀ i < M, ⟪V i, V i⟫ = 1 ∨ V i = 0) :
    ∀ m ≤ M, ∀ i < m, ⟪V i, (gsScan V v m).1⟫ = 0
  | 0, _, i, h => absurd h (by omega)
  | m + 1, hm, i, h => by
    simp only [gsScan]
    rw [inner_sub_right, inner_smul_right]
    by_cases e : i = m
    · rw [e]
      rcases h1 m (by omega) with h | h
      · rw [h, mul_one, sub_self]
      · rw [h, inner_zero_left]; simp
    · rw [gsScan_perp v M h0 h1 m (by omega) i (by omega), h0 i (by omega) m (by omega) e, mul_zero, sub_zero]

/-- Vectors that are zero give no overlap. -/
theorem gsScan_zero {V : Nat → Vec ℝ n} (v : Vec ℝ n) {i : Nat} (hi : V i = 0) : ∀ m, (gsScan V v m).2 i = 0
  | 0 => rfl
  | m + 1 => by
    simp only [gsScan]
    by_cases e : i = m
    · rw [← e, Function.update_self, hi, inner_zero_left]
    · rw [Function.update_of_ne e, gsScan_zero v hi m]

theorem gsScan_of_zero (V : Nat → Vec ℝ n) : ∀ m, (gsScan V 0 m).1 = 0 ∧ ∀ i, (gsScan V 0 m).2 i = 0
  | 0 => ⟨rfl, fun _ => rfl⟩
  | m + 1 => by
    obtain ⟨h1, h2⟩ := gsScan_of_zero V m
    simp only [gsScan]
    rw [h1, inner_zero_right]
    refine ⟨by simp, ?_⟩
    intro i
    by_cases e : i = m
    · rw [e, Function.update_self]
    · rw [Function.update_of_ne e, h2]

theorem applyRotations_of_zero (cs sn : Nat → ℝ) {a : Nat → ℝ} (h : ∀ i, a i = 0) : ∀ i j, applyRotations cs sn a i j = 0
  | 0, j => h j
  | i + 1, j => by
    have ih := applyRotations_of_zero cs sn h i
    simp only [applyRotations]
    rw [ih, ih, mul_zero, mul_zero, sub_zero, add_zero]
    try simp only [mul_zero, sub_zero, add_zero]
    by_cases e : j = i + 1
    · rw [e, Function.update_self]
    · rw [Function.update_of_ne e]
      by_cases e : j = i
      · rw [e, Function.update_self]
      · rw [Function.update_of_ne e, ih]

theorem givens_some {v1 v2 c s : ℝ} (h : givensRotation Real.sqrt v1 v2 = some (c, s)) :
    c ^ 2 + s ^ 2 = 1 ∧ s * v1 + c * v2 = 0 ∧ c * v1 - s * v2 = Real.sqrt (v1 ^ 2 + v2 ^ 2) ∧
      0 < Real.sqrt (v1 ^ 2 + v2 ^ 2) ∧ s * Real.sqrt (v1 ^ 2 + v2 ^ 2) = -v2 := by
  simp only [givensRotation] at h
  obtain ⟨t, ht⟩ : ∃ t, t = Real.sqrt (v1 ^ 2 + v2 ^ 2) := ⟨_, rfl⟩
  rw [← ht] at h
  split_ifs at h with h0
  cases h
  have h1 : t ^ 2 = v1 ^ 2 + v2 ^ 2 := by rw [ht, Real.sq_sqrt (by positivity)]
  have h2 : 0 < t := lt_of_le_of_ne (by rw [ht]; exact Real.sqrt_nonneg _) (Ne.symm h0)
  rw [← ht]
  refine ⟨?_, ?_, ?_, h2, ?_⟩
  · rw [div_pow, div_pow, neg_sq, ← add_div, ← h1, div_self (by positivity)]
  · field_simp; ring
  · field_simp; rw [h1]; ring
  · field_simp

theorem givens_none {v1 v2 : ℝ} (h : givensRotation Real.sqrt v1 v2 = none) : v1 = 0 ∧ v2 = 0 := by
  simp only [givensRotation] at h
  split_ifs at h with h0
  rw [Real.sqrt_eq_zero (by positivity)] at h0
  constructor <;> nlinarith [sq_nonneg v1, sq_nonneg v2]

/-! ## The invariant -/

/-- The state of the loop: `e` are the Krylov vectors, `p` and `s` the basis of the same space after the rotations. -/
structure Inv (A : Vec ℝ n →ₗ[ℝ] Vec ℝ n) (r : Vec ℝ n) (nk : Nat) (st : Carry ℝ n) (e p : Nat → Vec ℝ n) (s : Vec ℝ n) :
    Prop where
  nan : st.nan = false
  le : st.k ≤ nk
  eV : ∀ i < st.k, st.V i = e i
  last : st.V st.k = e st.k ∨ st.V st.k = 0
  zero : ∀ i, st.k < i → st.V i = 0
  orth : ∀ i < st.k, ∀ j < st.k, ⟪e i, e j⟫ = if i = j then 1 else 0
  perp : ∀ i < st.k, ⟪e i, e st.k⟫ = 0
  porth : ∀ i < st.k, ∀ j < st.k, ⟪p i, p j⟫ = if i = j then 1 else 0
  pperp : ∀ i < st.k, ⟪p i, s⟫ = 0
  unit : (⟪s, s⟫ = 1 ∧ ⟪e st.k, e st.k⟫ = 1) ∨ st.beta st.k = 0
  pin : ∀ w, (∀ i ≤ st.k, ⟪e i, w⟫ = 0) → (∀ i < st.k, ⟪p i, w⟫ = 0) ∧ ⟪s, w⟫ = 0
  rot : ∀ a, ∑ i ∈ range (st.k + 1), a i • e i =
    ∑ i ∈ range st.k, applyRotations st.cs st.sn a st.k i • p i + applyRotations st.cs st.sn a st.k st.k • s
  col : ∀ j < st.k, A (e j) = ∑ i ∈ range st.k, st.R i j • p i
  tri : ∀ j < st.k, ∀ i, j < i → st.R i j = 0
  diag : ∀ j < st.k, st.R j j ≠ 0
  res : r = ∑ i ∈ range st.k, st.beta i • p i + st.beta st.k • s
  kry : ∀ i ≤ st.k, st.V i ∈ Kry A r (i + 1)

theorem kry_mono (A : Vec ℝ n →ₗ[ℝ] Vec ℝ n) (r : Vec ℝ n) {q q' : Nat} (h : q ≤ q') : Kry A r q ≤ Kry A r q' := by
  apply Submodule.span_mono
  rintro _ ⟨i, rfl⟩
  exact ⟨⟨i, by omega⟩, rfl⟩

theorem kry_map (A : Vec ℝ n →ₗ[ℝ] Vec ℝ n) (r : Vec ℝ n) {q : Nat} {x : Vec ℝ n} (h : x ∈ Kry A r q) :
    A x ∈ Kry A r (q + 1) := by
  have : Kry A r q ≤ (Kry A r (q + 1)).comap A := by
    rw [Kry, Submodule.span_le]
    rintro _ ⟨i, rfl⟩
    apply Submodule.subset_span
    exact ⟨⟨i + 1, by omega⟩, by simp [pow_succ']⟩
  exact this h

theorem Inv.start (A : Vec ℝ n →ₗ[ℝ] Vec ℝ n) {r : Vec ℝ n} (hr : r ≠ 0) (nk : Nat) :
    Inv A r nk (start r) (fun _ => ((1 / ‖r‖ : ℝ)) • r) (fun _ => 0) ((1 / ‖r‖ : ℝ) • r) := by
  have h0 : ‖r‖ ≠ 0 := norm_ne_zero_iff.2 hr
  have h1 : ⟪(1 / ‖r‖ : ℝ) • r, (1 / ‖r‖ : ℝ) • r⟫ = 1 := by
    rw [real_inner_smul_left, real_inner_smul_right, real_inner_self_eq_norm_sq]
    field_simp
  refine ⟨rfl, by simp [Gmres.start], fun i hi => absurd hi (by simp [Gmres.start]), Or.inl ?_, ?_,
    fun i hi => absurd hi (by simp [Gmres.start]), fun i hi => absurd hi (by simp [Gmres.start]),
    fun i hi => absurd hi (by simp [Gmres.start]), fun i hi => absurd hi (by simp [Gmres.start]), Or.inl ⟨h1, h1⟩, ?_, ?_,
    fun i hi => absurd hi (by simp [Gmres.start]), fun i hi => absurd hi (by simp [Gmres.start]),
    fun i hi => absurd hi (by simp [Gmres.start]), ?_, ?_⟩
  · simp [Gmres.start]
  · intro i hi
    simp only [Gmres.start] at hi ⊢
    rw [Function.update_of_ne (by omega)]
  · intro w hw
    exact ⟨fun i hi => absurd hi (by simp [Gmres.start]), hw 0 (by simp)⟩
  · intro a
    simp [Gmres.start, applyRotations]
  · simp only [Gmres.start, range_zero, sum_empty, zero_add, Function.update_self]
    rw [smul_smul]
    simp [h0]
  · intro i hi
    have : i = 0 := by simpa [Gmres.start] using hi
    rw [this]
    simp only [Gmres.start, Function.update_self]
    apply Submodule.smul_mem
    exact Submodule.subset_span ⟨⟨0, by omega⟩, by simp⟩

/-- What the Arnoldi step finds. -/
structure StepData (A : Vec ℝ n →ₗ[ℝ] Vec ℝ n) (nk : Nat) (st : Carry ℝ n) (e p : Nat → Vec ℝ n) (s : Vec ℝ n)
    (col : Nat → ℝ) (v : ℝ) (u : Vec ℝ n) : Prop where
  nonneg : 0 ≤ v
  image : A (e st.k) = ∑ i ∈ range st.k, col i • p i + col st.k • s + v • u
  above : col (st.k + 1) = v
  far : ∀ i, st.k + 1 < i → col i = 0
  unit : v ≠ 0 → ⟪u, u⟫ = 1
  perp : ∀ i ≤ st.k, ⟪e i, u⟫ = 0

theorem Inv.data {A : Vec ℝ n →ₗ[ℝ] Vec ℝ n} {r : Vec ℝ n} {nk : Nat} {st : Carry ℝ n} {e p : Nat → Vec ℝ n} {s : Vec ℝ n}
    (h : Inv A r nk st e p s) (hk : st.k < nk) (hV : st.V st.k = e st.k) (hb : st.beta st.k ≠ 0) :
    StepData A nk st e p s
      (applyRotations st.cs st.sn (Function.update (gsScan st.V (A (st.V st.k)) (nk + 1)).2 (st.k + 1)
        ‖(gsScan st.V (A (st.V st.k)) (nk + 1)).1‖) st.k)
      ‖(gsScan st.V (A (st.V st.k)) (nk + 1)).1‖
      ((1 / ‖(gsScan st.V (A (st.V st.k)) (nk + 1)).1‖ : ℝ) • (gsScan st.V (A (st.V st.k)) (nk + 1)).1) := by
  obtain ⟨g, hg⟩ : ∃ g, g = gsScan st.V (A (st.V st.k)) (nk + 1) := ⟨_, rfl⟩
  rw [← hg]
  obtain ⟨hs, he⟩ := h.unit.resolve_right hb
  have hVe : ∀ i ≤ st.k, st.V i = e i := by
    intro i hi
    rcases Nat.lt_or_eq_of_le hi with h' | h'
    · exact h.eV i h'
    · rw [h', hV]
  have ho : ∀ i ≤ st.k, ∀ j ≤ st.k, ⟪e i, e j⟫ = if i = j then 1 else 0 := by
    intro i hi j hj
    rcases Nat.lt_or_eq_of_le hi with h1 | h1 <;> rcases Nat.lt_or_eq_of_le hj with h2 | h2
    · exact h.orth i h1 j h2
    · rw [h2, h.perp i h1, if_neg (by omega)]
    · rw [h1, real_inner_comm, h.perp j h2, if_neg (by omega)]
    · rw [h1, h2, he, if_pos rfl]
  have h0 : ∀ i < nk + 1, ∀ j < nk + 1, i ≠ j → ⟪st.V i, st.V j⟫ = 0 := by
    intro i _ j _ hij
    by_cases h1 : i ≤ st.k
    · by_cases h2 : j ≤ st.k
      · rw [hVe i h1, hVe j h2, ho i h1 j h2, if_neg hij]
      · rw [h.zero j (by omega), inner_zero_right]
    · rw [h.zero i (by omega), inner_zero_left]
  have h1 : ∀ i < nk + 1, ⟪st.V i, st.V i⟫ = 1 ∨ st.V i = 0 := by
    intro i _
    by_cases h1 : i ≤ st.k
    · left; rw [hVe i h1, ho i h1 i h1, if_pos rfl]
    · right; exact h.zero i (by omega)
  have hp := gsScan_perp (A (st.V st.k)) (nk + 1) h0 h1 (nk + 1) le_rfl
  rw [← hg] at hp
  have hsum := gsScan_sum st.V (A (st.V st.k)) (nk + 1)
  rw [← hg] at hsum
  have hcut : ∑ i ∈ range (nk + 1), g.2 i • st.V i = ∑ i ∈ range (st.k + 1), g.2 i • e i := by
    rw [← sum_subset (range_mono (by omega : st.k + 1 ≤ nk + 1))]
    · apply sum_congr rfl
      intro i hi
      rw [mem_range] at hi
      rw [hVe i (by omega)]
    · intro i _ hi
      rw [mem_range] at hi
      rw [h.zero i (by omega), smul_zero]
  have hv : ‖g.1‖ • ((1 / ‖g.1‖ : ℝ) • g.1) = g.1 := by
    rw [smul_smul]
    by_cases hz : ‖g.1‖ = 0
    · rw [norm_eq_zero.1 hz, smul_zero]
    · rw [mul_one_div_cancel hz, one_smul]
  refine ⟨norm_nonneg _, ?_, ?_, ?_, ?_, ?_⟩
  · rw [hv, ← hV, ← h.rot]
    conv_lhs => rw [hsum, hcut]
    congr 1
    apply sum_congr rfl
    intro i hi
    rw [mem_range] at hi
    rw [Function.update_of_ne (by omega)]
  · rw [applyRotations_above _ _ _ _ _ (by omega), Function.update_self]
  · intro i hi
    rw [applyRotations_above _ _ _ _ _ (by omega), Function.update_of_ne (by omega), hg]
    exact gsScan_zero _ (h.zero i (by omega)) _
  · intro hz
    rw [real_inner_smul_left, real_inner_smul_right, real_inner_self_eq_norm_sq]
    field_simp
  · intro i hi
    rw [real_inner_smul_right, ← hVe i hi, hp i (by omega), mul_zero]

theorem Inv.step {A : Vec ℝ n →ₗ[ℝ] Vec ℝ n} {r : Vec ℝ n} {nk : Nat} {st : Carry ℝ n} {e p : Nat → Vec ℝ n} {s : Vec ℝ n}
    (h : Inv A r nk st e p s) (hk : st.k < nk) (hV : st.V st.k = e st.k) (hb : st.beta st.k ≠ 0) (tol bNorm : ℝ)
    (hn : (work Real.sqrt A tol bNorm nk st).nan = false) :
    ∃ (e' p' : Nat → Vec ℝ n) (s' : Vec ℝ n) (col : Nat → ℝ) (v : ℝ) (u : Vec ℝ n) (σ : ℝ),
      StepData A nk st e p s col v u ∧ Inv A r nk (work Real.sqrt A tol bNorm nk st) e' p' s' ∧
      (work Real.sqrt A tol bNorm nk st).k = st.k + 1 ∧
      (work Real.sqrt A tol bNorm nk st).beta (st.k + 1) = σ * st.beta st.k ∧
      (work Real.sqrt A tol bNorm nk st).err = (|σ * st.beta st.k|, bNorm) ∧
      |σ| * Real.sqrt (col st.k ^ 2 + v ^ 2) = v ∧ 0 < Real.sqrt (col st.k ^ 2 + v ^ 2) ∧ |σ| ≤ 1 ∧
      (tol < v → (work Real.sqrt A tol bNorm nk st).V (st.k + 1) = e' (st.k + 1)) := by
  have d := h.data hk hV hb
  obtain ⟨g, hg⟩ : ∃ g, g = gsScan st.V (A (st.V st.k)) (nk + 1) := ⟨_, rfl⟩
  rw [← hg] at d
  obtain ⟨v, hv⟩ : ∃ v, v = ‖g.1‖ := ⟨_, rfl⟩
  rw [← hv] at d
  obtain ⟨col, hcol⟩ : ∃ col, col = applyRotations st.cs st.sn (Function.update g.2 (st.k + 1) v) st.k := ⟨_, rfl⟩
  rw [← hcol] at d
  obtain ⟨u, hu⟩ : ∃ u, u = (1 / v : ℝ) • g.1 := ⟨_, rfl⟩
  rw [← hu] at d
  cases hgr : givensRotation Real.sqrt (col st.k) (col (st.k + 1)) with
  | none =>
    exfalso
    rw [work, if_pos hk] at hn
    simp only [RCLike.ofReal_real_eq_id, id] at hn
    rw [← hg, ← hv, ← hcol, hgr] at hn
    simp at hn
  | some cs =>
    obtain ⟨c, σ⟩ := cs
    have hw : work Real.sqrt A tol bNorm nk st =
        { k := st.k + 1
          V := Function.update st.V (st.k + 1) (if tol < v then u else 0)
          R := fun i j => if j = st.k then Function.update (Function.update col st.k
            (c * col st.k - σ * col (st.k + 1))) (st.k + 1) 0 i else st.R i j
          beta := Function.update (Function.update st.beta st.k (c * st.beta st.k)) (st.k + 1) (σ * st.beta st.k)
          err := (‖σ * st.beta st.k‖, bNorm)
          cs := Function.update st.cs st.k c
          sn := Function.update st.sn st.k σ
          nan := false } := by
      rw [work, if_pos hk]
      simp only [RCLike.ofReal_real_eq_id, id]
      rw [← hg, ← hv, ← hcol, hgr, hu]
    rw [d.above] at hgr hw
    obtain ⟨g1, g2, g3, g4, g5⟩ := givens_some hgr
    obtain ⟨t, ht⟩ : ∃ t, t = Real.sqrt (col st.k ^ 2 + v ^ 2) := ⟨_, rfl⟩
    rw [← ht] at g3 g4 g5
    obtain ⟨hs, he⟩ := h.unit.resolve_right hb
    obtain ⟨pu, su⟩ := h.pin u d.perp
    have huu : σ * ⟪u, u⟫ = σ := by
      by_cases hz : v = 0
      · have : σ = 0 := by
          rw [hz, neg_zero] at g5
          exact (mul_eq_zero.1 g5).resolve_right g4.ne'
        rw [this, zero_mul]
      · rw [d.unit hz, mul_one]
    have hxt : col st.k = t * c := by rw [← g3]; linear_combination (-col st.k) * g1 + σ * g2
    have hvt : v = -(t * σ) := by linarith
    refine ⟨Function.update e (st.k + 1) u, Function.update p st.k (c • s - σ • u), σ • s + c • u, col, v, u, σ, d, ?_⟩
    have hσ : |σ| ≤ 1 := abs_le_one_iff_mul_self_le_one.2 (by nlinarith [sq_nonneg c])
    rw [← ht]
    have hpk : ∀ i < st.k, Function.update p st.k (c • s - σ • u) i = p i := fun i hi => Function.update_of_ne (by omega) _ _
    have hek : ∀ i ≤ st.k, Function.update e (st.k + 1) u i = e i := fun i hi => Function.update_of_ne (by omega) _ _
    refine ⟨?_, by rw [hw], by rw [hw]; simp, by rw [hw]; rfl, ?_, g4, hσ, ?_⟩
    · rw [hw]
      refine ⟨rfl, hk, ?_, ?_, ?_, ?_, ?_, ?_, ?_, ?_, ?_, ?_, ?_, ?_, ?_, ?_, ?_⟩
      · intro i hi
        simp only at hi ⊢
        rw [Function.update_of_ne (by omega), hek i (by omega)]
        rcases Nat.lt_succ_iff_lt_or_eq.1 hi with h' | h'
        · exact h.eV i h'
        · rw [h', hV]
      · simp only [Function.update_self]
        split_ifs
        · exact Or.inl rfl
        · exact Or.inr rfl
      · intro i hi
        simp only at hi ⊢
        rw [Function.update_of_ne (by omega)]
        exact h.zero i (by omega)
      · intro i hi j hj
        simp only at hi hj
        rw [hek i (by omega), hek j (by omega)]
        rcases Nat.lt_succ_iff_lt_or_eq.1 hi with h1 | h1 <;> rcases Nat.lt_succ_iff_lt_or_eq.1 hj with h2 | h2
        · exact h.orth i h1 j h2
        · rw [h2, h.perp i h1, if_neg (by omega)]
        · rw [h1, real_inner_comm, h.perp j h2, if_neg (by omega)]
        · rw [h1, h2, he, if_pos rfl]
      · intro i hi
        simp only at hi ⊢
        rw [hek i (by omega), Function.update_self]
        exact d.perp i (by omega)
      · intro i hi j hj
        simp only at hi hj
        have hx : ∀ i < st.k, ⟪p i, c • s - σ • u⟫ = 0 := by
          intro i hi
          rw [inner_sub_right, real_inner_smul_right, real_inner_smul_right, h.pperp i hi, pu i hi]
          simp
        rcases Nat.lt_succ_iff_lt_or_eq.1 hi with h1 | h1 <;> rcases Nat.lt_succ_iff_lt_or_eq.1 hj with h2 | h2
        · rw [hpk i h1, hpk j h2]
          exact h.porth i h1 j h2
        · rw [h2, hpk i h1, Function.update_self, hx i h1, if_neg (by omega)]
        · rw [h1, hpk j h2, Function.update_self, real_inner_comm, hx j h2, if_neg (by omega)]
        · rw [h1, h2, Function.update_self, if_pos rfl]
          simp only [inner_sub_left, inner_sub_right, real_inner_smul_left, real_inner_smul_right]
          rw [real_inner_comm s u, su, hs]
          linear_combination g1 + σ * huu
      · intro i hi
        simp only at hi
        rw [inner_add_right, real_inner_smul_right, real_inner_smul_right]
        rcases Nat.lt_succ_iff_lt_or_eq.1 hi with h1 | h1
        · rw [hpk i h1, h.pperp i h1, pu i h1]; simp
        · rw [h1, Function.update_self]
          simp only [inner_sub_left, real_inner_smul_left]
          rw [real_inner_comm s u, su, hs]
          linear_combination -c * huu
      · by_cases hz : v = 0
        · right
          simp only [Function.update_self]
          have : σ = 0 := by
            rw [hz, neg_zero] at g5
            exact (mul_eq_zero.1 g5).resolve_right g4.ne'
          rw [this, zero_mul]
        · left
          simp only [Function.update_self]
          refine ⟨?_, d.unit hz⟩
          simp only [inner_add_left, inner_add_right, real_inner_smul_left, real_inner_smul_right]
          rw [real_inner_comm s u, su, hs, d.unit hz]
          linear_combination g1
      · intro w hww
        simp only at hww
        obtain ⟨w1, w2⟩ := h.pin w (fun i hi => by have := hww i (by omega); rwa [hek i hi] at this)
        have w3 := hww (st.k + 1) le_rfl
        rw [Function.update_self] at w3
        refine ⟨?_, ?_⟩
        · intro i hi
          simp only at hi
          rcases Nat.lt_succ_iff_lt_or_eq.1 hi with h1 | h1
          · rw [hpk i h1]; exact w1 i h1
          · rw [h1, Function.update_self, inner_sub_left, real_inner_smul_left, real_inner_smul_left, w2, w3]; simp
        · rw [inner_add_left, real_inner_smul_left, real_inner_smul_left, w2, w3]; simp
      · intro a
        simp only
        have hc : applyRotations (Function.update st.cs st.k c) (Function.update st.sn st.k σ) a st.k =
            applyRotations st.cs st.sn a st.k :=
          applyRotations_congr a _ (fun j hj => Function.update_of_ne (by omega) _ _)
            (fun j hj => Function.update_of_ne (by omega) _ _)
        have hl : ∑ i ∈ range (st.k + 1), a i • Function.update e (st.k + 1) u i = ∑ i ∈ range (st.k + 1), a i • e i := by
          apply sum_congr rfl
          intro i hi
          rw [mem_range] at hi
          rw [hek i (by omega)]
        rw [sum_range_succ, hl, h.rot a, Function.update_self]
        simp only [applyRotations]
        rw [hc, Function.update_self, Function.update_self, Function.update_self, sum_range_succ,
          Function.update_of_ne (by omega : st.k ≠ st.k + 1), Function.update_self, Function.update_self]
        obtain ⟨w, hw'⟩ : ∃ w, w = applyRotations st.cs st.sn a st.k := ⟨_, rfl⟩
        rw [← hw']
        have h2 : ∑ i ∈ range st.k, Function.update (Function.update w st.k (c * w st.k - σ * w (st.k + 1))) (st.k + 1)
            (σ * w st.k + c * w (st.k + 1)) i • Function.update p st.k (c • s - σ • u) i = ∑ i ∈ range st.k, w i • p i := by
          apply sum_congr rfl
          intro i hi
          rw [mem_range] at hi
          rw [hpk i hi, Function.update_of_ne (by omega), Function.update_of_ne (by omega)]
        have h3 : w (st.k + 1) = a (st.k + 1) := by rw [hw', applyRotations_above _ _ _ _ _ (by omega)]
        rw [h2, ← h3, add_assoc, add_assoc]
        congr 1
        have e1 : w st.k • s = (w st.k * (c ^ 2 + σ ^ 2)) • s := by rw [g1, mul_one]
        have e2 : w (st.k + 1) • u = (w (st.k + 1) * (c ^ 2 + σ ^ 2)) • u := by rw [g1, mul_one]
        rw [e1, e2]
        module
      · intro j hj
        simp only at hj ⊢
        rw [hek j (by omega), sum_range_succ]
        by_cases e1 : j = st.k
        · rw [e1]
          simp only [if_true]
          rw [Function.update_of_ne (by omega : st.k ≠ st.k + 1), Function.update_self, Function.update_self, d.image, g3]
          have h2 : ∑ i ∈ range st.k, Function.update (Function.update col st.k t) (st.k + 1) 0 i •
              Function.update p st.k (c • s - σ • u) i = ∑ i ∈ range st.k, col i • p i := by
            apply sum_congr rfl
            intro i hi
            rw [mem_range] at hi
            rw [hpk i hi, Function.update_of_ne (by omega), Function.update_of_ne (by omega)]
          rw [h2, add_assoc]
          congr 1
          rw [hxt]
          conv_lhs => rw [hvt]
          module
        · rw [if_neg e1, h.tri j (by omega) st.k (by omega), zero_smul, add_zero, h.col j (by omega)]
          apply sum_congr rfl
          intro i hi
          rw [mem_range] at hi
          rw [if_neg e1, hpk i hi]
      · intro j hj i hi
        simp only at hj ⊢
        by_cases e1 : j = st.k
        · rw [if_pos e1]
          by_cases e2 : i = st.k + 1
          · rw [e2, Function.update_self]
          · rw [Function.update_of_ne e2, Function.update_of_ne (by omega), d.far i (by omega)]
        · rw [if_neg e1, h.tri j (by omega) i hi]
      · intro j hj
        simp only at hj ⊢
        by_cases e1 : j = st.k
        · rw [if_pos e1, e1, Function.update_of_ne (by omega), Function.update_self, g3]
          exact g4.ne'
        · rw [if_neg e1]; exact h.diag j (by omega)
      · simp only
        rw [sum_range_succ, Function.update_self, Function.update_self, Function.update_of_ne (by omega : st.k ≠ st.k + 1),
          Function.update_self]
        have h2 : ∑ i ∈ range st.k, Function.update (Function.update st.beta st.k (c * st.beta st.k)) (st.k + 1)
            (σ * st.beta st.k) i • Function.update p st.k (c • s - σ • u) i = ∑ i ∈ range st.k, st.beta i • p i := by
          apply sum_congr rfl
          intro i hi
          rw [mem_range] at hi
          rw [hpk i hi, Function.update_of_ne (by omega), Function.update_of_ne (by omega)]
        rw [h2, add_assoc]
        conv_lhs => rw [h.res]
        congr 1
        have e1 : st.beta st.k • s = (st.beta st.k * (c ^ 2 + σ ^ 2)) • s := by rw [g1, mul_one]
        rw [e1]
        module
      · intro i hi
        simp only at hi ⊢
        by_cases e1 : i = st.k + 1
        · rw [e1, Function.update_self]
          split_ifs
          · rw [hu]
            apply Submodule.smul_mem
            have hsum := gsScan_sum st.V (A (st.V st.k)) (nk + 1)
            rw [← hg] at hsum
            have : g.1 = A (st.V st.k) - ∑ i ∈ range (nk + 1), g.2 i • st.V i := by
              rw [eq_sub_iff_add_eq, add_comm]; exact hsum.symm
            rw [this]
            apply Submodule.sub_mem
            · exact kry_map A r (h.kry _ le_rfl)
            · apply Submodule.sum_mem
              intro i _
              apply Submodule.smul_mem
              by_cases hi : i ≤ st.k
              · exact kry_mono A r (by omega) (h.kry i hi)
              · rw [h.zero i (by omega)]; exact Submodule.zero_mem _
          · exact Submodule.zero_mem _
        · rw [Function.update_of_ne e1]; exact h.kry i (by omega)
    · have := congrArg abs g5
      rw [abs_mul, abs_of_pos g4, abs_neg, abs_of_nonneg d.nonneg] at this
      exact this
    · intro hlt
      rw [hw]
      simp only [Function.update_self]
      rw [if_pos hlt]

end
end TN.Gmres
