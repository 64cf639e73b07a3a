import Verif.InfRoots

/-!
# The second half of `canonicalize`
-/

set_option linter.unusedSectionVars false

namespace TN.Inf

open TN NDArray Finset Ncon Mps Matrix
open scoped ComplexOrder

variable {K : Type} [RCLike K]

/-! ### The singular values -/

/-- `svd` of a square matrix that keeps all singular values. -/
theorem svd_square {E : Env K} (hE : SvdOK E) {t u s v w : NDArray K} {n : Nat} (ht : t.shape = [n, n])
    {D : Option Nat} {err : Option ℝ} (h : Decomp.svd E.svd t 1 D err true = .ok (u, s, v, w)) :
    ∃ k, u.shape = [n, k] ∧ s.shape = [k] ∧ v.shape = [k, n] ∧ (k = n → ∃ lam : Fin n → ℝ,
      (∀ i, 0 ≤ lam i) ∧ Antitone lam ∧ (∀ i : Fin n, s.get [(i : Nat)] = (lam i : K)) ∧
      (toMat n n u)ᴴ * toMat n n u = 1 ∧ toMat n n v * (toMat n n v)ᴴ = 1 ∧
      toMat n n t = toMat n n u * diagonal (fun i => (lam i : K)) * toMat n n v) := by
  obtain ⟨m, m1, m2, _⟩ := Decomp.reshape_matrix (List.take_append_drop 1 t.shape).symm
  rcases hk : Decomp.numKeep (E.svd m).2.1 D err true with e | keep
  · unfold Decomp.svd at h
    simp only [m1, bind, Except.bind] at h
    rw [hk] at h
    simp at h
  · have hS := hE m _ _ m2
    obtain ⟨u', s', v', w', k, h1, h2, h3, h4, h5, h6, h7, h8, h9, h10, h11⟩ :=
      Decomp.svd_spec (kernel := E.svd) m1 hS hk
    rw [h] at h1
    simp only [Except.ok.injEq, Prod.mk.injEq] at h1
    obtain ⟨rfl, rfl, rfl, rfl⟩ := h1
    rw [ht] at h3 h5 h9 h10 h11
    simp only [List.take_succ_cons, List.take_zero, List.drop_succ_cons, List.drop_zero, List.cons_append,
      List.nil_append] at h3 h5 h9 h10 h11
    refine ⟨k, h3, h4, h5, ?_⟩
    rintro rfl
    have hlen : (E.svd m).2.1.length = k := by
      obtain ⟨a, b, q1, _, _, q4, _⟩ := hS.rows
      rw [m2, ht] at q1
      simp at q1
      omega
    refine ⟨fun i => (E.svd m).2.1.getD i 0, fun i => ?_, fun i j hij => ?_, fun i => h7 i i.2, ?_, ?_, ?_⟩
    · show 0 ≤ (E.svd m).2.1.getD i 0
      rw [List.getD_eq_getElem _ _ (by rw [hlen]; exact i.2)]
      exact hS.nonneg _ (List.getElem_mem _)
    · show (E.svd m).2.1.getD j 0 ≤ (E.svd m).2.1.getD i 0
      rw [List.getD_eq_getElem _ _ (by rw [hlen]; exact j.2), List.getD_eq_getElem _ _ (by rw [hlen]; exact i.2)]
      rcases eq_or_lt_of_le hij with rfl | hlt
      · exact le_rfl
      · exact List.pairwise_iff_getElem.1 hS.sorted _ _ _ _ hlt
    · ext x y
      rw [Matrix.mul_apply, Matrix.one_apply]
      have := h9 x x.2 y y.2
      simp only [sumIdx, List.cons_append, List.nil_append] at this
      rw [Finset.sum_range] at this
      simp only [Fin.ext_iff]
      exact this
    · ext x y
      rw [Matrix.mul_apply, Matrix.one_apply]
      have := h10 x x.2 y y.2
      simp only [sumIdx] at this
      rw [Finset.sum_range] at this
      simp only [Fin.ext_iff]
      exact this
    · rw [List.drop_eq_nil_of_le (by omega)] at h11
      simp only [sumIdx, Decomp.norm2, List.map_nil, List.sum_nil, Real.sqrt_zero] at h11
      rw [show (0 : ℝ) ^ 2 = 0 by norm_num] at h11
      ext x y
      rw [Finset.sum_eq_zero_iff_of_nonneg fun _ _ => Finset.sum_nonneg fun _ _ => sq_nonneg _] at h11
      have h12 := h11 x (Finset.mem_range.2 x.2)
      rw [Finset.sum_eq_zero_iff_of_nonneg fun _ _ => sq_nonneg _] at h12
      have h13 := h12 y (Finset.mem_range.2 y.2)
      rw [sq_eq_zero_iff, _root_.norm_eq_zero, sub_eq_zero] at h13
      rw [toMat_apply]
      refine Eq.trans h13 ?_
      rw [Finset.sum_range, Matrix.mul_apply]
      refine Finset.sum_congr rfl fun z _ => ?_
      rw [Matrix.mul_diagonal, toMat_apply, toMat_apply, ← h7 z z.2]
      rfl

/-- Without a bound on the number of singular values and without a threshold an invertible matrix keeps
all its singular values. -/
theorem svd_full {E : Env K} (hE : SvdOK E) {t : NDArray K} {n : Nat} (ht : t.shape = [n, n]) (hn : 0 < n)
    {D : Option Nat} {err : Option ℝ} (hD : ∀ d, D = some d → n ≤ d)
    (herr : ∀ x, err = some x → ∀ (U V : Matrix (Fin n) (Fin n) K) (lam : Fin n → ℝ), Uᴴ * U = 1 → V * Vᴴ = 1 →
      (∀ i, 0 ≤ lam i) → toMat n n t = U * diagonal (fun i => (lam i : K)) * V → ∀ i j, x * lam i < lam j) :
    ∃ u s v w, Decomp.svd E.svd t 1 D err true = .ok (u, s, v, w) ∧ s.shape = [n] := by
  obtain ⟨m, m1, m2, m3⟩ := Decomp.reshape_matrix (List.take_append_drop 1 t.shape).symm
  have hS := hE m _ _ m2
  obtain ⟨S, hSd⟩ : ∃ S, S = (E.svd m).2.1 := ⟨_, rfl⟩
  have hlen : S.length = n := by
    obtain ⟨a, b, q1, _, _, q4, _⟩ := hS.rows
    rw [m2, ht] at q1
    simp at q1
    rw [hSd]
    omega
  -- the singular values lie above the threshold
  have hpos : ∀ x, err = some x → ∀ k < n, x * S.getD 0 0 < Decomp.norm2 (S.drop k) := by
    obtain ⟨u', s', v', w', k, h1, h2, h3, h4, h5, h6, h7, _⟩ :=
      Decomp.svd_spec (kernel := E.svd) m1 hS (maxS := none) (maxErr := none) (relative := true) rfl
    rw [← hSd] at h2 h7
    simp only [Option.getD_none, min_self, hlen] at h2
    subst h2
    obtain ⟨k', q1, q2, q3, q4⟩ := svd_square hE ht h1
    rw [h4] at q2
    simp only [List.cons.injEq, and_true] at q2
    obtain ⟨lam, l1, l2, l3, l4, l5, l6⟩ := q4 q2.symm
    intro x hx j hj
    have hval : ∀ i : Fin k, S.getD i 0 = lam i := by
      intro i
      have := (h7 i i.2).symm.trans (l3 i)
      exact_mod_cast this
    have h8 := herr x hx _ _ lam l4 l5 l1 l6 ⟨0, hn⟩ ⟨k - 1, by omega⟩
    rw [← hval, ← hval] at h8
    refine lt_of_lt_of_le h8 ?_
    have h0 : 0 ≤ S.getD (k - 1) 0 := by rw [hval ⟨k - 1, by omega⟩]; exact l1 _
    have hmem : S.getD (k - 1) 0 ∈ S.drop j := by
      rw [List.getD_eq_getElem _ _ (by omega), List.mem_drop_iff_getElem]
      exact ⟨k - 1 - j, by omega, by congr 1; omega⟩
    unfold Decomp.norm2
    refine Real.le_sqrt_of_sq_le ?_
    exact List.single_le_sum (by simp only [List.mem_map]; rintro x ⟨y, _, rfl⟩; positivity) _
        (List.mem_map.2 ⟨_, hmem, rfl⟩)
  obtain ⟨keep, hk, hkn⟩ : ∃ keep, Decomp.numKeep S D err true = .ok keep ∧ n ≤ keep := by
    unfold Decomp.numKeep
    have hDn : n ≤ D.getD S.length := by
      cases D with
      | none => simp [hlen]
      | some d => exact hD d rfl
    cases err with
    | none => exact ⟨_, rfl, hDn⟩
    | some x =>
      cases S with
      | nil => simp at hlen; omega
      | cons s0 S =>
        refine ⟨_, rfl, le_min hDn ?_⟩
        by_contra hlt
        rw [not_le] at hlt
        have := ((Decomp.count_truncErrs (s0 :: S) (x * s0)).2 _ (by rw [hlen]; exact hlt)).2 le_rfl
        have h1 := hpos x rfl _ hlt
        rw [List.getD_cons_zero] at h1
        linarith
  obtain ⟨u', s', v', w', k, h1, h2, h3, h4, h5⟩ :=
    Decomp.svd_spec (kernel := E.svd) m1 hS (hSd ▸ hk)
  refine ⟨u', s', v', w', h1, ?_⟩
  rw [h4, h2, ← hSd, hlen, min_eq_right hkn]

/-! ### The first and the last tensor -/

theorem cell_set_first {ts : List (NDArray K)} {n : Nat} {ds : List Nat} {r : Nat} (hb : Bonds ts n ds r)
    {A A' : NDArray K} (hA : ts[0]? = some A) {k p m : Nat} (hs : A.shape = [n, p, m]) (hs' : A'.shape = [k, p, m])
    {M : Matrix (Fin k) (Fin n) K} (h : ∀ i < p, slice A' k m i = M * slice A n m i) :
    Bonds (ts.set 0 A') k ds r ∧ ∀ is, InB ds is → cell (ts.set 0 A') k r is = M * cell ts n r is := by
  cases ts with
  | nil => simp at hA
  | cons X ts =>
    obtain ⟨p', m', ds', rfl, h1, h2⟩ := hb
    simp only [List.getElem?_cons_zero, Option.some.injEq] at hA
    subst hA
    rw [hs] at h1
    simp only [List.cons.injEq, true_and, and_true] at h1
    obtain ⟨rfl, rfl⟩ := h1
    refine ⟨⟨p, m, ds', rfl, hs', h2⟩, fun is his => ?_⟩
    cases his with
    | cons hi his =>
      rename_i i is
      rw [List.set_cons_zero, cell_cons hs', cell_cons hs, h i hi, Matrix.mul_assoc]

theorem exists_last {ts : List (NDArray K)} : ∀ {l : Nat} {ds : List Nat} {r : Nat}, Bonds ts l ds r → ts ≠ [] →
    ∃ B m p, ts[ts.length - 1]? = some B ∧ B.shape = [m, p, r] := by
  induction ts with
  | nil => intro _ _ _ _ h; exact absurd rfl h
  | cons X ts ih =>
    rintro l ds r ⟨p, m, ds', rfl, h1, h2⟩ _
    cases ts with
    | nil =>
      obtain ⟨_, rfl⟩ := h2
      exact ⟨X, l, p, rfl, h1⟩
    | cons Y ts =>
      obtain ⟨B, m', p', g1, g2⟩ := ih h2 (by simp)
      exact ⟨B, m', p', by simpa using g1, g2⟩

theorem cell_set_last {ts : List (NDArray K)} : ∀ {l : Nat} {ds : List Nat} {r : Nat}, Bonds ts l ds r →
    ∀ {B B' : NDArray K}, ts[ts.length - 1]? = some B → ∀ {m p k : Nat}, B.shape = [m, p, r] →
    B'.shape = [m, p, k] → ∀ {M : Matrix (Fin r) (Fin k) K}, (∀ i < p, slice B' m k i = slice B m r i * M) →
    Bonds (ts.set (ts.length - 1) B') l ds k ∧
      ∀ is, InB ds is → cell (ts.set (ts.length - 1) B') l k is = cell ts l r is * M := by
  induction ts with
  | nil => intro _ _ _ _ B B' h; simp at h
  | cons X ts ih =>
    rintro l ds r ⟨p, m, ds', rfl, h1, h2⟩ B B' hB m' p' k hs hs' M h
    cases ts with
    | nil =>
      obtain ⟨rfl, rfl⟩ := h2
      simp only [List.length_cons, List.length_nil, zero_add, Nat.sub_self, List.getElem?_cons_zero,
        Option.some.injEq] at hB
      subst hB
      rw [h1] at hs
      simp only [List.cons.injEq, and_true] at hs
      obtain ⟨rfl, rfl⟩ := hs
      refine ⟨⟨p, k, [], rfl, hs', rfl, rfl⟩, fun is his => ?_⟩
      cases his with
      | cons hi his =>
        cases his
        rename_i i
        show cell [B'] l k [i] = cell [X] l m [i] * M
        rw [cell_one hs', cell_one h1, h i hi]
    | cons Y ts =>
      have hB' : (Y :: ts)[(Y :: ts).length - 1]? = some B := by
        have := hB
        simpa using this
      obtain ⟨g1, g2⟩ := ih h2 hB' hs hs' h
      have hset : (X :: Y :: ts).set ((X :: Y :: ts).length - 1) B' = X :: (Y :: ts).set ((Y :: ts).length - 1) B' := by
        simp
      rw [hset]
      refine ⟨⟨p, m, ds', rfl, h1, g1⟩, fun is his => ?_⟩
      cases his with
      | cons hi his =>
        rename_i i is
        rw [cell_cons h1, cell_cons h1, g2 is his, Matrix.mul_assoc]

/-! ### Isometries -/

theorem leftIso_slice {A : NDArray K} {l p m : Nat} (hA : A.shape = [l, p, m]) :
    LeftIso A ↔ ∑ i ∈ range p, (slice A l m i)ᴴ * slice A l m i = 1 := by
  have h0 : ∀ x y : Fin m, (∑ i ∈ range p, (slice A l m i)ᴴ * slice A l m i) x y =
      ∑ a ∈ range l, ∑ i ∈ range p, star (A.get [a, i, x]) * A.get [a, i, y] := by
    intro x y
    rw [Matrix.sum_apply, Finset.sum_comm]
    refine Finset.sum_congr rfl fun i _ => ?_
    rw [Matrix.mul_apply, Finset.sum_range]
    rfl
  constructor
  · rintro ⟨l', p', m', h1, h2⟩
    rw [hA] at h1
    simp only [List.cons.injEq, and_true] at h1
    obtain ⟨rfl, rfl, rfl⟩ := h1
    ext x y
    rw [h0, h2 x x.2 y y.2, Matrix.one_apply]
    simp only [Fin.ext_iff]
  · intro h
    refine ⟨l, p, m, hA, fun x hx y hy => ?_⟩
    rw [← h0 ⟨x, hx⟩ ⟨y, hy⟩, h, Matrix.one_apply]
    simp only [Fin.ext_iff]

theorem allLeft_cell {pre : List (NDArray K)} : ∀ {l m : Nat} {d : List Nat}, Bonds pre l d m → AllLeft pre →
    sumIdx d (fun is => (cell pre l m is)ᴴ * cell pre l m is) = 1 := by
  induction pre with
  | nil =>
    rintro l m d ⟨rfl, rfl⟩ _
    simp [sumIdx, cell_nil]
  | cons A pre ih =>
    rintro l m d ⟨p, k, d', rfl, h1, h2⟩ hl
    rw [← ih h2 fun B hB => hl B (by simp [hB]), sumIdx, ← sum_range_unravel]
    simp only [← sum_range_unravel d']
    rw [Finset.sum_comm]
    refine Finset.sum_congr rfl fun j _ => ?_
    have h3 := (leftIso_slice h1).1 (hl A (by simp))
    have h4 : (cell pre k m (unravel d' j))ᴴ * cell pre k m (unravel d' j) =
        (cell pre k m (unravel d' j))ᴴ * (∑ i ∈ range p, (slice A l k i)ᴴ * slice A l k i) *
          cell pre k m (unravel d' j) := by rw [h3, Matrix.mul_one]
    rw [h4, Matrix.mul_sum, Matrix.sum_mul]
    refine Finset.sum_congr rfl fun i _ => ?_
    rw [cell_cons h1, Matrix.conjTranspose_mul]
    simp only [Matrix.mul_assoc]

/-- The cell with isometries left of its last tensor. -/
theorem cell_last {pre : List (NDArray K)} {B : NDArray K} {l m : Nat} {d : List Nat} (hb : Bonds pre l d m)
    (hl : AllLeft pre) {p r : Nat} (hB : B.shape = [m, p, r]) :
    sumIdx (d ++ [p]) (fun is => (cell (pre ++ [B]) l r is)ᴴ * cell (pre ++ [B]) l r is) =
      ∑ i ∈ range p, (slice B m r i)ᴴ * slice B m r i := by
  rw [sumIdx_append]
  have h1 : ∀ is, InB d is → sumIdx [p] (fun j => (cell (pre ++ [B]) l r (is ++ j))ᴴ * cell (pre ++ [B]) l r (is ++ j)) =
      ∑ i ∈ range p, (slice B m r i)ᴴ * ((cell pre l m is)ᴴ * cell pre l m is) * slice B m r i := by
    intro is his
    simp only [sumIdx]
    refine Finset.sum_congr rfl fun i _ => ?_
    rw [cell_append hb his.length, cell_one hB, Matrix.conjTranspose_mul]
    simp only [Matrix.mul_assoc]
  rw [sumIdx_congr h1, ← sum_range_unravel, Finset.sum_comm]
  refine Finset.sum_congr rfl fun i _ => ?_
  rw [sum_range_unravel d fun is => (slice B m r i)ᴴ * ((cell pre l m is)ᴴ * cell pre l m is) * slice B m r i,
    ← sumIdx_matMul, allLeft_cell hb hl, Matrix.mul_one]

end TN.Inf
