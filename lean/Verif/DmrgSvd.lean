import Verif.DmrgTwo

/-!
# DMRG: splitting the optimised tensor of two sites
-/

set_option linter.unusedSectionVars false

namespace TN.Dmrg

open TN NDArray Finset Ncon Mps Mpo

variable {K : Type} [RCLike K]

/-- The squared distance of two states. -/
noncomputable def distSq (ts ts' : List (NDArray K)) (ds : List Nat) : ℝ :=
  sumIdx ds fun is => ‖amp ts 0 is 0 - amp ts' 0 is 0‖ ^ 2

theorem distSq_eq_zero {ts ts' : List (NDArray K)} {ds : List Nat} (h : distSq ts ts' ds = 0) {is : List Nat}
    (hi : InB ds is) : amp ts 0 is 0 = amp ts' 0 is 0 := by
  have h1 : Mps.norm (⟨ds, fun is => amp ts 0 is 0 - amp ts' 0 is 0⟩ : NDArray K) = 0 := by
    have := norm_sq (⟨ds, fun is => amp ts 0 is 0 - amp ts' 0 is 0⟩ : NDArray K)
    have h2 : sumIdx ds (fun is => ‖amp ts 0 is 0 - amp ts' 0 is 0‖ ^ 2) = 0 := h
    rw [h2] at this
    exact pow_eq_zero_iff (two_ne_zero) |>.1 this
  exact sub_eq_zero.1 (Mps.norm_eq_zero h1 hi)

theorem amp_sub {A B C : NDArray K} (hB : B.shape = A.shape) (hC : C.shape = A.shape)
    (h : ∀ i, C.get i = A.get i - B.get i) : ∀ (ts : List (NDArray K)) (n : Nat), n < ts.length → ∀ (a : Nat)
    (is : List Nat) (b : Nat), amp (ts.set n C) a is b = amp (ts.set n A) a is b - amp (ts.set n B) a is b := by
  intro ts
  induction ts with
  | nil => intro n hn; simp at hn
  | cons X ts ih =>
    intro n hn a is b
    cases is with
    | nil => cases n <;> simp [amp]
    | cons i is =>
      cases n with
      | zero =>
        simp only [List.set_cons_zero, amp, hB, hC, h, sub_mul, Finset.sum_sub_distrib]
      | succ n =>
        simp only [List.set_cons_succ, amp]
        rw [← Finset.sum_sub_distrib]
        refine Finset.sum_congr rfl fun c _ => ?_
        rw [ih n (by simpa using hn), mul_sub]

/-- The truncated SVD of a tensor of rank four. -/
theorem svd_bond {E : Env K} (hS : SvdOK E) {g : NDArray K} {m p q r : Nat} (hg : g.shape = [m, p, q, r]) :
    ∃ S : List ℝ, (∀ x ∈ S, 0 ≤ x) ∧ S.Pairwise (· ≥ ·) ∧ ∀ D : Option Nat, ∃ u s v w k,
      Decomp.svd E.svd g 2 D none true = .ok (u, s, v, w) ∧ k = min (D.getD S.length) S.length ∧
      u.shape = [m, p, k] ∧ s.shape = [k] ∧ v.shape = [k, q, r] ∧ (∀ x < k, s.get [x] = ((S.getD x 0 : ℝ) : K)) ∧
      LeftIso u ∧ RightIso v ∧ (∑ a ∈ range m, ∑ i ∈ range p, ∑ j ∈ range q, ∑ b ∈ range r,
        ‖g.get [a, i, j, b] - ∑ x ∈ range k, u.get [a, i, x] * s.get [x] * v.get [x, j, b]‖ ^ 2) =
        Decomp.norm2 (S.drop k) ^ 2 := by
  obtain ⟨M, m1, m2, _⟩ := Decomp.reshape_matrix (List.take_append_drop 2 g.shape).symm
  have hI := hS M _ _ m2
  refine ⟨(E.svd M).2.1, hI.nonneg, hI.sorted, fun D => ?_⟩
  obtain ⟨u, s, v, w, k, h1, h2, h3, h4, h5, h6, h7, h8, h9, h10, h11⟩ :=
    Decomp.svd_spec (kernel := E.svd) (maxS := D) (maxErr := none) (relative := true) m1 hI rfl
  rw [hg] at h3 h5 h9 h10 h11
  simp only [List.take_succ_cons, List.take_zero, List.drop_succ_cons, List.drop_zero,
    List.cons_append, List.nil_append] at h3 h5 h9 h10 h11
  exact ⟨u, s, v, w, k, h1, h2, h3, h4, h5, h7, ⟨m, p, k, h3, fun x hx y hy => (h9 x hx y hy)⟩,
    ⟨k, q, r, h5, fun x hx y hy => (h10 x hx y hy)⟩, h11⟩

theorem diag_right (so : SetOrder) {s v : NDArray K} {k q r : Nat} (hs : s.shape = [k]) (hv : v.shape = [k, q, r]) :
    ∃ t, nconInt so [diagflat s, v] [[-1, 1], [1, -2, -3]] = .ok t ∧ t.shape = [k, q, r] ∧
      ∀ x < k, ∀ j < q, ∀ b < r, t.get [x, j, b] = s.get [x] * v.get [x, j, b] := by
  obtain ⟨t, t1, t2, t3⟩ := ncon_rest_right so (diagflat_shape hs) hv
  refine ⟨t, t1, t2, fun x hx j hj b hb => ?_⟩
  rw [t3 x hx j hj b hb]
  simp only [diagflat_get, ite_mul, zero_mul]
  rw [Finset.sum_ite_eq, if_pos (Finset.mem_range.2 hx)]

theorem diag_left (so : SetOrder) {s u : NDArray K} {k m p : Nat} (hs : s.shape = [k]) (hu : u.shape = [m, p, k]) :
    ∃ t, nconInt so [u, diagflat s] [[-1, -2, 1], [1, -3]] = .ok t ∧ t.shape = [m, p, k] ∧
      ∀ a < m, ∀ i < p, ∀ x < k, t.get [a, i, x] = u.get [a, i, x] * s.get [x] := by
  obtain ⟨t, t1, t2, t3⟩ := ncon_rest_left so hu (diagflat_shape hs)
  refine ⟨t, t1, t2, fun a ha i hi x hx => ?_⟩
  rw [t3 a ha i hi x hx]
  simp only [diagflat_get, mul_ite, mul_zero]
  rw [Finset.sum_ite_eq', if_pos (Finset.mem_range.2 hx)]

theorem norm_diag_right {t s v : NDArray K} {S : List ℝ} {k q r : Nat} (hv : v.shape = [k, q, r])
    (ht : t.shape = [k, q, r]) (hs : ∀ x < k, s.get [x] = ((S.getD x 0 : ℝ) : K)) (hI : RightIso v)
    (h : ∀ x < k, ∀ j < q, ∀ b < r, t.get [x, j, b] = s.get [x] * v.get [x, j, b]) :
    Mps.norm t ^ 2 = ∑ x ∈ range k, S.getD x 0 ^ 2 := by
  rw [norm_sq, ht]
  simp only [sumIdx]
  obtain ⟨k', q', r', s1, s2⟩ := hI
  rw [hv] at s1
  simp only [List.cons.injEq, and_true] at s1
  obtain ⟨rfl, rfl, rfl⟩ := s1
  refine Finset.sum_congr rfl fun x hx => ?_
  have hx := Finset.mem_range.1 hx
  have h1 := s2 x hx x hx
  simp only [if_true] at h1
  have h2 : (∑ j ∈ range q, ∑ b ∈ range r, ‖v.get [x, j, b]‖ ^ 2 : ℝ) = 1 := by
    have : ((∑ j ∈ range q, ∑ b ∈ range r, ‖v.get [x, j, b]‖ ^ 2 : ℝ) : K) = 1 := by
      rw [← h1]
      push_cast
      refine Finset.sum_congr rfl fun i _ => Finset.sum_congr rfl fun b _ => ?_
      rw [RCLike.star_def, RCLike.mul_conj]
    exact_mod_cast this
  have h3 : ∀ j ∈ range q, ∀ b ∈ range r, ‖t.get [x, j, b]‖ ^ 2 = S.getD x 0 ^ 2 * ‖v.get [x, j, b]‖ ^ 2 := by
    intro j hj b hb
    rw [h x hx j (Finset.mem_range.1 hj) b (Finset.mem_range.1 hb), hs x hx, norm_mul, mul_pow, RCLike.norm_ofReal, sq_abs]
  rw [Finset.sum_congr rfl fun j hj => Finset.sum_congr rfl fun b hb => h3 j hj b hb]
  simp only [← Finset.mul_sum]
  rw [h2, mul_one]

theorem norm_diag_left {t s u : NDArray K} {S : List ℝ} {k m p : Nat} (hu : u.shape = [m, p, k])
    (ht : t.shape = [m, p, k]) (hs : ∀ x < k, s.get [x] = ((S.getD x 0 : ℝ) : K)) (hI : LeftIso u)
    (h : ∀ a < m, ∀ i < p, ∀ x < k, t.get [a, i, x] = u.get [a, i, x] * s.get [x]) :
    Mps.norm t ^ 2 = ∑ x ∈ range k, S.getD x 0 ^ 2 := by
  rw [norm_sq, ht]
  simp only [sumIdx]
  obtain ⟨m', p', k', s1, s2⟩ := hI
  rw [hu] at s1
  simp only [List.cons.injEq, and_true] at s1
  obtain ⟨rfl, rfl, rfl⟩ := s1
  have h3 : ∀ a ∈ range m, ∀ i ∈ range p, ∀ x ∈ range k,
      ‖t.get [a, i, x]‖ ^ 2 = S.getD x 0 ^ 2 * ‖u.get [a, i, x]‖ ^ 2 := by
    intro a ha i hi x hx
    have hx := Finset.mem_range.1 hx
    rw [h a (Finset.mem_range.1 ha) i (Finset.mem_range.1 hi) x hx, hs x hx, norm_mul, mul_pow, RCLike.norm_ofReal,
      sq_abs, mul_comm]
  rw [Finset.sum_congr rfl fun a ha => Finset.sum_congr rfl fun i hi => Finset.sum_congr rfl fun x hx => h3 a ha i hi x hx,
    Finset.sum_congr rfl fun a _ => Finset.sum_comm, Finset.sum_comm]
  refine Finset.sum_congr rfl fun x hx => ?_
  have hx := Finset.mem_range.1 hx
  have h1 := s2 x hx x hx
  simp only [if_true] at h1
  have h2 : (∑ a ∈ range m, ∑ i ∈ range p, ‖u.get [a, i, x]‖ ^ 2 : ℝ) = 1 := by
    have : ((∑ a ∈ range m, ∑ i ∈ range p, ‖u.get [a, i, x]‖ ^ 2 : ℝ) : K) = 1 := by
      rw [← h1]
      push_cast
      refine Finset.sum_congr rfl fun i _ => Finset.sum_congr rfl fun b _ => ?_
      rw [RCLike.star_def, RCLike.conj_mul]
    exact_mod_cast this
  simp only [← Finset.mul_sum]
  rw [h2, mul_one]

/-- What a truncation to the singular values `S` keeps. -/
theorem sum_keep (S : List ℝ) (k : Nat) :
    ∑ x ∈ range (min k S.length), S.getD x 0 ^ 2 + Decomp.norm2 (S.drop (min k S.length)) ^ 2 =
      ∑ x ∈ range S.length, S.getD x 0 ^ 2 := by
  have h1 : ∀ l : List ℝ, Decomp.norm2 l ^ 2 = ∑ x ∈ range l.length, l.getD x 0 ^ 2 := by
    intro l
    rw [Decomp.norm2, Real.sq_sqrt (List.sum_nonneg fun x hx => by
      obtain ⟨y, _, rfl⟩ := List.mem_map.1 hx
      positivity)]
    rw [Finset.sum_range, ← List.sum_ofFn]
    congr 1
    refine List.ext_getElem (by simp) fun i hi hi' => ?_
    simp at hi'
    simp
  rw [h1]
  obtain ⟨n, hn⟩ : ∃ n, n = min k S.length := ⟨_, rfl⟩
  rw [← hn]
  obtain ⟨j, hj⟩ : ∃ j, S.length = n + j := ⟨S.length - n, by omega⟩
  rw [List.length_drop, hj, Finset.sum_range_add]
  have : n + j - n = j := by omega
  rw [this]
  congr 1
  refine Finset.sum_congr rfl fun x _ => ?_
  simp [List.getD_eq_getElem?_getD]

/-- The distance to the state in which the optimised tensor is replaced by a product. -/
theorem dist_split {ts : List (NDArray K)} {ds : List Nat} {c0 c : Nat} (hcan : Canonical ts c0) (h1 : c ≤ c0)
    (h2 : c0 ≤ c + 1) (hbo : Bonds ts 1 ds 1) {A B g X Y : NDArray K} {m p k q r k' : Nat} (hA : ts[c]? = some A)
    (hB : ts[c + 1]? = some B) (sA : A.shape = [m, p, k']) (sB : B.shape = [k', q, r])
    (hX : X.shape = [m, p, k]) (hY : Y.shape = [k, q, r]) :
    distSq ((ts.set c (isoT m p)).set (c + 1) (joinT m p q r g)) ((ts.set c X).set (c + 1) Y) ds =
      ∑ a ∈ range m, ∑ i ∈ range p, ∑ j ∈ range q, ∑ b ∈ range r,
        ‖g.get [a, i, j, b] - ∑ x ∈ range k, X.get [a, i, x] * Y.get [x, j, b]‖ ^ 2 := by
  have hc := (List.getElem?_eq_some_iff.1 hB).1
  obtain ⟨f, hf⟩ : ∃ f : NDArray K, f = ⟨[m, p, q, r], fun i => ∑ x ∈ range k,
    X.get [i.getD 0 0, i.getD 1 0, x] * Y.get [x, i.getD 2 0, i.getD 3 0]⟩ := ⟨_, rfl⟩
  obtain ⟨h, hh⟩ : ∃ h : NDArray K, h = ⟨[m, p, q, r], fun i => g.get i - f.get i⟩ := ⟨_, rfl⟩
  have hsp : SameProduct (1 : K) X Y (isoT m p) (joinT m p q r f) :=
    sameProduct_join hX hY fun a _ i _ j _ b _ => by rw [hf]; rfl
  have hbo' : Bonds ((ts.set c X).set (c + 1) Y) 1 ds 1 :=
    hbo.set hA hB ⟨m, p, k', q, r, k, sA, sB, hX, hY⟩
  have hboj : Bonds ((ts.set c (isoT m p)).set (c + 1) (joinT m p q r h)) 1 ds 1 :=
    hbo.set hA hB ⟨m, p, k', q, r, m * p, sA, sB, rfl, rfl⟩
  have e1 : ∀ is, InB ds is → amp ((ts.set c X).set (c + 1) Y) 0 is 0 =
      amp ((ts.set c (isoT m p)).set (c + 1) (joinT m p q r f)) 0 is 0 := by
    intro is his
    have := amp_set hbo' (n := c) (by rw [List.getElem?_set_ne (by omega), List.getElem?_set_self (by omega)])
      (List.getElem?_set_self (by simpa using hc)) hsp one_pos his 0
    have e0 : ((ts.set c X).set (c + 1) Y).set c (isoT m p) = (ts.set c (isoT m p)).set (c + 1) Y := by
      rw [List.set_comm _ _ (by omega : c + 1 ≠ c), List.set_set]
    rw [e0, List.set_set, one_mul] at this
    exact this
  have e2 : ∀ is, InB ds is → amp ((ts.set c (isoT m p)).set (c + 1) (joinT m p q r g)) 0 is 0 -
      amp ((ts.set c X).set (c + 1) Y) 0 is 0 = amp ((ts.set c (isoT m p)).set (c + 1) (joinT m p q r h)) 0 is 0 := by
    intro is his
    rw [e1 is his]
    exact (amp_sub (A := joinT m p q r g) (B := joinT m p q r f) (C := joinT m p q r h) rfl rfl
      (fun i => by rw [hh]; rfl) _ _ (by simpa using hc) _ _ _).symm
  have e3 := (canonical_two hcan h1 h2 (isoT_leftIso m p) (Y := joinT m p q r h)).normSq
    (List.getElem?_set_self (by simpa using hc)) hboj
  unfold distSq
  rw [sumIdx_congr fun is his => by rw [e2 is his]]
  unfold Mps.normSq at e3
  simp only [Finset.sum_range_one] at e3
  rw [e3, norm_joinT (by rw [hh]), norm_sq, hh]
  simp only [sumIdx, hf]
  rfl

end TN.Dmrg
