import Verif.Mps

/-!
# One move of the orthogonality centre

What the two tensors at a bond become when the centre is moved over the bond.
-/

set_option linter.unusedSectionVars false

namespace TN.Mps

open TN NDArray Finset Ncon

variable {K : Type} [RCLike K]

/-! ### Specification -/

/-- `np.linalg.qr` factorises every matrix. -/
def QrOK (E : Env K) : Prop := ∀ m a b, m.shape = [a, b] → Decomp.IsQr m (E.qr m).1 (E.qr m).2

/-- `np.linalg.svd` factorises every matrix. -/
def SvdOK (E : Env K) : Prop :=
  ∀ m a b, m.shape = [a, b] → Decomp.IsSvd m (E.svd m).1 (E.svd m).2.1 (E.svd m).2.2

/-- Contracting the left bond and the physical index of `A` with those of its conjugate gives the
identity. -/
def LeftIso (A : NDArray K) : Prop := ∃ l p k, A.shape = [l, p, k] ∧ ∀ x < k, ∀ y < k,
  ∑ a ∈ range l, ∑ i ∈ range p, star (A.get [a, i, x]) * A.get [a, i, y] = if x = y then 1 else 0

/-- Contracting the physical index and the right bond of `A` with those of its conjugate gives the
identity. -/
def RightIso (A : NDArray K) : Prop := ∃ k p r, A.shape = [k, p, r] ∧ ∀ x < k, ∀ y < k,
  ∑ i ∈ range p, ∑ b ∈ range r, A.get [x, i, b] * star (A.get [y, i, b]) = if x = y then 1 else 0

/-- `A'` and `B'` have the outer bonds and the physical dimensions of `A` and `B`. -/
def SameOuter (A B A' B' : NDArray K) : Prop := ∃ l p m q r k, A.shape = [l, p, m] ∧
  B.shape = [m, q, r] ∧ A'.shape = [l, p, k] ∧ B'.shape = [k, q, r]

/-- The product of `A` and `B` over their common bond is `s` times the product of `A'` and `B'`. -/
def SameProduct (s : K) (A B A' B' : NDArray K) : Prop := ∃ l p m q r k, A.shape = [l, p, m] ∧
  B.shape = [m, q, r] ∧ A'.shape = [l, p, k] ∧ B'.shape = [k, q, r] ∧
  ∀ a < l, ∀ i < p, ∀ j < q, ∀ b < r,
  ∑ c ∈ range m, A.get [a, i, c] * B.get [c, j, b] =
    s * ∑ c ∈ range k, A'.get [a, i, c] * B'.get [c, j, b]

/-! ### The contractions with a matrix -/

theorem inB_two {a b i j : Nat} (hi : i < a) (hj : j < b) : InB [a, b] [i, j] := by simp [hi, hj]

theorem inB_three {a b c i j k : Nat} (hi : i < a) (hj : j < b) (hk : k < c) :
    InB [a, b, c] [i, j, k] := by simp [hi, hj, hk]

theorem ncon_rest_right (so : SetOrder) {M B : NDArray K} {k m q r : Nat} (hM : M.shape = [k, m])
    (hB : B.shape = [m, q, r]) :
    ∃ t, nconInt so [M, B] [[-1, 1], [1, -2, -3]] = .ok t ∧ t.shape = [k, q, r] ∧
      ∀ x < k, ∀ j < q, ∀ b < r, t.get [x, j, b] = ∑ c ∈ range m, M.get [x, c] * B.get [c, j, b] := by
  obtain ⟨t, h1, h2, h3⟩ := nconInt_spec so (ts := [M, B]) (l := [[-1, 1], [1, -2, -3]])
    (closed := [1]) (out := [-1, -2, -3])
    (dim := fun x => if x = -1 then k else if x = 1 then m else if x = -2 then q else r)
    (by simp) rfl (by
      intro p hp
      simp only [List.zip_cons_cons, List.zip_nil_right, List.mem_cons, List.not_mem_nil, or_false] at hp
      rcases hp with rfl | rfl
      · exact hM
      · exact hB) (by decide)
  refine ⟨t, h1, h2, fun x hx j hj b hb => ?_⟩
  rw [h3 [x, j, b] (inB_three hx hj hb)]
  refine Finset.sum_congr rfl fun c _ => ?_
  show M.get [x, c] * (B.get [c, j, b] * 1) = _
  rw [mul_one]

theorem ncon_rest_left (so : SetOrder) {A M : NDArray K} {l p m k : Nat} (hA : A.shape = [l, p, m])
    (hM : M.shape = [m, k]) :
    ∃ t, nconInt so [A, M] [[-1, -2, 1], [1, -3]] = .ok t ∧ t.shape = [l, p, k] ∧
      ∀ a < l, ∀ i < p, ∀ x < k, t.get [a, i, x] = ∑ c ∈ range m, A.get [a, i, c] * M.get [c, x] := by
  obtain ⟨t, h1, h2, h3⟩ := nconInt_spec so (ts := [A, M]) (l := [[-1, -2, 1], [1, -3]])
    (closed := [1]) (out := [-1, -2, -3])
    (dim := fun x => if x = -1 then l else if x = 1 then m else if x = -2 then p else k)
    (by simp) rfl (by
      intro p hp
      simp only [List.zip_cons_cons, List.zip_nil_right, List.mem_cons, List.not_mem_nil, or_false] at hp
      rcases hp with rfl | rfl
      · exact hA
      · exact hM) (by decide)
  refine ⟨t, h1, h2, fun x hx j hj b hb => ?_⟩
  rw [h3 [x, j, b] (inB_three hx hj hb)]
  refine Finset.sum_congr rfl fun c _ => ?_
  show A.get [x, j, c] * (M.get [c, b] * 1) = _
  rw [mul_one]

theorem ncon_matmul (so : SetOrder) {M N : NDArray K} {a b c : Nat} (hM : M.shape = [a, b])
    (hN : N.shape = [b, c]) :
    ∃ t, nconInt so [M, N] [[-1, 1], [1, -2]] = .ok t ∧ t.shape = [a, c] ∧
      ∀ i < a, ∀ j < c, t.get [i, j] = ∑ x ∈ range b, M.get [i, x] * N.get [x, j] := by
  obtain ⟨t, h1, h2, h3⟩ := nconInt_spec so (ts := [M, N]) (l := [[-1, 1], [1, -2]])
    (closed := [1]) (out := [-1, -2])
    (dim := fun x => if x = -1 then a else if x = 1 then b else c)
    (by simp) rfl (by
      intro p hp
      simp only [List.zip_cons_cons, List.zip_nil_right, List.mem_cons, List.not_mem_nil, or_false] at hp
      rcases hp with rfl | rfl
      · exact hM
      · exact hN) (by decide)
  refine ⟨t, h1, h2, fun i hi j hj => ?_⟩
  rw [h3 [i, j] (inB_two hi hj)]
  refine Finset.sum_congr rfl fun x _ => ?_
  show M.get [i, x] * (N.get [x, j] * 1) = _
  rw [mul_one]

theorem diagflat_shape {s : NDArray K} {k : Nat} (h : s.shape = [k]) : (diagflat s).shape = [k, k] := by
  simp [diagflat, h]

theorem diagflat_get (s : NDArray K) (x y : Nat) :
    (diagflat s).get [x, y] = if x = y then s.get [x] else 0 := rfl

/-! ### The factorisations of a tensor of rank three -/

theorem qr_three {E : Env K} (hE : QrOK E) {A : NDArray K} {l p m : Nat} (hA : A.shape = [l, p, m]) :
    ∃ Q T k, Decomp.qr E.qr E.sign A 2 false = .ok (Q, T) ∧ Q.shape = [l, p, k] ∧ T.shape = [k, m] ∧
      LeftIso Q ∧ ∀ a < l, ∀ i < p, ∀ c < m,
        A.get [a, i, c] = ∑ x ∈ range k, Q.get [a, i, x] * T.get [x, c] := by
  obtain ⟨Q, T, h1, ⟨d, h2, h3, h4⟩, h5, h6⟩ := Decomp.qr_factorises_shape (kernel := E.qr)
    (sign := E.sign) (t := A) (p := 2) (nonneg := false) (fun M hM => ⟨hE M _ _ (Decomp.reshape_shape hM),
      by simp⟩)
  rw [hA] at h2 h3 h4 h5 h6
  simp only [List.take_succ_cons, List.take_zero, List.drop_succ_cons, List.drop_zero,
    List.cons_append, List.nil_append] at h2 h3 h4 h5 h6
  obtain rfl : d = min [l, p].prod [m].prod := by
    rw [h2] at h6
    simpa using h6
  refine ⟨Q, T, _, h1, h2, h3, ⟨l, p, _, h2, fun x hx y hy => ?_⟩, fun a ha i hi c hc => ?_⟩
  · rw [← h5 x hx y hy]
    rfl
  · exact h4 [a, i] [c] (inB_two ha hi) (by simp [hc])

theorem rq_three {E : Env K} (hE : QrOK E) {B : NDArray K} {m q r : Nat} (hB : B.shape = [m, q, r]) :
    ∃ T Q k, Decomp.rq E.qr E.sign B 1 false = .ok (T, Q) ∧ T.shape = [m, k] ∧ Q.shape = [k, q, r] ∧
      RightIso Q ∧ ∀ c < m, ∀ j < q, ∀ b < r,
        B.get [c, j, b] = ∑ x ∈ range k, T.get [c, x] * Q.get [x, j, b] := by
  obtain ⟨T, Q, h1, ⟨d, h2, h3, h4⟩, h5, h6⟩ := Decomp.rq_factorises_shape (kernel := E.qr)
    (sign := E.sign) (t := B) (p := 1) (nonneg := false) (fun M hM => ⟨hE _ _ _ (by
      rw [Decomp.conjTranspose, Decomp.reshape_shape hM]; rfl), by simp⟩)
  rw [hB] at h2 h3 h4 h5 h6
  simp only [List.take_succ_cons, List.take_zero, List.drop_succ_cons, List.drop_zero,
    List.cons_append, List.nil_append] at h2 h3 h4 h5 h6
  obtain rfl : d = min [m].prod [q, r].prod := by
    rw [h3] at h6
    simpa using h6
  refine ⟨T, Q, _, h1, h2, h3, ⟨_, q, r, h3, fun x hx y hy => ?_⟩, fun c hc j hj b hb => ?_⟩
  · rw [← h5 x hx y hy]
    rfl
  · exact h4 [c] [j, b] (by simp [hc]) (inB_two hj hb)

/-- A successful `svd` is described by `svd_spec`. -/
theorem svd_three {E : Env K} (hE : SvdOK E) {A : NDArray K} {p : Nat} {D : Option Nat}
    {err : Option ℝ} {rel : Bool} {u s v w : NDArray K}
    (h : Decomp.svd E.svd A p D err rel = .ok (u, s, v, w)) :
    ∃ k, u.shape = A.shape.take p ++ [k] ∧ s.shape = [k] ∧ v.shape = k :: A.shape.drop p ∧
      Decomp.LeftIsometry u (A.shape.take p) k ∧ Decomp.RightIsometry v (A.shape.drop p) k ∧
      ∃ rest : List ℝ, w.shape = [rest.length] ∧ (∀ x < rest.length, w.get [x] = ((rest.getD x 0 : ℝ) : K)) ∧
      sumIdx (A.shape.take p) (fun i => sumIdx (A.shape.drop p) fun j =>
        ‖A.get (i ++ j) - ∑ x ∈ range k, u.get (i ++ [x]) * s.get [x] * v.get (x :: j)‖ ^ 2) =
        Decomp.norm2 rest ^ 2 := by
  obtain ⟨m, m1, m2, _⟩ := Decomp.reshape_matrix (List.take_append_drop p A.shape).symm
  rcases hk : Decomp.numKeep (E.svd m).2.1 D err rel with e | keep
  · unfold Decomp.svd at h
    simp only [m1, bind, Except.bind] at h
    rw [hk] at h
    simp at h
  · obtain ⟨u', s', v', w', k, h1, h2, h3, h4, h5, h6, h7, h8, h9, h10, h11⟩ :=
      Decomp.svd_spec (kernel := E.svd) m1 (hE m _ _ m2) hk
    rw [h] at h1
    simp only [Except.ok.injEq, Prod.mk.injEq] at h1
    obtain ⟨rfl, rfl, rfl, rfl⟩ := h1
    refine ⟨k, h3, h4, h5, h9, h10, (E.svd m).2.1.drop k, by simpa using h6, fun x hx => ?_, h11⟩
    rw [h8 x]
    simp [List.getD_eq_getElem?_getD]

theorem factorRight_ok {E : Env K} (hE : QrOK E) (hS : SvdOK E) {D : Option Nat} {err : Option ℝ}
    {bond : Nat} {A Q T : NDArray K} {l p m : Nat} (hA : A.shape = [l, p, m])
    (h : factorRight E D err bond A = .ok (Q, T)) :
    ∃ k, Q.shape = [l, p, k] ∧ T.shape = [k, m] ∧ LeftIso Q := by
  unfold factorRight at h
  split_ifs at h
  · rcases hs : Decomp.svd E.svd A 2 D err true with e | ⟨u, s, v, w⟩
    · rw [hs] at h; cases h
    · obtain ⟨k, h1, h2, h3, h4, _⟩ := svd_three hS hs
      rw [hA] at h1 h3 h4
      simp only [List.take_succ_cons, List.take_zero, List.drop_succ_cons, List.drop_zero,
        List.cons_append, List.nil_append] at h1 h3 h4
      obtain ⟨t, t1, t2, _⟩ := ncon_matmul E.so (diagflat_shape h2) h3
      rw [hs] at h
      simp only [bind, Except.bind, t1, pure, Except.pure, Except.ok.injEq, Prod.mk.injEq] at h
      obtain ⟨rfl, rfl⟩ := h
      refine ⟨k, h1, t2, l, p, k, h1, fun x hx y hy => ?_⟩
      rw [← h4 x hx y hy]
      rfl
  · obtain ⟨Q', T', k, h1, h2, h3, h4, _⟩ := qr_three hE hA
    rw [h] at h1
    simp only [Except.ok.injEq, Prod.mk.injEq] at h1
    obtain ⟨rfl, rfl⟩ := h1
    exact ⟨k, h2, h3, h4⟩

theorem factorLeft_ok {E : Env K} (hE : QrOK E) (hS : SvdOK E) {D : Option Nat} {err : Option ℝ}
    {bond : Nat} {B Q T : NDArray K} {m q r : Nat} (hB : B.shape = [m, q, r])
    (h : factorLeft E D err bond B = .ok (T, Q)) :
    ∃ k, T.shape = [m, k] ∧ Q.shape = [k, q, r] ∧ RightIso Q := by
  unfold factorLeft at h
  split_ifs at h
  · rcases hs : Decomp.svd E.svd B 1 D err true with e | ⟨u, s, v, w⟩
    · rw [hs] at h; cases h
    · obtain ⟨k, h1, h2, h3, _, h4, _⟩ := svd_three hS hs
      rw [hB] at h1 h3 h4
      simp only [List.take_succ_cons, List.take_zero, List.drop_succ_cons, List.drop_zero,
        List.cons_append, List.nil_append] at h1 h3 h4
      obtain ⟨t, t1, t2, _⟩ := ncon_matmul E.so h1 (diagflat_shape h2)
      rw [hs] at h
      simp only [bind, Except.bind, t1, pure, Except.pure, Except.ok.injEq, Prod.mk.injEq] at h
      obtain ⟨rfl, rfl⟩ := h
      refine ⟨k, t2, h3, k, q, r, h3, fun x hx y hy => ?_⟩
      rw [← h4 x hx y hy]
      rfl
  · obtain ⟨T', Q', k, h1, h2, h3, h4, _⟩ := rq_three hE hB
    rw [h] at h1
    simp only [Except.ok.injEq, Prod.mk.injEq] at h1
    obtain ⟨rfl, rfl⟩ := h1
    exact ⟨k, h2, h3, h4⟩

/-! ### Rescaling -/

theorem rescale_ok {nz : Bool} {t t' : NDArray K} {z : ℝ} (h : rescale nz t z = .ok t') :
    t'.shape = t.shape ∧ (nz = true → z ≠ 0) ∧
      ∀ i, t.get i = (if nz then (z : K) else 1) * t'.get i := by
  unfold rescale divide at h
  cases nz with
  | false => cases h; simp
  | true =>
    simp only [if_true] at h
    split_ifs at h with hz
    cases h
    refine ⟨rfl, fun _ => hz, fun i => ?_⟩
    have : (z : K) ≠ 0 := by exact_mod_cast hz
    simp only [if_true]
    rw [mul_div_cancel₀ _ this]

theorem rescale_total {nz : Bool} (t : NDArray K) {z : ℝ} (h : nz = true → z ≠ 0) :
    ∃ t', rescale nz t z = .ok t' := by
  unfold rescale divide
  cases nz with
  | false => exact ⟨_, rfl⟩
  | true => rw [if_pos rfl, if_neg (h rfl)]; exact ⟨_, rfl⟩

/-! ### The move -/

/-- A move to the right makes the left tensor an isometry. -/
theorem pairRight_iso {E : Env K} (hE : QrOK E) (hS : SvdOK E) {nz : Bool} {D : Option Nat}
    {err : Option ℝ} {A B A' B' : NDArray K} {z : ℝ} {l p m q r : Nat} (hA : A.shape = [l, p, m])
    (hB : B.shape = [m, q, r]) (h : pairRight E nz D err A B = .ok (A', B', z)) :
    SameOuter A B A' B' ∧ LeftIso A' := by
  unfold pairRight at h
  rcases hf : factorRight E D err (B.shape.getD 0 0) A with e | ⟨Q, T⟩
  · rw [hf] at h; cases h
  · obtain ⟨k, h1, h2, h3⟩ := factorRight_ok hE hS hA hf
    obtain ⟨t, t1, t2, _⟩ := ncon_rest_right E.so h2 hB
    rw [hf] at h
    simp only [bind, Except.bind, t1] at h
    rcases hr : rescale nz t (norm t) with e | t'
    · rw [hr] at h; cases h
    · rw [hr] at h
      simp only [pure, Except.pure, Except.ok.injEq, Prod.mk.injEq] at h
      obtain ⟨rfl, rfl, rfl⟩ := h
      exact ⟨⟨l, p, m, q, r, k, hA, hB, h1, by rw [(rescale_ok hr).1, t2]⟩, h3⟩

/-- A move to the left makes the right tensor an isometry. -/
theorem pairLeft_iso {E : Env K} (hE : QrOK E) (hS : SvdOK E) {nz : Bool} {D : Option Nat}
    {err : Option ℝ} {A B A' B' : NDArray K} {z : ℝ} {l p m q r : Nat} (hA : A.shape = [l, p, m])
    (hB : B.shape = [m, q, r]) (h : pairLeft E nz D err A B = .ok (A', B', z)) :
    SameOuter A B A' B' ∧ RightIso B' := by
  unfold pairLeft at h
  rcases hf : factorLeft E D err (B.shape.getD 0 0) B with e | ⟨T, Q⟩
  · rw [hf] at h; cases h
  · obtain ⟨k, h1, h2, h3⟩ := factorLeft_ok hE hS hB hf
    obtain ⟨t, t1, t2, _⟩ := ncon_rest_left E.so hA h1
    rw [hf] at h
    simp only [bind, Except.bind, t1] at h
    rcases hr : rescale nz t (norm t) with e | t'
    · rw [hr] at h; cases h
    · rw [hr] at h
      simp only [pure, Except.pure, Except.ok.injEq, Prod.mk.injEq] at h
      obtain ⟨rfl, rfl, rfl⟩ := h
      exact ⟨⟨l, p, m, q, r, k, hA, hB, by rw [(rescale_ok hr).1, t2], h2⟩, h3⟩

/-- The product of `A` and `B` over their common bond vanishes. -/
def ZeroProduct (A B : NDArray K) : Prop := ∃ l p m q r, A.shape = [l, p, m] ∧ B.shape = [m, q, r] ∧
  ∀ a < l, ∀ i < p, ∀ j < q, ∀ b < r, ∑ c ∈ range m, A.get [a, i, c] * B.get [c, j, b] = 0

/-- What an exact move gives: the product of the two tensors is kept up to the factor that was
divided out, and `Z` is the norm of the new centre `C` before the division. -/
structure ExactMove (nz : Bool) (A B A' B' C : NDArray K) (z : ℝ) : Prop where
  prod : SameProduct (if nz then (z : K) else 1) A B A' B'
  nonneg : 0 ≤ z
  nonzero : nz = true → z ≠ 0
  center : norm C * (if nz then z else 1) = z

theorem sumIdx_nonneg {s : List Nat} {f : List Nat → ℝ} (h : ∀ i, 0 ≤ f i) : 0 ≤ sumIdx s f := by
  rw [← sum_range_unravel]
  exact Finset.sum_nonneg fun _ _ => h _

theorem norm_nonneg (t : NDArray K) : 0 ≤ norm t := Real.sqrt_nonneg _

theorem norm_sq (t : NDArray K) : norm t ^ 2 = sumIdx t.shape fun i => ‖t.get i‖ ^ 2 :=
  Real.sq_sqrt (sumIdx_nonneg fun _ => sq_nonneg _)

theorem norm_eq_zero {t : NDArray K} (h : norm t = 0) {i : List Nat} (hi : InB t.shape i) :
    t.get i = 0 := by
  have h1 := norm_sq t
  rw [h, ← sum_range_unravel] at h1
  have h2 := (Finset.sum_eq_zero_iff_of_nonneg (fun _ _ => sq_nonneg _)).1
    (h1.symm.trans (by norm_num)) (ravel t.shape i) (Finset.mem_range.2 (ravel_lt hi))
  rw [unravel_ravel hi] at h2
  simpa using h2

theorem rescale_norm {nz : Bool} {t t' : NDArray K} (h : rescale nz t (norm t) = .ok t') :
    norm t' * (if nz then norm t else 1) = norm t := by
  obtain ⟨h1, h2, h3⟩ := rescale_ok h
  cases nz with
  | false =>
    simp only [Bool.false_eq_true, if_false, mul_one, one_mul] at h3 ⊢
    unfold norm
    rw [h1]
    simp only [h3]
  | true =>
    simp only [if_true] at h3 ⊢
    have h4 : norm t ^ 2 = norm t ^ 2 * norm t' ^ 2 := by
      conv_lhs => rw [norm_sq t]
      rw [norm_sq t', sumIdx_mul_left, h1]
      refine sumIdx_congr fun i _ => ?_
      rw [h3 i, norm_mul, mul_pow]
      congr 1
      simp
    have h5 := h2 rfl
    have h6 : norm t' ^ 2 = 1 := by
      have : norm t ^ 2 ≠ 0 := pow_ne_zero 2 h5
      field_simp at h4
      linarith
    have h7 : norm t' = 1 := by
      have := norm_nonneg t'
      nlinarith [sq_nonneg (norm t' - 1), sq_nonneg (norm t' + 1)]
    rw [h7, one_mul]

theorem pairRight_exact {E : Env K} (hE : QrOK E) {nz : Bool} {A B : NDArray K} {l p m q r : Nat}
    (hA : A.shape = [l, p, m]) (hB : B.shape = [m, q, r]) (hz : nz = true → ¬ ZeroProduct A B) :
    ∃ A' B' z, pairRight E nz none none A B = .ok (A', B', z) ∧ ExactMove nz A B A' B' B' z := by
  obtain ⟨Q, T, k, h1, h2, h3, h4, h5⟩ := qr_three hE hA
  obtain ⟨t, t1, t2, t3⟩ := ncon_rest_right E.so h3 hB
  have hprod : ∀ a < l, ∀ i < p, ∀ j < q, ∀ b < r, ∑ c ∈ range m, A.get [a, i, c] * B.get [c, j, b] =
      ∑ x ∈ range k, Q.get [a, i, x] * t.get [x, j, b] := by
    intro a ha i hi j hj b hb
    have e1 : ∀ c ∈ range m, A.get [a, i, c] * B.get [c, j, b] =
        ∑ x ∈ range k, Q.get [a, i, x] * (T.get [x, c] * B.get [c, j, b]) := fun c hc => by
      rw [h5 a ha i hi c (Finset.mem_range.1 hc), Finset.sum_mul]
      exact Finset.sum_congr rfl fun x _ => mul_assoc _ _ _
    rw [Finset.sum_congr rfl e1, Finset.sum_comm]
    refine Finset.sum_congr rfl fun x hx => ?_
    rw [t3 x (Finset.mem_range.1 hx) j hj b hb, Finset.mul_sum]
  have hnz : nz = true → norm t ≠ 0 := by
    intro hn h0
    refine hz hn ⟨l, p, m, q, r, hA, hB, fun a ha i hi j hj b hb => ?_⟩
    rw [hprod a ha i hi j hj b hb]
    refine Finset.sum_eq_zero fun x hx => ?_
    rw [norm_eq_zero h0 (by rw [t2]; exact inB_three (Finset.mem_range.1 hx) hj hb), mul_zero]
  obtain ⟨t', ht'⟩ := rescale_total t hnz
  obtain ⟨r1, _, r3⟩ := rescale_ok ht'
  refine ⟨Q, t', norm t, ?_, ⟨⟨l, p, m, q, r, k, hA, hB, h2, by rw [r1, t2], fun a ha i hi j hj b hb => ?_⟩,
    norm_nonneg t, hnz, rescale_norm ht'⟩⟩
  · unfold pairRight
    have : factorRight E none none (B.shape.getD 0 0) A = .ok (Q, T) := by
      unfold factorRight
      rw [if_neg (by simp [useSvd]), h1]
    rw [this]
    simp only [bind, Except.bind, t1, ht']
    rfl
  · rw [hprod a ha i hi j hj b hb, Finset.mul_sum]
    refine Finset.sum_congr rfl fun x _ => ?_
    rw [r3 [x, j, b]]
    ring

theorem pairLeft_exact {E : Env K} (hE : QrOK E) {nz : Bool} {A B : NDArray K} {l p m q r : Nat}
    (hA : A.shape = [l, p, m]) (hB : B.shape = [m, q, r]) (hz : nz = true → ¬ ZeroProduct A B) :
    ∃ A' B' z, pairLeft E nz none none A B = .ok (A', B', z) ∧ ExactMove nz A B A' B' A' z := by
  obtain ⟨T, Q, k, h1, h2, h3, h4, h5⟩ := rq_three hE hB
  obtain ⟨t, t1, t2, t3⟩ := ncon_rest_left E.so hA h2
  have hprod : ∀ a < l, ∀ i < p, ∀ j < q, ∀ b < r, ∑ c ∈ range m, A.get [a, i, c] * B.get [c, j, b] =
      ∑ x ∈ range k, t.get [a, i, x] * Q.get [x, j, b] := by
    intro a ha i hi j hj b hb
    have e1 : ∀ c ∈ range m, A.get [a, i, c] * B.get [c, j, b] =
        ∑ x ∈ range k, A.get [a, i, c] * T.get [c, x] * Q.get [x, j, b] := fun c hc => by
      rw [h5 c (Finset.mem_range.1 hc) j hj b hb, Finset.mul_sum]
      exact Finset.sum_congr rfl fun x _ => (mul_assoc _ _ _).symm
    rw [Finset.sum_congr rfl e1, Finset.sum_comm]
    refine Finset.sum_congr rfl fun x hx => ?_
    rw [t3 a ha i hi x (Finset.mem_range.1 hx), Finset.sum_mul]
  have hnz : nz = true → norm t ≠ 0 := by
    intro hn h0
    refine hz hn ⟨l, p, m, q, r, hA, hB, fun a ha i hi j hj b hb => ?_⟩
    rw [hprod a ha i hi j hj b hb]
    refine Finset.sum_eq_zero fun x hx => ?_
    rw [norm_eq_zero h0 (by rw [t2]; exact inB_three ha hi (Finset.mem_range.1 hx)), zero_mul]
  obtain ⟨t', ht'⟩ := rescale_total t hnz
  obtain ⟨r1, _, r3⟩ := rescale_ok ht'
  refine ⟨t', Q, norm t, ?_, ⟨⟨l, p, m, q, r, k, hA, hB, by rw [r1, t2], h3, fun a ha i hi j hj b hb => ?_⟩,
    norm_nonneg t, hnz, rescale_norm ht'⟩⟩
  · unfold pairLeft
    have : factorLeft E none none (B.shape.getD 0 0) B = .ok (T, Q) := by
      unfold factorLeft
      rw [if_neg (by simp [useSvd]), h1]
    rw [this]
    simp only [bind, Except.bind, t1, ht']
    rfl
  · rw [hprod a ha i hi j hj b hb, Finset.mul_sum]
    refine Finset.sum_congr rfl fun x _ => ?_
    rw [r3 [a, i, x]]
    ring

end TN.Mps
