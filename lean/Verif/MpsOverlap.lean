import Verif.MpsState

/-!
# Inner products of matrix product states

`overlap` is the inner product of two states, by the amplitudes.  It can be computed tensor by tensor,
and tensors that are isometries drop out.
-/

set_option linter.unusedSectionVars false

namespace TN.Mps

open TN NDArray Finset Ncon

variable {K : Type} [RCLike K]

/-- The inner product of the states when the left outer bond is fixed to `x` in the conjugated state and
to `y` in the other one. -/
def gram (ts ts' : List (NDArray K)) (ds : List Nat) (r : Nat) (x y : Nat) : K :=
  sumIdx ds fun is => ∑ b ∈ range r, star (amp ts x is b) * amp ts' y is b

/-- The inner product of two states. -/
def overlap (ts ts' : List (NDArray K)) (l : Nat) (ds : List Nat) (r : Nat) : K :=
  ∑ a ∈ range l, sumIdx ds fun is => ∑ b ∈ range r, star (amp ts a is b) * amp ts' a is b

/-- The squared norm of a state. -/
def normSq (ts : List (NDArray K)) (l : Nat) (ds : List Nat) (r : Nat) : ℝ :=
  ∑ a ∈ range l, sumIdx ds fun is => ∑ b ∈ range r, ‖amp ts a is b‖ ^ 2

/-- The identity matrix. -/
def delta (x y : Nat) : K := if x = y then 1 else 0

theorem sum_delta {n : Nat} (f : Nat → Nat → K) :
    ∑ x ∈ range n, ∑ y ∈ range n, delta x y * f x y = ∑ x ∈ range n, f x x := by
  refine Finset.sum_congr rfl fun x hx => ?_
  simp only [delta, ite_mul, one_mul, zero_mul]
  rw [Finset.sum_ite_eq, if_pos hx]

theorem overlap_eq (ts ts' : List (NDArray K)) (l : Nat) (ds : List Nat) (r : Nat) :
    overlap ts ts' l ds r = ∑ a ∈ range l, ∑ a' ∈ range l, delta a a' * gram ts ts' ds r a a' := by
  rw [sum_delta]
  rfl

theorem star_sum_mul_sum {ι κ : Type*} (s : Finset ι) (t : Finset κ) (f : ι → K) (g : κ → K) :
    star (∑ x ∈ s, f x) * ∑ y ∈ t, g y = ∑ x ∈ s, ∑ y ∈ t, star (f x) * g y := by
  rw [star_sum, Finset.sum_mul_sum]

theorem sumIdx_sum {ι : Type*} (s : List Nat) (t : Finset ι) (f : List Nat → ι → K) :
    sumIdx s (fun i => ∑ x ∈ t, f i x) = ∑ x ∈ t, sumIdx s fun i => f i x := by
  rw [← sum_range_unravel, Finset.sum_comm]
  exact Finset.sum_congr rfl fun x _ => sum_range_unravel s fun i => f i x

/-- One tensor of the inner product. -/
theorem gram_cons {A A' : NDArray K} {ts ts' : List (NDArray K)} {l p m l' m' : Nat}
    (hA : A.shape = [l, p, m]) (hA' : A'.shape = [l', p, m']) (ds : List Nat) (r x y : Nat) :
    gram (A :: ts) (A' :: ts') (p :: ds) r x y = ∑ i ∈ range p, ∑ c ∈ range m, ∑ c' ∈ range m',
      star (A.get [x, i, c]) * A'.get [y, i, c'] * gram ts ts' ds r c c' := by
  unfold gram
  rw [sumIdx]
  refine Finset.sum_congr rfl fun i _ => ?_
  have h1 : ∀ is, ∑ b ∈ range r, star (amp (A :: ts) x (i :: is) b) * amp (A' :: ts') y (i :: is) b =
      ∑ c ∈ range m, ∑ c' ∈ range m', star (A.get [x, i, c]) * A'.get [y, i, c'] *
        ∑ b ∈ range r, star (amp ts c is b) * amp ts' c' is b := by
    intro is
    simp only [amp_cons hA, amp_cons hA', star_sum_mul_sum]
    simp only [Finset.mul_sum]
    rw [Finset.sum_comm]
    refine Finset.sum_congr rfl fun c _ => ?_
    rw [Finset.sum_comm]
    refine Finset.sum_congr rfl fun c' _ => Finset.sum_congr rfl fun b _ => ?_
    rw [star_mul']
    ring
  rw [sumIdx_congr fun is _ => h1 is, sumIdx_sum]
  refine Finset.sum_congr rfl fun c _ => ?_
  rw [sumIdx_sum]
  refine Finset.sum_congr rfl fun c' _ => ?_
  rw [sumIdx_mul_left]

/-- The matrix on the right of `A` and `A'` that the matrix `X` on their left gives. -/
def transfer (A A' : NDArray K) (X : Nat → Nat → K) (c c' : Nat) : K :=
  ∑ a ∈ range (A.shape.getD 0 0), ∑ a' ∈ range (A'.shape.getD 0 0), ∑ i ∈ range (A.shape.getD 1 0),
    X a a' * (star (A.get [a, i, c]) * A'.get [a', i, c'])

/-- The inner product with the matrix `X` on the left. -/
def weighted (X : Nat → Nat → K) (ts ts' : List (NDArray K)) (l l' : Nat) (ds : List Nat) (r : Nat) : K :=
  ∑ a ∈ range l, ∑ a' ∈ range l', X a a' * gram ts ts' ds r a a'

theorem weighted_cons {A A' : NDArray K} {ts ts' : List (NDArray K)} {l p m l' m' : Nat}
    (hA : A.shape = [l, p, m]) (hA' : A'.shape = [l', p, m']) (X : Nat → Nat → K) (ds : List Nat)
    (r : Nat) : weighted X (A :: ts) (A' :: ts') l l' (p :: ds) r =
      weighted (transfer A A' X) ts ts' m m' ds r := by
  unfold weighted transfer
  simp only [gram_cons hA hA', hA, hA', List.getD_cons_zero, List.getD_cons_succ]
  have h1 : ∀ a a', X a a' * ∑ i ∈ range p, ∑ c ∈ range m, ∑ c' ∈ range m',
      star (A.get [a, i, c]) * A'.get [a', i, c'] * gram ts ts' ds r c c' =
      ∑ c ∈ range m, ∑ c' ∈ range m', (∑ i ∈ range p, X a a' *
        (star (A.get [a, i, c]) * A'.get [a', i, c'])) * gram ts ts' ds r c c' := by
    intro a a'
    simp only [Finset.mul_sum, Finset.sum_mul]
    rw [Finset.sum_comm]
    refine Finset.sum_congr rfl fun c _ => ?_
    rw [Finset.sum_comm]
    exact Finset.sum_congr rfl fun c' _ => Finset.sum_congr rfl fun i _ => by ring
  simp only [h1]
  have h2 : ∀ a, ∑ a' ∈ range l', ∑ c ∈ range m, ∑ c' ∈ range m', (∑ i ∈ range p, X a a' *
      (star (A.get [a, i, c]) * A'.get [a', i, c'])) * gram ts ts' ds r c c' =
      ∑ c ∈ range m, ∑ c' ∈ range m', (∑ a' ∈ range l', ∑ i ∈ range p, X a a' *
      (star (A.get [a, i, c]) * A'.get [a', i, c'])) * gram ts ts' ds r c c' := by
    intro a
    rw [Finset.sum_comm]
    refine Finset.sum_congr rfl fun c _ => ?_
    rw [Finset.sum_comm]
    exact Finset.sum_congr rfl fun c' _ => (Finset.sum_mul ..).symm
  simp only [h2]
  rw [Finset.sum_comm]
  refine Finset.sum_congr rfl fun c _ => ?_
  rw [Finset.sum_comm]
  exact Finset.sum_congr rfl fun c' _ => (Finset.sum_mul ..).symm

theorem weighted_congr {X Y : Nat → Nat → K} {ts ts' : List (NDArray K)} {l l' : Nat} {ds : List Nat}
    {r : Nat} (h : ∀ a < l, ∀ a' < l', X a a' = Y a a') :
    weighted X ts ts' l l' ds r = weighted Y ts ts' l l' ds r :=
  Finset.sum_congr rfl fun a ha => Finset.sum_congr rfl fun a' ha' => by
    rw [h a (Finset.mem_range.1 ha) a' (Finset.mem_range.1 ha')]

/-- A left isometry takes the identity to the identity. -/
theorem transfer_leftIso {A : NDArray K} {l p m : Nat} (hA : A.shape = [l, p, m]) (h : LeftIso A)
    {c c' : Nat} (hc : c < m) (hc' : c' < m) : transfer A A delta c c' = delta c c' := by
  obtain ⟨l', p', m', h1, h2⟩ := h
  rw [hA] at h1
  simp only [List.cons.injEq, and_true] at h1
  obtain ⟨rfl, rfl, rfl⟩ := h1
  unfold transfer
  simp only [hA, List.getD_cons_zero, List.getD_cons_succ, ← Finset.mul_sum]
  rw [sum_delta, h2 c hc c' hc']
  rfl

/-- All tensors are left isometries. -/
def AllLeft (ts : List (NDArray K)) : Prop := ∀ A ∈ ts, LeftIso A

/-- All tensors are right isometries. -/
def AllRight (ts : List (NDArray K)) : Prop := ∀ A ∈ ts, RightIso A

/-- Left isometries at the left end drop out of the inner product. -/
theorem weighted_allLeft {pre : List (NDArray K)} : ∀ {l m : Nat} {d : List Nat}, Bonds pre l d m →
    AllLeft pre → ∀ (ts ts' : List (NDArray K)) (ds : List Nat) (r : Nat),
    weighted delta (pre ++ ts) (pre ++ ts') l l (d ++ ds) r = weighted delta ts ts' m m ds r := by
  induction pre with
  | nil => rintro l m d ⟨rfl, rfl⟩ _ ts ts' ds r; rfl
  | cons A pre ih =>
    rintro l m d ⟨p, n, d', rfl, h1, h2⟩ hl ts ts' ds r
    rw [List.cons_append, List.cons_append, List.cons_append, weighted_cons h1 h1]
    rw [weighted_congr fun a ha a' ha' => transfer_leftIso h1 (hl A (by simp)) ha ha']
    exact ih h2 (fun B hB => hl B (by simp [hB])) ts ts' ds r

/-- The inner product of right isometries is the identity. -/
theorem gram_allRight {post : List (NDArray K)} : ∀ {m r : Nat} {e : List Nat}, Bonds post m e r →
    AllRight post → ∀ {x y : Nat}, x < m → y < m → gram post post e r x y = delta x y := by
  induction post with
  | nil =>
    rintro m r e ⟨rfl, rfl⟩ _ x y hx hy
    simp only [gram, sumIdx, amp, delta]
    rw [Finset.sum_eq_single x]
    · by_cases h : x = y
      · subst h; simp
      · simp [h, Ne.symm h]
    · intro b _ hb
      simp [Ne.symm hb]
    · intro h
      exact absurd (Finset.mem_range.2 hx) h
  | cons A post ih =>
    rintro m r e ⟨p, n, e', rfl, h1, h2⟩ hr x y hx hy
    rw [gram_cons h1 h1]
    have h3 : ∀ i, ∑ c ∈ range n, ∑ c' ∈ range n, star (A.get [x, i, c]) * A.get [y, i, c'] *
        gram post post e' r c c' = ∑ c ∈ range n, A.get [y, i, c] * star (A.get [x, i, c]) := by
      intro i
      rw [← sum_delta fun c c' => A.get [y, i, c'] * star (A.get [x, i, c])]
      refine Finset.sum_congr rfl fun c hc => Finset.sum_congr rfl fun c' hc' => ?_
      rw [ih h2 (fun B hB => hr B (by simp [hB])) (Finset.mem_range.1 hc) (Finset.mem_range.1 hc')]
      ring
    simp only [h3]
    obtain ⟨k, p', r', g1, g2⟩ := hr A (by simp)
    rw [h1] at g1
    simp only [List.cons.injEq, and_true] at g1
    obtain ⟨rfl, rfl, rfl⟩ := g1
    rw [g2 y hy x hx]
    by_cases h : x = y
    · subst h; simp [delta]
    · simp [delta, h, Ne.symm h]

theorem normSq_eq (ts : List (NDArray K)) (l : Nat) (ds : List Nat) (r : Nat) :
    ((normSq ts l ds r : ℝ) : K) = overlap ts ts l ds r := by
  unfold normSq overlap
  rw [RCLike.ofReal_sum]
  refine Finset.sum_congr rfl fun a _ => ?_
  rw [← sum_range_unravel, ← sum_range_unravel, RCLike.ofReal_sum]
  refine Finset.sum_congr rfl fun k _ => ?_
  rw [RCLike.ofReal_sum]
  refine Finset.sum_congr rfl fun b _ => ?_
  rw [RCLike.star_def, RCLike.conj_mul]
  simp

/-- The tensors left of the centre are left isometries, those right of it right isometries. -/
def Canonical (ts : List (NDArray K)) (c : Nat) : Prop :=
  ∀ n A, ts[n]? = some A → (n < c → LeftIso A) ∧ (c < n → RightIso A)

theorem Canonical.split {ts : List (NDArray K)} {c : Nat} (h : Canonical ts c) {C : NDArray K}
    (hC : ts[c]? = some C) : ∃ pre post, ts = pre ++ C :: post ∧ pre.length = c ∧ AllLeft pre ∧
      AllRight post := by
  have hlt := (List.getElem?_eq_some_iff.1 hC).1
  have hC' := (List.getElem?_eq_some_iff.1 hC).2
  refine ⟨ts.take c, ts.drop (c + 1), ?_, by simp; omega, fun A hA => ?_, fun A hA => ?_⟩
  · rw [← hC', List.getElem_cons_drop, List.take_append_drop]
  · obtain ⟨n, hn, rfl⟩ := List.mem_iff_getElem.1 hA
    rw [List.length_take] at hn
    rw [List.getElem_take]
    exact (h n _ (List.getElem?_eq_getElem (by omega))).1 (by omega)
  · obtain ⟨n, hn, rfl⟩ := List.mem_iff_getElem.1 hA
    rw [List.length_drop] at hn
    rw [List.getElem_drop]
    exact (h (c + 1 + n) _ (List.getElem?_eq_getElem (by omega))).2 (by omega)

/-- The norm of a state in canonical form is the norm of its centre. -/
theorem Canonical.normSq {ts : List (NDArray K)} {c : Nat} (h : Canonical ts c) {C : NDArray K}
    (hC : ts[c]? = some C) {l : Nat} {ds : List Nat} {r : Nat} (hb : Bonds ts l ds r) :
    normSq ts l ds r = norm C ^ 2 := by
  obtain ⟨pre, post, rfl, _, hl, hr⟩ := h.split hC
  obtain ⟨d, e, m, rfl, h1, p, n, e', rfl, h2, h3⟩ := hb.split
  have key : ((Mps.normSq (pre ++ C :: post) l (d ++ p :: e') r : ℝ) : K) = ((norm C ^ 2 : ℝ) : K) := by
    rw [normSq_eq, overlap_eq]
    refine (weighted_allLeft h1 hl (C :: post) (C :: post) (p :: e') r).trans ?_
    unfold weighted
    rw [sum_delta, norm_sq, h2]
    simp only [sumIdx, RCLike.ofReal_sum]
    refine Finset.sum_congr rfl fun x hx => ?_
    rw [gram_cons h2 h2]
    refine Finset.sum_congr rfl fun i _ => ?_
    have h4 : ∀ c ∈ range n, ∀ c' ∈ range n, star (C.get [x, i, c]) * C.get [x, i, c'] *
        gram post post e' r c c' = delta c c' * (star (C.get [x, i, c]) * C.get [x, i, c']) := by
      intro c hc c' hc'
      rw [gram_allRight h3 hr (Finset.mem_range.1 hc) (Finset.mem_range.1 hc'), mul_comm]
    rw [Finset.sum_congr rfl fun c hc => Finset.sum_congr rfl (h4 c hc), sum_delta]
    refine Finset.sum_congr rfl fun c _ => ?_
    rw [RCLike.star_def, RCLike.conj_mul]
    simp
  exact_mod_cast key

end TN.Mps
