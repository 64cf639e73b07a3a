import Verif.MpsMeasure

/-!
# Environments: specification and contraction steps

`leftGram` and `gram` are the reduced density matrices of the parts of a state left and right of a bond,
by the amplitudes.
-/

set_option linter.unusedSectionVars false

namespace TN.Mps

open TN NDArray Finset Ncon

variable {K : Type} [RCLike K]

/-- The part of the inner product of two states that is left of a bond, with the index of the bond fixed
to `x` in the conjugated state and to `y` in the other one. -/
def leftGram (ts ts' : List (NDArray K)) (l : Nat) (ds : List Nat) (x y : Nat) : K :=
  ∑ a ∈ range l, sumIdx ds fun is => star (amp ts a is x) * amp ts' a is y

/-- `L` is the left environment of two states; the unconjugated index comes first. -/
def IsL (L : NDArray K) (ts ts' : List (NDArray K)) (l : Nat) (ds : List Nat) (m : Nat) : Prop :=
  L.shape = [m, m] ∧ ∀ x < m, ∀ y < m, L.get [y, x] = leftGram ts ts' l ds x y

/-- `R` is the right environment of two states; the unconjugated index comes first. -/
def IsR (R : NDArray K) (ts ts' : List (NDArray K)) (m : Nat) (ds : List Nat) (r : Nat) : Prop :=
  R.shape = [m, m] ∧ ∀ x < m, ∀ y < m, R.get [y, x] = gram ts ts' ds r x y

/-- The tensor `A` with the operator `O` applied to its physical index. -/
def opT (O A : NDArray K) : NDArray K :=
  ⟨A.shape, fun i => ∑ j ∈ range (A.shape.getD 1 0), O.get [i.getD 1 0, j] * A.get [i.getD 0 0, j, i.getD 2 0]⟩

theorem opT_get {A : NDArray K} {l p m : Nat} (hA : A.shape = [l, p, m]) (O : NDArray K) (a i c : Nat) :
    (opT O A).get [a, i, c] = ∑ j ∈ range p, O.get [i, j] * A.get [a, j, c] := by
  simp [opT, hA]

theorem conjT_get (A : NDArray K) (i : List Nat) : (conjT A).get i = star (A.get i) := rfl

/-! ### Splitting inner products -/

theorem leftGram_nil (l x y : Nat) (hx : x < l) : leftGram ([] : List (NDArray K)) [] l [] x y = delta x y := by
  simp only [leftGram, sumIdx, amp, delta]
  rw [Finset.sum_eq_single x]
  · simp
  · intro b _ hb
    simp [hb]
  · intro h
    exact absurd (Finset.mem_range.2 hx) h

theorem gram_nil {r x y : Nat} (hx : x < r) : gram ([] : List (NDArray K)) [] [] r x y = delta x y := by
  simp only [gram, sumIdx, amp, delta]
  rw [Finset.sum_eq_single x]
  · simp [eq_comm]
  · intro b _ hb
    simp [Ne.symm hb]
  · intro h
    exact absurd (Finset.mem_range.2 hx) h

/-- The inner product of two states, split at a bond. -/
theorem overlap_split {pre pre' s s' : List (NDArray K)} {l m : Nat} {d e : List Nat} {r : Nat}
    (h : Bonds pre l d m) (h' : Bonds pre' l d m) :
    overlap (pre ++ s) (pre' ++ s') l (d ++ e) r =
      ∑ x ∈ range m, ∑ y ∈ range m, leftGram pre pre' l d x y * gram s s' e r x y := by
  have h1 : ∀ a < l, ∀ is, InB d is → ∀ js b, star (amp (pre ++ s) a (is ++ js) b) *
      amp (pre' ++ s') a (is ++ js) b = ∑ x ∈ range m, ∑ y ∈ range m,
        (star (amp pre a is x) * amp pre' a is y) * (star (amp s x js b) * amp s' y js b) := by
    intro a ha is his js b
    rw [amp_append h ha his.length, amp_append h' ha his.length, star_sum_mul_sum]
    refine Finset.sum_congr rfl fun x _ => Finset.sum_congr rfl fun y _ => ?_
    rw [star_mul']
    ring
  have h2 : ∀ a ∈ range l, sumIdx (d ++ e) (fun is => ∑ b ∈ range r,
      star (amp (pre ++ s) a is b) * amp (pre' ++ s') a is b) =
      ∑ x ∈ range m, ∑ y ∈ range m, sumIdx d (fun is => star (amp pre a is x) * amp pre' a is y) *
        gram s s' e r x y := by
    intro a ha
    rw [sumIdx_append]
    rw [sumIdx_congr fun is his => sumIdx_congr fun js _ => Finset.sum_congr rfl fun b _ =>
      h1 a (Finset.mem_range.1 ha) is his js b]
    have h3 : ∀ is, sumIdx e (fun js => ∑ b ∈ range r, ∑ x ∈ range m, ∑ y ∈ range m,
        (star (amp pre a is x) * amp pre' a is y) * (star (amp s x js b) * amp s' y js b)) =
        ∑ x ∈ range m, ∑ y ∈ range m, (star (amp pre a is x) * amp pre' a is y) * gram s s' e r x y := by
      intro is
      have : ∀ js, ∑ b ∈ range r, ∑ x ∈ range m, ∑ y ∈ range m,
          (star (amp pre a is x) * amp pre' a is y) * (star (amp s x js b) * amp s' y js b) =
          ∑ x ∈ range m, ∑ y ∈ range m, (star (amp pre a is x) * amp pre' a is y) *
            ∑ b ∈ range r, star (amp s x js b) * amp s' y js b := by
        intro js
        rw [Finset.sum_comm]
        refine Finset.sum_congr rfl fun x _ => ?_
        rw [Finset.sum_comm]
        exact Finset.sum_congr rfl fun y _ => (Finset.mul_sum ..).symm
      simp only [this]
      rw [sumIdx_sum]
      refine Finset.sum_congr rfl fun x _ => ?_
      rw [sumIdx_sum]
      refine Finset.sum_congr rfl fun y _ => ?_
      unfold gram
      rw [sumIdx_mul_left]
    simp only [h3]
    rw [sumIdx_sum]
    refine Finset.sum_congr rfl fun x _ => ?_
    rw [sumIdx_sum]
    refine Finset.sum_congr rfl fun y _ => ?_
    rw [sumIdx_mul_right]
  unfold overlap
  rw [Finset.sum_congr rfl h2, Finset.sum_comm]
  refine Finset.sum_congr rfl fun x _ => ?_
  rw [Finset.sum_comm]
  refine Finset.sum_congr rfl fun y _ => ?_
  rw [leftGram, Finset.sum_mul]

/-- One more tensor in the left environment. -/
theorem leftGram_snoc {pre pre' : List (NDArray K)} {A A' : NDArray K} {l m p k : Nat} {d : List Nat}
    (h : Bonds pre l d m) (h' : Bonds pre' l d m) (hA : A.shape = [m, p, k]) (hA' : A'.shape = [m, p, k])
    {x y : Nat} (hx : x < k) (hy : y < k) :
    leftGram (pre ++ [A]) (pre' ++ [A']) l (d ++ [p]) x y = ∑ a ∈ range m, ∑ a' ∈ range m,
      ∑ i ∈ range p, leftGram pre pre' l d a a' * (star (A.get [a, i, x]) * A'.get [a', i, y]) := by
  have hamp : ∀ {B : NDArray K}, B.shape = [m, p, k] → ∀ c i z, z < k → amp [B] c [i] z = B.get [c, i, z] := by
    intro B hB c i z hz
    rw [amp_cons hB]
    simp only [amp, mul_ite, mul_one, mul_zero]
    rw [Finset.sum_ite_eq', if_pos (Finset.mem_range.2 hz)]
  have h1 : ∀ a ∈ range l, sumIdx (d ++ [p]) (fun is => star (amp (pre ++ [A]) a is x) *
      amp (pre' ++ [A']) a is y) = ∑ c ∈ range m, ∑ c' ∈ range m, ∑ i ∈ range p,
        sumIdx d (fun is => star (amp pre a is c) * amp pre' a is c') *
          (star (A.get [c, i, x]) * A'.get [c', i, y]) := by
    intro a ha
    rw [sumIdx_append]
    have h2 : ∀ is, InB d is → sumIdx [p] (fun js => star (amp (pre ++ [A]) a (is ++ js) x) *
        amp (pre' ++ [A']) a (is ++ js) y) = ∑ c ∈ range m, ∑ c' ∈ range m, ∑ i ∈ range p,
          (star (amp pre a is c) * amp pre' a is c') * (star (A.get [c, i, x]) * A'.get [c', i, y]) := by
      intro is his
      simp only [sumIdx]
      have h3 : ∀ i, star (amp (pre ++ [A]) a (is ++ [i]) x) * amp (pre' ++ [A']) a (is ++ [i]) y =
          ∑ c ∈ range m, ∑ c' ∈ range m, (star (amp pre a is c) * amp pre' a is c') *
            (star (A.get [c, i, x]) * A'.get [c', i, y]) := by
        intro i
        rw [amp_append h (Finset.mem_range.1 ha) his.length, amp_append h' (Finset.mem_range.1 ha) his.length,
          star_sum_mul_sum]
        refine Finset.sum_congr rfl fun c _ => Finset.sum_congr rfl fun c' _ => ?_
        rw [hamp hA _ _ _ hx, hamp hA' _ _ _ hy, star_mul']
        ring
      simp only [h3]
      rw [Finset.sum_comm]
      refine Finset.sum_congr rfl fun c _ => ?_
      rw [Finset.sum_comm]
    rw [sumIdx_congr h2, sumIdx_sum]
    refine Finset.sum_congr rfl fun c _ => ?_
    rw [sumIdx_sum]
    refine Finset.sum_congr rfl fun c' _ => ?_
    rw [sumIdx_sum]
    refine Finset.sum_congr rfl fun i _ => ?_
    rw [sumIdx_mul_right]
  unfold leftGram
  rw [Finset.sum_congr rfl h1, Finset.sum_comm]
  refine Finset.sum_congr rfl fun c _ => ?_
  rw [Finset.sum_comm]
  refine Finset.sum_congr rfl fun c' _ => ?_
  rw [Finset.sum_comm]
  refine Finset.sum_congr rfl fun i _ => ?_
  rw [Finset.sum_mul]

/-! ### The contractions -/

theorem transferL_ok (E : Env K) {A L : NDArray K} {pre pre' : List (NDArray K)} {l m p k : Nat}
    {d : List Nat} (h : Bonds pre l d m) (h' : Bonds pre' l d m) (hA : A.shape = [m, p, k])
    (hL : IsL L pre pre' l d m) :
    ∃ L', transferL E A L = .ok L' ∧ IsL L' (pre ++ [A]) (pre' ++ [A]) l (d ++ [p]) k := by
  obtain ⟨t, h1, h2, h3⟩ := nconInt_spec E.so (ts := [A, L, conjT A]) (l := [[1, 2, -1], [1, 3], [3, 2, -2]])
    (closed := [3, 1, 2]) (out := [-1, -2])
    (dim := fun x => if x = 1 then m else if x = 3 then m else if x = 2 then p else k)
    (by simp) rfl (by
      intro p hp
      simp only [List.zip_cons_cons, List.zip_nil_right, List.mem_cons, List.not_mem_nil, or_false] at hp
      rcases hp with rfl | rfl | rfl
      · exact hA
      · exact hL.1
      · exact hA) (by decide)
  refine ⟨t, h1, h2, fun x hx y hy => ?_⟩
  rw [h3 [y, x] (inB_two hy hx), leftGram_snoc h h' hA hA hx hy]
  refine Finset.sum_congr rfl fun a ha => Finset.sum_congr rfl fun a' ha' => Finset.sum_congr rfl fun i _ => ?_
  show A.get [a', i, y] * (L.get [a', a] * ((conjT A).get [a, i, x] * 1)) = _
  rw [hL.2 a (Finset.mem_range.1 ha) a' (Finset.mem_range.1 ha'), conjT_get]
  ring

theorem startL_ok (E : Env K) {A L O : NDArray K} {pre pre' : List (NDArray K)} {l m p k : Nat}
    {d : List Nat} (h : Bonds pre l d m) (h' : Bonds pre' l d m) (hA : A.shape = [m, p, k])
    (hO : O.shape = [p, p]) (hL : IsL L pre pre' l d m) :
    ∃ L', startL E L A O = .ok L' ∧ IsL L' (pre ++ [A]) (pre' ++ [opT O A]) l (d ++ [p]) k := by
  obtain ⟨t, h1, h2, h3⟩ := nconInt_spec E.so (ts := [L, A, O, conjT A])
    (l := [[1, 3], [1, 2, -1], [4, 2], [3, 4, -2]])
    (closed := [3, 1, 4, 2]) (out := [-1, -2])
    (dim := fun x => if x = 1 then m else if x = 3 then m else if x = 2 then p else if x = 4 then p else k)
    (by simp) rfl (by
      intro p hp
      simp only [List.zip_cons_cons, List.zip_nil_right, List.mem_cons, List.not_mem_nil, or_false] at hp
      rcases hp with rfl | rfl | rfl | rfl
      · exact hL.1
      · exact hA
      · exact hO
      · exact hA) (by decide)
  refine ⟨t, h1, h2, fun x hx y hy => ?_⟩
  rw [h3 [y, x] (inB_two hy hx), leftGram_snoc h h' hA (A' := opT O A) hA hx hy]
  refine Finset.sum_congr rfl fun a ha => Finset.sum_congr rfl fun a' ha' => Finset.sum_congr rfl fun i _ => ?_
  rw [opT_get hA, Finset.mul_sum, Finset.mul_sum]
  refine Finset.sum_congr rfl fun j _ => ?_
  show L.get [a', a] * (A.get [a', j, y] * (O.get [i, j] * ((conjT A).get [a, i, x] * 1))) = _
  rw [hL.2 a (Finset.mem_range.1 ha) a' (Finset.mem_range.1 ha'), conjT_get]
  ring

theorem transferR_ok (E : Env K) {A R : NDArray K} {post post' : List (NDArray K)} {m p k r : Nat}
    {e : List Nat} (hA : A.shape = [m, p, k]) (hR : IsR R post post' k e r) :
    ∃ R', transferR E A R = .ok R' ∧ IsR R' (A :: post) (A :: post') m (p :: e) r := by
  obtain ⟨t, h1, h2, h3⟩ := nconInt_spec E.so (ts := [A, R, conjT A]) (l := [[-1, 2, 1], [1, 3], [-2, 2, 3]])
    (closed := [2, 3, 1]) (out := [-1, -2])
    (dim := fun x => if x = 1 then k else if x = 3 then k else if x = 2 then p else m)
    (by simp) rfl (by
      intro p hp
      simp only [List.zip_cons_cons, List.zip_nil_right, List.mem_cons, List.not_mem_nil, or_false] at hp
      rcases hp with rfl | rfl | rfl
      · exact hA
      · exact hR.1
      · exact hA) (by decide)
  refine ⟨t, h1, h2, fun x hx y hy => ?_⟩
  rw [h3 [y, x] (inB_two hy hx), gram_cons hA hA]
  refine Finset.sum_congr rfl fun i _ => Finset.sum_congr rfl fun c hc => Finset.sum_congr rfl fun c' hc' => ?_
  show A.get [y, i, c'] * (R.get [c', c] * ((conjT A).get [x, i, c] * 1)) = _
  rw [hR.2 c (Finset.mem_range.1 hc) c' (Finset.mem_range.1 hc'), conjT_get]
  ring

theorem startR_ok (E : Env K) {A R O : NDArray K} {post post' : List (NDArray K)} {m p k r : Nat}
    {e : List Nat} (hA : A.shape = [m, p, k]) (hO : O.shape = [p, p]) (hR : IsR R post post' k e r) :
    ∃ R', startR E R A O = .ok R' ∧ IsR R' (A :: post) (opT O A :: post') m (p :: e) r := by
  obtain ⟨t, h1, h2, h3⟩ := nconInt_spec E.so (ts := [R, A, O, conjT A])
    (l := [[1, 3], [-1, 2, 1], [4, 2], [-2, 4, 3]])
    (closed := [4, 3, 1, 2]) (out := [-1, -2])
    (dim := fun x => if x = 1 then k else if x = 3 then k else if x = 2 then p else if x = 4 then p else m)
    (by simp) rfl (by
      intro p hp
      simp only [List.zip_cons_cons, List.zip_nil_right, List.mem_cons, List.not_mem_nil, or_false] at hp
      rcases hp with rfl | rfl | rfl | rfl
      · exact hR.1
      · exact hA
      · exact hO
      · exact hA) (by decide)
  refine ⟨t, h1, h2, fun x hx y hy => ?_⟩
  rw [h3 [y, x] (inB_two hy hx), gram_cons hA (A' := opT O A) hA]
  refine Finset.sum_congr rfl fun i _ => Finset.sum_congr rfl fun c hc => Finset.sum_congr rfl fun c' hc' => ?_
  rw [opT_get hA, Finset.mul_sum, Finset.sum_mul]
  refine Finset.sum_congr rfl fun j _ => ?_
  show R.get [c', c] * (A.get [y, j, c'] * (O.get [i, j] * ((conjT A).get [x, i, c] * 1))) = _
  rw [hR.2 c (Finset.mem_range.1 hc) c' (Finset.mem_range.1 hc'), conjT_get]
  ring

theorem sandwich_ok (E : Env K) {L A O R : NDArray K} {pre pre' post post' : List (NDArray K)}
    {l m p k r : Nat} {d e : List Nat} (h : Bonds pre l d m) (h' : Bonds pre' l d m)
    (hA : A.shape = [m, p, k]) (hO : O.shape = [p, p]) (hL : IsL L pre pre' l d m)
    (hR : IsR R post post' k e r) :
    sandwich E L A O R = .ok (overlap (pre ++ A :: post) (pre' ++ opT O A :: post') l (d ++ p :: e) r) := by
  obtain ⟨t, h1, h2, h3⟩ := nconInt_spec E.so (ts := [L, A, O, conjT A, R])
    (l := [[1, 2], [1, 3, 4], [5, 3], [2, 5, 6], [4, 6]])
    (closed := [2, 1, 5, 6, 4, 3]) (out := [])
    (dim := fun x => if x = 1 then m else if x = 2 then m else if x = 3 then p else if x = 5 then p else k)
    (by simp) rfl (by
      intro p hp
      simp only [List.zip_cons_cons, List.zip_nil_right, List.mem_cons, List.not_mem_nil, or_false] at hp
      rcases hp with rfl | rfl | rfl | rfl | rfl
      · exact hL.1
      · exact hA
      · exact hO
      · exact hA
      · exact hR.1) (by decide)
  unfold sandwich
  rw [h1]
  simp only [bind, Except.bind, pure, Except.pure, Except.ok.injEq]
  rw [h3 [] .nil, overlap_split h h']
  refine Finset.sum_congr rfl fun x hx => Finset.sum_congr rfl fun y hy => ?_
  rw [gram_cons hA (A' := opT O A) hA, Finset.mul_sum]
  refine Finset.sum_congr rfl fun i _ => ?_
  rw [Finset.mul_sum]
  refine Finset.sum_congr rfl fun c hc => ?_
  rw [Finset.mul_sum]
  refine Finset.sum_congr rfl fun c' hc' => ?_
  rw [opT_get hA, Finset.mul_sum, Finset.sum_mul, Finset.mul_sum]
  refine Finset.sum_congr rfl fun j _ => ?_
  show L.get [y, x] * (A.get [y, j, c'] * (O.get [i, j] * ((conjT A).get [x, i, c] * (R.get [c', c] * 1)))) = _
  rw [hL.2 x (Finset.mem_range.1 hx) y (Finset.mem_range.1 hy),
    hR.2 c (Finset.mem_range.1 hc) c' (Finset.mem_range.1 hc'), conjT_get]
  ring

end TN.Mps
