import Verif.MpsProps
import Verif.MpsKernel
import Verif.NconRepeat
import Mathlib.Tactic.IntervalCases
import Mathlib.Analysis.Complex.Basic

/-!
# The canonical form (C38)
-/

set_option linter.unusedSectionVars false

namespace TN.Mps

open TN NDArray Finset Ncon

variable {K : Type} [RCLike K]

/-! ### The norm of the new centre -/

/-- `Z` is the norm of the tensor before the division. -/
def CenterNorm (nz : Bool) (z : ℝ) (C : NDArray K) : Prop :=
  norm C * (if nz then z else 1) = z ∧ (nz = true → z ≠ 0)

theorem pairRight_center {E : Env K} {nz : Bool} {D : Option Nat} {err : Option ℝ}
    {A B A' B' : NDArray K} {z : ℝ} (h : pairRight E nz D err A B = .ok (A', B', z)) :
    CenterNorm nz z B' := by
  unfold pairRight at h
  rcases hf : factorRight E D err (B.shape.getD 0 0) A with e | ⟨Q, T⟩
  · rw [hf] at h; cases h
  rw [hf] at h
  simp only [bind, Except.bind] at h
  rcases ht : nconInt E.so [T, B] [[-1, 1], [1, -2, -3]] with e | t
  · rw [ht] at h; cases h
  rw [ht] at h
  simp only at h
  rcases hr : rescale nz t (norm t) with e | t'
  · rw [hr] at h; cases h
  rw [hr] at h
  simp only [pure, Except.pure, Except.ok.injEq, Prod.mk.injEq] at h
  obtain ⟨_, rfl, rfl⟩ := h
  exact ⟨rescale_norm hr, (rescale_ok hr).2.1⟩

theorem pairLeft_center {E : Env K} {nz : Bool} {D : Option Nat} {err : Option ℝ}
    {A B A' B' : NDArray K} {z : ℝ} (h : pairLeft E nz D err A B = .ok (A', B', z)) :
    CenterNorm nz z A' := by
  unfold pairLeft at h
  rcases hf : factorLeft E D err (B.shape.getD 0 0) B with e | ⟨T, Q⟩
  · rw [hf] at h; cases h
  rw [hf] at h
  simp only [bind, Except.bind] at h
  rcases ht : nconInt E.so [A, T] [[-1, -2, 1], [1, -3]] with e | t
  · rw [ht] at h; cases h
  rw [ht] at h
  simp only at h
  rcases hr : rescale nz t (norm t) with e | t'
  · rw [hr] at h; cases h
  rw [hr] at h
  simp only [pure, Except.pure, Except.ok.injEq, Prod.mk.injEq] at h
  obtain ⟨rfl, _, rfl⟩ := h
  exact ⟨rescale_norm hr, (rescale_ok hr).2.1⟩

theorem sweep_last {f : NDArray K → NDArray K → Py (NDArray K × NDArray K × ℝ)} {P : ℝ → NDArray K → Prop}
    {o : Nat} (ho : o ≤ 1) (hf : ∀ A B A' B' z, f A B = .ok (A', B', z) → P z (if o = 0 then A' else B')) :
    ∀ (ns : List Nat) (n : Nat) (ts ts' : List (NDArray K)) (z0 z : ℝ),
    sweep f (ns ++ [n]) ts z0 = .ok (ts', z) → ∃ C, ts'[n + o]? = some C ∧ P z C := by
  intro ns
  induction ns with
  | nil =>
    intro n ts ts' z0 z h
    obtain ⟨A, B, A', B', z1, hA, hB, hx, h⟩ := sweep_cons h
    cases h
    have h1 := (List.getElem?_eq_some_iff.1 hB).1
    refine ⟨_, ?_, hf A B A' B' _ hx⟩
    obtain rfl | rfl : o = 0 ∨ o = 1 := by omega
    · simp only [add_zero, if_true]
      rw [List.getElem?_set_ne (by omega), List.getElem?_set_self (by omega)]
    · simp only [one_ne_zero, if_false]
      rw [List.getElem?_set_self (by simpa using h1)]
  | cons k ns ih =>
    intro n ts ts' z0 z h
    obtain ⟨A, B, A', B', z1, hA, hB, hx, h⟩ := sweep_cons h
    exact ih n _ ts' z1 z h

/-- The value `position` returns is the norm of the new centre before the last division. -/
theorem position_center {E : Env K} {st st' : State K} {site : Int} {nz : Bool} {D : Option Nat}
    {err : Option ℝ} {z : ℝ} (h : position E st site nz D err = .ok (st', z)) :
    ∃ C, st'.tensors[site.toNat]? = some C ∧ CenterNorm nz z C := by
  unfold position at h
  rcases hc : st.center with _ | c
  · rw [hc] at h; cases h
  rw [hc] at h
  simp only at h
  split_ifs at h with h1 h2 h3 h4
  · rcases hA : st.tensors[c]? with _ | A
    · rw [hA] at h; cases h
    rw [hA] at h
    rcases hr : rescale nz A (norm A) with e | A'
    · simp only [hr, bind, Except.bind] at h; cases h
    simp only [hr, bind, Except.bind, pure, Except.pure, Except.ok.injEq, Prod.mk.injEq] at h
    obtain ⟨rfl, rfl⟩ := h
    refine ⟨A', ?_, rescale_norm hr, (rescale_ok hr).2.1⟩
    rw [h3, Int.toNat_natCast]
    exact List.getElem?_set_self (List.getElem?_eq_some_iff.1 hA).1
  · rcases hs : sweep (pairRight E nz D err) (List.range' c (site.toNat - c)) st.tensors 0 with
      e | ⟨ts', z'⟩
    · rw [hs] at h; cases h
    rw [hs] at h
    simp only [bind, Except.bind, pure, Except.pure, Except.ok.injEq, Prod.mk.injEq] at h
    obtain ⟨rfl, rfl⟩ := h
    obtain ⟨k, hk⟩ : ∃ k, site.toNat - c = k + 1 := ⟨site.toNat - c - 1, by omega⟩
    rw [hk, List.range'_concat] at hs
    obtain ⟨C, g1, g2⟩ := sweep_last (o := 1) (P := fun z C => CenterNorm nz z C) le_rfl
      (fun A B A' B' z hx => pairRight_center hx) _ _ _ _ _ _ hs
    have hst : site.toNat = c + 1 * k + 1 := by omega
    refine ⟨C, ?_, g2⟩
    rw [hst]
    exact g1
  · rcases hs : sweep (pairLeft E nz D err) (List.range' site.toNat (c - site.toNat)).reverse
      st.tensors 0 with e | ⟨ts', z'⟩
    · rw [hs] at h; cases h
    rw [hs] at h
    simp only [bind, Except.bind, pure, Except.pure, Except.ok.injEq, Prod.mk.injEq] at h
    obtain ⟨rfl, rfl⟩ := h
    obtain ⟨k, hk⟩ : ∃ k, c - site.toNat = k + 1 := ⟨c - site.toNat - 1, by omega⟩
    rw [hk, List.range'_succ, List.reverse_cons] at hs
    obtain ⟨C, g1, g2⟩ := sweep_last (o := 0) (P := fun z C => CenterNorm nz z C) zero_le_one
      (fun A B A' B' z hx => pairLeft_center hx) _ _ _ _ _ _ hs
    exact ⟨C, g1, g2⟩

/-! ### C38 -/

theorem position_keeps {E : Env K} (hE : QrOK E) (hS : SvdOK E) {st st' : State K} {c : Nat}
    (hc : st.center = some c) {l : Nat} {ds : List Nat} {r : Nat} (hb : Bonds st.tensors l ds r)
    (hcan : Canonical st.tensors c) {site : Int} {nz : Bool} {D : Option Nat} {err : Option ℝ} {z : ℝ}
    (h : position E st site nz D err = .ok (st', z)) :
    st'.center = some site.toNat ∧ Bonds st'.tensors l ds r ∧ Canonical st'.tensors site.toNat := by
  obtain ⟨s, rfl, h1, h2, h3, h4, h5, h6, h7⟩ := position_canonical hE hS hc hb h
  rw [Int.toNat_natCast]
  refine ⟨h2, h3, fun n A hA => ⟨fun hn => ?_, fun hn => ?_⟩⟩
  · rcases Nat.lt_or_ge n c with hlt | hge
    · rw [h4 n (by omega)] at hA
      exact (hcan n A hA).1 hlt
    · obtain ⟨A', hA', hi⟩ := h6 n hge hn
      rw [hA] at hA'
      cases hA'
      exact hi
  · rcases Nat.lt_or_ge c n with hlt | hge
    · rw [h5 n (by omega)] at hA
      exact (hcan n A hA).2 hlt
    · obtain ⟨A', hA', hi⟩ := h7 n hn hge
      rw [hA] at hA'
      cases hA'
      exact hi

/-- **C38.** Any sequence of calls of `position`, with any normalisation and truncation options, keeps
the canonical form with respect to the recorded centre. -/
theorem C38_moves {E : Env K} (hE : QrOK E) (hS : SvdOK E) {l : Nat} {ds : List Nat} {r : Nat} :
    ∀ (moves : List (Int × Bool × Option Nat × Option ℝ)) (st st' : State K) (c : Nat),
    st.center = some c → Bonds st.tensors l ds r → Canonical st.tensors c →
    positions E st moves = .ok st' →
    ∃ c', st'.center = some c' ∧ Bonds st'.tensors l ds r ∧ Canonical st'.tensors c' := by
  intro moves
  induction moves with
  | nil =>
    intro st st' c hc hb hcan h
    cases h
    exact ⟨c, hc, hb, hcan⟩
  | cons x moves ih =>
    intro st st' c hc hb hcan h
    obtain ⟨site, nz, D, err⟩ := x
    rw [positions] at h
    rcases hp : position E st site nz D err with e | ⟨st1, z⟩
    · rw [hp] at h; cases h
    rw [hp] at h
    obtain ⟨g1, g2, g3⟩ := position_keeps hE hS hc hb hcan hp
    exact ih st1 st' _ g1 g2 g3 h

/-- Two sweeps over the whole chain give the canonical form, whatever the tensors were. -/
theorem two_sweeps {E : Env K} (hE : QrOK E) (hS : SvdOK E) {ts : List (NDArray K)} {l : Nat}
    {ds : List Nat} {r : Nat} (hb : Bonds ts l ds r) {c0 : Nat} {far site : Int} {nz nz' : Bool}
    (hfar : (c0 = 0 ∧ far = (ts.length : Int) - 1) ∨ (c0 = ts.length - 1 ∧ far = 0))
    {st1 st2 : State K} {z1 z2 : ℝ} (h1 : position E ⟨ts, some c0⟩ far nz none none = .ok (st1, z1))
    (h2 : position E st1 site nz' none none = .ok (st2, z2)) :
    st2.center = some site.toNat ∧ Bonds st2.tensors l ds r ∧ Canonical st2.tensors site.toNat := by
  obtain ⟨s, e1, e2, e3, e4, e5, e6, e7, e8⟩ := position_canonical hE hS rfl hb h1
  have hlen : st1.tensors.length = ts.length := by rw [← e4.length, hb.length]
  refine position_keeps hE hS e3 e4 (fun n A hA => ⟨fun hn => ?_, fun hn => ?_⟩) h2
  · have hlt := (List.getElem?_eq_some_iff.1 hA).1
    rcases hfar with ⟨rfl, hf⟩ | ⟨rfl, hf⟩
    · obtain ⟨A', hA', hi⟩ := e7 n (by omega) hn
      rw [hA] at hA'
      cases hA'
      exact hi
    · omega
  · have hlt := (List.getElem?_eq_some_iff.1 hA).1
    rcases hfar with ⟨rfl, hf⟩ | ⟨rfl, hf⟩
    · omega
    · obtain ⟨A', hA', hi⟩ := e8 n hn (by omega)
      rw [hA] at hA'
      cases hA'
      exact hi

/-- The state is canonical with respect to its recorded centre and has norm one. -/
structure Normalized (st : State K) (c l : Nat) (ds : List Nat) (r : Nat) : Prop where
  center : st.center = some c
  bonds : Bonds st.tensors l ds r
  canonical : Canonical st.tensors c
  norm : normSq st.tensors l ds r = 1

theorem two_sweeps_total {E : Env K} (hE : QrOK E) (hS : SvdOK E) {ts : List (NDArray K)} {l : Nat}
    {ds : List Nat} {r : Nat} (hb : Bonds ts l ds r) (hz : Nonzero ts l ds r) {c0 : Nat} {far site : Int}
    (hfar : (c0 = 0 ∧ far = (ts.length : Int) - 1) ∨ (c0 = ts.length - 1 ∧ far = 0))
    (h0 : 0 ≤ site) (h1 : site < ts.length) :
    ∃ st1 z1 st2 z2, position E ⟨ts, some c0⟩ far true none none = .ok (st1, z1) ∧
      position E st1 site true none none = .ok (st2, z2) ∧ Normalized st2 site.toNat l ds r ∧
      ∃ s : ℝ, 0 < s ∧ ∀ a < l, ∀ is, InB ds is → ∀ b, amp ts a is b = (s : K) * amp st2.tensors a is b := by
  obtain ⟨st1, z1, g1, g2, g3, s, g4, _, g6⟩ := position_exact (st := ⟨ts, some c0⟩) hE rfl
    (by simp only; omega) hb (site := far) (by omega) (by simp only; omega) true (fun _ => hz)
  have hlen : st1.tensors.length = ts.length := by rw [← g3.length, hb.length]
  have hz1 : Nonzero st1.tensors l ds r := by
    obtain ⟨a, ha, is, his, b, hbr, hne⟩ := hz
    refine ⟨a, ha, is, his, b, hbr, fun h => hne ?_⟩
    rw [g6 a ha is his b, h, mul_zero]
  obtain ⟨st2, z2, k1, k2, k3, s', k4, _, k6⟩ := position_exact hE g2 (by rw [hlen]; omega) g3
    (site := site) h0 (by rw [hlen]; omega) true (fun _ => hz1)
  obtain ⟨c1, c2, c3⟩ := two_sweeps hE hS hb hfar g1 k1
  obtain ⟨C, d1, d2, d3⟩ := position_center k1
  refine ⟨st1, z1, st2, z2, g1, k1, ⟨c1, c2, c3, ?_⟩, s * s', mul_pos g4 k4, fun a ha is his b => ?_⟩
  · rw [c3.normSq d1 c2]
    simp only [if_true] at d2
    have : norm C = 1 := mul_right_cancel₀ (d3 rfl) (by rw [d2, one_mul])
    rw [this, one_pow]
  · rw [g6 a ha is his b, k6 a ha is his b]
    simp [mul_assoc]

/-- **C38**, construction: `FiniteMPS(tensors, center_position)` with canonicalisation succeeds for
every nonzero state and every valid centre; the state is normalised, in canonical form with respect to
the recorded centre, and proportional to the product of the given tensors. -/
theorem C38_init {E : Env K} (hE : QrOK E) (hS : SvdOK E) {ts : List (NDArray K)} {l : Nat}
    {ds : List Nat} {r : Nat} (hb : Bonds ts l ds r) (hz : Nonzero ts l ds r) (hne : ts ≠ [])
    {center : Option Int} (hc : ∀ c, center = some c → 0 ≤ c ∧ c < ts.length) :
    ∃ st, init E ts center true = .ok st ∧ Normalized st (center.getD 0).toNat l ds r ∧
      ∃ s : ℝ, 0 < s ∧ ∀ a < l, ∀ is, InB ds is → ∀ b, amp ts a is b = (s : K) * amp st.tensors a is b := by
  have hpos : 0 < ts.length := List.length_pos_iff.2 hne
  have h0 : 0 ≤ center.getD 0 ∧ center.getD 0 < ts.length := by
    cases center with
    | none => simp; omega
    | some c => simpa using hc c rfl
  have hany : center.any (fun c : Int => decide (c < 0 ∨ c ≥ ts.length)) = false := by
    cases center with
    | none => rfl
    | some c =>
      have := hc c rfl
      simp only [Option.any_some, decide_eq_false_iff_not]
      omega
  unfold init
  rw [hany]
  simp only [Bool.false_eq_true, if_false, Bool.true_eq_false, and_false, if_true]
  by_cases h : center.getD 0 = (ts.length : Int) - 1
  · rw [if_pos h]
    obtain ⟨st1, z1, st2, z2, g1, g2, g3, g4⟩ := two_sweeps_total hE hS hb hz
      (c0 := ts.length - 1) (far := 0) (site := (ts.length : Int) - 1) (Or.inr ⟨rfl, rfl⟩) (by omega) (by omega)
    rw [g1]
    simp only [bind, Except.bind, g2]
    rw [h]
    exact ⟨st2, rfl, g3, g4⟩
  · rw [if_neg h]
    obtain ⟨st1, z1, st2, z2, g1, g2, g3, g4⟩ := two_sweeps_total hE hS hb hz
      (c0 := 0) (far := (ts.length : Int) - 1) (site := center.getD 0) (Or.inl ⟨rfl, rfl⟩) h0.1 h0.2
    rw [g1]
    simp only [bind, Except.bind, g2]
    exact ⟨st2, rfl, g3, g4⟩

/-- **C38**, `canonicalize(normalize=False)`: the result is canonical, the state is unchanged and the
returned value is the norm of the state. -/
theorem C38_canonicalize {E : Env K} (hE : QrOK E) (hS : SvdOK E) {st : State K} {l : Nat}
    {ds : List Nat} {r : Nat} (hb : Bonds st.tensors l ds r) (hne : st.tensors ≠ [])
    (hc : ∀ c, st.center = some c → c < st.tensors.length) :
    ∃ st' z, canonicalize E st false = .ok (st', z) ∧ st'.center = some (st.center.getD 0) ∧
      Bonds st'.tensors l ds r ∧ Canonical st'.tensors (st.center.getD 0) ∧
      (∀ a < l, ∀ is, InB ds is → ∀ b, amp st'.tensors a is b = amp st.tensors a is b) ∧
      z = Real.sqrt (normSq st.tensors l ds r) := by
  have hpos : 0 < st.tensors.length := List.length_pos_iff.2 hne
  have hnorm : ∀ (st' : State K) (z : ℝ) (c : Nat) (C : NDArray K), Bonds st'.tensors l ds r →
      Canonical st'.tensors c → st'.tensors[c]? = some C → CenterNorm false z C →
      (∀ a < l, ∀ is, InB ds is → ∀ b, amp st'.tensors a is b = amp st.tensors a is b) →
      z = Real.sqrt (normSq st.tensors l ds r) := by
    intro st' z c C h1 h2 h3 h4 h5
    have h6 : normSq st.tensors l ds r = normSq st'.tensors l ds r := by
      unfold normSq
      refine Finset.sum_congr rfl fun a ha => sumIdx_congr fun is his => Finset.sum_congr rfl fun b _ => ?_
      rw [h5 a (Finset.mem_range.1 ha) is his b]
    rw [h6, h2.normSq h3 h1, Real.sqrt_sq (norm_nonneg C)]
    simpa using h4.1.symm
  have main : ∀ (c0 : Nat) (far : Int) (pos : Nat), pos < st.tensors.length →
      ((c0 = 0 ∧ far = (st.tensors.length : Int) - 1) ∨ (c0 = st.tensors.length - 1 ∧ far = 0)) →
      ∃ st1 z1 st2 z2, position E ⟨st.tensors, some c0⟩ far false none none = .ok (st1, z1) ∧
        position E st1 pos false none none = .ok (st2, z2) ∧ st2.center = some pos ∧
        Bonds st2.tensors l ds r ∧ Canonical st2.tensors pos ∧
        (∀ a < l, ∀ is, InB ds is → ∀ b, amp st2.tensors a is b = amp st.tensors a is b) ∧
        z2 = Real.sqrt (normSq st.tensors l ds r) := by
    intro c0 far pos hp hfar
    obtain ⟨st1, z1, g1, g2, g3, s, _, g5, g6⟩ := position_exact (st := ⟨st.tensors, some c0⟩) hE rfl
      (by simp only; omega) hb (site := far) (by omega) (by simp only; omega) false (by simp)
    have hlen : st1.tensors.length = st.tensors.length := by rw [← g3.length, hb.length]
    obtain ⟨st2, z2, k1, k2, k3, s', _, k5, k6⟩ := position_exact hE g2 (by rw [hlen]; omega) g3
      (site := pos) (by omega) (by rw [hlen]; omega) false (by simp)
    obtain ⟨c1, c2, c3⟩ := two_sweeps hE hS hb hfar g1 k1
    obtain ⟨C, d1, d2⟩ := position_center k1
    rw [Int.toNat_natCast] at c1 c3 d1
    have hamp : ∀ a < l, ∀ is, InB ds is → ∀ b, amp st2.tensors a is b = amp st.tensors a is b := by
      intro a ha is his b
      rw [g6 a ha is his b, k6 a ha is his b, g5 rfl, k5 rfl]
      simp
    exact ⟨st1, z1, st2, z2, g1, k1, c1, c2, c3, hamp, hnorm st2 z2 pos C c2 c3 d1 d2 hamp⟩
  unfold canonicalize
  rcases hcc : st.center with _ | pos
  · simp only [Option.getD_none]
    obtain ⟨st1, z1, g1, g2, g3, s, _, g5, g6⟩ := position_exact
      (st := ⟨st.tensors, some (st.tensors.length - 1)⟩) hE rfl
      (by simp only; omega) hb (site := 0) le_rfl (by simp only; omega) false (by simp)
    obtain ⟨s', e1, e2, e3, e4, e5, e6, e7, e8⟩ := position_canonical
      (st := ⟨st.tensors, some (st.tensors.length - 1)⟩) hE hS rfl hb g1
    obtain rfl : s' = 0 := by omega
    have hlen : st1.tensors.length = st.tensors.length := by rw [← g3.length, hb.length]
    have hcan : Canonical st1.tensors 0 := fun n A hA => ⟨fun hn => by omega, fun hn => by
      obtain ⟨A', hA', hi⟩ := e8 n hn (by
        have := (List.getElem?_eq_some_iff.1 hA).1
        omega)
      rw [hA] at hA'
      cases hA'
      exact hi⟩
    obtain ⟨C, d1, d2⟩ := position_center g1
    have hamp : ∀ a < l, ∀ is, InB ds is → ∀ b, amp st1.tensors a is b = amp st.tensors a is b := by
      intro a ha is his b
      rw [g6 a ha is his b, g5 rfl]
      simp
    exact ⟨st1, z1, g1, g2, g3, hcan, hamp, hnorm st1 z1 0 C g3 hcan d1 d2 hamp⟩
  · simp only [Option.getD_some]
    split_ifs with h
    · obtain ⟨st1, z1, st2, z2, g1, g2, g3⟩ := main 0 _ pos (hc pos hcc) (Or.inl ⟨rfl, rfl⟩)
      rw [g1]
      exact ⟨st2, z2, g2, g3⟩
    · obtain ⟨st1, z1, st2, z2, g1, g2, g3⟩ := main _ 0 pos (hc pos hcc) (Or.inr ⟨rfl, rfl⟩)
      rw [g1]
      exact ⟨st2, z2, g2, g3⟩

/-! ### A concrete state -/

/-- The Bell state: amplitudes `δ i j`. -/
noncomputable def bell (K : Type) [RCLike K] : List (NDArray K) :=
  [⟨[1, 2, 2], fun i => if i.getD 1 0 = i.getD 2 0 then 1 else 0⟩,
   ⟨[2, 2, 1], fun i => if i.getD 0 0 = i.getD 1 0 then 1 else 0⟩]

theorem bell_bonds : Bonds (bell K) 1 [2, 2] 1 :=
  ⟨2, 2, [2], rfl, rfl, 2, 1, [], rfl, rfl, rfl, rfl⟩

theorem bell_amp {i j : Nat} (hi : i < 2) (_ : j < 2) : amp (bell K) 0 [i, j] 0 = if i = j then 1 else 0 := by
  simp only [bell, amp, List.getD_cons_succ, List.getD_cons_zero, Finset.sum_range_succ, Finset.sum_range_zero]
  interval_cases i <;> interval_cases j <;> simp

theorem bell_nonzero : Nonzero (bell K) 1 [2, 2] 1 :=
  ⟨0, one_pos, [0, 0], .cons (by decide) (.cons (by decide) .nil), 0, one_pos, by
    rw [bell_amp (by decide) (by decide)]; simp⟩

theorem bell_normSq : normSq (bell K) 1 [2, 2] 1 = 2 := by
  simp only [normSq, sumIdx, Finset.sum_range_succ, Finset.sum_range_zero, zero_add,
    bell_amp (K := K) (show 0 < 2 by decide) (show 0 < 2 by decide),
    bell_amp (K := K) (show 0 < 2 by decide) (show 1 < 2 by decide),
    bell_amp (K := K) (show 1 < 2 by decide) (show 0 < 2 by decide),
    bell_amp (K := K) (show 1 < 2 by decide) (show 1 < 2 by decide)]
  norm_num

/-- C37 at a concrete state. -/
example : ∃ st' z, position (exactEnv ℂ Ncon.soId) ⟨bell ℂ, some 0⟩ 1 false none none = .ok (st', z) ∧
    ∀ i < 2, ∀ j < 2, amp st'.tensors 0 [i, j] 0 = if i = j then 1 else 0 := by
  obtain ⟨st', z, h, _, _, ha⟩ := C37_position (exactEnv_qr (K := ℂ) Ncon.soId) (st := ⟨bell ℂ, some 0⟩)
    rfl (by decide) bell_bonds (site := 1) (by decide) (by decide)
  refine ⟨st', z, h, fun i hi j hj => ?_⟩
  rw [ha 0 one_pos [i, j] (.cons hi (.cons hj .nil)) 0 one_pos, bell_amp hi hj]

/-- C37 for a sequence of moves at a concrete state. -/
example : ∃ st', positions (exactEnv ℂ Ncon.soId) ⟨bell ℂ, some 0⟩
    [(1, true, none, none), (0, false, none, none), (1, true, none, none)] = .ok st' ∧
    st'.center = some 1 := by
  obtain ⟨st', h, _, hc, _⟩ := C37_moves (exactEnv_qr (K := ℂ) Ncon.soId)
    [(1, true, none, none), (0, false, none, none), (1, true, none, none)] ⟨bell ℂ, some 0⟩ 0 rfl
    (by decide) bell_bonds (by simp [bell]) (Or.inr bell_nonzero)
  exact ⟨st', h, by simpa using hc⟩

/-- C38 (construction) at a concrete state. -/
example : ∃ st, init (exactEnv ℂ Ncon.soId) (bell ℂ) (some 1) true = .ok st ∧ Normalized st 1 1 [2, 2] 1 := by
  obtain ⟨st, h, hn, _⟩ := C38_init (exactEnv_qr (K := ℂ) Ncon.soId) (exactEnv_svd Ncon.soId) bell_bonds
    bell_nonzero (by simp [bell]) (center := some 1) (by simp [bell])
  exact ⟨st, h, hn⟩

/-- C38 (moves) at a concrete state: the constructor's result meets the hypotheses. -/
example : ∃ st, init (exactEnv ℂ Ncon.soId) (bell ℂ) (some 1) true = .ok st ∧ ∀ st',
    positions (exactEnv ℂ Ncon.soId) st [(0, false, some 1, none), (1, true, none, some (1 / 2))] = .ok st' →
    ∃ c, st'.center = some c ∧ Canonical st'.tensors c := by
  obtain ⟨st, h, hn, _⟩ := C38_init (exactEnv_qr (K := ℂ) Ncon.soId) (exactEnv_svd Ncon.soId) bell_bonds
    bell_nonzero (by simp [bell]) (center := some 1) (by simp [bell])
  refine ⟨st, h, fun st' h' => ?_⟩
  obtain ⟨c, h1, _, h2⟩ := C38_moves (exactEnv_qr (K := ℂ) Ncon.soId) (exactEnv_svd Ncon.soId) _ st st' _
    hn.center hn.bonds hn.canonical h'
  exact ⟨c, h1, h2⟩

/-- C38 (`canonicalize`) at a concrete state. -/
example : ∃ st', canonicalize (exactEnv ℂ Ncon.soId) ⟨bell ℂ, none⟩ false = .ok (st', Real.sqrt 2) := by
  obtain ⟨st', z, h, _, _, _, _, hz⟩ := C38_canonicalize (exactEnv_qr (K := ℂ) Ncon.soId)
    (exactEnv_svd Ncon.soId) (st := ⟨bell ℂ, none⟩) bell_bonds (by simp [bell]) (by simp)
  refine ⟨st', ?_⟩
  rw [h, hz, bell_normSq]

/-- The documentation of `canonicalize` says that it returns the norm of the MPS.  With
`normalize=True`, the default, and a recorded centre it does not: whatever the kernels, for the Bell
state of norm `√2` it returns one. -/
theorem C38_canonicalize_norm_false {E : Env K} (hE : QrOK E) (hS : SvdOK E) :
    ∃ st' z, canonicalize E ⟨bell K, some 0⟩ true = .ok (st', z) ∧
      z ≠ Real.sqrt (normSq (bell K) 1 [2, 2] 1) := by
  obtain ⟨st1, z1, st2, z2, g1, g2, g3, _⟩ := two_sweeps_total hE hS (bell_bonds (K := K)) bell_nonzero
    (c0 := 1) (far := 0) (site := 0) (Or.inr ⟨rfl, rfl⟩) le_rfl (by simp [bell])
  refine ⟨st2, z2, ?_, ?_⟩
  · unfold canonicalize
    have hlen : (bell K).length = 2 := rfl
    simp only [hlen]
    have h0 : ¬ ((0 : Nat) ≥ 2 / 2) := by decide
    refine (if_neg h0).trans ?_
    have g1' : position E ⟨bell K, some (2 - 1)⟩ 0 true none none = .ok (st1, z1) := g1
    rw [g1']
    exact g2
  · obtain ⟨C, d1, d2, d3⟩ := position_center g1
    have hst : st1.center = some 0 := by
      obtain ⟨s, h1, _, h2, _⟩ := position_canonical hE hS rfl (bell_bonds (K := K)) g1
      obtain rfl : s = 0 := by omega
      exact h2
    have hC : norm C = 1 := by
      simp only [if_true] at d2
      exact mul_right_cancel₀ (d3 rfl) (by rw [d2, one_mul])
    have hz2 : z2 = 1 := by
      unfold position at g2
      rw [hst] at g2
      simp only [Option.any_none, Bool.false_eq_true, if_false] at g2
      have d1' : st1.tensors[0]? = some C := d1
      have hl := (List.getElem?_eq_some_iff.1 d1').1
      rw [if_neg (by omega), if_pos (by simp), d1'] at g2
      rcases hr : rescale true C (norm C) with e | A'
      · simp only [hr, bind, Except.bind] at g2; cases g2
      simp only [hr, bind, Except.bind, pure, Except.pure, Except.ok.injEq, Prod.mk.injEq] at g2
      rw [← g2.2, hC]
    rw [hz2, bell_normSq]
    intro h
    have := congrArg (fun x => x ^ 2) h
    norm_num at this

end TN.Mps
