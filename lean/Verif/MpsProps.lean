import Verif.MpsOverlap
import Verif.MpsKernel

/-!
# Moving the orthogonality centre (C37, C38)
-/

set_option linter.unusedSectionVars false

namespace TN.Mps

open TN NDArray Finset Ncon

variable {K : Type} [RCLike K]

theorem exactRight {E : Env K} (hE : QrOK E) (nz : Bool) : ExactStep (pairRight E nz none none) nz := by
  rintro A B ⟨l, p, m, q, r, hA, hB⟩ hz
  obtain ⟨A', B', z, h1, h2⟩ := pairRight_exact hE hA hB hz
  exact ⟨A', B', z, h1, h2.nonneg, h2.nonzero, h2.prod⟩

theorem exactLeft {E : Env K} (hE : QrOK E) (nz : Bool) : ExactStep (pairLeft E nz none none) nz := by
  rintro A B ⟨l, p, m, q, r, hA, hB⟩ hz
  obtain ⟨A', B', z, h1, h2⟩ := pairLeft_exact hE hA hB hz
  exact ⟨A', B', z, h1, h2.nonneg, h2.nonzero, h2.prod⟩

/-- Rescaling one tensor rescales the state. -/
theorem amp_scale {ts : List (NDArray K)} : ∀ {l : Nat} {ds : List Nat} {r : Nat}, Bonds ts l ds r →
    ∀ {n : Nat} {A A' : NDArray K} {s : K}, ts[n]? = some A → A'.shape = A.shape →
    (∀ i, A.get i = s * A'.get i) → Bonds (ts.set n A') l ds r ∧
    ∀ a is b, amp ts a is b = s * amp (ts.set n A') a is b := by
  induction ts with
  | nil => intro l ds r _ n A A' s h; simp at h
  | cons X ts ih =>
    rintro l ds r ⟨p, m, ds', rfl, h1, h2⟩ n A A' s hA hsh hg
    cases n with
    | zero =>
      simp only [List.getElem?_cons_zero, Option.some.injEq] at hA
      subst hA
      refine ⟨⟨p, m, ds', rfl, hsh.trans h1, h2⟩, fun a is b => ?_⟩
      cases is with
      | nil => simp [amp]
      | cons i is =>
        show _ = s * amp (A' :: ts) _ _ _
        rw [amp_cons h1, amp_cons (hsh.trans h1), Finset.mul_sum]
        refine Finset.sum_congr rfl fun c _ => ?_
        rw [hg, mul_assoc]
    | succ n =>
      obtain ⟨g1, g2⟩ := ih h2 (by simpa using hA) hsh hg
      refine ⟨⟨p, m, ds', rfl, h1, g1⟩, fun a is b => ?_⟩
      cases is with
      | nil => simp [amp]
      | cons i is =>
        show _ = s * amp (X :: ts.set n A') _ _ _
        rw [amp_cons h1, amp_cons h1, Finset.mul_sum]
        refine Finset.sum_congr rfl fun c _ => ?_
        rw [g2]
        ring

/-- A tensor that vanishes makes the state vanish. -/
theorem norm_ne_zero {ts : List (NDArray K)} {l : Nat} {ds : List Nat} {r : Nat}
    (hb : Bonds ts l ds r) (hz : Nonzero ts l ds r) {n : Nat} {A : NDArray K} (hA : ts[n]? = some A) :
    norm A ≠ 0 := by
  intro h0
  obtain ⟨a, ha, is, his, b, _, hne⟩ := hz
  refine hne ?_
  clear hne
  revert l ds is a n A
  induction ts with
  | nil => intro l ds hb n A hA; simp at hA
  | cons X ts ih =>
    rintro l ds ⟨p, m, ds', rfl, h1, h2⟩ n A hA h0 a ha is his
    cases his with
    | cons hi his =>
    rename_i i is
    rw [amp_cons h1]
    refine Finset.sum_eq_zero fun c hc => ?_
    cases n with
    | zero =>
      simp only [List.getElem?_cons_zero, Option.some.injEq] at hA
      subst hA
      rw [norm_eq_zero h0 (by rw [h1]; exact inB_three ha hi (Finset.mem_range.1 hc)), zero_mul]
    | succ n =>
      rw [ih h2 (by simpa using hA) h0 c (Finset.mem_range.1 hc) is his, mul_zero]

/-- `position` without truncation: it succeeds, records the new centre, and keeps the state up to a
positive factor, which is one if nothing is normalised. -/
theorem position_exact {E : Env K} (hE : QrOK E) {st : State K} {c : Nat} (hc : st.center = some c)
    (hcl : c < st.tensors.length) {l : Nat} {ds : List Nat} {r : Nat} (hb : Bonds st.tensors l ds r)
    {site : Int} (h0 : 0 ≤ site) (h1 : site < st.tensors.length) (nz : Bool)
    (hz : nz = true → Nonzero st.tensors l ds r) :
    ∃ st' z, position E st site nz none none = .ok (st', z) ∧ st'.center = some site.toNat ∧
      Bonds st'.tensors l ds r ∧ ∃ s : ℝ, 0 < s ∧ (nz = false → s = 1) ∧
      ∀ a < l, ∀ is, InB ds is → ∀ b, amp st.tensors a is b = (s : K) * amp st'.tensors a is b := by
  unfold position
  rw [hc]
  simp only [Option.any_none, Bool.false_eq_true, if_false]
  rw [if_neg (by omega)]
  by_cases h2 : site = c
  · rw [if_pos h2]
    obtain ⟨A, hA⟩ : ∃ A, st.tensors[c]? = some A := ⟨_, List.getElem?_eq_getElem hcl⟩
    have hnz : nz = true → norm A ≠ 0 := fun h => norm_ne_zero hb (hz h) hA
    obtain ⟨A', hA'⟩ := rescale_total A hnz
    obtain ⟨r1, _, r3⟩ := rescale_ok hA'
    obtain ⟨g1, g2⟩ := amp_scale hb hA r1 r3
    simp only [hA, hA', bind, Except.bind, pure, Except.pure]
    refine ⟨_, _, rfl, by simp [h2], g1, if nz then norm A else 1, ?_, fun h => by simp [h], ?_⟩
    · cases nz with
      | false => simp
      | true => simpa using lt_of_le_of_ne (norm_nonneg A) (Ne.symm (hnz rfl))
    · intro a _ is _ b
      rw [g2 a is b]
      cases nz <;> simp
  · rw [if_neg h2]
    by_cases h3 : site > c
    · rw [if_pos h3]
      obtain ⟨ts', z, k1, k2, k3⟩ := sweep_exact (exactRight hE nz)
        (List.range' c (site.toNat - c)) st.tensors 0 hb hz (fun n hn => by
          simp only [List.mem_range'_1] at hn; omega)
      rw [k1]
      exact ⟨_, _, rfl, rfl, k2, k3⟩
    · rw [if_neg h3]
      obtain ⟨ts', z, k1, k2, k3⟩ := sweep_exact (exactLeft hE nz)
        (List.range' site.toNat (c - site.toNat)).reverse st.tensors 0 hb hz (fun n hn => by
          simp only [List.mem_reverse, List.mem_range'_1] at hn; omega)
      rw [k1]
      exact ⟨_, _, rfl, rfl, k2, k3⟩

/-- A successful `position` keeps the canonical form, with any truncation. -/
theorem position_canonical {E : Env K} (hE : QrOK E) (hS : SvdOK E) {st st' : State K} {c : Nat}
    (hc : st.center = some c) {l : Nat} {ds : List Nat} {r : Nat} (hb : Bonds st.tensors l ds r)
    {site : Int} {nz : Bool} {D : Option Nat} {err : Option ℝ} {z : ℝ}
    (h : position E st site nz D err = .ok (st', z)) :
    ∃ s : Nat, site = s ∧ s < st'.tensors.length ∧ st'.center = some s ∧ Bonds st'.tensors l ds r ∧
      (∀ n < min c s, st'.tensors[n]? = st.tensors[n]?) ∧
      (∀ n, max c s < n → st'.tensors[n]? = st.tensors[n]?) ∧
      (∀ n, c ≤ n → n < s → ∃ A, st'.tensors[n]? = some A ∧ LeftIso A) ∧
      (∀ n, s < n → n ≤ c → ∃ A, st'.tensors[n]? = some A ∧ RightIso A) := by
  unfold position at h
  rw [hc] at h
  simp only at h
  split_ifs at h with h1 h2 h3 h4
  · rcases hA : st.tensors[c]? with _ | A
    · rw [hA] at h; cases h
    rw [hA] at h
    rcases hr : rescale nz A (norm A) with e | A'
    · simp only [hr, bind, Except.bind] at h; cases h
    simp only [hr, bind, Except.bind, pure, Except.pure, Except.ok.injEq, Prod.mk.injEq] at h
    obtain ⟨rfl, _⟩ := h
    obtain ⟨r1, _, r3⟩ := rescale_ok hr
    obtain ⟨g1, g2⟩ := amp_scale hb hA r1 r3
    refine ⟨c, h3, ?_, rfl, g1, fun n hn => ?_, fun n hn => ?_, fun n h5 h6 => by omega,
      fun n h5 h6 => by omega⟩
    · simpa using (List.getElem?_eq_some_iff.1 hA).1
    · exact List.getElem?_set_ne (by omega)
    · exact List.getElem?_set_ne (by omega)
  · rcases hs : sweep (pairRight E nz D err) (List.range' c (site.toNat - c)) st.tensors 0 with
      e | ⟨ts', z'⟩
    · rw [hs] at h; cases h
    rw [hs] at h
    simp only [bind, Except.bind, pure, Except.pure, Except.ok.injEq, Prod.mk.injEq] at h
    obtain ⟨rfl, _⟩ := h
    obtain ⟨k1, k2, k3, k4⟩ := sweep_right (fun A B A' B' z ⟨l, p, m, q, r, hA, hB⟩ hx =>
      pairRight_iso hE hS hA hB hx) _ _ _ _ _ _ hb hs
    have hlen : ts'.length = st.tensors.length := by rw [← k1.length, hb.length]
    refine ⟨site.toNat, by omega, by simp only [hlen]; omega, rfl, k1, fun n hn => k2 n (by omega),
      fun n hn => k3 n (by omega), fun n h5 h6 => k4 n h5 (by omega), fun n h5 h6 => by omega⟩
  · rcases hs : sweep (pairLeft E nz D err) (List.range' site.toNat (c - site.toNat)).reverse
      st.tensors 0 with e | ⟨ts', z'⟩
    · rw [hs] at h; cases h
    rw [hs] at h
    simp only [bind, Except.bind, pure, Except.pure, Except.ok.injEq, Prod.mk.injEq] at h
    obtain ⟨rfl, _⟩ := h
    obtain ⟨k1, k2, k3, k4⟩ := sweep_left (fun A B A' B' z ⟨l, p, m, q, r, hA, hB⟩ hx =>
      pairLeft_iso hE hS hA hB hx) _ _ _ _ _ _ hb hs
    have hlen : ts'.length = st.tensors.length := by rw [← k1.length, hb.length]
    refine ⟨site.toNat, by omega, by simp only [hlen]; omega, rfl, k1, fun n hn => k2 n (by omega),
      fun n hn => k3 n (by omega), fun n h5 h6 => by omega, fun n h5 h6 => k4 n h5 (by omega)⟩

/-! ### C37 -/

/-- A sequence of calls `position(site, normalize, D, max_truncation_err)`. -/
noncomputable def positions (E : Env K) : State K → List (Int × Bool × Option Nat × Option ℝ) → Py (State K)
  | st, [] => .ok st
  | st, (site, nz, D, err) :: l => do
    let (st, _) ← position E st site nz D err
    positions E st l

/-- **C37.** `position(site, normalize=False)` succeeds for every site of the chain and every valid
QR factorisation, records `site` as the centre and leaves every amplitude of the state unchanged. -/
theorem C37_position {E : Env K} (hE : QrOK E) {st : State K} {c : Nat} (hc : st.center = some c)
    (hcl : c < st.tensors.length) {l : Nat} {ds : List Nat} {r : Nat} (hb : Bonds st.tensors l ds r)
    {site : Int} (h0 : 0 ≤ site) (h1 : site < st.tensors.length) :
    ∃ st' z, position E st site false none none = .ok (st', z) ∧ st'.center = some site.toNat ∧
      Bonds st'.tensors l ds r ∧
      ∀ a < l, ∀ is, InB ds is → ∀ b < r, amp st'.tensors a is b = amp st.tensors a is b := by
  obtain ⟨st', z, g1, g2, g3, s, _, g5, g6⟩ := position_exact hE hc hcl hb h0 h1 false (by simp)
  refine ⟨st', z, g1, g2, g3, fun a ha is his b _ => ?_⟩
  rw [g6 a ha is his b, g5 rfl]
  simp

/-- **C37**, any sequence of moves: without truncation the moves succeed and keep a nonzero state up to a
positive factor; the factor is one if no move normalises. -/
theorem C37_moves {E : Env K} (hE : QrOK E) {l : Nat} {ds : List Nat} {r : Nat} :
    ∀ (moves : List (Int × Bool × Option Nat × Option ℝ)) (st : State K) (c : Nat), st.center = some c →
    c < st.tensors.length → Bonds st.tensors l ds r →
    (∀ x ∈ moves, 0 ≤ x.1 ∧ x.1 < st.tensors.length ∧ x.2.2 = (none, none)) →
    ((∀ x ∈ moves, x.2.1 = false) ∨ Nonzero st.tensors l ds r) →
    ∃ st', positions E st moves = .ok st' ∧ Bonds st'.tensors l ds r ∧
      st'.center = some ((moves.getLast?.map (fun x => x.1.toNat)).getD c) ∧
      ∃ s : ℝ, 0 < s ∧ ((∀ x ∈ moves, x.2.1 = false) → s = 1) ∧
        ∀ a < l, ∀ is, InB ds is → ∀ b, amp st.tensors a is b = (s : K) * amp st'.tensors a is b := by
  intro moves
  induction moves with
  | nil =>
    intro st c hc _ hb _ _
    exact ⟨st, rfl, hb, by simpa using hc, 1, one_pos, fun _ => rfl, fun a _ is _ b => by simp⟩
  | cons x moves ih =>
    intro st c hc hcl hb hm hz
    obtain ⟨site, nz, D, err⟩ := x
    obtain ⟨h0, h1, h2⟩ := hm _ (List.mem_cons_self ..)
    simp only [Prod.mk.injEq] at h0 h1 h2
    obtain ⟨rfl, rfl⟩ := h2
    obtain ⟨st1, z, g1, g2, g3, s, g4, g5, g6⟩ := position_exact hE hc hcl hb h0 h1 nz (fun h => by
      rcases hz with hz | hz
      · have := hz _ (List.mem_cons_self ..)
        simp only at this
        rw [this] at h
        cases h
      · exact hz)
    have hlen : st1.tensors.length = st.tensors.length := by rw [← g3.length, hb.length]
    obtain ⟨st2, k1, k2, k3, s', k4, k5, k6⟩ := ih st1 site.toNat g2 (by rw [hlen]; omega) g3
      (fun y hy => by rw [hlen]; exact hm y (List.mem_cons_of_mem _ hy)) (by
        rcases hz with hz | hz
        · exact Or.inl fun y hy => hz y (List.mem_cons_of_mem _ hy)
        · right
          obtain ⟨a, ha, is, his, b, hbr, hne⟩ := hz
          refine ⟨a, ha, is, his, b, hbr, fun h => hne ?_⟩
          rw [g6 a ha is his b, h, mul_zero])
    refine ⟨st2, ?_, k2, ?_, s * s', mul_pos g4 k4, fun h => ?_, fun a ha is his b => ?_⟩
    · rw [positions, g1]
      exact k1
    · rw [k3]
      cases moves with
      | nil => simp
      | cons y ys =>
        rw [List.getLast?_cons_cons]
        simp [List.getLast?_cons]
    · rw [g5 (h _ (List.mem_cons_self ..)), k5 fun y hy => h y (List.mem_cons_of_mem _ hy), one_mul]
    · rw [g6 a ha is his b, k6 a ha is his b]
      simp [mul_assoc]

end TN.Mps
