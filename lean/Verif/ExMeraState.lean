import Verif.ExMeraGrad
import Mathlib.Tactic.IntervalCases

/-!
# C88: `descend` and complex states
-/

set_option linter.unusedSectionVars false

namespace TN.Mera

open TN Finset

/-- A Hermitian state of three sites. -/
def Herm (t : Nat) (rho : NDArray ℂ) : Prop := ∀ r0 r1 r2 s0 s1 s2, InB [t, t, t, t, t, t] [r0, r1, r2, s0, s1, s2] →
  rho.get [r0, r1, r2, s0, s1, s2] = star (rho.get [s0, s1, s2, r0, r1, r2])

theorem below_herm {a b t : Nat} {rho iso dis : NDArray ℂ} (h : Herm t rho) (A p0 p1 p2 p3 B A' q0 q1 q2 q3 B' : Nat) :
    below a b t rho iso dis A p0 p1 p2 p3 B A' q0 q1 q2 q3 B' = star (below a b t rho iso dis A' q0 q1 q2 q3 B' A p0 p1 p2 p3 B) := by
  have hc := sumIdx_comm [t, t, t] [t, t, t] (fun s r =>
    star (layer a b iso dis A' q0 q1 q2 q3 B' (s.getD 0 0) (s.getD 1 0) (s.getD 2 0) *
      rho.get [s.getD 0 0, s.getD 1 0, s.getD 2 0, r.getD 0 0, r.getD 1 0, r.getD 2 0] *
      star (layer a b iso dis A p0 p1 p2 p3 B (r.getD 0 0) (r.getD 1 0) (r.getD 2 0))))
  have e1 : star (below a b t rho iso dis A' q0 q1 q2 q3 B' A p0 p1 p2 p3 B) = sumIdx [t, t, t] fun s => sumIdx [t, t, t] fun r =>
    star (layer a b iso dis A' q0 q1 q2 q3 B' (s.getD 0 0) (s.getD 1 0) (s.getD 2 0) *
      rho.get [s.getD 0 0, s.getD 1 0, s.getD 2 0, r.getD 0 0, r.getD 1 0, r.getD 2 0] *
      star (layer a b iso dis A p0 p1 p2 p3 B (r.getD 0 0) (r.getD 1 0) (r.getD 2 0))) := by
    simp only [below, star_sum, sumIdx]
    rfl
  rw [e1, hc]
  simp only [below, sumIdx]
  refine sum_congr rfl fun r0 h0 => sum_congr rfl fun r1 h1 => sum_congr rfl fun r2 h2 =>
    sum_congr rfl fun s0 k0 => sum_congr rfl fun s1 k1 => sum_congr rfl fun s2 k2 => ?_
  simp only [mem_range] at h0 h1 h2 k0 k1 k2
  simp only [List.getD_eq_getElem?_getD, List.getElem?_cons_succ, List.getElem?_cons_zero, Option.getD_some, star_mul', star_star]
  rw [h r0 r1 r2 s0 s1 s2 (by simp [h0, h1, h2, k0, k1, k2])]
  ring

theorem mean_herm {a b t e : Nat} {rho iso dis : NDArray ℂ} (h : Herm t rho) (i0 i1 i2 o0 o1 o2 : Nat) :
    mean a b t e rho iso dis i0 i1 i2 o0 o1 o2 = star (mean a b t e rho iso dis o0 o1 o2 i0 i1 i2) := by
  have hr : ∀ d, reduced a b t e rho iso dis d i0 i1 i2 o0 o1 o2 = star (reduced a b t e rho iso dis d o0 o1 o2 i0 i1 i2) := by
    intro d
    cases d <;> simp only [reduced, star_sum] <;>
      exact sum_congr rfl fun _ _ => sum_congr rfl fun _ _ => sum_congr rfl fun _ _ => below_herm h _ _ _ _ _ _ _ _ _ _ _ _
  rw [mean, hr .left, hr .right, mean, star_div₀, star_add]
  simp

/-- **C88.**  For a Hermitian state, `descend` returns a Hermitian state, the complex conjugate of the state below the layer. -/
theorem C88_descend_hermitian {a b t e : Nat} {op rho iso dis : NDArray ℂ} (f : Fits a b t e op rho iso dis) (h : Herm t rho) :
    Herm e (descend op rho iso dis) ∧ ∀ i0 i1 i2 o0 o1 o2, InB [e, e, e, e, e, e] [i0, i1, i2, o0, o1, o2] →
      (descend op rho iso dis).get [i0, i1, i2, o0, o1, o2] = star (mean a b t e rho iso dis i0 i1 i2 o0 o1 o2) := by
  refine ⟨fun i0 i1 i2 o0 o1 o2 hi => ?_, fun i0 i1 i2 o0 o1 o2 hi => ?_⟩
  · rw [C88_descend_partial f hi, mean_herm h, C88_descend_partial f (by simp at hi ⊢; tauto)]
  · rw [C88_descend_partial f hi, mean_herm h]

/-! ### An example -/

/-- An isometry, a disentangler that does nothing, and a state with an imaginary entry. -/
def exIso : NDArray ℂ := ⟨[2, 2, 2], fun i => if i.getD 1 0 = 0 ∧ i.getD 0 0 = i.getD 2 0 then 1 else 0⟩

@[inherit_doc exIso]
def exDis : NDArray ℂ := ⟨[2, 2, 2, 2], fun i => if i.getD 0 0 = i.getD 2 0 ∧ i.getD 1 0 = i.getD 3 0 then 1 else 0⟩

@[inherit_doc exIso]
noncomputable def exRho : NDArray ℂ := ⟨[2, 2, 2, 2, 2, 2], fun i =>
  if i = [0, 0, 0, 0, 0, 0] ∨ i = [0, 1, 0, 0, 1, 0] then 1 / 2 else if i = [0, 1, 0, 0, 0, 0] then Complex.I / 2
  else if i = [0, 0, 0, 0, 1, 0] then -(Complex.I / 2) else 0⟩

@[inherit_doc exIso]
def exId : NDArray ℂ := ⟨[2, 2, 2, 2, 2, 2], fun i => if i.take 3 = i.drop 3 then 1 else 0⟩

theorem ex_fits : Fits 2 2 2 2 exId exRho exIso exDis := ⟨rfl, rfl, rfl, rfl⟩

theorem ex_iso : IsIso 2 2 2 exIso := by
  intro r hr s hs
  interval_cases r <;> interval_cases s <;> simp [exIso, sum_range_succ]

theorem ex_uni : IsUni 2 2 2 exDis := by
  intro x hx y hy x' hx' y' hy'
  interval_cases x <;> interval_cases y <;> interval_cases x' <;> interval_cases y' <;> simp [exDis, sum_range_succ]

theorem ex_herm : Herm 2 exRho := by
  intro r0 r1 r2 s0 s1 s2 h
  simp only [InB, List.forall₂_cons] at h
  obtain ⟨h0, h1, h2, k0, k1, k2, -⟩ := h
  interval_cases r0 <;> interval_cases r1 <;> interval_cases r2 <;> interval_cases s0 <;> interval_cases s1 <;> interval_cases s2 <;>
    simp [exRho, neg_div]

theorem ex_trace : (trace3 2 fun r0 r1 r2 s0 s1 s2 => exRho.get [r0, r1, r2, s0, s1, s2]) = 1 := by
  simp [trace3, exRho, sum_range_succ]
  norm_num

example : energy exId exRho exIso exDis = 1 := by
  rw [C88_identity ex_fits ex_iso ex_uni, ex_trace]
  intro o0 _ o1 _ o2 _ i0 _ i1 _ i2 _
  simp [exId]

example : (ascend exId exRho exIso exDis).get [0, 1, 0, 0, 1, 0] = 1 := by
  rw [C88_ascend_identity ex_fits ex_iso ex_uni (fun o0 _ o1 _ o2 _ i0 _ i1 _ i2 _ => by simp [exId]) (by simp), if_pos rfl]

example : (trace3 2 fun r0 r1 r2 s0 s1 s2 => (descend exId exRho exIso exDis).get [r0, r1, r2, s0, s1, s2]) = 1 := by
  rw [C88_descend_trace ex_fits ex_iso ex_uni, ex_trace]

theorem ex_layer {A p0 p1 p2 p3 B r0 r1 r2 : Nat} (h1 : r1 < 2) (h2 : r2 < 2) :
    layer 2 2 exIso exDis A p0 p1 p2 p3 B r0 r1 r2 =
      if A = r0 ∧ p0 = 0 ∧ p1 = r1 ∧ p2 = 0 ∧ p3 = r2 ∧ B = 0 then 1 else 0 := by
  rw [layer, sum_eq_single 0 (fun x _ hx => by simp [exIso, hx]) (by simp),
    sum_eq_single r1 (fun x _ hx => by simp [exIso, hx]) (fun h => absurd (mem_range.2 h1) h),
    sum_eq_single 0 (fun x _ hx => by simp [exIso, hx]) (by simp),
    sum_eq_single r2 (fun x _ hx => by simp [exIso, hx]) (fun h => absurd (mem_range.2 h2) h)]
  simp only [exIso, exDis, List.getD_eq_getElem?_getD, List.getElem?_cons_succ, List.getElem?_cons_zero, Option.getD_some, true_and, and_true]
  by_cases c1 : A = r0 <;> by_cases c2 : p0 = 0 <;> by_cases c3 : p1 = r1 <;> by_cases c4 : p2 = 0 <;> by_cases c5 : p3 = r2 <;>
    by_cases c6 : B = 0 <;> simp [c1, c2, c3, c4, c5, c6]

theorem ex_below {A p1 p3 A' q1 q3 : Nat} (h0 : A < 2) (h1 : p1 < 2) (h3 : p3 < 2) (k0 : A' < 2) (k1 : q1 < 2) (k3 : q3 < 2) (p0 p2 B q0 q2 B' : Nat) :
    below 2 2 2 exRho exIso exDis A p0 p1 p2 p3 B A' q0 q1 q2 q3 B' =
      if p0 = 0 ∧ p2 = 0 ∧ B = 0 ∧ q0 = 0 ∧ q2 = 0 ∧ B' = 0 then exRho.get [A, p1, p3, A', q1, q3] else 0 := by
  have hl : ∀ {A p0 p1 p2 p3 B r0 r1 r2}, r1 ∈ range 2 → r2 ∈ range 2 → layer 2 2 exIso exDis A p0 p1 p2 p3 B r0 r1 r2 =
      if A = r0 ∧ p0 = 0 ∧ p1 = r1 ∧ p2 = 0 ∧ p3 = r2 ∧ B = 0 then 1 else 0 := fun a b => ex_layer (mem_range.1 a) (mem_range.1 b)
  rw [below, sum_eq_single A, sum_eq_single p1, sum_eq_single p3, sum_eq_single A', sum_eq_single q1, sum_eq_single q3,
    ex_layer h1 h3, ex_layer k1 k3]
  · by_cases c1 : p0 = 0 <;> by_cases c2 : p2 = 0 <;> by_cases c3 : B = 0 <;> by_cases c4 : q0 = 0 <;> by_cases c5 : q2 = 0 <;>
      by_cases c6 : B' = 0 <;> simp [c1, c2, c3, c4, c5, c6]
  · intro x hx hne
    rw [hl (mem_range.2 k1) hx (A := A')]; simp [Ne.symm hne]
  · intro h; exact absurd (mem_range.2 k3) h
  · intro x hx hne
    refine sum_eq_zero fun y hy => ?_
    rw [hl hx hy (A := A')]; simp [Ne.symm hne]
  · intro h; exact absurd (mem_range.2 k1) h
  · intro x hx hne
    refine sum_eq_zero fun y hy => sum_eq_zero fun z hz => ?_
    rw [hl hy hz (A := A')]; simp [Ne.symm hne]
  · intro h; exact absurd (mem_range.2 k0) h
  · intro x hx hne
    refine sum_eq_zero fun _ _ => sum_eq_zero fun y hy => sum_eq_zero fun z hz => ?_
    rw [hl (mem_range.2 h1) hx (A := A)]; simp [Ne.symm hne]
  · intro h; exact absurd (mem_range.2 h3) h
  · intro x hx hne
    refine sum_eq_zero fun w hw => sum_eq_zero fun _ _ => sum_eq_zero fun y hy => sum_eq_zero fun z hz => ?_
    rw [hl hx hw (A := A)]; simp [Ne.symm hne]
  · intro h; exact absurd (mem_range.2 h1) h
  · intro x hx hne
    refine sum_eq_zero fun v hv => sum_eq_zero fun w hw => sum_eq_zero fun _ _ => sum_eq_zero fun y hy => sum_eq_zero fun z hz => ?_
    rw [hl hv hw (A := A)]; simp [Ne.symm hne]
  · intro h; exact absurd (mem_range.2 h0) h

theorem ex_mean : mean 2 2 2 2 exRho exIso exDis 0 0 0 0 1 0 = -(Complex.I / 4) := by
  simp only [mean, reduced, sum_range_succ, sum_range_zero, zero_add]
  simp only [ex_below (by decide : 0 < 2) (by decide : 0 < 2) (by decide : 0 < 2) (by decide : 0 < 2) (by decide : 1 < 2) (by decide : 0 < 2),
    ex_below (by decide : 0 < 2) (by decide : 0 < 2) (by decide : 1 < 2) (by decide : 0 < 2) (by decide : 1 < 2) (by decide : 1 < 2),
    ex_below (by decide : 1 < 2) (by decide : 0 < 2) (by decide : 0 < 2) (by decide : 1 < 2) (by decide : 1 < 2) (by decide : 0 < 2),
    ex_below (by decide : 1 < 2) (by decide : 0 < 2) (by decide : 1 < 2) (by decide : 1 < 2) (by decide : 1 < 2) (by decide : 1 < 2),
    ex_below (by decide : 0 < 2) (by decide : 0 < 2) (by decide : 0 < 2) (by decide : 0 < 2) (by decide : 0 < 2) (by decide : 0 < 2),
    ex_below (by decide : 1 < 2) (by decide : 0 < 2) (by decide : 0 < 2) (by decide : 1 < 2) (by decide : 0 < 2) (by decide : 0 < 2)]
  simp [exRho]
  ring

/-- **C88**, what fails: `descend` is not the descending super-operator.  For a Hermitian state of trace one and isometric tensors it returns
another state than the mean of the reduced states below the layer, because the kets of the state become bras. -/
theorem C88_descend_false : ∃ op rho iso dis : NDArray ℂ, Fits 2 2 2 2 op rho iso dis ∧ IsIso 2 2 2 iso ∧ IsUni 2 2 2 dis ∧ Herm 2 rho ∧
    (trace3 2 fun r0 r1 r2 s0 s1 s2 => rho.get [r0, r1, r2, s0, s1, s2]) = 1 ∧
    ∃ i0 i1 i2 o0 o1 o2, InB [2, 2, 2, 2, 2, 2] [i0, i1, i2, o0, o1, o2] ∧
      (descend op rho iso dis).get [i0, i1, i2, o0, o1, o2] ≠ mean 2 2 2 2 rho iso dis i0 i1 i2 o0 o1 o2 := by
  refine ⟨exId, exRho, exIso, exDis, ex_fits, ex_iso, ex_uni, ex_herm, ex_trace, 0, 0, 0, 0, 1, 0, by simp, ?_⟩
  rw [(C88_descend_hermitian ex_fits ex_herm).2 0 0 0 0 1 0 (by simp), ex_mean]
  intro h
  have := congrArg Complex.im h
  norm_num at this

end TN.Mera
