import Verif.ExMeraLinear

/-!
# C91: `optimize_linear` keeps a density matrix and isometries
-/

set_option linter.unusedSectionVars false

namespace TN.Mera

open TN Finset

/-- The body of the loop `for _ in range(10)` (simple_mera.py:292-293), `n` times. -/
noncomputable def descendTimes (op iso dis : NDArray ℂ) : Nat → NDArray ℂ → NDArray ℂ
  | 0, state => state
  | n + 1, state => descendTimes op iso dis n (descend op state iso dis)

/-- The loop of `optimize_linear` (simple_mera.py:288-296); printing is left out. -/
noncomputable def optimizeLoop (kernel : SvdKernel) (op shifted : NDArray ℂ) : Nat → NDArray ℂ × NDArray ℂ × NDArray ℂ →
    Py (NDArray ℂ × NDArray ℂ × NDArray ℂ)
  | 0, x => .ok x
  | n + 1, (state, iso, dis) => do
    let iso ← updateIso kernel shifted state iso dis
    let dis ← updateDis kernel shifted state iso dis
    optimizeLoop kernel op shifted n (descendTimes op iso dis 10 state, iso, dis)

/-- `optimize_linear` (simple_mera.py:265-298) -/
noncomputable def optimizeLinear (kernel : SvdKernel) (eig : NDArray ℂ → List ℝ) (op state iso dis : NDArray ℂ) (numItr : Nat) :
    Py (NDArray ℂ × NDArray ℂ × NDArray ℂ) := do
  let shifted ← shiftHam eig op none
  optimizeLoop kernel op shifted numItr (state, iso, dis)

/-- A positive semi-definite operator. -/
def Pos (t : Nat) (rho : NDArray ℂ) : Prop := ∀ v : List Nat → ℂ,
  0 ≤ (sumIdx [t, t, t] fun o => sumIdx [t, t, t] fun i => star (v o) * rho.get (o ++ i) * v i).re

/-- The layer with the traced sites `c` and the sites `i` of the operator. -/
noncomputable def lay (a b : Nat) (iso dis : NDArray ℂ) : Dirn → List Nat → List Nat → List Nat → ℂ
  | .left, c, i, r => layer a b iso dis (c.getD 0 0) (i.getD 0 0) (i.getD 1 0) (i.getD 2 0) (c.getD 1 0) (c.getD 2 0) (r.getD 0 0) (r.getD 1 0) (r.getD 2 0)
  | .right, c, i, r => layer a b iso dis (c.getD 0 0) (c.getD 1 0) (i.getD 0 0) (i.getD 1 0) (i.getD 2 0) (c.getD 2 0) (r.getD 0 0) (r.getD 1 0) (r.getD 2 0)

theorem reduced_lay {a b t e : Nat} {rho iso dis : NDArray ℂ} (d : Dirn) (i0 i1 i2 o0 o1 o2 : Nat) :
    reduced a b t e rho iso dis d i0 i1 i2 o0 o1 o2 = sumIdx [a, e, b] fun c => sumIdx [t, t, t] fun r => sumIdx [t, t, t] fun s =>
      lay a b iso dis d c [i0, i1, i2] r * rho.get (r ++ s) * star (lay a b iso dis d c [o0, o1, o2] s) := by
  cases d <;> rfl

theorem sumIdx_re (l : List Nat) (f : List Nat → ℂ) : (sumIdx l f).re = sumIdx l fun i => (f i).re := by
  rw [← sum_range_unravel, ← sum_range_unravel, Complex.re_sum]

theorem sumIdx_star (l : List Nat) (f : List Nat → ℂ) : star (sumIdx l f) = sumIdx l fun i => star (f i) := by
  rw [← sum_range_unravel, ← sum_range_unravel, star_sum]

theorem get_three {e : Nat} {k : List Nat} (hk : InB [e, e, e] k) : ∃ x y z, k = [x, y, z] :=
  List.length_eq_three.1 hk.length

/-- The expectation values of a reduced state are expectation values of the state above. -/
theorem reduced_pos {a b t e : Nat} {rho iso dis : NDArray ℂ} (hp : Pos t rho) (d : Dirn) (v : List Nat → ℂ) :
    0 ≤ (sumIdx [e, e, e] fun o => sumIdx [e, e, e] fun i => star (v o) *
      reduced a b t e rho iso dis d (i.getD 0 0) (i.getD 1 0) (i.getD 2 0) (o.getD 0 0) (o.getD 1 0) (o.getD 2 0) * v i).re := by
  have h1 : (sumIdx [e, e, e] fun o => sumIdx [e, e, e] fun i => star (v o) *
      reduced a b t e rho iso dis d (i.getD 0 0) (i.getD 1 0) (i.getD 2 0) (o.getD 0 0) (o.getD 1 0) (o.getD 2 0) * v i) =
      sumIdx [a, e, b] fun c => sumIdx [t, t, t] fun r => sumIdx [t, t, t] fun s =>
        star (star (sumIdx [e, e, e] fun i => v i * lay a b iso dis d c i r)) * rho.get (r ++ s) *
          star (sumIdx [e, e, e] fun o => v o * lay a b iso dis d c o s) := by
    have h2 : (sumIdx [e, e, e] fun o => sumIdx [e, e, e] fun i => star (v o) *
        reduced a b t e rho iso dis d (i.getD 0 0) (i.getD 1 0) (i.getD 2 0) (o.getD 0 0) (o.getD 1 0) (o.getD 2 0) * v i) =
        sumIdx [e, e, e] fun o => sumIdx [e, e, e] fun i => sumIdx [a, e, b] fun c => sumIdx [t, t, t] fun r => sumIdx [t, t, t] fun s =>
          (v i * lay a b iso dis d c i r) * rho.get (r ++ s) * star (v o * lay a b iso dis d c o s) := by
      refine sumIdx_congr fun o ho => sumIdx_congr fun i hi => ?_
      obtain ⟨x, y, z, rfl⟩ := get_three hi
      obtain ⟨x', y', z', rfl⟩ := get_three ho
      rw [reduced_lay]
      simp only [sumIdx_mul_left, sumIdx_mul_right]
      refine sumIdx_congr fun c _ => sumIdx_congr fun r _ => sumIdx_congr fun s _ => ?_
      rw [star_mul']
      simp
      ring
    rw [h2]
    rw [sumIdx_congr fun o _ => sumIdx_comm [e, e, e] [a, e, b] _, sumIdx_comm [e, e, e] [a, e, b]]
    refine sumIdx_congr fun c _ => ?_
    rw [sumIdx_congr fun o _ => sumIdx_comm [e, e, e] [t, t, t] _, sumIdx_comm [e, e, e] [t, t, t]]
    refine sumIdx_congr fun r _ => ?_
    rw [sumIdx_congr fun o _ => sumIdx_comm [e, e, e] [t, t, t] _, sumIdx_comm [e, e, e] [t, t, t]]
    refine sumIdx_congr fun s _ => ?_
    rw [star_star, sumIdx_star, mul_assoc, sumIdx_mul_left, sumIdx_mul_left]
    refine sumIdx_congr fun o _ => ?_
    rw [sumIdx_mul_right]
    refine sumIdx_congr fun i _ => ?_
    ring
  rw [h1, sumIdx_re, ← sum_range_unravel]
  exact sum_nonneg fun c _ => hp fun r => star (sumIdx [e, e, e] fun i => v i * lay a b iso dis d (unravel [a, e, b] c) i r)

/-- **C91.**  `descend` keeps positive semi-definite states. -/
theorem C91_descend_pos {a b t e : Nat} {op rho iso dis : NDArray ℂ} (f : Fits a b t e op rho iso dis) (hp : Pos t rho) :
    Pos e (descend op rho iso dis) := by
  intro v
  have h1 : (sumIdx [e, e, e] fun o => sumIdx [e, e, e] fun i => star (v o) * (descend op rho iso dis).get (o ++ i) * v i) =
      1 / 2 * ((sumIdx [e, e, e] fun o => sumIdx [e, e, e] fun i => star (v o) *
        reduced a b t e rho iso dis .left (i.getD 0 0) (i.getD 1 0) (i.getD 2 0) (o.getD 0 0) (o.getD 1 0) (o.getD 2 0) * v i) +
      sumIdx [e, e, e] fun o => sumIdx [e, e, e] fun i => star (v o) *
        reduced a b t e rho iso dis .right (i.getD 0 0) (i.getD 1 0) (i.getD 2 0) (o.getD 0 0) (o.getD 1 0) (o.getD 2 0) * v i) := by
    rw [sumIdx_add, sumIdx_mul_left]
    refine sumIdx_congr fun o ho => ?_
    rw [sumIdx_add, sumIdx_mul_left]
    refine sumIdx_congr fun i hi => ?_
    obtain ⟨x, y, z, rfl⟩ := get_three hi
    obtain ⟨x', y', z', rfl⟩ := get_three ho
    have := C88_descend_partial f (o0 := x') (o1 := y') (o2 := z') (i0 := x) (i1 := y) (i2 := z) (by simp at hi ho ⊢; tauto)
    simp only [List.cons_append, List.nil_append, this, mean]
    simp
    ring
  rw [h1]
  have h2 := reduced_pos (a := a) (b := b) (e := e) (iso := iso) (dis := dis) hp .left v
  have h3 := reduced_pos (a := a) (b := b) (e := e) (iso := iso) (dis := dis) hp .right v
  have h4 : ∀ z : ℂ, (1 / 2 * z).re = z.re / 2 := by
    intro z
    have : (1 / 2 : ℂ) = ((1 / 2 : ℝ) : ℂ) := by norm_num
    rw [this, Complex.re_ofReal_mul]; ring
  rw [h4, Complex.add_re]
  linarith

/-- The trace of a state. -/
noncomputable def trace (t : Nat) (rho : NDArray ℂ) : ℂ := trace3 t fun r0 r1 r2 s0 s1 s2 => rho.get [r0, r1, r2, s0, s1, s2]

theorem descendTimes_keeps {a b : Nat} {op iso dis : NDArray ℂ} (hi : IsIso a b 2 iso) (hu : IsUni a b 2 dis) (n : Nat) {state : NDArray ℂ}
    (f : Fits a b 2 2 op state iso dis) :
    (descendTimes op iso dis n state).shape = [2, 2, 2, 2, 2, 2] ∧ trace 2 (descendTimes op iso dis n state) = trace 2 state ∧
      (Herm 2 state → Herm 2 (descendTimes op iso dis n state)) ∧ (Pos 2 state → Pos 2 (descendTimes op iso dis n state)) := by
  induction n generalizing state with
  | zero => exact ⟨f.rho, rfl, id, id⟩
  | succ n ih =>
    obtain ⟨h1, h2, h3, h4⟩ := ih (state := descend op state iso dis) ⟨f.op, f.op, f.iso, f.dis⟩
    exact ⟨h1, h2.trans (C88_descend_trace f hi hu), fun h => h3 (C88_descend_hermitian f h).1, fun h => h4 (C91_descend_pos f h)⟩

theorem loop_keeps {a b : Nat} {kernel : SvdKernel} (hk : KernelOK kernel) {op shifted : NDArray ℂ} (h2 : 2 ≤ a * b) (h4 : b * a ≤ 4)
    (hs : shifted.shape = [2, 2, 2, 2, 2, 2]) (n : Nat) {state iso dis : NDArray ℂ} (f : Fits a b 2 2 op state iso dis) :
    ∃ state' iso' dis', optimizeLoop kernel op shifted n (state, iso, dis) = .ok (state', iso', dis') ∧ Fits a b 2 2 op state' iso' dis' ∧
      trace 2 state' = trace 2 state ∧ (Herm 2 state → Herm 2 state') ∧ (Pos 2 state → Pos 2 state') ∧
      (0 < n ∨ (IsIso a b 2 iso ∧ IsUni a b 2 dis) → IsIso a b 2 iso' ∧ IsUni a b 2 dis') := by
  induction n generalizing state iso dis with
  | zero => exact ⟨state, iso, dis, rfl, f, rfl, id, id, fun h => h.elim (fun h => absurd h (by simp)) id⟩
  | succ n ih =>
    obtain ⟨w, w1, w2, w3, _⟩ := C91_update_iso (op := shifted) (rho := state) (iso := iso) (dis := dis) hk ⟨hs, f.rho, f.iso, f.dis⟩ h2
    obtain ⟨u, u1, u2, u3, _⟩ := C91_update_dis (op := shifted) (rho := state) (iso := w) (dis := dis) hk ⟨hs, f.rho, w2, f.dis⟩ h4
    obtain ⟨d1, d2, d3, d4⟩ := descendTimes_keeps w3 u3 10 (op := op) (state := state) ⟨f.op, f.rho, w2, u2⟩
    obtain ⟨s', i', d', e1, e2, e3, e4, e5, e6⟩ := ih (state := descendTimes op w u 10 state) (iso := w) (dis := u) ⟨f.op, d1, w2, u2⟩
    refine ⟨s', i', d', ?_, e2, e3.trans d2, fun h => e4 (d3 h), fun h => e5 (d4 h), fun _ => e6 (.inr ⟨w3, u3⟩)⟩
    rw [optimizeLoop, w1]
    show (updateDis kernel shifted state w dis >>= _) = _
    rw [u1]
    exact e1

/-- **C91.**  `optimize_linear`, for any number of iterations, returns a state with the trace of the initial one, Hermitian and positive
if that one is, and after at least one iteration, even if the initial tensors are not isometric, an isometry and an isometric disentangler. -/
theorem C91_optimize {a b : Nat} {kernel : SvdKernel} (hk : KernelOK kernel) (eig : NDArray ℂ → List ℝ) {op state iso dis : NDArray ℂ}
    (f : Fits a b 2 2 op state iso dis) (h2 : 2 ≤ a * b) (h4 : b * a ≤ 4) (n : Nat) :
    ∃ state' iso' dis', optimizeLinear kernel eig op state iso dis n = .ok (state', iso', dis') ∧ Fits a b 2 2 op state' iso' dis' ∧
      trace 2 state' = trace 2 state ∧ (Herm 2 state → Herm 2 state') ∧ (Pos 2 state → Pos 2 state') ∧
      (0 < n → IsIso a b 2 iso' ∧ IsUni a b 2 dis') := by
  obtain ⟨h', s1, s2, _⟩ := C88_shift (eig := eig) f.op none
  obtain ⟨s', i', d', e1, e2, e3, e4, e5, e6⟩ := loop_keeps hk h2 h4 s2 n f
  refine ⟨s', i', d', ?_, e2, e3, e4, e5, fun h => e6 (.inl h)⟩
  rw [optimizeLinear, s1]
  exact e1

/-! ### Examples -/

theorem kernel_exists : KernelOK (Mps.exactSvd (K := ℂ)) := fun m _ _ h => Mps.exactSvd_ok m h

/-- The hypotheses can be met: a state with an imaginary entry and an isometric layer. -/
example (n : Nat) : ∃ state' iso' dis', optimizeLinear (Mps.exactSvd (K := ℂ)) (Classical.choose eigSpec_exists) exId exRho exIso exDis n =
    .ok (state', iso', dis') ∧ trace 2 state' = 1 ∧ Herm 2 state' := by
  obtain ⟨s, i, d, h1, _, h3, h4, _⟩ := C91_optimize kernel_exists (Classical.choose eigSpec_exists) ex_fits (by norm_num) (by norm_num) n
  exact ⟨s, i, d, h1, h3.trans ex_trace, h4 ex_herm⟩

end TN.Mera
