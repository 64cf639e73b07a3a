import Verif.DmrgOne

/-!
# DMRG: the loops of a run

The loops of `run_one_site` and `run_two_site` for any local step and any invariant.
-/

set_option linter.unusedSectionVars false

namespace TN.Dmrg

open TN NDArray Finset Ncon Mps Mpo

variable {K : Type} [RCLike K]

/-- The centre is at `c` in a chain of `N` sites. -/
structure At (N : Nat) (d : Sim K) (c : Nat) : Prop where
  center : d.mps.center = some c
  length : d.mps.tensors.length = N
  lt : c < N

/-- Invariants `R` of the sweep to the right and `L` of the sweep to the left. -/
structure Loop (step : Bool → Sim K → Py (Sim K × ℝ)) (N : Nat) (R L : Sim K → Nat → ℝ → Prop) : Prop where
  atR : ∀ d c e, R d c e → At N d c
  atL : ∀ d c e, L d c e → At N d c
  right : ∀ d c e, R d c e → c + 1 < N → ∃ d' e', step true d = .ok (d', e') ∧ R d' (c + 1) e'
  turn : ∀ d e, R d (N - 1) e → L d (N - 1) e
  left : ∀ d c e, L d (c + 1) e → ∃ d' e', step false d = .ok (d', e') ∧ L d' c e'
  back : ∀ d e, L d 0 e → R d 0 e

theorem At.notLast {N : Nat} {d : Sim K} {c : Nat} (h : At N d c) : notLast d = decide (c + 1 < N) := by
  unfold Dmrg.notLast
  rw [h.center, h.length]; rfl

theorem At.notFirst {N : Nat} {d : Sim K} {c : Nat} (h : At N d c) : notFirst d = decide (0 < c) := by
  unfold Dmrg.notFirst
  rw [h.center]; rfl

/-- Moving to the current centre does nothing. -/
theorem At.stay {E : Kern K} {N : Nat} {d : Sim K} {c : Nat} (h : At N d c) : position E d (c : Int) = .ok d := by
  have := h.lt
  have := h.length
  unfold position
  rw [if_neg (by omega), if_neg (by omega), h.center]
  simp

variable {step : Bool → Sim K → Py (Sim K × ℝ)} {N : Nat} {R L : Sim K → Nat → ℝ → Prop}

theorem while_right (hS : Loop step N R L) : ∀ (n : Nat) {d : Sim K} {c : Nat} {e : ℝ}, R d c e → N ≤ c + 1 + n →
    ∃ d' e', whileStep notLast (step true) n d e = .ok (d', e') ∧ R d' (N - 1) e' := by
  intro n
  induction n with
  | zero =>
    intro d c e h hc
    have hlt := (hS.atR _ _ _ h).lt
    refine ⟨d, e, ?_, ?_⟩
    · unfold whileStep
      rw [(hS.atR _ _ _ h).notLast, if_neg (by simp; omega)]
    · rwa [show N - 1 = c by omega]
  | succ n ih =>
    intro d c e h hc
    have hlt := (hS.atR _ _ _ h).lt
    unfold whileStep
    rw [(hS.atR _ _ _ h).notLast]
    by_cases h1 : c + 1 < N
    · obtain ⟨d', ε, s1, s2⟩ := hS.right d c e h h1
      rw [if_pos (by simpa using h1), s1]
      exact ih s2 (by omega)
    · rw [if_neg (by simpa using h1)]
      refine ⟨d, e, rfl, ?_⟩
      rwa [show N - 1 = c by omega]

theorem while_left (hS : Loop step N R L) : ∀ (n : Nat) {d : Sim K} {c : Nat} {e : ℝ}, L d c e → c ≤ n →
    ∃ d' e', whileStep notFirst (step false) n d e = .ok (d', e') ∧ L d' 0 e' := by
  intro n
  induction n with
  | zero =>
    intro d c e h hc
    obtain rfl : c = 0 := by omega
    refine ⟨d, e, ?_, h⟩
    unfold whileStep
    rw [(hS.atL _ _ _ h).notFirst, if_neg (by simp)]
  | succ n ih =>
    intro d c e h hc
    unfold whileStep
    rw [(hS.atL _ _ _ h).notFirst]
    cases c with
    | zero => exact ⟨d, e, by simp, h⟩
    | succ c =>
      obtain ⟨d', ε, s1, s2⟩ := hS.left d c e h
      rw [if_pos (by simp), s1]
      exact ih s2 (by omega)

theorem sweep_end {E : Kern K} (hS : Loop step N R L) {d : Sim K} {c : Nat} {e : ℝ} (h : R d c e) {first : Bool}
    {d0 : Sim K} {e0 : ℝ} (hf : firstStep E step first d0 e0 = .ok (d, e)) :
    ∃ d' e', sweep E step first d0 e0 = .ok (d', e') ∧ L d' 0 e' := by
  have hlt := (hS.atR _ _ _ h).lt
  obtain ⟨d1, e1, w1, w2⟩ := while_right hS d.mps.tensors.length h (by rw [(hS.atR _ _ _ h).length]; omega)
  have ha := hS.atR _ _ _ w2
  obtain ⟨d2, e2, w3, w4⟩ := while_left hS d1.mps.tensors.length (hS.turn _ _ w2) (by rw [ha.length]; omega)
  refine ⟨d2, e2, ?_, w4⟩
  have hp := ha.stay (E := E)
  have hc : ((d1.mps.tensors.length : Int) - 1) = ((N - 1 : Nat) : Int) := by rw [ha.length]; omega
  unfold sweep
  simp only [bind, Except.bind, hf, w1]
  rw [hc, hp]
  exact w3

theorem sweep_next {E : Kern K} (hS : Loop step N R L) {d : Sim K} {c : Nat} {e : ℝ} (h : R d c e) :
    ∃ d' e', sweep E step false d e = .ok (d', e') ∧ L d' 0 e' :=
  sweep_end hS h (by simp [firstStep])

theorem sweep_first {E : Kern K} (hS : Loop step N R L) {d : Sim K} (ha : At N d 0) {d1 : Sim K} {c : Nat} {e1 : ℝ}
    (h1 : step true d = .ok (d1, e1)) (h : R d1 c e1) (e : ℝ) :
    ∃ d' e', sweep E step true d e = .ok (d', e') ∧ L d' 0 e' := by
  have hp : position E d 0 = .ok d := ha.stay (E := E)
  refine sweep_end hS h ?_
  unfold firstStep
  simp only [if_true, bind, Except.bind, hp]
  exact h1

theorem sweeps_next {E : Kern K} (hS : Loop step N R L) (precision : ℝ) : ∀ (n : Nat) {d : Sim K} {e : ℝ} (final : ℝ),
    R d 0 e → ∃ d' e', sweeps E step precision n false d e final = .ok (d', e') ∧ L d' 0 e' := by
  intro n
  induction n with
  | zero => intro d e final h; exact sweep_next hS h
  | succ n ih =>
    intro d e final h
    obtain ⟨d1, e1, w1, w2⟩ := sweep_next (E := E) hS h
    unfold sweeps
    simp only [bind, Except.bind, w1]
    by_cases hp : |final - e1| < precision
    · rw [if_pos hp]; exact ⟨d1, e1, rfl, w2⟩
    · rw [if_neg hp]; exact ih e1 (hS.back _ _ w2)

/-- All sweeps, given the first step of the first sweep. -/
theorem sweeps_first {E : Kern K} (hS : Loop step N R L) {d : Sim K} (ha : At N d 0) {d1 : Sim K} {c : Nat} {e1 : ℝ}
    (h1 : step true d = .ok (d1, e1)) (h : R d1 c e1) (precision : ℝ) (n : Nat) (e final : ℝ) :
    ∃ d' e', sweeps E step precision n true d e final = .ok (d', e') ∧ L d' 0 e' := by
  obtain ⟨d1, e1, w1, w2⟩ := sweep_first (E := E) hS ha h1 h e
  cases n with
  | zero => exact ⟨d1, e1, w1, w2⟩
  | succ n =>
    unfold sweeps
    simp only [bind, Except.bind, w1]
    by_cases hp : |final - e1| < precision
    · rw [if_pos hp]; exact ⟨d1, e1, rfl, w2⟩
    · rw [if_neg hp]; exact sweeps_next hS precision n e1 (hS.back _ _ w2)

end TN.Dmrg
