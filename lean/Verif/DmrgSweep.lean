import Verif.DmrgLoop

/-!
# DMRG: sweeps and runs
-/

set_option linter.unusedSectionVars false

namespace TN.Dmrg

open TN NDArray Finset Ncon Mps Mpo

variable {K : Type} [RCLike K]

/-! ### A chain of one site -/

theorem qr_three_min {E : Env K} (hE : QrOK E) {A : NDArray K} {l p m : Nat} (hA : A.shape = [l, p, m]) :
    ∃ Q T, Decomp.qr E.qr E.sign A 2 false = .ok (Q, T) ∧ Q.shape = [l, p, min (l * p) m] ∧
      T.shape = [min (l * p) m, m] ∧ LeftIso Q ∧ ∀ a < l, ∀ i < p, ∀ c < m,
        A.get [a, i, c] = ∑ x ∈ range (min (l * p) m), Q.get [a, i, x] * T.get [x, c] := by
  obtain ⟨Q, T, h1, ⟨d, h2, h3, h4⟩, h5, h6⟩ := Decomp.qr_factorises_shape (kernel := E.qr)
    (sign := E.sign) (t := A) (p := 2) (nonneg := false) (fun M hM => ⟨hE M _ _ (Decomp.reshape_shape hM),
      by simp⟩)
  rw [hA] at h2 h3 h4 h5 h6
  simp only [List.take_succ_cons, List.take_zero, List.drop_succ_cons, List.drop_zero,
    List.cons_append, List.nil_append] at h2 h3 h4 h5 h6
  obtain rfl : d = min [l, p].prod [m].prod := by
    rw [h2] at h6
    simpa using h6
  have e1 : min [l, p].prod [m].prod = min (l * p) m := by simp
  rw [e1] at h2 h3 h4 h5
  refine ⟨Q, T, h1, h2, h3, ⟨l, p, _, h2, fun x hx y hy => ?_⟩, fun a ha i hi c hc => ?_⟩
  · rw [← h5 x hx y hy]
    rfl
  · exact h4 [a, i] [c] (inB_two ha hi) (by simp [hc])

theorem normSq_one {g : NDArray K} {p : Nat} (hg : g.shape = [1, p, 1]) :
    normSq [g] 1 [p] 1 = ∑ i ∈ range p, ‖g.get [0, i, 0]‖ ^ 2 := by
  unfold normSq
  simp only [Finset.sum_range_one, sumIdx, amp_one hg 0 _ one_pos]

theorem optimizeSite_single (E : Kern K) (hQ : QrOK E.toEnv) (hE : Lanczos.EighOK E.eigh) {o : Lopts} (ho : o.OK)
    {d : Sim K} {Ws : List (NDArray K)} {ds : List Nat} (h : Inv d Ws ds 0) (hH : Hermitian Ws ds)
    (hz : normSq d.mps.tensors 1 ds 1 ≠ 0) (hN : d.mps.tensors.length = 1) :
    ∃ d' ε, optimizeSite E o true d = .ok (d', ε) ∧ SiteStep Ws ds d d' 0 ε := by
  obtain ⟨L, A, W, R, m, p, k, u, t, l1, r1, hl⟩ := h.local
  obtain ⟨ε, g, g1, g2, g3, hb, hbet⟩ := h.optimum E hE ho hH hz hl
  obtain ⟨X, hX⟩ : ∃ X, d.mps.tensors = [X] := List.length_eq_one_iff.1 hN
  have hset : d.mps.tensors.set 0 g = [g] := by rw [hX]; rfl
  rw [hset] at hb hbet
  obtain ⟨p', k', ds', rfl, e1, rfl, rfl⟩ := hb
  obtain ⟨rfl, rfl, rfl⟩ : m = 1 ∧ p = p' ∧ k = 1 := by
    rw [g2] at e1
    simpa using e1
  have hn := hbet.norm
  have hp : 0 < p := by
    rcases Nat.eq_zero_or_pos p with h0 | h0
    · subst h0
      rw [normSq_one g2] at hn
      simp at hn
    · exact h0
  obtain ⟨Q, T, q1, q2, q3, q4, q5⟩ := qr_three_min hQ g2
  have hmin : min (1 * p) 1 = 1 := by omega
  rw [hmin] at q2 q3 q5
  have hset' : d.mps.tensors.set 0 Q = [Q] := by rw [hX]; rfl
  have hbQ : Bonds [Q] 1 [p] 1 := bonds_one q2
  have hnQ : normSq [Q] 1 [p] 1 = 1 := by
    obtain ⟨l', p', k', s1, s2⟩ := q4
    rw [q2] at s1
    simp only [List.cons.injEq, and_true] at s1
    obtain ⟨rfl, rfl, rfl⟩ := s1
    have := s2 0 one_pos 0 one_pos
    simp only [Finset.sum_range_one, if_true] at this
    rw [normSq_one q2]
    have h2 : ((∑ i ∈ range p, ‖Q.get [0, i, 0]‖ ^ 2 : ℝ) : K) = 1 := by
      rw [← this]
      push_cast
      refine Finset.sum_congr rfl fun i _ => ?_
      rw [RCLike.star_def, RCLike.conj_mul]
    exact_mod_cast h2
  have hamp : ∀ is, InB [p] is → amp [g] 0 is 0 = T.get [0, 0] * amp [Q] 0 is 0 := by
    intro is his
    obtain ⟨i, hi, rfl⟩ : ∃ i, i < p ∧ is = [i] := by
      cases his with
      | cons hi ht => cases ht; exact ⟨_, hi, rfl⟩
    rw [amp_one g2 0 i one_pos, amp_one q2 0 i one_pos, q5 0 one_pos i hi 0 one_pos, Finset.sum_range_one, mul_comm]
  have hT : ‖T.get [0, 0]‖ = 1 := by
    have := normSq_amp _ hamp
    rw [hn, hnQ, mul_one] at this
    have h0 := _root_.norm_nonneg (T.get [0, 0])
    nlinarith
  refine ⟨{ d with mps := ⟨d.mps.tensors.set 0 Q, some 0⟩ }, ε, ?_, ?_, ?_, ?_⟩
  · unfold optimizeSite
    rw [h.center]
    have h1 : ¬ (0 + 1 < d.mps.tensors.length) := by omega
    simp only [bind, Except.bind, l1, r1, h.mpo, tensorAt_ok hl.op.get, tensorAt_ok hl.site.get, g1, q1, if_true,
      if_neg h1]
    rfl
  · refine ⟨h.mpo, h.opb, rfl, by simp [hN], ?_, canonical_set h.canon Q, fun s hs => ?_, fun s _ hs => ?_⟩
    · show Bonds (d.mps.tensors.set 0 Q) _ _ _
      rw [hset']; exact hbQ
    · obtain rfl : s = 0 := by omega
      exact h.left 0 le_rfl
    · obtain rfl : s = 0 := by
        have : (d.mps.tensors.set 0 Q).length = 1 := by simp [hN]
        simp only at hs
        omega
      have := h.right 0 le_rfl (by omega)
      simp only [List.drop_set_of_lt (by omega : 0 < 0 + 1)]
      exact this
  · simp
  · show Better Ws d.mps.tensors (d.mps.tensors.set 0 Q) _ _
    rw [hset']
    exact hbet.congr hT hamp

/-! ### Sweeps -/

/-- What a local optimisation must do. -/
structure StepOK (step : Bool → Sim K → Py (Sim K × ℝ)) (Ws : List (NDArray K)) (ds : List Nat) (N : Nat) : Prop where
  right : ∀ d c, Inv d Ws ds c → d.mps.tensors.length = N → normSq d.mps.tensors 1 ds 1 ≠ 0 → c + 1 < N →
    ∃ d' ε, step true d = .ok (d', ε) ∧ SiteStep Ws ds d d' (c + 1) ε
  left : ∀ d c, Inv d Ws ds (c + 1) → d.mps.tensors.length = N → normSq d.mps.tensors 1 ds 1 ≠ 0 →
    ∃ d' ε, step false d = .ok (d', ε) ∧ SiteStep Ws ds d d' c ε
  single : N = 1 → ∀ d, Inv d Ws ds 0 → d.mps.tensors.length = N → normSq d.mps.tensors 1 ds 1 ≠ 0 →
    ∃ d' ε, step true d = .ok (d', ε) ∧ SiteStep Ws ds d d' 0 ε

theorem optimizeSite_ok (E : Kern K) (hQ : QrOK E.toEnv) (hE : Lanczos.EighOK E.eigh) {o : Lopts} (ho : o.OK)
    {Ws : List (NDArray K)} {ds : List Nat} (hH : Hermitian Ws ds) (N : Nat) : StepOK (optimizeSite E o) Ws ds N := by
  refine ⟨fun d c h hN hz hc => ?_, fun d c h _ hz => ?_, fun h1 d h hN hz => ?_⟩
  · exact optimizeSite_right E hQ hE ho h hH hz (by omega)
  · exact optimizeSite_left E hQ hE ho h hH hz
  · exact optimizeSite_single E hQ hE ho h hH hz (by omega)

/-- The state in a run that began with the tensors `ts`. -/
structure Run (Ws ts : List (NDArray K)) (ds : List Nat) (d : Sim K) (c : Nat) (e : ℝ) : Prop where
  inv : Inv d Ws ds c
  length : d.mps.tensors.length = ts.length
  better : Better Ws ts d.mps.tensors ds e

theorem Run.next {Ws ts : List (NDArray K)} {ds : List Nat} {d d' : Sim K} {c c' : Nat} {e ε : ℝ}
    (h : Run Ws ts ds d c e) (h' : SiteStep Ws ds d d' c' ε) : Run Ws ts ds d' c' ε :=
  ⟨h'.inv, h'.length.trans h.length, h.better.trans h'.better (normSq_nonneg _ _ _ _)⟩

theorem Run.ne {Ws ts : List (NDArray K)} {ds : List Nat} {d : Sim K} {c : Nat} {e : ℝ}
    (h : Run Ws ts ds d c e) : normSq d.mps.tensors 1 ds 1 ≠ 0 := by rw [h.better.norm]; exact one_ne_zero

theorem Inv.at {d : Sim K} {Ws : List (NDArray K)} {ds : List Nat} {c : Nat} (h : Inv d Ws ds c) :
    At d.mps.tensors.length d c := ⟨h.center, rfl, h.lt⟩

theorem Run.at {Ws ts : List (NDArray K)} {ds : List Nat} {d : Sim K} {c : Nat} {e : ℝ} (h : Run Ws ts ds d c e) :
    At ts.length d c := ⟨h.inv.center, h.length, h.length ▸ h.inv.lt⟩

/-- Moving to the current centre does nothing. -/
theorem Inv.stay {E : Kern K} {d : Sim K} {Ws : List (NDArray K)} {ds : List Nat} {c : Nat} (h : Inv d Ws ds c) :
    position E d (c : Int) = .ok d := h.at.stay

theorem run_loop {step : Bool → Sim K → Py (Sim K × ℝ)} {Ws ts : List (NDArray K)} {ds : List Nat}
    (hS : StepOK step Ws ds ts.length) : Loop step ts.length (Run Ws ts ds) (Run Ws ts ds) := by
  refine ⟨fun _ _ _ h => h.at, fun _ _ _ h => h.at, fun d c e h h1 => ?_, fun _ _ h => h, fun d c e h => ?_,
    fun _ _ h => h⟩
  · obtain ⟨d', ε, s1, s2⟩ := hS.right d c h.inv h.length h.ne h1
    exact ⟨d', ε, s1, h.next s2⟩
  · obtain ⟨d', ε, s1, s2⟩ := hS.left d c h.inv h.length h.ne
    exact ⟨d', ε, s1, h.next s2⟩

theorem sweeps_ok {E : Kern K} {step : Bool → Sim K → Py (Sim K × ℝ)} {Ws : List (NDArray K)} {ds : List Nat}
    {d : Sim K} (hS : StepOK step Ws ds d.mps.tensors.length) (h : Inv d Ws ds 0)
    (hz : normSq d.mps.tensors 1 ds 1 ≠ 0) (precision : ℝ) (n : Nat) (e final : ℝ) :
    ∃ d' e', sweeps E step precision n true d e final = .ok (d', e') ∧ Run Ws d.mps.tensors ds d' 0 e' := by
  have hlt := h.lt
  have key : ∃ d' ε c', step true d = .ok (d', ε) ∧ SiteStep Ws ds d d' c' ε := by
    by_cases h1 : d.mps.tensors.length = 1
    · obtain ⟨d', ε, s1, s2⟩ := hS.single h1 d h rfl hz
      exact ⟨d', ε, 0, s1, s2⟩
    · obtain ⟨d', ε, s1, s2⟩ := hS.right d 0 h rfl hz (by omega)
      exact ⟨d', ε, 1, s1, s2⟩
  obtain ⟨d', ε, c', s1, s2⟩ := key
  exact sweeps_first (run_loop hS) h.at s1 (c := c') ⟨s2.inv, s2.length, s2.better⟩ precision n e final

end TN.Dmrg
