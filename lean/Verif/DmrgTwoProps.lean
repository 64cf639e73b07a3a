import Verif.DmrgPair
import Verif.DmrgChain
import Verif.DmrgCases

/-!
# DMRG: properties of the two-site algorithm
-/

set_option linter.unusedSectionVars false

namespace TN.Dmrg

open TN NDArray Finset Ncon Mps Mpo

variable {K : Type} [RCLike K]

theorem BondStep.exact {Ws : List (NDArray K)} {ds : List Nat} {d d' : Sim K} {c c' : Nat} {ε : ℝ}
    (h : BondStep none Ws ds d d' c c' ε) : Better Ws d.mps.tensors d'.mps.tensors ds ε := by
  obtain ⟨ts1, _, h2, _, h4⟩ := h.best
  exact h2.congr (s := 1) (by simp) fun is his => by rw [one_mul]; exact distSq_eq_zero (h4 rfl) his

/-- Without a truncation the two-site step is a local optimisation like that of one site. -/
theorem optimizeBond_ok (E : Kern K) (hS : SvdOK E.toEnv) (hE : Lanczos.EighOK E.eigh) {o : Lopts} (ho : o.OK)
    {Ws : List (NDArray K)} {ds : List Nat} (hH : Hermitian Ws ds) {N : Nat} (hN : 2 ≤ N) :
    StepOK (optimizeBond E o none) Ws ds N := by
  refine ⟨fun d c h hl hz hc => ?_, fun d c h _ hz => ?_, fun h1 => by omega⟩
  · obtain ⟨d', ε, h1, h2⟩ := optimizeBond_right E hS hE ho (D := none) (by simp) h hH hz (by omega)
    exact ⟨d', ε, h1, h2.inv, h2.length, h2.exact⟩
  · obtain ⟨d', ε, h1, h2⟩ := optimizeBond_left E hS hE ho (D := none) (by simp) h hH hz
    exact ⟨d', ε, h1, h2.inv, h2.length, h2.exact⟩

/-- **C59**: for a Hermitian operator and a nonzero state of at least two sites, `run_two_site` with
`max_bond_dim=None` succeeds for every number of sweeps.  The number that it returns is the energy of the state that it
leaves, this state has norm one, and its energy is not larger than that of the initial state. -/
theorem C59_exact (E : Kern K) (hQ : QrOK E.toEnv) (hS : SvdOK E.toEnv) (hE : Lanczos.EighOK E.eigh) {o : Lopts}
    (ho : o.OK) {d : Sim K} {ds : List Nat} (h : SimOK d ds) (hN : 2 ≤ d.mps.tensors.length) (hH : Hermitian d.mpo ds)
    (n : Int) (precision : ℝ) :
    ∃ (d' : Sim K) (e : ℝ), runTwoSite E o none n precision d = .ok (d', (e : K)) ∧ SimOK d' ds ∧ d'.mpo = d.mpo ∧
      d'.mps.center = some 0 ∧ normSq d'.mps.tensors 1 ds 1 = 1 ∧ e = energy d'.mps.tensors d.mpo ds ∧
      energy d'.mps.tensors d.mpo ds ≤ energy d.mps.tensors d.mpo ds :=
  run_ok E hQ hS h hH (optimizeBond_ok E hS hE ho hH hN) n precision

/-- The state in a two-site run with the bonds to the left of `b` already visited. -/
structure TwoRun (D : Option Nat) (Ws : List (NDArray K)) (ds : List Nat) (N b : Nat) (d : Sim K) (c : Nat) (e : ℝ) :
    Prop where
  inv : Inv d Ws ds c
  length : d.mps.tensors.length = N
  best : ∃ ts1, Bonds ts1 1 ds 1 ∧ normSq ts1 1 ds 1 = 1 ∧ sand ts1 Ws ts1 ds = (e : K) ∧
    distSq ts1 d.mps.tensors ds + normSq d.mps.tensors 1 ds 1 = 1
  pos : normSq d.mps.tensors 1 ds 1 ≠ 0
  bond : ∀ n, D = some n → ∀ s < b, bondDim d.mps.tensors s ≤ n

theorem BondStep.run {D : Option Nat} {Ws : List (NDArray K)} {ds : List Nat} {d d' : Sim K} {c c' b b' : Nat} {ε : ℝ}
    (h : BondStep D Ws ds d d' c c' ε) (hb : ∀ n, D = some n → ∀ s < b, bondDim d.mps.tensors s ≤ n) {N : Nat}
    (hN : d.mps.tensors.length = N) (hb' : ∀ s < b', s < b ∨ s = c) : TwoRun D Ws ds N b' d' c' ε := by
  obtain ⟨ts1, h1, h2, h3, _⟩ := h.best
  refine ⟨h.inv, h.length.trans hN, ⟨ts1, h1, h2.norm, h2.value, h3⟩, h.pos, fun n hn s hs => ?_⟩
  by_cases hsc : s = c
  · subst hsc; exact h.bond n hn
  · rw [h.others s hsc]
    exact hb n hn s ((hb' s hs).resolve_right hsc)

theorem two_loop (E : Kern K) (hS : SvdOK E.toEnv) (hE : Lanczos.EighOK E.eigh) {o : Lopts} (ho : o.OK)
    {D : Option Nat} (hD : D ≠ some 0) {Ws : List (NDArray K)} {ds : List Nat} (hH : Hermitian Ws ds) (N : Nat) :
    Loop (optimizeBond E o D) N (fun d c e => TwoRun D Ws ds N c d c e) (fun d c e => TwoRun D Ws ds N (N - 1) d c e) := by
  refine ⟨fun _ _ _ h => ⟨h.inv.center, h.length, h.length ▸ h.inv.lt⟩,
    fun _ _ _ h => ⟨h.inv.center, h.length, h.length ▸ h.inv.lt⟩, fun d c e h h1 => ?_, fun _ _ h => h,
    fun d c e h => ?_, fun d e h => ⟨h.inv, h.length, h.best, h.pos, fun _ _ s hs => by omega⟩⟩
  · obtain ⟨d', ε, s1, s2⟩ := optimizeBond_right E hS hE ho hD h.inv hH h.pos (by rw [h.length]; exact h1)
    exact ⟨d', ε, s1, s2.run h.bond h.length fun s hs => by omega⟩
  · obtain ⟨d', ε, s1, s2⟩ := optimizeBond_left E hS hE ho hD h.inv hH h.pos
    exact ⟨d', ε, s1, s2.run h.bond h.length fun s hs => by omega⟩

/-- **C59**: with a maximal bond dimension of at least one, `run_two_site` succeeds for every number of sweeps other
than zero, and every inner bond of the state that it leaves has at most this dimension.  The number that it returns is
the energy of some state of norm one, whose squared distance to the final state is one minus the squared norm of the
final state; that is, the final state is the returned one without the truncated part. -/
theorem C59_truncated (E : Kern K) (hQ : QrOK E.toEnv) (hS : SvdOK E.toEnv) (hE : Lanczos.EighOK E.eigh) {o : Lopts}
    (ho : o.OK) {D : Nat} (hD : 0 < D) {d : Sim K} {ds : List Nat} (h : SimOK d ds) (hN : 2 ≤ d.mps.tensors.length)
    (hH : Hermitian d.mpo ds) {n : Int} (hn : n ≠ 0) (precision : ℝ) :
    ∃ (d' : Sim K) (e : ℝ), runTwoSite E o (some D) n precision d = .ok (d', (e : K)) ∧ SimOK d' ds ∧
      d'.mpo = d.mpo ∧ d'.mps.center = some 0 ∧
      (∀ s A, s + 1 < d'.mps.tensors.length → d'.mps.tensors[s]? = some A → A.shape.getD 2 0 ≤ D) ∧
      ∃ ts, Bonds ts 1 ds 1 ∧ normSq ts 1 ds 1 = 1 ∧ e = energy ts d.mpo ds ∧
        distSq ts d'.mps.tensors ds = 1 - normSq d'.mps.tensors 1 ds 1 := by
  obtain ⟨st, z, d0, p1, p2, hI, rfl, hz, hlen, s, s1, s2⟩ := prepare_ok E hQ hS h
  have hD' : some D ≠ some 0 := by simp; omega
  obtain ⟨d1, e1, f1, f2⟩ := optimizeBond_right E hS hE ho hD' hI hH hz (by omega)
  obtain ⟨d', e, w1, w2⟩ := sweeps_first (E := E) (two_loop E hS hE ho hD' hH d0.mps.tensors.length) hI.at f1 (c := 1)
    (f2.run (b := 0) (fun _ _ s hs => by omega) rfl fun s hs => by omega) precision (n - 1).toNat 0 (10 ^ 100)
  obtain ⟨ts, t1, t2, t3, t4⟩ := w2.best
  refine ⟨d', e, ?_, w2.inv.simOK w2.pos, w2.inv.mpo, w2.inv.center, fun s A hs hA => ?_, ts, t1, t2, ?_, by linarith⟩
  · unfold runTwoSite run
    rw [if_neg hn]
    simp only [bind, Except.bind, p1, p2, w1]
    rfl
  · have hl := w2.length
    have := w2.bond D rfl s (by omega)
    unfold bondDim at this
    rw [hA] at this
    exact this
  · unfold energy
    rw [t3, t2, RCLike.ofReal_re, div_one]

/-- The returned number is not below the spectrum of the operator. -/
theorem C59_bound (E : Kern K) (hQ : QrOK E.toEnv) (hS : SvdOK E.toEnv) (hE : Lanczos.EighOK E.eigh) {o : Lopts}
    (ho : o.OK) {D : Option Nat} (hD : D ≠ some 0) {d : Sim K} {ds : List Nat} (h : SimOK d ds)
    (hN : 2 ≤ d.mps.tensors.length) (hH : Hermitian d.mpo ds) {n : Int} (hn : n ≠ 0) (precision : ℝ) {low : ℝ}
    (hlow : ∀ ts, Bonds ts 1 ds 1 → normSq ts 1 ds 1 = 1 → low ≤ energy ts d.mpo ds) :
    ∃ (d' : Sim K) (e : ℝ), runTwoSite E o D n precision d = .ok (d', (e : K)) ∧ low ≤ e := by
  cases D with
  | none =>
    obtain ⟨d', e, h1, h2, _, _, h5, h6, _⟩ := C59_exact E hQ hS hE ho h hN hH n precision
    exact ⟨d', e, h1, by rw [h6]; exact hlow _ h2.bonds h5⟩
  | some D =>
    obtain ⟨d', e, h1, _, _, _, _, ts, t1, t2, t3, _⟩ := C59_truncated E hQ hS hE ho (D := D)
      (by rcases Nat.eq_zero_or_pos D with h0 | h0
          · exact absurd (by rw [h0]) hD
          · exact h0) h hN hH hn precision
    exact ⟨d', e, h1, by rw [t3]; exact hlow _ t1 t2⟩

/-- On a chain of one site `run_two_site` raises an `IndexError` unless the number of sweeps is zero. -/
theorem C59_single (E : Kern K) (hQ : QrOK E.toEnv) (hS : SvdOK E.toEnv) {o : Lopts} {D : Option Nat} {d : Sim K}
    {ds : List Nat} (h : SimOK d ds) (hN : d.mps.tensors.length = 1) {n : Int} (hn : n ≠ 0) (precision : ℝ) :
    runTwoSite E o D n precision d = .error .indexError := by
  obtain ⟨st, z, d0, p1, p2, hI, rfl, hz, hlen, s, s1, s2⟩ := prepare_ok E hQ hS h
  have hstep : optimizeBond E o D true d0 = .error .indexError := by
    obtain ⟨X, hX⟩ : ∃ X, d0.mps.tensors = [X] := List.length_eq_one_iff.1 (hlen.trans hN)
    unfold optimizeBond
    rw [hI.center, hX]
    rfl
  have hsw : sweep E (optimizeBond E o D) true d0 0 = .error .indexError := by
    have hp : position E d0 0 = .ok d0 := hI.stay (E := E)
    unfold sweep firstStep
    simp only [if_true, bind, Except.bind, hp, hstep]
  have hsws : ∀ k, sweeps E (optimizeBond E o D) precision k true d0 0 (10 ^ 100) = .error .indexError := by
    intro k
    cases k with
    | zero => exact hsw
    | succ k =>
      unfold sweeps
      simp only [bind, Except.bind, hsw]
  unfold runTwoSite run
  rw [if_neg hn]
  simp only [bind, Except.bind, p1, p2, hsws]

/-! ### Cases -/

/-- `C59_exact`, `C59_truncated` and `C59_bound`. -/
example : ∃ d : Sim ℂ, SimOK d [2, 2, 2] ∧
    (∃ (d' : Sim ℂ) (e : ℝ), runTwoSite exactKern someLopts none 7 0 d = .ok (d', (e : ℂ)) ∧
      e ≤ energy d.mps.tensors d.mpo [2, 2, 2]) ∧
    (∃ (d' : Sim ℂ) (e : ℝ), runTwoSite exactKern someLopts (some 1) 7 0 d = .ok (d', (e : ℂ)) ∧
      ∀ s A, s + 1 < d'.mps.tensors.length → d'.mps.tensors[s]? = some A → A.shape.getD 2 0 ≤ 1) := by
  obtain ⟨mps, Ws, d, _, _, _, h4, h5, rfl, _, h8, h9⟩ := three_ok
  have hl : 2 ≤ d.mps.tensors.length := by rw [h5, h8]; decide
  obtain ⟨d1, e1, r1, _, _, _, _, r6, r7⟩ := C59_exact exactKern (exactEnv_qr Ncon.soId) (exactEnv_svd Ncon.soId)
    Lanczos.someEigh_ok someLopts_ok h4 hl h9 7 0
  obtain ⟨d2, e2, q1, _, _, _, q5, _⟩ := C59_truncated exactKern (exactEnv_qr Ncon.soId) (exactEnv_svd Ncon.soId)
    Lanczos.someEigh_ok someLopts_ok (D := 1) one_pos h4 hl h9 (n := 7) (by decide) 0
  exact ⟨d, h4, ⟨d1, e1, r1, by rw [r6]; exact r7⟩, d2, e2, q1, q5⟩

/-- `C59_single`. -/
example : ∃ d : Sim ℂ, SimOK d [2] ∧ runTwoSite exactKern someLopts (some 4) 2 0 d = .error .indexError := by
  obtain ⟨d, _, d2, d3, _⟩ := C58_init (mps := ⟨[plusSite], some 0⟩) (mpo := [ones (K := ℂ) [1, 1, 2, 2]]) (ds := [2])
    (c := 0) ⟨2, 1, [], rfl, rfl, rfl, rfl⟩ ⟨2, 1, [], rfl, rfl, rfl, rfl⟩ rfl (by simp)
    (fun n A hA => ⟨fun h => absurd h (by omega), fun h => by
      rw [List.getElem?_eq_none (by simp; omega)] at hA
      cases hA⟩)
    ⟨0, one_pos, [0], .cons (by decide) .nil, 0, one_pos, by simp [amp, plusSite]⟩
  exact ⟨d, d2, C59_single exactKern (exactEnv_qr Ncon.soId) (exactEnv_svd Ncon.soId) d2 (by rw [d3]; rfl) (by decide) 0⟩

end TN.Dmrg
