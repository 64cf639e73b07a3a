import Verif.DmrgRun
import Verif.MpoProps
import Verif.LanczosProps2

/-!
# DMRG: the properties (C58)

The specification is `sand`, the matrix element of the operator between two wave functions, and `energy`, the
expectation value of the operator in a state that need not be normalised.
-/

set_option linter.unusedSectionVars false

namespace TN.Dmrg

open TN NDArray Finset Ncon Mps Mpo

variable {K : Type} [RCLike K]

/-! ### The constructor -/

/-- **C58**: `FiniteDMRG` makes a consistent object from a nonzero canonical MPS and an MPO for the same sites. -/
theorem C58_init {mps : Mps.State K} {mpo : List (NDArray K)} {ds : List Nat} {c : Nat}
    (hb : Bonds mps.tensors 1 ds 1) (ho : OpBonds mpo 1 ds 1) (hc : mps.center = some c) (hlt : c < mps.tensors.length)
    (hcan : Canonical mps.tensors c) (hz : Nonzero mps.tensors 1 ds 1) :
    ∃ d, finite mps mpo = .ok d ∧ SimOK d ds ∧ d.mps = mps ∧ d.mpo = mpo := by
  have hlen := same_length hb ho
  obtain ⟨A, W, m, p, k, u, t, a1, b1⟩ := site_pair hb ho (s := 0) (by omega)
  obtain ⟨A', W', m', p', k', u', t', a2, b2⟩ := site_pair hb ho (s := mps.tensors.length - 1) (by omega)
  have h1 : mps.tensors.head? = some A := by rw [List.head?_eq_getElem?]; exact a1.get
  have h2 : mpo.head? = some W := by rw [List.head?_eq_getElem?]; exact b1.get
  have h3 : mps.tensors.getLast? = some A' := by rw [List.getLast?_eq_getElem?]; exact a2.get
  have h4 : mpo.getLast? = some W' := by rw [List.getLast?_eq_getElem?, ← hlen]; exact b2.get
  have e1 : A.shape.getD 0 0 = 1 := by
    rw [a1.shape]
    have := a1.left
    simp only [List.take_zero] at this
    exact this.2.symm
  have e2 : W.shape.getD 0 0 = 1 := by
    rw [b1.shape]
    have := b1.left
    simp only [List.take_zero] at this
    exact this.2.symm
  have hd1 := hb.length
  have e3 : A'.shape.getD 2 0 = 1 := by
    rw [a2.shape]
    have := a2.right
    rw [List.drop_eq_nil_of_le (by omega)] at this
    exact this.2
  have e4 : W'.shape.getD 1 0 = 1 := by
    rw [b2.shape]
    have := b2.right
    rw [List.drop_eq_nil_of_le (by omega)] at this
    exact this.2
  refine ⟨⟨mps, mpo, [(0, ones [1, 1, 1])], [((mps.tensors.length : Int) - 1, ones [1, 1, 1])]⟩, ?_, ?_, rfl, rfl⟩
  · unfold finite
    rw [h1, h2, h3, h4]
    simp only [e1, e2, e3, e4]
    unfold init
    rw [if_neg (by simpa using hlen), hc]
  · refine ⟨hb, ho, fun h0 => ?_, ⟨c, hc, hlt, hcan⟩, hz, ⟨ones [1, 1, 1], by simp [Envs.find], rfl, rfl⟩,
      ⟨ones [1, 1, 1], by simp [Envs.find], rfl, rfl⟩⟩
    rw [h0] at hlt
    simp at hlt

/-- Chains of different lengths are refused. -/
theorem C58_init_length {mps : Mps.State K} {mpo : List (NDArray K)} (h1 : mps.tensors ≠ []) (h2 : mpo ≠ [])
    (h : mps.tensors.length ≠ mpo.length) : finite mps mpo = .error .valueError := by
  unfold finite
  obtain ⟨W, Ws, rfl⟩ := List.exists_cons_of_ne_nil h2
  obtain ⟨A, As, hA⟩ := List.exists_cons_of_ne_nil h1
  rw [hA]
  simp only [List.head?_cons, List.getLast?_cons]
  unfold init
  rw [if_pos h]

/-- An MPS that is not in canonical form is refused. -/
theorem C58_init_center {mps : Mps.State K} {mpo : List (NDArray K)} (h1 : mps.tensors ≠ []) (h2 : mpo ≠ [])
    (hc : mps.center = none) : finite mps mpo = .error .valueError := by
  unfold finite
  obtain ⟨W, Ws, rfl⟩ := List.exists_cons_of_ne_nil h2
  obtain ⟨A, As, hA⟩ := List.exists_cons_of_ne_nil h1
  rw [hA]
  simp only [List.head?_cons, List.getLast?_cons]
  unfold init
  split_ifs
  · rfl
  · rw [hc]

/-! ### The energy -/

theorem star_mul_ofReal (s : ℝ) : star (s : K) * (s : K) = ((s ^ 2 : ℝ) : K) := by
  rw [RCLike.star_def, RCLike.conj_ofReal]
  push_cast
  ring

theorem energy_congr {ts ts' Ws : List (NDArray K)} {ds : List Nat} {s : ℝ} (hs : 0 < s)
    (h : ∀ is, InB ds is → amp ts 0 is 0 = (s : K) * amp ts' 0 is 0) :
    sand ts Ws ts ds / ((normSq ts 1 ds 1 : ℝ) : K) = sand ts' Ws ts' ds / ((normSq ts' 1 ds 1 : ℝ) : K) := by
  have h0 : ((s ^ 2 : ℝ) : K) ≠ 0 := by exact_mod_cast pow_ne_zero 2 hs.ne'
  rw [sand_congr (Ws := Ws) h h, normSq_amp (s : K) h, star_mul_ofReal]
  have : ‖(s : K)‖ ^ 2 = s ^ 2 := by rw [RCLike.norm_ofReal, sq_abs]
  rw [this, RCLike.ofReal_mul, mul_div_mul_left _ _ h0]

theorem energy_ofReal {ts Ws : List (NDArray K)} {ds : List Nat} (hH : Hermitian Ws ds) :
    ((energy ts Ws ds : ℝ) : K) = sand ts Ws ts ds / ((normSq ts 1 ds 1 : ℝ) : K) := by
  have h1 := sand_star (bra := ts) (ket := ts) hH
  rw [RCLike.star_def] at h1
  have h2 := RCLike.conj_eq_iff_re.1 h1
  unfold energy
  push_cast
  rw [h2]

/-- **C58**: `compute_energy` returns the expectation value of the operator.  The state is kept up to a positive
factor and normalised. -/
theorem C58_energy (E : Kern K) (hQ : QrOK E.toEnv) (hS : SvdOK E.toEnv) {d : Sim K} {ds : List Nat} (h : SimOK d ds) :
    ∃ d' v, computeEnergy E d = .ok (d', v) ∧ v = sand d.mps.tensors d.mpo d.mps.tensors ds /
        ((normSq d.mps.tensors 1 ds 1 : ℝ) : K) ∧
      SimOK d' ds ∧ d'.mpo = d.mpo ∧ d'.mps.center = some 0 ∧ normSq d'.mps.tensors 1 ds 1 = 1 ∧
      ∃ s : ℝ, 0 < s ∧ ∀ is, InB ds is → amp d.mps.tensors 0 is 0 = (s : K) * amp d'.mps.tensors 0 is 0 := by
  obtain ⟨st, z, d', p1, p2, hI, rfl, hz, hlen, s, s1, s2⟩ := prepare_ok E hQ hS h
  obtain ⟨C, c1, c2⟩ := position_center p1
  have hn : normSq d'.mps.tensors 1 ds 1 = 1 := by
    rw [hI.canon.normSq c1 hI.bonds]
    have h2 : Mps.norm C * z = z := by simpa using c2.1
    have h3 : Mps.norm C = 1 := mul_right_cancel₀ (c2.2 rfl) (by rw [h2, one_mul])
    rw [h3, one_pow]
  obtain ⟨L, A, W, R, m, p, k, u, t, l1, r1, hl⟩ := hI.local
  obtain ⟨X, x1, x2⟩ := addRight_ok E hl.right hl.site.shape hl.op.shape
  rw [← hl.site.dropT, ← hl.op.dropT, ← hl.site.dropD] at x2
  simp only [List.drop_zero] at x2
  obtain ⟨rfl, rfl⟩ : u = 1 ∧ m = 1 :=
    ⟨x2.mpo.unique_left hI.opb, x2.bonds.unique_left hI.bonds⟩
  obtain ⟨v, n1, n2, n3⟩ := nconInt_spec E.so (ts := [X, L]) (l := [[1, 2, 3], [1, 2, 3]]) (closed := [1, 2, 3])
    (out := []) (dim := fun _ => 1) (by simp) rfl (by
      intro q hq
      simp only [List.zip_cons_cons, List.zip_nil_right, List.mem_cons, List.not_mem_nil, or_false] at hq
      rcases hq with rfl | rfl
      · exact x2.shape
      · exact hl.left.shape) (by decide)
  refine ⟨d', v.get [], ?_, ?_, hI.simOK hz, hI.mpo, hI.center, hn, s, s1, s2⟩
  · have l1' : d'.left.find 0 = .ok L := l1
    have r1' : d'.right.find 0 = .ok R := r1
    unfold computeEnergy
    simp only [bind, Except.bind, p1, p2, r1', l1', n1, hI.mpo, tensorAt_ok hl.site.get, tensorAt_ok hl.op.get, x1]
    rfl
  · rw [energy_congr s1 s2, hn, RCLike.ofReal_one, div_one]
    rw [n3 [] .nil, sand_eq, ← x2.get 0 one_pos 0 one_pos 0 one_pos]
    have hL : L.get [0, 0, 0] = 1 := by
      rw [hl.left.get 0 one_pos 0 one_pos 0 one_pos]
      simp only [List.take_zero]
      rw [part_nil]
      simp [delta]
    simp only [List.map_cons, List.map_nil, sumIdx, Finset.sum_range_one]
    show X.get [0, 0, 0] * (L.get [0, 0, 0] * 1) = _
    rw [hL]
    ring

/-- The general form of a run. -/
theorem run_ok (E : Kern K) (hQ : QrOK E.toEnv) (hS : SvdOK E.toEnv) {step : Bool → Sim K → Py (Sim K × ℝ)}
    {d : Sim K} {ds : List Nat} (h : SimOK d ds) (hH : Hermitian d.mpo ds)
    (hstep : StepOK step d.mpo ds d.mps.tensors.length) (n : Int) (precision : ℝ) :
    ∃ (d' : Sim K) (e : ℝ), run E step n precision d = .ok (d', (e : K)) ∧ SimOK d' ds ∧ d'.mpo = d.mpo ∧ d'.mps.center = some 0 ∧
      normSq d'.mps.tensors 1 ds 1 = 1 ∧ e = energy d'.mps.tensors d.mpo ds ∧
      energy d'.mps.tensors d.mpo ds ≤ energy d.mps.tensors d.mpo ds := by
  by_cases hn : n = 0
  · obtain ⟨d', v, h1, h2, h3, h4, h5, h6, s, h7, h8⟩ := C58_energy E hQ hS h
    have e1 : v = ((energy d.mps.tensors d.mpo ds : ℝ) : K) := by rw [h2, energy_ofReal hH]
    have e2 : energy d'.mps.tensors d.mpo ds = energy d.mps.tensors d.mpo ds := by
      have : ((energy d'.mps.tensors d.mpo ds : ℝ) : K) = ((energy d.mps.tensors d.mpo ds : ℝ) : K) := by
        rw [energy_ofReal hH, energy_ofReal hH, energy_congr h7 h8]
      exact_mod_cast this
    refine ⟨d', energy d.mps.tensors d.mpo ds, ?_, h3, h4, h5, h6, e2.symm, e2.le⟩
    unfold run
    rw [if_pos hn, h1, e1]
  · obtain ⟨st, z, d0, p1, p2, hI, rfl, hz, hlen, s, s1, s2⟩ := prepare_ok E hQ hS h
    obtain ⟨d', e, w1, w2⟩ := sweeps_ok (E := E) (step := step) (by rw [hlen]; exact hstep) hI hz precision
      (n - 1).toNat 0 (10 ^ 100)
    have hv := w2.better.value
    have hd : energy d'.mps.tensors d.mpo ds = e := by
      unfold energy
      rw [hv, w2.better.norm, RCLike.ofReal_re, div_one]
    have h0 : energy d.mps.tensors d.mpo ds = energy d0.mps.tensors d.mpo ds := by
      have : ((energy d.mps.tensors d.mpo ds : ℝ) : K) = ((energy d0.mps.tensors d.mpo ds : ℝ) : K) := by
        rw [energy_ofReal hH, energy_ofReal hH, energy_congr s1 s2]
      exact_mod_cast this
    refine ⟨d', e, ?_, w2.inv.simOK w2.ne, w2.inv.mpo, w2.inv.center, w2.better.norm, hd.symm, ?_⟩
    · unfold run
      rw [if_neg hn]
      simp only [bind, Except.bind, p1, p2, w1]
      rfl
    · rw [h0, hd]
      unfold energy
      rw [le_div_iff₀ (lt_of_le_of_ne (normSq_nonneg _ _ _ _) (Ne.symm hz))]
      exact w2.better.le

/-- **C58**: for a Hermitian operator and a nonzero state, `run_one_site` succeeds for every number of sweeps.  The
number that it returns is the energy of the state that it leaves, this state has norm one, and its energy is not
larger than that of the initial state. -/
theorem C58_one_site (E : Kern K) (hQ : QrOK E.toEnv) (hS : SvdOK E.toEnv) (hE : Lanczos.EighOK E.eigh) {o : Lopts}
    (ho : o.OK) {d : Sim K} {ds : List Nat} (h : SimOK d ds) (hH : Hermitian d.mpo ds) (n : Int) (precision : ℝ) :
    ∃ (d' : Sim K) (e : ℝ), runOneSite E o n precision d = .ok (d', (e : K)) ∧ SimOK d' ds ∧ d'.mpo = d.mpo ∧
      d'.mps.center = some 0 ∧ normSq d'.mps.tensors 1 ds 1 = 1 ∧ e = energy d'.mps.tensors d.mpo ds ∧
      energy d'.mps.tensors d.mpo ds ≤ energy d.mps.tensors d.mpo ds :=
  run_ok E hQ hS h hH (optimizeSite_ok E hQ hE ho hH _) n precision

/-! ### Moving the centre -/

theorem find_remove {e : Envs K} {p : Int → Bool} {s : Int} (h : p s = false) : (remove e p).find s = e.find s := by
  unfold remove Envs.find
  have : List.lookup s (e.filter fun x => !p x.1) = List.lookup s e := by
    induction e with
    | nil => rfl
    | cons x e ih =>
      obtain ⟨k, t⟩ := x
      by_cases hk : s = k
      · subst hk
        rw [List.filter_cons_of_pos (by simp [h])]
        simp [List.lookup]
      · have hk' : (s == k) = false := by simpa using hk
        by_cases hp : p k
        · rw [List.filter_cons_of_neg (by simp [hp]), ih, List.lookup_cons, hk']
        · rw [List.filter_cons_of_pos (by simp [hp]), List.lookup_cons, hk', List.lookup_cons, hk', ih]
  rw [this]

/-- **C60**: once the environments are there, `position` of the DMRG object moves the centre, keeps the state up to a positive factor, and leaves
the environments that belong to the new state. -/
theorem C60_position_partial (E : Kern K) (hQ : QrOK E.toEnv) (hS : SvdOK E.toEnv) {d : Sim K} {Ws : List (NDArray K)}
    {ds : List Nat} {c : Nat} (h : Inv d Ws ds c) (hz : Nonzero d.mps.tensors 1 ds 1) {s : Nat}
    (hs : s < d.mps.tensors.length) :
    ∃ d', position E d s = .ok d' ∧ Inv d' Ws ds s ∧
      ∃ x : ℝ, 0 < x ∧ ∀ is, InB ds is → amp d.mps.tensors 0 is 0 = (x : K) * amp d'.mps.tensors 0 is 0 := by
  by_cases hsc : s = c
  · subst hsc
    exact ⟨d, h.stay, h, 1, one_pos, by simp⟩
  obtain ⟨st, z, p1, p2, p3, x, x1, _, x2⟩ := position_exact hQ h.center h.lt h.bonds (site := (s : Int)) (by omega)
    (by omega) true (fun _ => hz)
  obtain ⟨_, _, p4⟩ := position_keeps hQ hS h.center h.bonds h.canon p1
  obtain ⟨s', q0, q1, q2, q3, q4, q5, _, _⟩ := position_canonical hQ hS h.center h.bonds p1
  obtain rfl : s = s' := by exact_mod_cast q0
  simp only [Int.toNat_natCast] at p2 p4
  have hlen : st.tensors.length = d.mps.tensors.length := by rw [← p3.length, h.bonds.length]
  have hlt := h.lt
  have hl : ∀ j ≤ min c s, HasLeft d.left st.tensors Ws ds j := by
    intro j hj
    obtain ⟨L, u, m, l1, l2⟩ := h.left j (by omega)
    refine ⟨L, u, m, l1, ?_⟩
    rwa [take_of_eq fun n hn => q4 n (by omega)]
  have hr : ∀ j, max c s ≤ j → j < st.tensors.length → HasRight d.right st.tensors Ws ds j := by
    intro j hj hj2
    obtain ⟨L, u, m, l1, l2⟩ := h.right j (by omega) (by omega)
    refine ⟨L, u, m, l1, ?_⟩
    rwa [drop_of_eq fun n hn => q5 n (by omega)]
  unfold position
  rw [if_neg (by omega), if_neg (by omega), h.center]
  simp only
  rw [if_neg (by omega)]
  by_cases hgt : c < s
  · rw [if_pos (by omega)]
    obtain ⟨e', r1, r2⟩ := leftLoop_ok E p3 h.opb (s - c) c (e := d.left) (by omega) (by
      intro j hj; exact hl j (by omega))
    simp only [bind, Except.bind, p1, h.mpo, Int.toNat_natCast, r1]
    refine ⟨_, rfl, ⟨rfl, h.opb, p2, by simpa [prune] using q1, p3, p4, fun j hj => ?_, fun j hj hj2 => ?_⟩,
      x, x1, fun is his => x2 0 one_pos is his 0⟩
    · obtain ⟨L, u, m, l1, l2⟩ := r2 j (by omega)
      refine ⟨L, u, m, ?_, l2⟩
      simp only [prune]
      rw [find_remove (by simp; omega), l1]
    · obtain ⟨L, u, m, l1, l2⟩ := hr j (by omega) hj2
      refine ⟨L, u, m, ?_, l2⟩
      simp only [prune]
      rw [find_remove (by simp; omega), l1]
  · rw [if_neg (by omega)]
    obtain ⟨e', r1, r2⟩ := rightLoop_ok E p3 h.opb s (c - s) (e := d.right) (by omega) (by
      intro j hj hj2; exact hr j (by omega) hj2)
    simp only [bind, Except.bind, p1, h.mpo, Int.toNat_natCast, r1]
    refine ⟨_, rfl, ⟨rfl, h.opb, p2, by simpa [prune] using q1, p3, p4, fun j hj => ?_, fun j hj hj2 => ?_⟩,
      x, x1, fun is his => x2 0 one_pos is his 0⟩
    · obtain ⟨L, u, m, l1, l2⟩ := hl j (by omega)
      refine ⟨L, u, m, ?_, l2⟩
      simp only [prune]
      rw [find_remove (by simp; omega), l1]
    · obtain ⟨L, u, m, l1, l2⟩ := r2 j hj hj2
      refine ⟨L, u, m, ?_, l2⟩
      simp only [prune]
      rw [find_remove (by simp; omega), l1]

/-- `compute_left_envs` and then `compute_right_envs` give all the environments. -/
theorem C60_envs (E : Kern K) {d : Sim K} {ds : List Nat} (h : SimOK d ds) {c : Nat} (hc : d.mps.center = some c) :
    ∃ d1 d2, computeLeft E d = .ok d1 ∧ computeRight E d1 = .ok d2 ∧ d2.mps = d.mps ∧ Inv d2 d.mpo ds c := by
  obtain ⟨d1, h1, h2, h3, h4, _, h6⟩ := computeLeft_ok E h hc
  obtain ⟨d2, k1, k2, k3⟩ := computeRight_ok E h2 (c := c) (by rw [h3]; exact hc) h6
  exact ⟨d1, d2, h1, k1, k3.trans h3, by rw [← h4]; exact k2⟩

/-- **C60** fails without the environments: `position` raises `KeyError`: it fails on every object that `FiniteDMRG` has just made
from an MPS with its centre in the interior. -/
theorem C60_position_false (E : Kern K) (hQ : QrOK E.toEnv) {mps : Mps.State K} {mpo : List (NDArray K)} {d : Sim K}
    {ds : List Nat} {c : Nat} (hb : Bonds mps.tensors 1 ds 1) (hz : Nonzero mps.tensors 1 ds 1)
    (hc : mps.center = some c) (hd : finite mps mpo = .ok d) {s : Nat} (h0 : 0 < c) (hs : c < s)
    (hN : s < mps.tensors.length) : position E d s = .error .keyError := by
  have hd' : d.mps = mps ∧ ∃ L, d.left = [(0, L)] := by
    unfold finite at hd
    split at hd
    · unfold init at hd
      split_ifs at hd
      rw [hc] at hd
      cases hd
      exact ⟨rfl, _, rfl⟩
    · cases hd
  obtain ⟨rfl, L, hL⟩ := hd'
  obtain ⟨st, z, p1, _⟩ := position_exact hQ hc (by omega) hb (site := (s : Int)) (by omega) (by omega) true
    (fun _ => hz)
  unfold position
  rw [if_neg (by omega), if_neg (by omega), hc]
  simp only
  rw [if_neg (by omega), if_pos (by omega)]
  obtain ⟨k, hk⟩ : ∃ k, s - c = k + 1 := ⟨s - c - 1, by omega⟩
  have hf : d.left.find (c : Int) = .error .keyError := by
    rw [hL]
    unfold Envs.find
    have : ((c : Int) == 0) = false := by simp; omega
    rw [List.lookup_cons, this]
    rfl
  simp only [bind, Except.bind, p1, Int.toNat_natCast, hk, List.range'_succ]
  unfold leftLoop
  simp only [bind, Except.bind, hf]

end TN.Dmrg
