import Verif.DmrgStep

/-!
# DMRG: one local optimisation of a single site
-/

set_option linter.unusedSectionVars false

namespace TN.Dmrg

open TN NDArray Finset Ncon Mps Mpo

variable {K : Type} [RCLike K]

/-- The state `ts'` is normalised, has the energy `ε`, and this is not larger than the energy of `ts`. -/
structure Better (Ws ts ts' : List (NDArray K)) (ds : List Nat) (ε : ℝ) : Prop where
  norm : normSq ts' 1 ds 1 = 1
  value : sand ts' Ws ts' ds = (ε : K)
  le : ε * normSq ts 1 ds 1 ≤ RCLike.re (sand ts Ws ts ds)

theorem Better.trans {Ws ts ts' ts'' : List (NDArray K)} {ds : List Nat} {ε ε' : ℝ} (h : Better Ws ts ts' ds ε)
    (h' : Better Ws ts' ts'' ds ε') (h0 : 0 ≤ normSq ts 1 ds 1) : Better Ws ts ts'' ds ε' := by
  refine ⟨h'.norm, h'.value, le_trans ?_ h.le⟩
  have := h'.le
  rw [h.norm, h.value, RCLike.ofReal_re, mul_one] at this
  exact mul_le_mul_of_nonneg_right this h0

theorem normSq_nonneg (ts : List (NDArray K)) (l : Nat) (ds : List Nat) (r : Nat) : 0 ≤ normSq ts l ds r := by
  unfold normSq
  exact Finset.sum_nonneg fun _ _ => sumIdx_nonneg fun _ => Finset.sum_nonneg fun _ _ => by positivity

theorem normSq_amp {ts ts' : List (NDArray K)} {ds : List Nat} (s : K)
    (h : ∀ is, InB ds is → amp ts 0 is 0 = s * amp ts' 0 is 0) :
    normSq ts 1 ds 1 = ‖s‖ ^ 2 * normSq ts' 1 ds 1 := by
  unfold normSq
  simp only [Finset.sum_range_one]
  rw [sumIdx_mul_left]
  refine sumIdx_congr fun is his => ?_
  rw [h is his, norm_mul, mul_pow]

/-- The same amplitudes up to a number of modulus one. -/
theorem Better.congr {Ws ts ts' ts'' : List (NDArray K)} {ds : List Nat} {ε : ℝ} (h : Better Ws ts ts' ds ε) {s : K}
    (hs : ‖s‖ = 1) (ha : ∀ is, InB ds is → amp ts' 0 is 0 = s * amp ts'' 0 is 0) : Better Ws ts ts'' ds ε := by
  refine ⟨?_, ?_, h.le⟩
  · have := normSq_amp s ha
    rw [h.norm, hs, one_pow, one_mul] at this
    exact this.symm
  · have := sand_congr (Ws := Ws) ha ha
    have h1 : star s * s = 1 := by
      have : star s * s = ((‖s‖ ^ 2 : ℝ) : K) := by
        rw [RCLike.star_def, RCLike.conj_mul]; push_cast; rfl
      rw [this, hs]; simp
    rw [h.value, h1, one_mul] at this
    exact this.symm

theorem Local.split {d : Sim K} {Ws : List (NDArray K)} {ds : List Nat} {c : Nat} {L A W R : NDArray K}
    {m p k u t : Nat} (h : Local d Ws ds c L A W R m p k u t) (hc : c < d.mps.tensors.length) (g : NDArray K) :
    d.mps.tensors.set c g = d.mps.tensors.take c ++ g :: d.mps.tensors.drop (c + 1) ∧
    d.mps.tensors = d.mps.tensors.take c ++ A :: d.mps.tensors.drop (c + 1) ∧
    Ws = Ws.take c ++ W :: Ws.drop (c + 1) ∧ ds = ds.take c ++ p :: ds.drop (c + 1) := by
  refine ⟨?_, ?_, ?_, ?_⟩
  · rw [List.set_eq_take_append_cons_drop, if_pos hc]
  · rw [← h.site.dropT, List.take_append_drop]
  · rw [← h.op.dropT, List.take_append_drop]
  · rw [← h.site.dropD, List.take_append_drop]

theorem canonical_set {ts : List (NDArray K)} {c : Nat} (h : Canonical ts c) (g : NDArray K) : Canonical (ts.set c g) c := by
  intro n A hA
  by_cases hn : n = c
  · subst hn
    exact ⟨fun h => by omega, fun h => by omega⟩
  · rw [List.getElem?_set_ne (Ne.symm hn)] at hA
    exact h n A hA

/-- The optimisation of the centre: the new tensor makes the state a better one. -/
theorem Inv.optimum (E : Kern K) (hE : Lanczos.EighOK E.eigh) {o : Lopts} (ho : o.OK) {d : Sim K}
    {Ws : List (NDArray K)} {ds : List Nat} {c : Nat} (h : Inv d Ws ds c) (hH : Hermitian Ws ds)
    (hz : normSq d.mps.tensors 1 ds 1 ≠ 0) {L A W R : NDArray K} {m p k u t : Nat}
    (hl : Local d Ws ds c L A W R m p k u t) :
    ∃ ε g, ground E (siteMatvec E L W R) o A = .ok (ε, g) ∧ g.shape = [m, p, k] ∧ Mps.norm g = 1 ∧
      Bonds (d.mps.tensors.set c g) 1 ds 1 ∧ Better Ws d.mps.tensors (d.mps.tensors.set c g) ds ε := by
  have hn := h.canon.normSq hl.site.get h.bonds
  have h0 : Mps.norm A ≠ 0 := by
    intro h0
    rw [hn, h0] at hz
    simp at hz
  obtain ⟨_, s2, s3, s4⟩ := hl.split h.lt A
  obtain ⟨ε, g, g1, g2, g3, g4, g5⟩ := ground_site E hE ho hl.left hl.right hl.op.shape (by rw [← s3, ← s4]; exact hH)
    hl.site.shape h0
  obtain ⟨s1, _⟩ := hl.split h.lt g
  rw [← s3, ← s4, ← s1] at g4
  rw [← s3, ← s4, ← s2, ← hn] at g5
  have hb : Bonds (d.mps.tensors.set c g) 1 ds 1 := by
    rw [s1, s4]
    exact hl.site.left.append ⟨p, k, _, rfl, g2, hl.site.right⟩
  refine ⟨ε, g, g1, g2, g3, hb, ?_, g4, g5⟩
  rw [(canonical_set h.canon g).normSq (List.getElem?_set_self h.lt) hb, g3, one_pow]

theorem amp_one {g : NDArray K} {l p r : Nat} (hg : g.shape = [l, p, r]) (a i : Nat) {b : Nat} (hb : b < r) :
    amp [g] a [i] b = g.get [a, i, b] := by
  rw [amp_cons hg, Finset.sum_eq_single b]
  · simp [amp]
  · intro c _ hc; simp [amp, hc]
  · intro h; exact absurd (Finset.mem_range.2 hb) h

/-- One local optimisation. -/
structure SiteStep (Ws : List (NDArray K)) (ds : List Nat) (d d' : Sim K) (c' : Nat) (ε : ℝ) : Prop where
  inv : Inv d' Ws ds c'
  length : d'.mps.tensors.length = d.mps.tensors.length
  better : Better Ws d.mps.tensors d'.mps.tensors ds ε

theorem optimizeSite_right (E : Kern K) (hQ : QrOK E.toEnv) (hE : Lanczos.EighOK E.eigh) {o : Lopts} (ho : o.OK)
    {d : Sim K} {Ws : List (NDArray K)} {ds : List Nat} {c : Nat} (h : Inv d Ws ds c) (hH : Hermitian Ws ds)
    (hz : normSq d.mps.tensors 1 ds 1 ≠ 0) (hc : c + 1 < d.mps.tensors.length) :
    ∃ d' ε, optimizeSite E o true d = .ok (d', ε) ∧ SiteStep Ws ds d d' (c + 1) ε := by
  obtain ⟨L, A, W, R, m, p, k, u, t, l1, r1, hl⟩ := h.local
  obtain ⟨ε, g, g1, g2, g3, hb, hbet⟩ := h.optimum E hE ho hH hz hl
  obtain ⟨Q, T, k', q1, q2, q3, q4, q5⟩ := qr_three hQ g2
  obtain ⟨B, m', q, r, b1⟩ := h.bonds.exists_site hc
  have hk : m' = k := by
    obtain ⟨l0, p0, m0, q0, r0, w1, w2⟩ := h.bonds.at hl.site.get b1.get
    rw [hl.site.shape] at w1
    rw [b1.shape] at w2
    simp only [List.cons.injEq, and_true] at w1 w2
    omega
  subst hk
  obtain ⟨B', c1, c2, c3⟩ := ncon_rest_right E.so q3 b1.shape
  obtain ⟨L', e1, e2⟩ := h.moveRight (E := E) hl.site hl.op hl.left b1.get
    ⟨m, p, m', q, r, k', hl.site.shape, b1.shape, q2, c2⟩ q4
  refine ⟨_, ε, ?_, e2, by simp, ?_⟩
  · unfold optimizeSite
    rw [h.center]
    simp only [bind, Except.bind, l1, r1, h.mpo, tensorAt_ok hl.op.get, tensorAt_ok hl.site.get, g1, q1, if_true,
      if_pos hc, tensorAt_ok b1.get, c1, e1]
    rfl
  · refine hbet.congr (s := 1) (by simp) fun is his => ?_
    have hsp : SameProduct (1 : K) g B Q B' := by
      refine ⟨m, p, m', q, r, k', g2, b1.shape, q2, c2, fun a ha i hi j hj b hb => ?_⟩
      rw [one_mul]
      have e3 : ∀ x ∈ range m', g.get [a, i, x] * B.get [x, j, b] =
          ∑ y ∈ range k', Q.get [a, i, y] * T.get [y, x] * B.get [x, j, b] := by
        intro x hx
        rw [q5 a ha i hi x (Finset.mem_range.1 hx), Finset.sum_mul]
      rw [Finset.sum_congr rfl e3, Finset.sum_comm]
      refine Finset.sum_congr rfl fun y hy => ?_
      rw [c3 y (Finset.mem_range.1 hy) j hj b hb, Finset.mul_sum]
      exact Finset.sum_congr rfl fun x _ => by ring
    have hB1 : (d.mps.tensors.set c g)[c + 1]? = some B := by
      rw [List.getElem?_set_ne (by omega)]; exact b1.get
    have := amp_set hb (List.getElem?_set_self h.lt) hB1 hsp one_pos his 0
    rwa [List.set_set] at this

theorem optimizeSite_left (E : Kern K) (hQ : QrOK E.toEnv) (hE : Lanczos.EighOK E.eigh) {o : Lopts} (ho : o.OK)
    {d : Sim K} {Ws : List (NDArray K)} {ds : List Nat} {c : Nat} (h : Inv d Ws ds (c + 1)) (hH : Hermitian Ws ds)
    (hz : normSq d.mps.tensors 1 ds 1 ≠ 0) :
    ∃ d' ε, optimizeSite E o false d = .ok (d', ε) ∧ SiteStep Ws ds d d' c ε := by
  obtain ⟨L, A, W, R, m, p, k, u, t, l1, r1, hl⟩ := h.local
  obtain ⟨ε, g, g1, g2, g3, hb, hbet⟩ := h.optimum E hE ho hH hz hl
  obtain ⟨T, Q, k', q1, q2, q3, q4, q5⟩ := rq_three hQ g2
  have hlt := h.lt
  obtain ⟨B, m', q, r, b1⟩ := h.bonds.exists_site (s := c) (by omega)
  have hk : r = m := by
    obtain ⟨l0, p0, m0, q0, r0, w1, w2⟩ := h.bonds.at b1.get hl.site.get
    rw [b1.shape] at w1
    rw [hl.site.shape] at w2
    simp only [List.cons.injEq, and_true] at w1 w2
    omega
  subst hk
  obtain ⟨B', c1, c2, c3⟩ := ncon_rest_left E.so b1.shape q2
  obtain ⟨R', e1, e2⟩ := h.moveLeft (E := E) hl.site hl.op hl.right b1.get
    ⟨m', q, r, p, k, k', b1.shape, hl.site.shape, c2, q3⟩ q4
  refine ⟨_, ε, ?_, e2, by simp, ?_⟩
  · unfold optimizeSite
    rw [h.center]
    have hpos : 0 < c + 1 := by omega
    have hsub : c + 1 - 1 = c := rfl
    simp only [bind, Except.bind, l1, r1, h.mpo, tensorAt_ok hl.op.get, tensorAt_ok hl.site.get, g1, q1,
      Bool.false_eq_true, if_false, if_pos hpos, hsub, tensorAt_ok b1.get, c1, e1]
    have : ((c + 1 : Nat) : Int) - 1 = c := by push_cast; ring
    rw [this]
    rfl
  · refine hbet.congr (s := 1) (by simp) fun is his => ?_
    have hsp : SameProduct (1 : K) B g B' Q := by
      refine ⟨m', q, r, p, k, k', b1.shape, g2, c2, q3, fun a ha i hi j hj b hb => ?_⟩
      rw [one_mul]
      have e3 : ∀ x ∈ range r, B.get [a, i, x] * g.get [x, j, b] =
          ∑ y ∈ range k', B.get [a, i, x] * (T.get [x, y] * Q.get [y, j, b]) := by
        intro x hx
        rw [q5 x (Finset.mem_range.1 hx) j hj b hb, Finset.mul_sum]
      rw [Finset.sum_congr rfl e3, Finset.sum_comm]
      refine Finset.sum_congr rfl fun y hy => ?_
      rw [c3 a ha i hi y (Finset.mem_range.1 hy), Finset.sum_mul]
      exact Finset.sum_congr rfl fun x _ => by ring
    have hB1 : (d.mps.tensors.set (c + 1) g)[c]? = some B := by
      rw [List.getElem?_set_ne (by omega)]; exact b1.get
    have := amp_set hb hB1 (List.getElem?_set_self h.lt) hsp one_pos his 0
    rw [List.set_comm _ _ (by omega : c + 1 ≠ c), List.set_set] at this
    rw [List.set_comm _ _ (by omega : c + 1 ≠ c)]
    exact this

end TN.Dmrg
