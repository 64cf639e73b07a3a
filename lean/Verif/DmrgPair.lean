import Verif.DmrgSvd

/-!
# DMRG: the two-site step
-/

set_option linter.unusedSectionVars false

namespace TN.Dmrg

open TN NDArray Finset Ncon Mps Mpo

variable {K : Type} [RCLike K]

/-- The dimension of the bond to the right of a site. -/
def bondDim (ts : List (NDArray K)) (n : Nat) : Nat := ((ts[n]?).map fun A => A.shape.getD 2 0).getD 0

/-- One local optimisation of the sites `c` and `c + 1`.  The energy is that of a state before the truncation. -/
structure BondStep (D : Option Nat) (Ws : List (NDArray K)) (ds : List Nat) (d d' : Sim K) (c c' : Nat) (ε : ℝ) :
    Prop where
  inv : Inv d' Ws ds c'
  length : d'.mps.tensors.length = d.mps.tensors.length
  best : ∃ ts1, Bonds ts1 1 ds 1 ∧ Better Ws d.mps.tensors ts1 ds ε ∧
    distSq ts1 d'.mps.tensors ds + normSq d'.mps.tensors 1 ds 1 = 1 ∧
    (D = none → distSq ts1 d'.mps.tensors ds = 0)
  pos : normSq d'.mps.tensors 1 ds 1 ≠ 0
  bond : ∀ n, D = some n → bondDim d'.mps.tensors c ≤ n
  others : ∀ s, s ≠ c → bondDim d'.mps.tensors s = bondDim d.mps.tensors s

theorem keep_pos {S : List ℝ} (h0 : ∀ x ∈ S, 0 ≤ x) (hs : S.Pairwise (· ≥ ·)) (h1 : ∑ x ∈ range S.length, S.getD x 0 ^ 2 = 1)
    {k : Nat} (hk : 0 < k) : ∑ x ∈ range (min k S.length), S.getD x 0 ^ 2 ≠ 0 := by
  intro hz
  cases S with
  | nil => simp at h1
  | cons a S =>
    have h2 := (Finset.sum_eq_zero_iff_of_nonneg (fun _ _ => sq_nonneg _)).1 hz 0
      (Finset.mem_range.2 (by simp; omega))
    simp only [List.getD_cons_zero] at h2
    have ha : a = 0 := pow_eq_zero_iff (two_ne_zero) |>.1 h2
    have h3 : ∀ x ∈ a :: S, x = 0 := by
      intro x hx
      rcases List.mem_cons.1 hx with rfl | hx'
      · exact ha
      · have := (List.pairwise_cons.1 hs).1 x hx'
        have := h0 x hx
        linarith
    rw [Finset.sum_eq_zero] at h1
    · exact zero_ne_one h1
    · intro x hx
      have hx := Finset.mem_range.1 hx
      rw [List.getD_eq_getElem _ _ hx, h3 _ (List.getElem_mem hx)]
      simp

theorem bondDim_set {ts : List (NDArray K)} {c : Nat} {B X Y : NDArray K} (hB : ts[c + 1]? = some B)
    (hY : Y.shape.getD 2 0 = B.shape.getD 2 0) {s : Nat} (hs : s ≠ c) :
    bondDim ((ts.set c X).set (c + 1) Y) s = bondDim ts s := by
  have hc := (List.getElem?_eq_some_iff.1 hB).1
  unfold bondDim
  by_cases h1 : s = c + 1
  · subst h1
    rw [List.getElem?_set_self (by simpa using hc), hB]
    exact hY
  · rw [List.getElem?_set_ne (Ne.symm h1), List.getElem?_set_ne (Ne.symm hs)]

theorem bondDim_self {ts : List (NDArray K)} {c : Nat} {X Y : NDArray K} (hc : c < ts.length) :
    bondDim ((ts.set c X).set (c + 1) Y) c = X.shape.getD 2 0 := by
  unfold bondDim
  rw [List.getElem?_set_ne (by omega), List.getElem?_set_self hc]
  rfl

/-- How many of `n` singular values are kept. -/
def kept (D : Option Nat) (n : Nat) : Nat := min (D.getD n) n

/-- The part of the step that does not depend on the direction: what the truncated state has to do with the optimum. -/
theorem bond_best {ts : List (NDArray K)} {Ws : List (NDArray K)} {ds : List Nat} {c0 c : Nat} (hcan : Canonical ts c0)
    (h1 : c ≤ c0) (h2 : c0 ≤ c + 1) (hbo : Bonds ts 1 ds 1) {A B g : NDArray K} {m p q r k' : Nat}
    (hA : ts[c]? = some A) (hB : ts[c + 1]? = some B) (sA : A.shape = [m, p, k']) (sB : B.shape = [k', q, r]) {ε : ℝ}
    (hbet : Better Ws ts ((ts.set c (isoT m p)).set (c + 1) (joinT m p q r g)) ds ε) {S : List ℝ}
    (S0 : ∀ x ∈ S, 0 ≤ x) (S1 : S.Pairwise (· ≥ ·)) {X Y : Option Nat → NDArray K}
    (hX : ∀ D, (X D).shape = [m, p, kept D S.length]) (hY : ∀ D, (Y D).shape = [kept D S.length, q, r])
    (hn : ∀ D, normSq ((ts.set c (X D)).set (c + 1) (Y D)) 1 ds 1 = ∑ x ∈ range (kept D S.length), S.getD x 0 ^ 2)
    (hd : ∀ D, (∑ a ∈ range m, ∑ i ∈ range p, ∑ j ∈ range q, ∑ b ∈ range r,
        ‖g.get [a, i, j, b] - ∑ x ∈ range (kept D S.length), (X D).get [a, i, x] * (Y D).get [x, j, b]‖ ^ 2) =
        Decomp.norm2 (S.drop (kept D S.length)) ^ 2) {D : Option Nat} (hD : D ≠ some 0) :
    distSq ((ts.set c (isoT m p)).set (c + 1) (joinT m p q r g)) ((ts.set c (X D)).set (c + 1) (Y D)) ds +
      normSq ((ts.set c (X D)).set (c + 1) (Y D)) 1 ds 1 = 1 ∧
    (D = none → distSq ((ts.set c (isoT m p)).set (c + 1) (joinT m p q r g)) ((ts.set c (X D)).set (c + 1) (Y D)) ds = 0) ∧
    normSq ((ts.set c (X D)).set (c + 1) (Y D)) 1 ds 1 ≠ 0 := by
  have dist : ∀ D, distSq ((ts.set c (isoT m p)).set (c + 1) (joinT m p q r g))
      ((ts.set c (X D)).set (c + 1) (Y D)) ds = Decomp.norm2 (S.drop (kept D S.length)) ^ 2 := by
    intro D
    rw [dist_split hcan h1 h2 hbo hA hB sA sB (hX D) (hY D), hd D]
  have hkn : kept none S.length = S.length := by simp [kept]
  have dz : distSq ((ts.set c (isoT m p)).set (c + 1) (joinT m p q r g))
      ((ts.set c (X none)).set (c + 1) (Y none)) ds = 0 := by
    rw [dist, hkn, List.drop_length]
    simp [Decomp.norm2]
  have tot : ∑ x ∈ range S.length, S.getD x 0 ^ 2 = 1 := by
    have := (hbet.congr (s := 1) (ts'' := (ts.set c (X none)).set (c + 1) (Y none)) (by simp)
      fun is his => by rw [one_mul]; exact distSq_eq_zero dz his).norm
    rwa [hn, hkn] at this
  refine ⟨?_, fun h => ?_, ?_⟩
  · rw [dist D, hn D, ← tot, ← sum_keep S (D.getD S.length)]
    exact add_comm _ _
  · subst h
    exact dz
  · rw [hn D]
    by_cases hl : S.length = 0
    · rw [hl] at tot; simp at tot
    refine keep_pos S0 S1 tot ?_
    cases D with
    | none => simp only [Option.getD_none]; omega
    | some n =>
      have : n ≠ 0 := fun h => hD (by rw [h])
      simp only [Option.getD_some]; omega

theorem optimizeBond_right (E : Kern K) (hS : SvdOK E.toEnv) (hE : Lanczos.EighOK E.eigh) {o : Lopts} (ho : o.OK)
    {D : Option Nat} (hD : D ≠ some 0) {d : Sim K} {Ws : List (NDArray K)} {ds : List Nat} {c : Nat} (h : Inv d Ws ds c)
    (hH : Hermitian Ws ds) (hz : normSq d.mps.tensors 1 ds 1 ≠ 0) (hc : c + 1 < d.mps.tensors.length) :
    ∃ d' ε, optimizeBond E o D true d = .ok (d', ε) ∧ BondStep D Ws ds d d' c (c + 1) ε := by
  obtain ⟨L, A, W, B, V, R, m, p, k, q, r, u, t, n, hb⟩ := h.bond le_rfl (Nat.le_succ c) hc
  obtain ⟨x, ε, g, x1, g1, g2, g3, hbo, hbet⟩ := h.bondOptimum E hE ho le_rfl (Nat.le_succ c) hH hz hb
  obtain ⟨S, S0, S1, hsvd⟩ := svd_bond hS g2
  choose U s T w k' e1 e2 e3 e4 e5 e6 e7 e8 e9 using hsvd
  obtain rfl : k' = fun D => kept D S.length := funext e2
  simp only at e3 e4 e5 e6 e9
  have hB' := fun D => diag_right E.so (e4 D) (e5 D)
  choose B' b1 b2 b3 using hB'
  obtain ⟨L', l1, l2⟩ := h.moveRight (E := E) hb.siteA hb.opW hb.left hb.siteB.get
    ⟨m, p, k, q, r, kept D S.length, hb.siteA.shape, hb.siteB.shape, e3 D, b2 D⟩ (e7 D)
  obtain ⟨f1, f2, f3⟩ := bond_best (X := U) (Y := B') h.canon le_rfl (Nat.le_succ c) h.bonds hb.siteA.get hb.siteB.get
    hb.siteA.shape hb.siteB.shape hbet S0 S1 e3 b2 (fun D => by
      rw [(canonical_two h.canon le_rfl (Nat.le_succ c) (e7 D)).normSq (List.getElem?_set_self (by simpa using hc))
        (h.bonds.set hb.siteA.get hb.siteB.get ⟨m, p, k, q, r, _, hb.siteA.shape, hb.siteB.shape, e3 D, b2 D⟩)]
      exact norm_diag_right (e5 D) (b2 D) (e6 D) (e8 D) (b3 D)) (fun D => by
      rw [← e9 D]
      refine Finset.sum_congr rfl fun a _ => Finset.sum_congr rfl fun i _ => Finset.sum_congr rfl fun j hj =>
        Finset.sum_congr rfl fun b hb => ?_
      rw [Finset.sum_congr rfl fun y hy => by
        rw [b3 D y (Finset.mem_range.1 hy) j (Finset.mem_range.1 hj) b (Finset.mem_range.1 hb), ← mul_assoc]]) hD
  refine ⟨_, ε, ?_, l2, by simp, ⟨_, hbo, hbet, f1, f2⟩, f3, fun N hN => ?_, fun s hs => ?_⟩
  · unfold optimizeBond
    rw [h.center]
    simp only [bind, Except.bind, if_true, tensorAt_ok hb.siteA.get, tensorAt_ok hb.siteB.get, x1, hb.findL, hb.findR,
      h.mpo, tensorAt_ok hb.opW.get, tensorAt_ok hb.opV.get, g1, e1 D, b1 D, l1]
    rfl
  · show bondDim ((d.mps.tensors.set c (U D)).set (c + 1) (B' D)) c ≤ N
    rw [bondDim_self h.lt, e3 D, hN]
    simp [kept]
  · refine bondDim_set hb.siteB.get ?_ hs
    rw [b2 D, hb.siteB.shape]
    rfl

theorem optimizeBond_left (E : Kern K) (hS : SvdOK E.toEnv) (hE : Lanczos.EighOK E.eigh) {o : Lopts} (ho : o.OK)
    {D : Option Nat} (hD : D ≠ some 0) {d : Sim K} {Ws : List (NDArray K)} {ds : List Nat} {c : Nat}
    (h : Inv d Ws ds (c + 1)) (hH : Hermitian Ws ds) (hz : normSq d.mps.tensors 1 ds 1 ≠ 0) :
    ∃ d' ε, optimizeBond E o D false d = .ok (d', ε) ∧ BondStep D Ws ds d d' c c ε := by
  have hc := h.lt
  obtain ⟨L, A, W, B, V, R, m, p, k, q, r, u, t, n, hb⟩ := h.bond (Nat.le_succ c) le_rfl hc
  obtain ⟨x, ε, g, x1, g1, g2, g3, hbo, hbet⟩ := h.bondOptimum E hE ho (Nat.le_succ c) le_rfl hH hz hb
  obtain ⟨S, S0, S1, hsvd⟩ := svd_bond hS g2
  choose U s T w k' e1 e2 e3 e4 e5 e6 e7 e8 e9 using hsvd
  obtain rfl : k' = fun D => kept D S.length := funext e2
  simp only at e3 e4 e5 e6 e9
  have hB' := fun D => diag_left E.so (e4 D) (e3 D)
  choose A' b1 b2 b3 using hB'
  obtain ⟨R', l1, l2⟩ := h.moveLeft (E := E) hb.siteB hb.opV hb.right hb.siteA.get
    ⟨m, p, k, q, r, kept D S.length, hb.siteA.shape, hb.siteB.shape, b2 D, e5 D⟩ (e8 D)
  have hcomm : (d.mps.tensors.set (c + 1) (T D)).set c (A' D) = (d.mps.tensors.set c (A' D)).set (c + 1) (T D) :=
    List.set_comm _ _ (by omega)
  rw [hcomm] at l2
  obtain ⟨f1, f2, f3⟩ := bond_best (X := A') (Y := T) h.canon (Nat.le_succ c) le_rfl h.bonds hb.siteA.get hb.siteB.get
    hb.siteA.shape hb.siteB.shape hbet S0 S1 b2 e5 (fun D => by
      rw [(canonical_two' h.canon (Nat.le_succ c) le_rfl (e8 D)).normSq (C := A' D)
        (by rw [List.getElem?_set_ne (by omega), List.getElem?_set_self (by omega)])
        (h.bonds.set hb.siteA.get hb.siteB.get ⟨m, p, k, q, r, _, hb.siteA.shape, hb.siteB.shape, b2 D, e5 D⟩)]
      exact norm_diag_left (e3 D) (b2 D) (e6 D) (e7 D) (b3 D)) (fun D => by
      rw [← e9 D]
      refine Finset.sum_congr rfl fun a ha => Finset.sum_congr rfl fun i hi => Finset.sum_congr rfl fun j hj =>
        Finset.sum_congr rfl fun b hb => ?_
      rw [Finset.sum_congr rfl fun y hy => by
        rw [b3 D a (Finset.mem_range.1 ha) i (Finset.mem_range.1 hi) y (Finset.mem_range.1 hy)]]) hD
  refine ⟨_, ε, ?_, l2, by simp, ⟨_, hbo, hbet, f1, f2⟩, f3, fun N hN => ?_, fun s hs => ?_⟩
  · unfold optimizeBond
    rw [h.center]
    have hpos : 0 < c + 1 := by omega
    have hsub : c + 1 - 1 = c := rfl
    have hi : ((c + 1 : Nat) : Int) - 1 = c := by push_cast; ring
    have hfr : d.right.find ((c + 1 : Nat) : Int) = .ok R := by rw [← hb.findR]; push_cast; rfl
    simp only [bind, Except.bind, Bool.false_eq_true, if_false, if_pos hpos, hsub, hi, tensorAt_ok hb.siteA.get,
      tensorAt_ok hb.siteB.get, x1, hb.findL, hfr, h.mpo, tensorAt_ok hb.opW.get, tensorAt_ok hb.opV.get, g1, e1 D, b1 D,
      l1]
    rw [hcomm]
    rfl
  · show bondDim ((d.mps.tensors.set c (A' D)).set (c + 1) (T D)) c ≤ N
    rw [bondDim_self (by omega), b2 D, hN]
    simp [kept]
  · refine bondDim_set hb.siteB.get ?_ hs
    rw [e5 D, hb.siteB.shape]
    rfl

end TN.Dmrg
