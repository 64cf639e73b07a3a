import Verif.DmrgSweep

/-!
# DMRG: environments along the chain, and whole runs
-/

set_option linter.unusedSectionVars false

namespace TN.Dmrg

open TN NDArray Finset Ncon Mps Mpo

variable {K : Type} [RCLike K]

/-- The dictionary has the left environment of site `s`. -/
def HasLeft (e : Envs K) (ts Ws : List (NDArray K)) (ds : List Nat) (s : Nat) : Prop :=
  ∃ L u m, e.find s = .ok L ∧ LeftEnv L (ts.take s) (Ws.take s) (ds.take s) u m

/-- The dictionary has the right environment of site `s`. -/
def HasRight (e : Envs K) (ts Ws : List (NDArray K)) (ds : List Nat) (s : Nat) : Prop :=
  ∃ R u m, e.find s = .ok R ∧ RightEnv R (ts.drop (s + 1)) (Ws.drop (s + 1)) (ds.drop (s + 1)) u m

theorem same_length {ts Ws : List (NDArray K)} {ds : List Nat} {l r v w : Nat} (hb : Bonds ts l ds r)
    (ho : OpBonds Ws v ds w) : ts.length = Ws.length := by rw [← hb.length, ho.length]

theorem site_pair {ts Ws : List (NDArray K)} {ds : List Nat} (hb : Bonds ts 1 ds 1) (ho : OpBonds Ws 1 ds 1) {s : Nat}
    (hs : s < ts.length) : ∃ A W m p k u t, Site ts 1 ds 1 s A m p k ∧ OpSite Ws 1 ds 1 s W u p t := by
  have hlen := same_length hb ho
  obtain ⟨A, m, p, k, a1⟩ := hb.exists_site hs
  obtain ⟨W, u, q, t, b1⟩ := ho.exists_site (s := s) (by omega)
  have : p = q := by
    have h1 := b1.dim
    rw [← List.take_append_drop s ds, a1.dropD] at h1
    have hd := a1.left.length
    rw [List.length_take, List.length_take] at hd
    have h2 := hb.length
    rw [List.getElem?_append_right (by rw [List.length_take]; omega)] at h1
    have : s - (ds.take s).length = 0 := by rw [List.length_take]; omega
    rw [this] at h1
    simpa using h1
  subst this
  exact ⟨A, W, m, p, k, u, t, a1, b1⟩

theorem leftLoop_ok (E : Kern K) {ts Ws : List (NDArray K)} {ds : List Nat} (hb : Bonds ts 1 ds 1)
    (ho : OpBonds Ws 1 ds 1) : ∀ (k c : Nat) {e : Envs K}, c + k ≤ ts.length → (∀ s ≤ c, HasLeft e ts Ws ds s) →
    ∃ e', leftLoop E ts Ws (List.range' c k) e = .ok e' ∧ ∀ s ≤ c + k, HasLeft e' ts Ws ds s := by
  intro k
  induction k with
  | zero => intro c e _ h; exact ⟨e, rfl, h⟩
  | succ k ih =>
    intro c e hc h
    obtain ⟨L, u, m, l1, l2⟩ := h c le_rfl
    obtain ⟨A, W, m', p, k', u', t, a1, b1⟩ := site_pair hb ho (s := c) (by omega)
    obtain rfl := l2.bonds.unique a1.left
    obtain rfl := l2.mpo.unique b1.left
    obtain ⟨L', q1, q2⟩ := addLeft_ok E l2 a1.shape b1.shape
    rw [← a1.takeT, ← b1.takeT, ← a1.takeD] at q2
    obtain ⟨e', r1, r2⟩ := ih (c + 1) (e := put e ((c : Int) + 1) L') (by omega) (by
      intro s hs
      by_cases hs' : s = c + 1
      · subst hs'
        refine ⟨L', _, _, ?_, q2⟩
        rw [find_put, if_pos (by push_cast; rfl)]
      · obtain ⟨M, v, n, m1, m2⟩ := h s (by omega)
        refine ⟨M, v, n, ?_, m2⟩
        rw [find_put, if_neg (by omega), m1])
    refine ⟨e', ?_, fun s hs => r2 s (by omega)⟩
    rw [List.range'_succ]
    unfold leftLoop
    simp only [bind, Except.bind, l1, tensorAt_ok a1.get, tensorAt_ok b1.get, q1]
    exact r1

theorem rightLoop_ok (E : Kern K) {ts Ws : List (NDArray K)} {ds : List Nat} (hb : Bonds ts 1 ds 1)
    (ho : OpBonds Ws 1 ds 1) (c : Nat) : ∀ (k : Nat) {e : Envs K}, c + k < ts.length →
    (∀ s, c + k ≤ s → s < ts.length → HasRight e ts Ws ds s) →
    ∃ e', rightLoop E ts Ws (List.range' (c + 1) k).reverse e = .ok e' ∧
      ∀ s, c ≤ s → s < ts.length → HasRight e' ts Ws ds s := by
  intro k
  induction k with
  | zero => intro e _ h; exact ⟨e, rfl, h⟩
  | succ k ih =>
    intro e hc h
    obtain ⟨R, u, m, l1, l2⟩ := h (c + (k + 1)) le_rfl hc
    obtain ⟨A, W, m', p, k', u', t, a1, b1⟩ := site_pair hb ho hc
    obtain rfl := l2.bonds.unique_left a1.right
    obtain rfl := l2.mpo.unique_left b1.right
    obtain ⟨R', q1, q2⟩ := addRight_ok E l2 a1.shape b1.shape
    rw [← a1.dropT, ← b1.dropT, ← a1.dropD] at q2
    obtain ⟨e', r1, r2⟩ := ih (e := put e (((c + (k + 1) : Nat) : Int) - 1) R') (by omega) (by
      intro s hs hs2
      by_cases hs' : s = c + k
      · subst hs'
        refine ⟨R', _, _, ?_, q2⟩
        rw [find_put, if_pos (by push_cast; ring)]
      · obtain ⟨M, v, n, m1, m2⟩ := h s (by omega) hs2
        refine ⟨M, v, n, ?_, m2⟩
        rw [find_put, if_neg (by omega), m1])
    refine ⟨e', ?_, r2⟩
    have hl : (List.range' (c + 1) (k + 1)).reverse = (c + (k + 1)) :: (List.range' (c + 1) k).reverse := by
      rw [List.range'_1_concat, List.reverse_append]
      simp only [List.reverse_cons, List.reverse_nil, List.nil_append, List.cons_append, List.cons.injEq, and_true]
      omega
    rw [hl]
    unfold rightLoop
    simp only [bind, Except.bind, l1, tensorAt_ok a1.get, tensorAt_ok b1.get, q1]
    exact r1

theorem leftEnv_zero {L : NDArray K} (h1 : L.shape = [1, 1, 1]) (h2 : L.get [0, 0, 0] = 1) : LeftEnv L [] [] [] 1 1 := by
  refine ⟨⟨rfl, rfl⟩, ⟨rfl, rfl⟩, h1, fun w hw a ha a' ha' => ?_⟩
  obtain rfl : w = 0 := by omega
  obtain rfl : a = 0 := by omega
  obtain rfl : a' = 0 := by omega
  rw [h2, part_nil]
  simp [delta]

theorem rightEnv_zero {R : NDArray K} (h1 : R.shape = [1, 1, 1]) (h2 : R.get [0, 0, 0] = 1) :
    RightEnv R [] [] [] 1 1 := by
  refine ⟨⟨rfl, rfl⟩, ⟨rfl, rfl⟩, h1, fun w hw a ha a' ha' => ?_⟩
  obtain rfl : w = 0 := by omega
  obtain rfl : a = 0 := by omega
  obtain rfl : a' = 0 := by omega
  rw [h2, part_nil]
  simp [delta]

theorem SimOK.hasLeft {d : Sim K} {ds : List Nat} (h : SimOK d ds) (ts : List (NDArray K)) :
    HasLeft d.left ts d.mpo ds 0 := by
  obtain ⟨L, l1, l2, l3⟩ := h.left
  exact ⟨L, 1, 1, l1, by simpa using leftEnv_zero l2 l3⟩

theorem SimOK.hasRight {d : Sim K} {ds : List Nat} (h : SimOK d ds) {ts : List (NDArray K)} (hb : Bonds ts 1 ds 1)
    {n : Nat} (hn : n + 1 = d.mps.tensors.length) {R : NDArray K}
    (hR : d.right.find ((d.mps.tensors.length : Int) - 1) = .ok R) {e : Envs K} (he : e.find n = .ok R) :
    HasRight e ts d.mpo ds n := by
  obtain ⟨R', l1, l2, l3⟩ := h.right
  rw [hR] at l1
  cases l1
  have e1 := hb.length
  have e2 := h.mpo.length
  have e3 := h.bonds.length
  refine ⟨R, 1, 1, he, ?_⟩
  rw [List.drop_eq_nil_of_le (by omega), List.drop_eq_nil_of_le (by omega), List.drop_eq_nil_of_le (by omega)]
  exact rightEnv_zero l2 l3

theorem nonzero_normSq {ts : List (NDArray K)} {ds : List Nat} {c : Nat} (hb : Bonds ts 1 ds 1) (hc : c < ts.length)
    (hcan : Canonical ts c) (h : Nonzero ts 1 ds 1) : normSq ts 1 ds 1 ≠ 0 := by
  have hC : ts[c]? = some ts[c] := List.getElem?_eq_getElem hc
  rw [hcan.normSq hC hb]
  exact pow_ne_zero 2 (norm_ne_zero hb h hC)

theorem normSq_nonzero {ts : List (NDArray K)} {ds : List Nat} (h : normSq ts 1 ds 1 ≠ 0) : Nonzero ts 1 ds 1 := by
  by_contra hn
  apply h
  unfold normSq
  simp only [Finset.sum_range_one]
  rw [← sum_range_unravel]
  refine Finset.sum_eq_zero fun i hi => ?_
  have : amp ts 0 (unravel ds i) 0 = 0 := by
    by_contra h0
    exact hn ⟨0, one_pos, _, unravel_inB (Finset.mem_range.1 hi), 0, one_pos, h0⟩
  rw [this]
  simp

/-- Between two steps the object is as it should be. -/
theorem Inv.simOK {d : Sim K} {Ws : List (NDArray K)} {ds : List Nat} {c : Nat} (h : Inv d Ws ds c)
    (hz : normSq d.mps.tensors 1 ds 1 ≠ 0) : SimOK d ds := by
  have hlt := h.lt
  refine ⟨h.bonds, by rw [h.mpo]; exact h.opb, fun h0 => ?_, ⟨c, h.center, h.lt, h.canon⟩, normSq_nonzero hz, ?_, ?_⟩
  · rw [h0] at hlt
    simp at hlt
  · obtain ⟨L, u, m, l1, l2⟩ := h.left 0 (Nat.zero_le _)
    have hb := l2.bonds
    have ho := l2.mpo
    simp only [List.take_zero] at hb ho
    obtain ⟨_, rfl⟩ := hb
    obtain ⟨_, rfl⟩ := ho
    refine ⟨L, l1, l2.shape, ?_⟩
    rw [l2.get 0 one_pos 0 one_pos 0 one_pos]
    simp only [List.take_zero]
    rw [part_nil]
    simp [delta]
  · obtain ⟨R, u, m, l1, l2⟩ := h.right (d.mps.tensors.length - 1) (by omega) (by omega)
    have e1 := h.bonds.length
    have e2 := h.opb.length
    have hn : d.mps.tensors.length - 1 + 1 = d.mps.tensors.length := by omega
    rw [hn, List.drop_eq_nil_of_le (by omega), List.drop_eq_nil_of_le (by omega), List.drop_eq_nil_of_le (by omega)] at l2
    obtain ⟨_, rfl⟩ := l2.bonds
    obtain ⟨_, rfl⟩ := l2.mpo
    refine ⟨R, ?_, l2.shape, ?_⟩
    · rw [← l1]; congr 1; omega
    · rw [l2.get 0 one_pos 0 one_pos 0 one_pos, part_nil]
      simp [delta]

/-- `compute_left_envs` and `compute_right_envs` fill in what a sweep needs. -/
theorem computeLeft_ok (E : Kern K) {d : Sim K} {ds : List Nat} (h : SimOK d ds) {c : Nat} (hc : d.mps.center = some c) :
    ∃ d', computeLeft E d = .ok d' ∧ SimOK d' ds ∧ d'.mps = d.mps ∧ d'.mpo = d.mpo ∧ d'.right = d.right ∧
      ∀ s ≤ c, HasLeft d'.left d'.mps.tensors d'.mpo ds s := by
  obtain ⟨c', k1, k2, k3⟩ := h.center
  rw [hc] at k1
  cases k1
  obtain ⟨L, l1, l2, l3⟩ := h.left
  have h0 : HasLeft [(0, L)] d.mps.tensors d.mpo ds 0 :=
    ⟨L, 1, 1, by simp [Envs.find], by simpa using leftEnv_zero l2 l3⟩
  obtain ⟨e', r1, r2⟩ := leftLoop_ok E h.bonds h.mpo c 0 (e := [(0, L)]) (by omega) (by
    intro s hs
    obtain rfl : s = 0 := by omega
    exact h0)
  refine ⟨{ d with left := e' }, ?_, ⟨h.bonds, h.mpo, h.ne, h.center, h.nonzero, ?_, h.right⟩, rfl, rfl, rfl,
    fun s hs => r2 s (by omega)⟩
  · unfold computeLeft
    rw [hc]
    simp only [bind, Except.bind, l1, List.range_eq_range', r1]
    rfl
  · obtain ⟨L', u, m, q1, q2⟩ := r2 0 (Nat.zero_le _)
    have hb := q2.bonds
    have ho := q2.mpo
    simp only [List.take_zero] at hb ho
    obtain ⟨_, rfl⟩ := hb
    obtain ⟨_, rfl⟩ := ho
    refine ⟨L', q1, q2.shape, ?_⟩
    rw [q2.get 0 one_pos 0 one_pos 0 one_pos]
    simp only [List.take_zero]
    rw [part_nil]
    simp [delta]

theorem computeRight_ok (E : Kern K) {d : Sim K} {ds : List Nat} (h : SimOK d ds) {c : Nat} (hc : d.mps.center = some c)
    (hl : ∀ s ≤ c, HasLeft d.left d.mps.tensors d.mpo ds s) :
    ∃ d', computeRight E d = .ok d' ∧ Inv d' d.mpo ds c ∧ d'.mps = d.mps := by
  obtain ⟨c', k1, k2, k3⟩ := h.center
  rw [hc] at k1
  cases k1
  obtain ⟨R, l1, l2, l3⟩ := h.right
  obtain ⟨e', r1, r2⟩ := rightLoop_ok E h.bonds h.mpo c (d.mps.tensors.length - (c + 1))
    (e := [((d.mps.tensors.length : Int) - 1, R)]) (by omega) (by
    intro s hs hs'
    refine h.hasRight h.bonds (by omega) l1 ?_
    have : (s : Int) = (d.mps.tensors.length : Int) - 1 := by omega
    rw [this]
    simp [Envs.find])
  refine ⟨{ d with right := e' }, ?_, ⟨rfl, h.mpo, hc, k2, h.bonds, k3, hl, r2⟩, rfl⟩
  unfold computeRight
  rw [hc]
  simp only [bind, Except.bind, l1, r1]
  rfl

/-- The first two lines of a run. -/
theorem prepare_ok (E : Kern K) (hQ : QrOK E.toEnv) (hS : SvdOK E.toEnv) {d : Sim K} {ds : List Nat} (h : SimOK d ds) :
    ∃ st z d', Mps.position E.toEnv d.mps 0 true none none = .ok (st, z) ∧
      computeRight E { d with mps := st } = .ok d' ∧ Inv d' d.mpo ds 0 ∧ d'.mps = st ∧
      normSq st.tensors 1 ds 1 ≠ 0 ∧ st.tensors.length = d.mps.tensors.length ∧
      ∃ s : ℝ, 0 < s ∧ ∀ is, InB ds is → amp d.mps.tensors 0 is 0 = (s : K) * amp st.tensors 0 is 0 := by
  obtain ⟨c, k1, k2, k3⟩ := h.center
  obtain ⟨st, z, p1, p2, p3, s, s1, _, s2⟩ := position_exact hQ k1 k2 h.bonds (site := 0) le_rfl (by omega) true
    (fun _ => h.nonzero)
  obtain ⟨_, _, p4⟩ := position_keeps hQ hS k1 h.bonds k3 p1
  have hlen : st.tensors.length = d.mps.tensors.length := by rw [← p3.length, h.bonds.length]
  have hz : normSq st.tensors 1 ds 1 ≠ 0 := by
    have e1 := normSq_amp (s : K) (fun is his => s2 0 one_pos is his 0)
    have e2 := nonzero_normSq h.bonds k2 k3 h.nonzero
    intro h0
    rw [h0, mul_zero] at e1
    exact e2 e1
  have hok : SimOK { d with mps := st } ds := by
    refine ⟨p3, h.mpo, fun h0 => ?_, ⟨0, p2, by rw [hlen]; omega, p4⟩, normSq_nonzero hz, h.left, ?_⟩
    · have h0' : st.tensors = [] := h0
      rw [h0', List.length_nil] at hlen
      omega
    · obtain ⟨R, r1, r2⟩ := h.right
      refine ⟨R, ?_, r2⟩
      show d.right.find ((st.tensors.length : Int) - 1) = _
      rw [hlen]; exact r1
  obtain ⟨d', q1, q2, q3⟩ := computeRight_ok E hok (c := 0) p2 (by
    intro s hs
    obtain rfl : s = 0 := by omega
    exact hok.hasLeft _)
  exact ⟨st, z, d', p1, q1, q2, q3, hz, hlen, s, s1, fun is his => s2 0 one_pos is his 0⟩

end TN.Dmrg
