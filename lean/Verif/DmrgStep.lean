import Verif.DmrgLocal
import Verif.MpsMeasureProps

/-!
# DMRG: the invariant of the sweeps and the moves of the centre
-/

set_option linter.unusedSectionVars false

namespace TN.Dmrg

open TN NDArray Finset Ncon Mps Mpo

variable {K : Type} [RCLike K]

/-- A site of an operator. -/
structure OpSite (Ws : List (NDArray K)) (v : Nat) (ds : List Nat) (w s : Nat) (W : NDArray K) (u p t : Nat) :
    Prop where
  get : Ws[s]? = some W
  shape : W.shape = [u, t, p, p]
  left : OpBonds (Ws.take s) v (ds.take s) u
  right : OpBonds (Ws.drop (s + 1)) t (ds.drop (s + 1)) w
  takeT : Ws.take (s + 1) = Ws.take s ++ [W]
  dropT : Ws.drop s = W :: Ws.drop (s + 1)
  dim : ds[s]? = some p

theorem OpBonds.unique {ts : List (NDArray K)} : ∀ {l : Nat} {ds : List Nat} {r r' : Nat},
    OpBonds ts l ds r → OpBonds ts l ds r' → r = r' := by
  induction ts with
  | nil => rintro l ds r r' ⟨_, rfl⟩ ⟨_, rfl⟩; rfl
  | cons A ts ih =>
    rintro l ds r r' ⟨p, m, d, rfl, h1, h2⟩ ⟨p', m', d', h3, h4, h5⟩
    rw [h1] at h4
    simp only [List.cons.injEq, and_true] at h3 h4
    obtain ⟨rfl, rfl⟩ := h3
    obtain ⟨_, rfl, _, _⟩ := h4
    exact ih h2 h5

theorem OpBonds.unique_left {ts : List (NDArray K)} {l l' : Nat} {ds : List Nat} {r : Nat} (h : OpBonds ts l ds r)
    (h' : OpBonds ts l' ds r) : l = l' := by
  cases ts with
  | nil => exact h.2.trans h'.2.symm
  | cons A ts =>
    obtain ⟨p, m, d, _, h2, _⟩ := h
    obtain ⟨p', m', d', _, h3, _⟩ := h'
    rw [h2] at h3
    simp only [List.cons.injEq] at h3
    exact h3.1

theorem OpBonds.exists_site {Ws : List (NDArray K)} {v : Nat} {ds : List Nat} {w : Nat} (hb : OpBonds Ws v ds w)
    {s : Nat} (hs : s < Ws.length) : ∃ W u p t, OpSite Ws v ds w s W u p t := by
  have hb' := hb
  rw [← List.take_append_drop s Ws] at hb
  obtain ⟨d, e, m, rfl, h1, h2⟩ := hb.split
  have hd := h1.length
  rw [List.length_take, min_eq_left (Nat.le_of_lt hs)] at hd
  rw [List.drop_eq_getElem_cons hs] at h2
  obtain ⟨p, k, e', rfl, h4, h5⟩ := h2
  refine ⟨Ws[s], m, p, k, List.getElem?_eq_getElem hs, h4, ?_, ?_, ?_, List.drop_eq_getElem_cons hs, ?_⟩
  · rw [List.take_left' hd]; exact h1
  · have : List.drop (s + 1) (d ++ p :: e') = e' := by
      rw [← List.drop_drop, List.drop_left' hd]; rfl
    rw [this]; exact h5
  · rw [List.take_succ_eq_append_getElem hs]
  · rw [List.getElem?_append_right (by omega), hd, Nat.sub_self]; rfl

theorem find_put (d : Envs K) (s k : Int) (t : NDArray K) :
    (put d k t).find s = if s = k then .ok t else d.find s := by
  unfold put Envs.find
  rw [List.lookup_cons]
  by_cases h : s = k
  · simp [h]
  · rw [if_neg h]
    have : (s == k) = false := by simpa using h
    rw [this]

/-- What holds between two steps of a sweep, with the centre at `c`. -/
structure Inv (d : Sim K) (Ws : List (NDArray K)) (ds : List Nat) (c : Nat) : Prop where
  mpo : d.mpo = Ws
  opb : OpBonds Ws 1 ds 1
  center : d.mps.center = some c
  lt : c < d.mps.tensors.length
  bonds : Bonds d.mps.tensors 1 ds 1
  canon : Canonical d.mps.tensors c
  left : ∀ s : Nat, s ≤ c → ∃ L u m, d.left.find s = .ok L ∧
    LeftEnv L (d.mps.tensors.take s) (Ws.take s) (ds.take s) u m
  right : ∀ s : Nat, c ≤ s → s < d.mps.tensors.length → ∃ R u m, d.right.find s = .ok R ∧
    RightEnv R (d.mps.tensors.drop (s + 1)) (Ws.drop (s + 1)) (ds.drop (s + 1)) u m

/-- A site with its environments. -/
structure Local (d : Sim K) (Ws : List (NDArray K)) (ds : List Nat) (c : Nat) (L A W R : NDArray K) (m p k u t : Nat) :
    Prop where
  site : Site d.mps.tensors 1 ds 1 c A m p k
  op : OpSite Ws 1 ds 1 c W u p t
  left : LeftEnv L (d.mps.tensors.take c) (Ws.take c) (ds.take c) u m
  right : RightEnv R (d.mps.tensors.drop (c + 1)) (Ws.drop (c + 1)) (ds.drop (c + 1)) t k

theorem Inv.local' {d : Sim K} {Ws : List (NDArray K)} {ds : List Nat} {c s s' : Nat} (h : Inv d Ws ds c)
    (hs : s < d.mps.tensors.length) {L R : NDArray K} {u m u' m' : Nat}
    (hL : LeftEnv L (d.mps.tensors.take s) (Ws.take s) (ds.take s) u m)
    (hs' : s' < d.mps.tensors.length)
    (hR : RightEnv R (d.mps.tensors.drop (s' + 1)) (Ws.drop (s' + 1)) (ds.drop (s' + 1)) u' m') :
    ∃ A W p k t A' W' n q v, Site d.mps.tensors 1 ds 1 s A m p k ∧ OpSite Ws 1 ds 1 s W u p t ∧
      Site d.mps.tensors 1 ds 1 s' A' n q m' ∧ OpSite Ws 1 ds 1 s' W' v q u' := by
  have hlen : d.mps.tensors.length = Ws.length := by rw [← h.bonds.length, h.opb.length]
  obtain ⟨A, m1, p, k, a1⟩ := h.bonds.exists_site hs
  obtain ⟨W, u1, p1, t, b1⟩ := h.opb.exists_site (s := s) (by omega)
  obtain ⟨A', m2, q, k2, a2⟩ := h.bonds.exists_site hs'
  obtain ⟨W', u2, q1, t2, b2⟩ := h.opb.exists_site (s := s') (by omega)
  obtain rfl := a1.left.unique hL.bonds
  obtain rfl := b1.left.unique hL.mpo
  obtain rfl := a2.right.unique_left hR.bonds
  obtain rfl := b2.right.unique_left hR.mpo
  have hp : ∀ {s A m p k}, Site d.mps.tensors 1 ds 1 s A m p k → ds[s]? = some p := by
    intro s A m p k hs
    have := congrArg List.head? hs.dropD
    rwa [List.head?_drop] at this
  obtain rfl : p = p1 := by
    have := b1.dim
    rw [hp a1] at this
    exact Option.some.inj this
  obtain rfl : q = q1 := by
    have := b2.dim
    rw [hp a2] at this
    exact Option.some.inj this
  exact ⟨A, W, p, k, t, A', W', m2, q, u2, a1, b1, a2, b2⟩

theorem Inv.local {d : Sim K} {Ws : List (NDArray K)} {ds : List Nat} {c : Nat} (h : Inv d Ws ds c) :
    ∃ L A W R m p k u t, d.left.find c = .ok L ∧ d.right.find c = .ok R ∧
      Local d Ws ds c L A W R m p k u t := by
  obtain ⟨L, u, m, l1, l2⟩ := h.left c le_rfl
  obtain ⟨R, t, k, r1, r2⟩ := h.right c le_rfl h.lt
  obtain ⟨A, W, p, k', t', A', W', n, q, v, a1, b1, a2, b2⟩ := h.local' h.lt l2 h.lt r2
  have e1 := a1.get.symm.trans a2.get
  have e2 := b1.get.symm.trans b2.get
  cases e1
  cases e2
  have e3 := a1.shape.symm.trans a2.shape
  have e4 := b1.shape.symm.trans b2.shape
  simp only [List.cons.injEq, and_true] at e3 e4
  obtain ⟨rfl, rfl, rfl⟩ := e3
  obtain ⟨rfl, rfl, _⟩ := e4
  exact ⟨L, A, W, R, m, p, k', u, t', l1, r1, a1, b1, l2, r2⟩

theorem tensorAt_ok {ts : List (NDArray K)} {n : Nat} {A : NDArray K} (h : ts[n]? = some A) : tensorAt ts n = .ok A := by
  unfold tensorAt
  rw [h]

theorem take_of_eq {α : Type} {l l' : List α} {s : Nat} (h : ∀ n < s, l'[n]? = l[n]?) : l'.take s = l.take s := by
  apply List.ext_getElem?
  intro n
  by_cases hn : n < s
  · rw [List.getElem?_take_of_lt hn, List.getElem?_take_of_lt hn, h n hn]
  · rw [List.getElem?_eq_none (by rw [List.length_take]; omega), List.getElem?_eq_none (by rw [List.length_take]; omega)]

theorem drop_of_eq {α : Type} {l l' : List α} {s : Nat} (h : ∀ n, s ≤ n → l'[n]? = l[n]?) : l'.drop s = l.drop s := by
  apply List.ext_getElem?
  intro n
  rw [List.getElem?_drop, List.getElem?_drop, h _ (by omega)]

/-- A move of the centre to the right. -/
theorem Inv.moveRight {E : Kern K} {d : Sim K} {Ws : List (NDArray K)} {ds : List Nat} {c : Nat} (h : Inv d Ws ds c)
    {L C W Q B B' : NDArray K} {m p k u t : Nat} (hsite : Site d.mps.tensors 1 ds 1 c C m p k)
    (hop : OpSite Ws 1 ds 1 c W u p t) (hL : LeftEnv L (d.mps.tensors.take c) (Ws.take c) (ds.take c) u m)
    (hB : d.mps.tensors[c + 1]? = some B) (ho : SameOuter C B Q B') (hQ : LeftIso Q) :
    ∃ L', addLeft E L Q W = .ok L' ∧ Inv ⟨⟨(d.mps.tensors.set c Q).set (c + 1) B', some (c + 1)⟩, d.mpo,
      put d.left ((c : Int) + 1) L', d.right⟩ Ws ds (c + 1) := by
  obtain ⟨ts, hts⟩ : ∃ ts, ts = (d.mps.tensors.set c Q).set (c + 1) B' := ⟨_, rfl⟩
  have hb : Bonds ts 1 ds 1 := by rw [hts]; exact h.bonds.set hsite.get hB ho
  obtain ⟨l0, p0, m0, q0, r0, k0, s1, s2, s3, s4⟩ := ho
  rw [hsite.shape] at s1
  simp only [List.cons.injEq, and_true] at s1
  obtain ⟨rfl, rfl, rfl⟩ := s1
  obtain ⟨L', e1, e2⟩ := addLeft_ok E hL s3 hop.shape
  have hlen : ts.length = d.mps.tensors.length := by rw [hts]; simp
  have hlt : c + 1 < d.mps.tensors.length := (List.getElem?_eq_some_iff.1 hB).1
  have g0 : ∀ n, n ≠ c → n ≠ c + 1 → ts[n]? = d.mps.tensors[n]? := by
    intro n h1 h2
    rw [hts, List.getElem?_set_ne (Ne.symm h2), List.getElem?_set_ne (Ne.symm h1)]
  have g1 : ts[c]? = some Q := by
    rw [hts, List.getElem?_set_ne (by omega), List.getElem?_set_self h.lt]
  have htake : ∀ s, s ≤ c → ts.take s = d.mps.tensors.take s := fun s hs =>
    take_of_eq fun n hn => g0 n (by omega) (by omega)
  have hdrop : ∀ s, c + 1 < s → ts.drop s = d.mps.tensors.drop s := fun s hs =>
    drop_of_eq fun n hn => g0 n (by omega) (by omega)
  refine ⟨L', e1, ?_⟩
  rw [← hts]
  refine ⟨h.mpo, h.opb, rfl, by show c + 1 < ts.length; omega, hb, ?_, ?_, ?_⟩
  · intro n A hA
    show _ ∧ _
    by_cases hn : n = c
    · subst hn
      have hA' := g1.symm.trans hA
      cases hA'
      exact ⟨fun _ => hQ, fun h => by omega⟩
    · by_cases hn1 : n = c + 1
      · subst hn1
        exact ⟨fun h => by omega, fun h => by omega⟩
      · have := h.canon n A ((g0 n hn hn1).symm.trans hA)
        exact ⟨fun h => this.1 (by omega), fun h => this.2 (by omega)⟩
  · intro s hs
    show ∃ L u m, (put d.left ((c : Int) + 1) L').find s = .ok L ∧ LeftEnv L (ts.take s) (Ws.take s) (ds.take s) u m
    rw [find_put]
    by_cases hsc : s = c + 1
    · subst hsc
      rw [if_pos (by push_cast; rfl)]
      refine ⟨L', t, k0, rfl, ?_⟩
      have : ts.take (c + 1) = d.mps.tensors.take c ++ [Q] := by
        rw [← htake c le_rfl, List.take_add_one, g1]
        rfl
      rw [this, hop.takeT, hsite.takeD]
      exact e2
    · rw [if_neg (by omega), htake s (by omega)]
      exact h.left s (by omega)
  · intro s hs hs'
    show ∃ R u m, d.right.find s = .ok R ∧ RightEnv R (ts.drop (s + 1)) (Ws.drop (s + 1)) (ds.drop (s + 1)) u m
    rw [hdrop (s + 1) (by omega)]
    exact h.right s (by omega) (by
      have : s < ts.length := hs'
      omega)

/-- A move of the centre to the left. -/
theorem Inv.moveLeft {E : Kern K} {d : Sim K} {Ws : List (NDArray K)} {ds : List Nat} {c : Nat}
    (h : Inv d Ws ds (c + 1)) {R C W Q B B' : NDArray K} {m p k u t : Nat}
    (hsite : Site d.mps.tensors 1 ds 1 (c + 1) C m p k) (hop : OpSite Ws 1 ds 1 (c + 1) W u p t)
    (hR : RightEnv R (d.mps.tensors.drop (c + 1 + 1)) (Ws.drop (c + 1 + 1)) (ds.drop (c + 1 + 1)) t k)
    (hB : d.mps.tensors[c]? = some B) (ho : SameOuter B C B' Q) (hQ : RightIso Q) :
    ∃ R', addRight E R Q W = .ok R' ∧ Inv ⟨⟨(d.mps.tensors.set (c + 1) Q).set c B', some c⟩, d.mpo,
      d.left, put d.right (c : Int) R'⟩ Ws ds c := by
  obtain ⟨ts, hts⟩ : ∃ ts, ts = (d.mps.tensors.set (c + 1) Q).set c B' := ⟨_, rfl⟩
  have hb : Bonds ts 1 ds 1 := by
    rw [hts, List.set_comm _ _ (by omega)]
    exact h.bonds.set hB hsite.get ho
  obtain ⟨l0, p0, m0, q0, r0, k0, s1, s2, s3, s4⟩ := ho
  rw [hsite.shape] at s2
  simp only [List.cons.injEq, and_true] at s2
  obtain ⟨rfl, rfl, rfl⟩ := s2
  obtain ⟨R', e1, e2⟩ := addRight_ok E hR s4 hop.shape
  have hlen : ts.length = d.mps.tensors.length := by rw [hts]; simp
  have hlt := h.lt
  have g0 : ∀ n, n ≠ c → n ≠ c + 1 → ts[n]? = d.mps.tensors[n]? := by
    intro n h1 h2
    rw [hts, List.getElem?_set_ne (Ne.symm h1), List.getElem?_set_ne (Ne.symm h2)]
  have g1 : ts[c + 1]? = some Q := by
    rw [hts, List.getElem?_set_ne (by omega), List.getElem?_set_self h.lt]
  have htake : ∀ s, s ≤ c → ts.take s = d.mps.tensors.take s := fun s hs =>
    take_of_eq fun n hn => g0 n (by omega) (by omega)
  have hdrop : ∀ s, c + 1 < s → ts.drop s = d.mps.tensors.drop s := fun s hs =>
    drop_of_eq fun n hn => g0 n (by omega) (by omega)
  refine ⟨R', e1, ?_⟩
  rw [← hts]
  refine ⟨h.mpo, h.opb, rfl, by show c < ts.length; omega, hb, ?_, ?_, ?_⟩
  · intro n A hA
    show _ ∧ _
    by_cases hn : n = c + 1
    · subst hn
      have hA' := g1.symm.trans hA
      cases hA'
      exact ⟨fun h => by omega, fun _ => hQ⟩
    · by_cases hn1 : n = c
      · subst hn1
        exact ⟨fun h => by omega, fun h => by omega⟩
      · have := h.canon n A ((g0 n hn1 hn).symm.trans hA)
        exact ⟨fun h => this.1 (by omega), fun h => this.2 (by omega)⟩
  · intro s hs
    show ∃ L u m, d.left.find s = .ok L ∧ LeftEnv L (ts.take s) (Ws.take s) (ds.take s) u m
    rw [htake s hs]
    exact h.left s (by omega)
  · intro s hs hs'
    show ∃ R u m, (put d.right (c : Int) R').find s = .ok R ∧
      RightEnv R (ts.drop (s + 1)) (Ws.drop (s + 1)) (ds.drop (s + 1)) u m
    have hs'' : s < ts.length := hs'
    rw [find_put]
    by_cases hsc : s = c
    · subst hsc
      rw [if_pos rfl]
      refine ⟨R', u, k0, rfl, ?_⟩
      have hl : s + 1 < ts.length := by omega
      have : ts.drop (s + 1) = Q :: d.mps.tensors.drop (s + 1 + 1) := by
        rw [← hdrop (s + 1 + 1) (by omega), List.drop_eq_getElem_cons hl]
        congr 1
        exact Option.some.inj ((List.getElem?_eq_getElem hl).symm.trans g1)
      rw [this, hop.dropT, hsite.dropD]
      exact e2
    · rw [if_neg (by omega), hdrop (s + 1) (by omega)]
      exact h.right s (by omega) (by omega)

end TN.Dmrg
