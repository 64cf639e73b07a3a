import Verif.MpsGate

/-!
# Gates act on the state (C39)
-/

set_option linter.unusedSectionVars false

namespace TN.Mps

open TN NDArray Finset Ncon

variable {K : Type} [RCLike K]

/-! ### Replacing two neighbouring tensors -/

theorem split_pair {ts : List (NDArray K)} {n : Nat} {A B : NDArray K} (hA : ts[n]? = some A)
    (hB : ts[n + 1]? = some B) : ∃ pre post, ts = pre ++ A :: B :: post ∧ pre.length = n := by
  obtain ⟨h1, rfl⟩ := List.getElem?_eq_some_iff.1 hA
  obtain ⟨h2, rfl⟩ := List.getElem?_eq_some_iff.1 hB
  refine ⟨ts.take n, ts.drop (n + 2), ?_, by simp; omega⟩
  rw [List.getElem_cons_drop, List.getElem_cons_drop, List.take_append_drop]

theorem set_pair {α : Type} (pre post : List α) (a b a' b' : α) :
    ((pre ++ a :: b :: post).set pre.length a').set (pre.length + 1) b' = pre ++ a' :: b' :: post := by
  simp

/-- The shapes around two neighbouring tensors. -/
theorem bonds_pair {pre post : List (NDArray K)} {A B : NDArray K} {l : Nat} {ds : List Nat} {r : Nat}
    (hb : Bonds (pre ++ A :: B :: post) l ds r) : ∃ d e l' p m q r', ds = d ++ p :: q :: e ∧
      d.length = pre.length ∧ Bonds pre l d l' ∧ A.shape = [l', p, m] ∧ B.shape = [m, q, r'] ∧
      Bonds post r' e r := by
  obtain ⟨d, e, l', rfl, h1, p, m, e', rfl, h2, q, r', e'', rfl, h3, h4⟩ := hb.split
  exact ⟨d, e'', l', p, m, q, r', rfl, h1.length, h1, h2, h3, h4⟩

theorem amp_around {pre post : List (NDArray K)} {A B : NDArray K} {l l' p m q r' : Nat} {d : List Nat}
    (h1 : Bonds pre l d l') (hA : A.shape = [l', p, m]) (hB : B.shape = [m, q, r']) {a : Nat} (ha : a < l)
    {is : List Nat} (his : is.length = d.length) (i j : Nat) (js : List Nat) (b : Nat) :
    amp (pre ++ A :: B :: post) a (is ++ i :: j :: js) b = ∑ c ∈ range l', amp pre a is c *
      ∑ e ∈ range r', pairGet A B m c i j e * amp post e js b := by
  rw [amp_append h1 ha his]
  exact Finset.sum_congr rfl fun c _ => by rw [amp_pair hA hB]; rfl

theorem gateAmp_around {pre post : List (NDArray K)} {A B G : NDArray K} {l l' p m q r' : Nat}
    {d : List Nat} (h1 : Bonds pre l d l') (hA : A.shape = [l', p, m]) (hB : B.shape = [m, q, r'])
    {a : Nat} (ha : a < l) {is : List Nat} (his : is.length = d.length) (i j : Nat) (js : List Nat)
    (b : Nat) :
    gateAmp G pre.length p q (pre ++ A :: B :: post) a (is ++ i :: j :: js) b =
      ∑ c ∈ range l', amp pre a is c * ∑ e ∈ range r', gateGet G A B p m q c i j e * amp post e js b := by
  have hl : is.length = pre.length := by rw [his, h1.length]
  have e1 : (is ++ i :: j :: js).getD pre.length 0 = i := by rw [← hl]; simp
  have e2 : (is ++ i :: j :: js).getD (pre.length + 1) 0 = j := by
    rw [← hl]
    simp
  unfold gateAmp
  rw [e1, e2]
  simp only [← hl, set_pair, amp_around h1 hA hB ha his, gateGet, Finset.mul_sum, Finset.sum_mul]
  rw [Finset.sum_congr rfl fun x _ => Finset.sum_comm, Finset.sum_comm]
  refine Finset.sum_congr rfl fun c _ => ?_
  rw [Finset.sum_congr rfl fun x _ => Finset.sum_comm, Finset.sum_comm]
  refine Finset.sum_congr rfl fun e _ => Finset.sum_congr rfl fun x _ => Finset.sum_congr rfl fun y _ => ?_
  ring

/-! ### The call -/

/-- The request is one that `apply_two_site_gate` accepts. -/
structure GateCall (st : State K) (G : NDArray K) (n : Nat) (cp : Option Int) (p' q' p q : Nat) : Prop where
  shape : G.shape = [p', q', p, q]
  site : n + 1 < st.tensors.length
  center : cp = none ∨ cp = some (n : Int) ∨ cp = some ((n : Int) + 1)

/-- The site that is asked for as the new centre. -/
def target (n : Nat) (cp : Option Int) : Nat := if cp = some ((n : Int) + 1) then n + 1 else n

theorem applyTwoSite_eq {E : Env K} {st : State K} {G : NDArray K} {n : Nat} {cp : Option Int}
    {p' q' p q : Nat} (hc : GateCall st G n cp p' q' p q) {D : Option Nat} {err : Option ℝ} {rel : Bool}
    (htr : truncates D err → st.center = some n ∨ st.center = some (n + 1)) {A B : NDArray K}
    (hA : st.tensors[n]? = some A) (hB : st.tensors[n + 1]? = some B) :
    applyTwoSite E st G n (n + 1) D err cp rel = (do
      let t ← nconInt E.so [A, B, G] [[-1, 1, 2], [2, 3, -4], [-2, -3, 1, 3]]
      let (left, right, tw) ← gateFactor E D err rel (decide (cp = some ((n : Int) + 1))) t
      pure (⟨(st.tensors.set n left).set (n + 1) right, newCenter st.center n (target n cp)⟩, tw)) := by
  have hn : ((n : Int) + 1).toNat = n + 1 := by omega
  have hs := hc.site
  unfold applyTwoSite
  rw [if_neg (by simp [hc.shape]), if_neg (by omega), if_neg (by omega), if_neg (by omega), if_neg (by simp),
    if_neg, if_neg, Int.toNat_natCast, hn, hA, hB]
  · simp only [target, decide_eq_true_eq]
  · rw [Int.toNat_natCast, hn]
    exact fun h => h.2 (htr h.1)
  · rcases hc.center with h | h | h <;> simp [h]

theorem exists_pair {ts : List (NDArray K)} {n : Nat} (h : n + 1 < ts.length) :
    ∃ A B, ts[n]? = some A ∧ ts[n + 1]? = some B :=
  ⟨_, _, List.getElem?_eq_getElem (by omega), List.getElem?_eq_getElem h⟩

/-! ### C39 -/

theorem inB_around {d : List Nat} {p q : Nat} {e is : List Nat} (h : InB (d ++ p :: q :: e) is) :
    ∃ is' i j js, is = is' ++ i :: j :: js ∧ InB d is' ∧ i < p ∧ j < q ∧ InB e js := by
  have hlen := h.length
  simp only [List.length_append, List.length_cons] at hlen
  obtain ⟨is', x, rfl, hx⟩ : ∃ is' x, is = is' ++ x ∧ is'.length = d.length :=
    ⟨is.take d.length, is.drop d.length, (List.take_append_drop _ _).symm, by simp; omega⟩
  rw [inB_append_iff hx] at h
  obtain ⟨h1, h2⟩ := h
  cases h2 with
  | cons hi h2 =>
  cases h2 with
  | cons hj h2 => exact ⟨is', _, _, _, rfl, h1, hi, hj, h2⟩

/-- **C39**, without truncation: the call succeeds for every gate that fits, keeps the structure of the
state, and changes the amplitudes exactly by the gate. -/
theorem C39_gate {E : Env K} (hE : QrOK E) {st : State K} {l : Nat} {ds : List Nat} {r : Nat}
    (hb : Bonds st.tensors l ds r) {G : NDArray K} {n : Nat} {cp : Option Int} {p' q' p q : Nat}
    (hc : GateCall st G n cp p' q' p q) (hp : ds[n]? = some p) (hq : ds[n + 1]? = some q) (rel : Bool) :
    ∃ st' tw, applyTwoSite E st G n (n + 1) none none cp rel = .ok (st', tw) ∧
      Bonds st'.tensors l ((ds.set n p').set (n + 1) q') r ∧
      (∀ a < l, ∀ is, InB ((ds.set n p').set (n + 1) q') is → ∀ b,
        amp st'.tensors a is b = gateAmp G n p q st.tensors a is b) ∧
      tw.shape = [1] ∧ tw.get [0] = 0 := by
  obtain ⟨A, B, hA, hB⟩ := exists_pair hc.site
  obtain ⟨pre, post, hts, rfl⟩ := split_pair hA hB
  have hb' := hb
  rw [hts] at hb'
  obtain ⟨d, e, l', p0, m, q0, r', rfl, hd, h1, h2, h3, h4⟩ := bonds_pair hb'
  obtain rfl : p0 = p := by simpa [← hd] using hp
  obtain rfl : q0 = q := by simpa [← hd, List.getElem?_append] using hq
  obtain ⟨t, t1, t2, t3⟩ := ncon_gate E.so h2 h3 hc.shape
  obtain ⟨L, R, k, tw, g1, g2, g3, _, _, g5, _, g7⟩ :=
    gateFactor_exact hE (decide (cp = some ((pre.length : Int) + 1))) rel t2
  refine ⟨⟨(st.tensors.set pre.length L).set (pre.length + 1) R,
      newCenter st.center pre.length (target pre.length cp)⟩, tw, ?_, ?_, ?_, g5⟩
  · rw [applyTwoSite_eq hc (by rintro (⟨_, h, _⟩ | ⟨_, h, _⟩) <;> cases h) hA hB, t1]
    simp only [bind, Except.bind, g1]
    rfl
  · simp only [hts, set_pair]
    rw [← hd, set_pair]
    exact h1.append ⟨_, _, _, rfl, g2, _, _, _, rfl, g3, h4⟩
  · intro a ha is his b
    rw [← hd, set_pair] at his
    obtain ⟨is', i, j, js, rfl, i1, i2, i3, i4⟩ := inB_around his
    have hil := i1.length
    simp only [hts, set_pair]
    rw [amp_around h1 g2 g3 ha hil, gateAmp_around h1 h2 h3 ha hil]
    refine Finset.sum_congr rfl fun c hc' => ?_
    congr 1
    refine Finset.sum_congr rfl fun x hx => ?_
    rw [← g7 c (Finset.mem_range.1 hc') i i2 j i3 x (Finset.mem_range.1 hx),
      t3 c (Finset.mem_range.1 hc') i i2 j i3 x (Finset.mem_range.1 hx)]

/-! ### The error of a truncation -/

/-- With isometries on both sides, the norm of the state is the norm of what is between them. -/
theorem env_norm {pre post : List (NDArray K)} {l l' r' r : Nat} {d e : List Nat} (h1 : Bonds pre l d l')
    (h4 : Bonds post r' e r) (hl : AllLeft pre) (hr : AllRight post) (p q : Nat)
    (X : Nat → Nat → List Nat → K) :
    ∑ a ∈ range l, sumIdx (d ++ p :: q :: e) (fun is => ∑ b ∈ range r,
      ‖∑ c ∈ range l', amp pre a (is.take d.length) c * ∑ x ∈ range r',
        X c (is.getD d.length 0) [is.getD (d.length + 1) 0, x] * amp post x (is.drop (d.length + 2)) b‖ ^ 2) =
    ∑ c ∈ range l', ∑ i ∈ range p, sumIdx [q, r'] fun jx => ‖X c i jx‖ ^ 2 := by
  obtain ⟨T, hT⟩ : ∃ T : NDArray K, T = ⟨[l', p, [q, r'].prod], fun i =>
    X (i.getD 0 0) (i.getD 1 0) (unravel [q, r'] (i.getD 2 0))⟩ := ⟨_, rfl⟩
  obtain ⟨I, hI⟩ : ∃ I : NDArray K, I = ⟨[[q, r'].prod, q, r'], fun i =>
    if i.getD 0 0 = ravel [q, r'] [i.getD 1 0, i.getD 2 0] then 1 else 0⟩ := ⟨_, rfl⟩
  have hTs : T.shape = [l', p, [q, r'].prod] := by rw [hT]
  have hIs : I.shape = [[q, r'].prod, q, r'] := by rw [hI]
  have hTg : ∀ c i y, T.get [c, i, y] = X c i (unravel [q, r'] y) := fun c i y => by rw [hT]; rfl
  have hIg : ∀ y j x, I.get [y, j, x] = if y = ravel [q, r'] [j, x] then 1 else 0 := fun c i y => by
    rw [hI]; rfl
  have hbonds : Bonds (pre ++ T :: I :: post) l (d ++ p :: q :: e) r :=
    h1.append ⟨p, _, _, rfl, hTs, q, r', e, rfl, hIs, h4⟩
  have hpair : ∀ c i, ∀ j < q, ∀ x < r', pairGet T I [q, r'].prod c i j x = X c i [j, x] := by
    intro c i j hj x hx
    simp only [pairGet, hTg, hIg, mul_ite, mul_one, mul_zero]
    rw [Finset.sum_ite_eq', if_pos (Finset.mem_range.2 (ravel_lt (inB_two hj hx))),
      unravel_ravel (inB_two hj hx)]
  have hiso : RightIso I := by
    refine ⟨_, q, r', hIs, fun y hy y' hy' => ?_⟩
    simp only [hIg]
    have h := sum_range_unravel [q, r'] (fun jx => (if y = ravel [q, r'] jx then (1 : K) else 0) *
      star (if y' = ravel [q, r'] jx then (1 : K) else 0))
    refine Eq.trans ?_ (h.symm.trans ?_)
    · rfl
    · have : ∀ z ∈ range [q, r'].prod, (if y = ravel [q, r'] (unravel [q, r'] z) then (1 : K) else 0) *
          star (if y' = ravel [q, r'] (unravel [q, r'] z) then (1 : K) else 0) =
          if y = z then (if y' = z then 1 else 0) else 0 := by
        intro z hz
        rw [ravel_unravel (Finset.mem_range.1 hz)]
        split_ifs <;> simp
      rw [Finset.sum_congr rfl this, Finset.sum_ite_eq, if_pos (Finset.mem_range.2 hy)]
      simp [eq_comm]
  have hcan : Canonical (pre ++ T :: I :: post) pre.length := by
    intro n A hA
    rcases Nat.lt_trichotomy n pre.length with h | h | h
    · rw [List.getElem?_append_left h] at hA
      exact ⟨fun _ => hl A (List.mem_of_getElem? hA), fun h' => by omega⟩
    · exact ⟨fun h' => by omega, fun h' => by omega⟩
    · obtain ⟨k, rfl⟩ : ∃ k, n = pre.length + 1 + k := ⟨n - pre.length - 1, by omega⟩
      rw [List.getElem?_append_right (by omega)] at hA
      have hk : pre.length + 1 + k - pre.length = k + 1 := by omega
      rw [hk, List.getElem?_cons_succ] at hA
      refine ⟨fun h' => by omega, fun _ => ?_⟩
      cases k with
      | zero =>
        cases hA
        exact hiso
      | succ k =>
        rw [List.getElem?_cons_succ] at hA
        exact hr A (List.mem_of_getElem? hA)
  have hn := hcan.normSq (C := T) (by simp) hbonds
  rw [norm_sq, hTs] at hn
  have hR : sumIdx [l', p, [q, r'].prod] (fun i => ‖T.get i‖ ^ 2) =
      ∑ c ∈ range l', ∑ i ∈ range p, sumIdx [q, r'] fun jx => ‖X c i jx‖ ^ 2 := by
    simp only [sumIdx]
    refine Finset.sum_congr rfl fun c _ => Finset.sum_congr rfl fun i _ => ?_
    simp only [hTg]
    exact sum_range_unravel [q, r'] fun jx => ‖X c i jx‖ ^ 2
  rw [← hR, ← hn]
  unfold normSq
  refine Finset.sum_congr rfl fun a ha => sumIdx_congr fun is his => Finset.sum_congr rfl fun b _ => ?_
  obtain ⟨is', i, j, js, rfl, i1, i2, i3, i4⟩ := inB_around his
  have hil := i1.length
  rw [amp_around h1 hTs hIs (Finset.mem_range.1 ha) hil]
  congr 2
  have e1 : (is' ++ i :: j :: js).take d.length = is' := by rw [← hil]; simp
  have e2 : (is' ++ i :: j :: js).getD d.length 0 = i := by rw [← hil]; simp
  have e3 : (is' ++ i :: j :: js).getD (d.length + 1) 0 = j := by rw [← hil]; simp
  have e4 : (is' ++ i :: j :: js).drop (d.length + 2) = js := by rw [← hil]; simp
  rw [e1, e2, e3, e4]
  refine Finset.sum_congr rfl fun c _ => ?_
  congr 1
  refine Finset.sum_congr rfl fun x hx => ?_
  rw [hpair c i j i3 x (Finset.mem_range.1 hx)]

theorem Canonical.around {pre post : List (NDArray K)} {A B : NDArray K} {c : Nat}
    (h : Canonical (pre ++ A :: B :: post) c) (hc : c = pre.length ∨ c = pre.length + 1) :
    AllLeft pre ∧ AllRight post := by
  refine ⟨fun X hX => ?_, fun X hX => ?_⟩
  · obtain ⟨n, hn, rfl⟩ := List.mem_iff_getElem.1 hX
    exact (h n _ (by rw [List.getElem?_append_left hn, List.getElem?_eq_getElem hn])).1 (by omega)
  · obtain ⟨n, hn, rfl⟩ := List.mem_iff_getElem.1 hX
    refine (h (pre.length + (n + 2)) _ ?_).2 (by omega)
    rw [List.getElem?_append_right (by omega)]
    simp [List.getElem?_eq_getElem hn]

theorem canonical_of {pre post : List (NDArray K)} {A B : NDArray K} (hl : AllLeft pre)
    (hr : AllRight post) :
    (RightIso B → Canonical (pre ++ A :: B :: post) pre.length) ∧
      (LeftIso A → Canonical (pre ++ A :: B :: post) (pre.length + 1)) := by
  have key : ∀ (n : Nat) X, (pre ++ A :: B :: post)[n]? = some X → (n < pre.length ∧ LeftIso X) ∨
      (n = pre.length ∧ X = A) ∨ (n = pre.length + 1 ∧ X = B) ∨ (pre.length + 1 < n ∧ RightIso X) := by
    intro n X hX
    rcases Nat.lt_or_ge n pre.length with h | h
    · rw [List.getElem?_append_left h] at hX
      exact Or.inl ⟨h, hl X (List.mem_of_getElem? hX)⟩
    · obtain ⟨k, rfl⟩ : ∃ k, n = pre.length + k := ⟨n - pre.length, by omega⟩
      rw [List.getElem?_append_right h, Nat.add_sub_cancel_left] at hX
      match k, hX with
      | 0, hX => cases hX; exact Or.inr (Or.inl ⟨rfl, rfl⟩)
      | 1, hX => cases hX; exact Or.inr (Or.inr (Or.inl ⟨rfl, rfl⟩))
      | k + 2, hX =>
        rw [List.getElem?_cons_succ, List.getElem?_cons_succ] at hX
        exact Or.inr (Or.inr (Or.inr ⟨by omega, hr X (List.mem_of_getElem? hX)⟩))
  refine ⟨fun h n X hX => ?_, fun h n X hX => ?_⟩ <;>
  rcases key n X hX with ⟨h1, h2⟩ | ⟨h1, rfl⟩ | ⟨h1, rfl⟩ | ⟨h1, h2⟩
  · exact ⟨fun _ => h2, fun h' => by omega⟩
  · exact ⟨fun h' => by omega, fun h' => by omega⟩
  · exact ⟨fun h' => by omega, fun _ => h⟩
  · exact ⟨fun h' => by omega, fun _ => h2⟩
  · exact ⟨fun _ => h2, fun h' => by omega⟩
  · exact ⟨fun _ => h, fun h' => by omega⟩
  · exact ⟨fun h' => by omega, fun h' => by omega⟩
  · exact ⟨fun h' => by omega, fun _ => h2⟩

/-- The squared distance between the state after the gate `G` and the state of the tensors `ts'`. -/
def gateDist (G : NDArray K) (n p q : Nat) (ts ts' : List (NDArray K)) (l : Nat) (ds : List Nat) (r : Nat) : ℝ :=
  ∑ a ∈ range l, sumIdx ds fun is => ∑ b ∈ range r,
    ‖gateAmp G n p q ts a is b - amp ts' a is b‖ ^ 2

theorem newCenter_of {c : Option Nat} {n site : Nat} (h : c = some n ∨ c = some (n + 1)) :
    newCenter c n site = some site := by
  rcases h with rfl | rfl <;> simp [newCenter]

/-- **C39**, with truncation: for a state in canonical form with its centre at one of the two sites, the
state after the call is in canonical form with respect to the recorded centre, which is the requested
one, and the norm of the returned tensor (the discarded singular values) is the distance between the
state and the exact state after the gate. -/
theorem C39_truncated {E : Env K} (hS : SvdOK E) {st st' : State K} {l : Nat} {ds : List Nat} {r : Nat}
    (hb : Bonds st.tensors l ds r) {G : NDArray K} {n : Nat} {cp : Option Int} {p' q' p q c : Nat}
    (hc : GateCall st G n cp p' q' p q) (hp : ds[n]? = some p) (hq : ds[n + 1]? = some q) {rel : Bool}
    (hcan : Canonical st.tensors c) (hcen : st.center = some c) (hcn : c = n ∨ c = n + 1)
    {D : Option Nat} {err : Option ℝ} (htr : D.isSome ∨ err.isSome) {tw : NDArray K}
    (h : applyTwoSite E st G n (n + 1) D err cp rel = .ok (st', tw)) :
    Bonds st'.tensors l ((ds.set n p').set (n + 1) q') r ∧ st'.center = some (target n cp) ∧
      Canonical st'.tensors (target n cp) ∧
      gateDist G n p q st.tensors st'.tensors l ((ds.set n p').set (n + 1) q') r = norm tw ^ 2 := by
  obtain ⟨A, B, hA, hB⟩ := exists_pair hc.site
  obtain ⟨pre, post, hts, rfl⟩ := split_pair hA hB
  have hb' := hb
  rw [hts] at hb'
  obtain ⟨d, e, l', p0, m, q0, r', rfl, hd, h1, h2, h3, h4⟩ := bonds_pair hb'
  obtain rfl : p0 = p := by simpa [← hd] using hp
  obtain rfl : q0 = q := by simpa [← hd, List.getElem?_append] using hq
  obtain ⟨t, t1, t2, t3⟩ := ncon_gate E.so h2 h3 hc.shape
  have hcen' : st.center = some pre.length ∨ st.center = some (pre.length + 1) := by
    rcases hcn with rfl | rfl
    · exact Or.inl hcen
    · exact Or.inr hcen
  rw [applyTwoSite_eq hc (fun _ => hcen') hA hB, t1] at h
  simp only [bind, Except.bind] at h
  rcases hf : gateFactor E D err rel (decide (cp = some ((pre.length : Int) + 1))) t with e | ⟨L, R, tw'⟩
  · rw [hf] at h; cases h
  rw [hf] at h
  simp only [pure, Except.pure, Except.ok.injEq, Prod.mk.injEq] at h
  obtain ⟨rfl, rfl⟩ := h
  obtain ⟨⟨k, g1, g2, g3⟩, g4, g5⟩ := gateFactor_svd hS htr t2 hf
  rw [hts] at hcan
  obtain ⟨hl, hr⟩ := hcan.around hcn
  simp only [hts, set_pair]
  have hds : ((d ++ p0 :: q0 :: e).set pre.length p').set (pre.length + 1) q' = d ++ p' :: q' :: e := by
    rw [← hd, set_pair]
  rw [hds]
  refine ⟨h1.append ⟨_, _, _, rfl, g1, _, _, _, rfl, g2, h4⟩, newCenter_of hcen', ?_, ?_⟩
  · unfold target
    by_cases hcp : cp = some ((pre.length : Int) + 1)
    · rw [if_pos hcp]
      exact (canonical_of hl hr).2 (g4 (by simpa using hcp))
    · rw [if_neg hcp]
      exact (canonical_of hl hr).1 (g5 (by simpa using hcp))
  · rw [← g3]
    have henv := env_norm h1 h4 hl hr p' q' (fun c i jx => t.get (c :: i :: jx) -
      pairGet L R k c i (jx.getD 0 0) (jx.getD 1 0))
    simp only [sumIdx, List.getD_cons_zero, List.getD_cons_succ] at henv
    rw [← henv]
    unfold gateDist
    refine Finset.sum_congr rfl fun a ha => sumIdx_congr fun is his => Finset.sum_congr rfl fun b _ => ?_
    obtain ⟨is', i, j, js, rfl, i1, i2, i3, i4⟩ := inB_around his
    have hil := i1.length
    have e1 : (is' ++ i :: j :: js).take d.length = is' := by rw [← hil]; simp
    have e2 : (is' ++ i :: j :: js).getD d.length 0 = i := by rw [← hil]; simp
    have e3 : (is' ++ i :: j :: js).getD (d.length + 1) 0 = j := by rw [← hil]; simp
    have e4 : (is' ++ i :: j :: js).drop (d.length + 2) = js := by rw [← hil]; simp
    rw [e1, e2, e3, e4, gateAmp_around h1 h2 h3 (Finset.mem_range.1 ha) hil,
      amp_around h1 g1 g2 (Finset.mem_range.1 ha) hil, ← Finset.sum_sub_distrib]
    congr 2
    refine Finset.sum_congr rfl fun c hc' => ?_
    rw [← mul_sub, ← Finset.sum_sub_distrib]
    congr 1
    refine Finset.sum_congr rfl fun x hx => ?_
    rw [← sub_mul, t3 c (Finset.mem_range.1 hc') i i2 j i3 x (Finset.mem_range.1 hx)]

/-- **C39**, the centre without truncation: the code factorises with QR (RQ) and leaves the isometry at
the requested centre, so that the true centre is the other site. -/
theorem C39_center_partial {E : Env K} (hE : QrOK E) {st st' : State K} {l : Nat} {ds : List Nat} {r : Nat}
    (hb : Bonds st.tensors l ds r) {G : NDArray K} {n : Nat} {cp : Option Int} {p' q' p q c : Nat}
    (hc : GateCall st G n cp p' q' p q) (hp : ds[n]? = some p) (hq : ds[n + 1]? = some q) {rel : Bool}
    (hcan : Canonical st.tensors c) (hcen : st.center = some c) (hcn : c = n ∨ c = n + 1) {tw : NDArray K}
    (h : applyTwoSite E st G n (n + 1) none none cp rel = .ok (st', tw)) :
    st'.center = some (target n cp) ∧
      Canonical st'.tensors (if target n cp = n then n + 1 else n) := by
  obtain ⟨A, B, hA, hB⟩ := exists_pair hc.site
  obtain ⟨pre, post, hts, rfl⟩ := split_pair hA hB
  have hb' := hb
  rw [hts] at hb'
  obtain ⟨d, e, l', p0, m, q0, r', rfl, hd, h1, h2, h3, h4⟩ := bonds_pair hb'
  obtain rfl : p0 = p := by simpa [← hd] using hp
  obtain rfl : q0 = q := by simpa [← hd, List.getElem?_append] using hq
  obtain ⟨t, t1, t2, t3⟩ := ncon_gate E.so h2 h3 hc.shape
  have hcen' : st.center = some pre.length ∨ st.center = some (pre.length + 1) := by
    rcases hcn with rfl | rfl
    · exact Or.inl hcen
    · exact Or.inr hcen
  obtain ⟨L, R, k, tw', g1, g2, g3, g4, g5, _⟩ :=
    gateFactor_exact hE (decide (cp = some ((pre.length : Int) + 1))) rel t2
  rw [applyTwoSite_eq hc (fun _ => hcen') hA hB, t1] at h
  simp only [bind, Except.bind, g1, pure, Except.pure, Except.ok.injEq, Prod.mk.injEq] at h
  obtain ⟨rfl, rfl⟩ := h
  rw [hts] at hcan
  obtain ⟨hl, hr⟩ := hcan.around hcn
  simp only [hts, set_pair]
  refine ⟨newCenter_of hcen', ?_⟩
  unfold target
  by_cases hcp : cp = some ((pre.length : Int) + 1)
  · rw [if_pos hcp, if_neg (by omega)]
    exact (canonical_of hl hr).1 (g5 (by simpa using hcp))
  · rw [if_neg hcp, if_pos rfl]
    exact (canonical_of hl hr).2 (g4 (by simpa using hcp))

/-- The centre is recorded as unknown when the gate acts elsewhere. -/
theorem C39_elsewhere {E : Env K} {st st' : State K} {G : NDArray K} {n : Nat} {cp : Option Int}
    {p' q' p q c : Nat} (hc : GateCall st G n cp p' q' p q) {rel : Bool} (hcen : st.center = some c)
    (hcn : c ≠ n ∧ c ≠ n + 1) {tw : NDArray K}
    (h : applyTwoSite E st G n (n + 1) none none cp rel = .ok (st', tw)) : st'.center = none := by
  obtain ⟨A, B, hA, hB⟩ := exists_pair hc.site
  rw [applyTwoSite_eq hc (by rintro (⟨_, h, _⟩ | ⟨_, h, _⟩) <;> cases h) hA hB] at h
  rcases h1 : nconInt E.so [A, B, G] [[-1, 1, 2], [2, 3, -4], [-2, -3, 1, 3]] with e | t
  · rw [h1] at h; cases h
  rcases h2 : gateFactor E none none rel (decide (cp = some ((n : Int) + 1))) t with e | ⟨L, R, tw'⟩
  · simp only [h1, bind, Except.bind, h2] at h; cases h
  simp only [h1, bind, Except.bind, h2, pure, Except.pure, Except.ok.injEq, Prod.mk.injEq] at h
  rw [← h.1]
  simp [newCenter, hcen, hcn.1, hcn.2]

/-! ### One-site gates -/

/-- The amplitude of the state after the gate `G` on the site `n` with physical dimension `p`. -/
def gateAmp1 (G : NDArray K) (n p : Nat) (ts : List (NDArray K)) (a : Nat) (is : List Nat) (b : Nat) : K :=
  ∑ i ∈ range p, G.get [is.getD n 0, i] * amp ts a (is.set n i) b

/-- **C39**, one-site gates. -/
theorem C39_one_site {E : Env K} {st : State K} {l : Nat} {ds : List Nat} {r : Nat}
    (hb : Bonds st.tensors l ds r) {G : NDArray K} {n : Nat} {p' p : Nat} (hG : G.shape = [p', p])
    (hn : n < st.tensors.length) (hp : ds[n]? = some p) :
    ∃ st', applyOneSite E st G n = .ok st' ∧ Bonds st'.tensors l (ds.set n p') r ∧
      st'.center = st.center ∧ (∀ k, k ≠ n → st'.tensors[k]? = st.tensors[k]?) ∧
      ∀ a < l, ∀ is, InB (ds.set n p') is → ∀ b,
        amp st'.tensors a is b = gateAmp1 G n p st.tensors a is b := by
  obtain ⟨A, hA⟩ : ∃ A, st.tensors[n]? = some A := ⟨_, List.getElem?_eq_getElem hn⟩
  obtain ⟨pre, post, hts, rfl⟩ : ∃ pre post, st.tensors = pre ++ A :: post ∧ pre.length = n := by
    obtain ⟨h1, rfl⟩ := List.getElem?_eq_some_iff.1 hA
    refine ⟨st.tensors.take n, st.tensors.drop (n + 1), ?_, by simp; omega⟩
    rw [List.getElem_cons_drop, List.take_append_drop]
  have hset : ∀ {α : Type} (pre post : List α) (a a' : α), (pre ++ a :: post).set pre.length a' =
      pre ++ a' :: post := by intros; simp
  have hb' := hb
  rw [hts] at hb'
  obtain ⟨d, e, l', rfl, h1, p0, m, e', rfl, h2, h3⟩ := hb'.split
  have hd := h1.length
  obtain rfl : p0 = p := by simpa [← hd] using hp
  obtain ⟨t, t1, t2, t3⟩ := ncon_gate_one E.so h2 hG
  refine ⟨⟨st.tensors.set pre.length t, st.center⟩, ?_, ?_, rfl, fun k hk => ?_, ?_⟩
  · unfold applyOneSite
    rw [if_neg (by simp [hG]), if_neg (by omega), Int.toNat_natCast, hA]
    simp only [t1, bind, Except.bind]
    rfl
  · simp only [hts, hset]
    rw [← hd, hset]
    exact h1.append ⟨_, _, _, rfl, t2, h3⟩
  · exact List.getElem?_set_ne (Ne.symm hk)
  · intro a ha is his b
    rw [← hd, hset] at his
    simp only [hts, hset]
    have hlen := his.length
    simp only [List.length_append, List.length_cons] at hlen
    obtain ⟨is', x, rfl, hx⟩ : ∃ is' x, is = is' ++ x ∧ is'.length = d.length :=
      ⟨is.take d.length, is.drop d.length, (List.take_append_drop _ _).symm, by simp; omega⟩
    rw [inB_append_iff hx] at his
    obtain ⟨i1, i2⟩ := his
    cases i2 with
    | cons hi i2 =>
    rename_i i js
    have hl : is'.length = pre.length := by rw [hx, hd]
    have e1 : (is' ++ i :: js).getD pre.length 0 = i := by rw [← hl]; simp
    unfold gateAmp1
    rw [e1]
    simp only [← hl, hset, amp_append h1 ha hx, amp_cons t2, amp_cons h2]
    simp only [Finset.mul_sum]
    refine Eq.trans ?_ Finset.sum_comm
    refine Finset.sum_congr rfl fun c hc => ?_
    rw [Finset.sum_comm]
    refine Finset.sum_congr rfl fun x hx' => ?_
    rw [t3 c (Finset.mem_range.1 hc) i hi x (Finset.mem_range.1 hx'), Finset.sum_mul, Finset.mul_sum]
    exact Finset.sum_congr rfl fun y _ => by ring

/-! ### A concrete state and the wrong centre -/

/-- A multiple of the Bell state, in canonical form with centre 0. -/
noncomputable def halfBell (K : Type) [RCLike K] : List (NDArray K) :=
  [⟨[1, 2, 2], fun i => if i.getD 1 0 = i.getD 2 0 then 1 / 2 else 0⟩,
   ⟨[2, 2, 1], fun i => if i.getD 0 0 = i.getD 1 0 then 1 else 0⟩]

/-- The identity on two sites of dimension two. -/
noncomputable def idGate (K : Type) [RCLike K] : NDArray K :=
  ⟨[2, 2, 2, 2], fun i => if i.getD 0 0 = i.getD 2 0 ∧ i.getD 1 0 = i.getD 3 0 then 1 else 0⟩

theorem halfBell_bonds : Bonds (halfBell K) 1 [2, 2] 1 :=
  ⟨2, 2, [2], rfl, rfl, 2, 1, [], rfl, rfl, rfl, rfl⟩

theorem halfBell_canonical : Canonical (halfBell K) 0 := by
  intro n A hA
  refine ⟨fun h => by omega, fun h => ?_⟩
  match n, hA with
  | 1, hA =>
    cases hA
    refine ⟨2, 2, 1, rfl, fun x hx y hy => ?_⟩
    simp only [List.getD_cons_zero, List.getD_cons_succ, Finset.sum_range_succ, Finset.sum_range_zero]
    interval_cases x <;> interval_cases y <;> simp
  | 0, _ => omega

theorem halfBell_call (cp : Option Int) (h : cp = none ∨ cp = some 0 ∨ cp = some 1) :
    GateCall ⟨halfBell K, some 0⟩ (idGate K) 0 cp 2 2 2 2 :=
  ⟨rfl, by simp [halfBell], by simpa using h⟩

theorem halfBell_amp {i j : Nat} (hi : i < 2) (_ : j < 2) :
    amp (halfBell K) 0 [i, j] 0 = if i = j then 1 / 2 else 0 := by
  simp only [halfBell, amp, List.getD_cons_succ, List.getD_cons_zero, Finset.sum_range_succ,
    Finset.sum_range_zero]
  interval_cases i <;> interval_cases j <;> simp

theorem halfBell_gateAmp {i j : Nat} (hi : i < 2) (hj : j < 2) :
    gateAmp (idGate K) 0 2 2 (halfBell K) 0 [i, j] 0 = if i = j then 1 / 2 else 0 := by
  simp only [gateAmp, List.getD_cons_succ, List.getD_cons_zero, List.set_cons_zero, List.set_cons_succ,
    Finset.sum_range_succ, Finset.sum_range_zero, zero_add, idGate,
    halfBell_amp (K := K) (show 0 < 2 by decide) (show 0 < 2 by decide),
    halfBell_amp (K := K) (show 0 < 2 by decide) (show 1 < 2 by decide),
    halfBell_amp (K := K) (show 1 < 2 by decide) (show 0 < 2 by decide),
    halfBell_amp (K := K) (show 1 < 2 by decide) (show 1 < 2 by decide)]
  interval_cases i <;> interval_cases j <;> simp

/-- The norm of an isometry. -/
theorem LeftIso.normSq {A : NDArray K} {l p k : Nat} (hA : A.shape = [l, p, k]) (h : LeftIso A) :
    norm A ^ 2 = k := by
  obtain ⟨l', p', k', h1, h2⟩ := h
  rw [hA] at h1
  simp only [List.cons.injEq, and_true] at h1
  obtain ⟨rfl, rfl, rfl⟩ := h1
  have key : ((norm A ^ 2 : ℝ) : K) = ((k : ℝ) : K) := by
    rw [norm_sq, hA]
    simp only [sumIdx, RCLike.ofReal_sum]
    have : ∀ a ∈ range l, ∀ i ∈ range p, ∑ x ∈ range k, ((‖A.get [a, i, x]‖ ^ 2 : ℝ) : K) =
        ∑ x ∈ range k, star (A.get [a, i, x]) * A.get [a, i, x] := by
      intro a _ i _
      refine Finset.sum_congr rfl fun x _ => ?_
      rw [RCLike.star_def, RCLike.conj_mul]
      simp
    rw [Finset.sum_congr rfl fun a ha => Finset.sum_congr rfl (this a ha),
      Finset.sum_congr rfl fun a _ => Finset.sum_comm, Finset.sum_comm,
      Finset.sum_congr rfl fun x hx => (h2 x (Finset.mem_range.1 hx) x (Finset.mem_range.1 hx))]
    simp
  exact_mod_cast key

/-- **C39 is false** for the centre without truncation: the identity gate on a state in canonical form
with centre 0 gives, whatever the kernels, a state that is not in canonical form with respect to the
recorded centre. -/
theorem C39_center_false {E : Env K} (hE : QrOK E) :
    ∃ st' tw c, applyTwoSite E ⟨halfBell K, some 0⟩ (idGate K) 0 1 none none none false = .ok (st', tw) ∧
      st'.center = some c ∧ ¬ Canonical st'.tensors c := by
  have hcall := halfBell_call (K := K) none (Or.inl rfl)
  obtain ⟨st', tw, h1, h2, h3, _⟩ := C39_gate hE halfBell_bonds hcall rfl rfl false
  have h1' : applyTwoSite E ⟨halfBell K, some 0⟩ (idGate K) 0 1 none none none false = .ok (st', tw) := h1
  obtain ⟨h4, h5⟩ := C39_center_partial hE halfBell_bonds hcall rfl rfl halfBell_canonical rfl (Or.inl rfl) h1
  refine ⟨st', tw, 0, h1', h4, fun hcan => ?_⟩
  have hds : (([2, 2] : List Nat).set 0 2).set (0 + 1) 2 = [2, 2] := rfl
  rw [hds] at h2 h3
  have hn : normSq st'.tensors 1 [2, 2] 1 = 1 / 2 := by
    have hv : ∀ i < 2, ∀ j < 2, amp st'.tensors 0 [i, j] 0 = if i = j then 1 / 2 else 0 := by
      intro i hi j hj
      rw [h3 0 one_pos [i, j] (inB_two hi hj) 0]
      exact halfBell_gateAmp hi hj
    simp only [normSq, sumIdx, Finset.sum_range_succ, Finset.sum_range_zero, zero_add,
      hv 0 (by decide) 0 (by decide), hv 0 (by decide) 1 (by decide), hv 1 (by decide) 0 (by decide),
      hv 1 (by decide) 1 (by decide)]
    norm_num
  obtain ⟨st, hst⟩ : ∃ ts, ts = st'.tensors := ⟨_, rfl⟩
  rw [← hst] at h2 h3 h5 hcan hn
  obtain ⟨L, hL⟩ : ∃ L, st[0]? = some L :=
    ⟨_, List.getElem?_eq_getElem (by rw [← h2.length]; decide)⟩
  have hiso : LeftIso L := (h5 0 L hL).1 (by decide)
  have hnorm := hcan.normSq hL h2
  obtain ⟨l', p, k, hs⟩ := h2.get hL
  rw [hn, hiso.normSq hs] at hnorm
  have h2k : (1 : ℝ) = 2 * k := by linarith
  have : (1 : ℕ) = 2 * k := by exact_mod_cast h2k
  omega

theorem numKeep_total (s : List ℝ) (D : Option Nat) (err : Option ℝ) :
    ∃ k, Decomp.numKeep s D err false = .ok k := by
  cases err <;> exact ⟨_, rfl⟩

/-- With `relative=False` the truncated call succeeds. -/
theorem C39_truncated_accepts {E : Env K} (hS : SvdOK E) {st : State K} {l : Nat} {ds : List Nat} {r : Nat}
    (hb : Bonds st.tensors l ds r) {G : NDArray K} {n : Nat} {cp : Option Int} {p' q' p q c : Nat}
    (hc : GateCall st G n cp p' q' p q) (hp : ds[n]? = some p) (hq : ds[n + 1]? = some q)
    (hcen : st.center = some c) (hcn : c = n ∨ c = n + 1) (D : Option Nat) (err : Option ℝ)
    (htr : D.isSome ∨ err.isSome) :
    ∃ st' tw, applyTwoSite E st G n (n + 1) D err cp false = .ok (st', tw) := by
  obtain ⟨A, B, hA, hB⟩ := exists_pair hc.site
  obtain ⟨pre, post, hts, rfl⟩ := split_pair hA hB
  have hb' := hb
  rw [hts] at hb'
  obtain ⟨d, e, l', p0, m, q0, r', rfl, hd, h1, h2, h3, h4⟩ := bonds_pair hb'
  obtain rfl : p0 = p := by simpa [← hd] using hp
  obtain rfl : q0 = q := by simpa [← hd, List.getElem?_append] using hq
  obtain ⟨t, t1, t2, t3⟩ := ncon_gate E.so h2 h3 hc.shape
  have hcen' : st.center = some pre.length ∨ st.center = some (pre.length + 1) := by
    rcases hcn with rfl | rfl
    · exact Or.inl hcen
    · exact Or.inr hcen
  rw [applyTwoSite_eq hc (fun _ => hcen') hA hB, t1]
  obtain ⟨M, m1, m2, _⟩ := Decomp.reshape_matrix (List.take_append_drop 2 t.shape).symm
  obtain ⟨keep, hk⟩ := numKeep_total (E.svd M).2.1 D err
  obtain ⟨u, s, v, w, k, g1, _, g2, g3, g4, _⟩ := Decomp.svd_spec m1 (hS M _ _ m2) hk
  rw [t2] at g2 g4
  simp only [bind, Except.bind, gateFactor]
  rw [if_pos (by simpa [or_comm] using htr), g1]
  by_cases hcp : cp = some ((pre.length : Int) + 1)
  · obtain ⟨t', e1, _⟩ := ncon_rest_right E.so (diagflat_shape g3) g4
    simp only [hcp, decide_true, if_true, e1]
    exact ⟨_, _, rfl⟩
  · obtain ⟨t', e1, _⟩ := ncon_rest_left E.so g2 (diagflat_shape g3)
    simp only [hcp, decide_false, Bool.false_eq_true, if_false, e1]
    exact ⟨_, _, rfl⟩

/-- C39 with truncation at a concrete state. -/
example : ∃ st' tw, applyTwoSite (exactEnv ℂ Ncon.soId) ⟨halfBell ℂ, some 0⟩ (idGate ℂ) 0 1 (some 1) none
    none false = .ok (st', tw) ∧ st'.center = some 0 ∧ Canonical st'.tensors 0 ∧
    gateDist (idGate ℂ) 0 2 2 (halfBell ℂ) st'.tensors 1 [2, 2] 1 = norm tw ^ 2 := by
  have hcall := halfBell_call (K := ℂ) none (Or.inl rfl)
  obtain ⟨st', tw, h⟩ := C39_truncated_accepts (exactEnv_svd (K := ℂ) Ncon.soId) halfBell_bonds hcall rfl rfl
    rfl (Or.inl rfl) (some 1) none (by simp)
  obtain ⟨_, h2, h3, h4⟩ := C39_truncated (exactEnv_svd (K := ℂ) Ncon.soId) halfBell_bonds hcall rfl rfl
    halfBell_canonical rfl (Or.inl rfl) (by simp) h
  exact ⟨st', tw, h, h2, h3, h4⟩

/-- C39 for a one-site gate at a concrete state. -/
example : ∃ st', applyOneSite (exactEnv ℂ Ncon.soId) ⟨halfBell ℂ, some 0⟩ ⟨[2, 2], fun i => (i.getD 0 0 : ℂ)⟩ 1 =
    .ok st' ∧ Bonds st'.tensors 1 [2, 2] 1 := by
  obtain ⟨st', h, hb, _⟩ := C39_one_site (E := exactEnv ℂ Ncon.soId) (st := ⟨halfBell ℂ, some 0⟩)
    halfBell_bonds (G := ⟨[2, 2], fun i => (i.getD 0 0 : ℂ)⟩) (n := 1) rfl (by simp [halfBell]) rfl
  exact ⟨st', h, hb⟩

/-- C39 at a concrete state. -/
example : ∃ st' tw, applyTwoSite (exactEnv ℂ Ncon.soId) ⟨halfBell ℂ, some 0⟩ (idGate ℂ) 0 1 none none
    (some 1) false = .ok (st', tw) ∧
    ∀ i < 2, ∀ j < 2, amp st'.tensors 0 [i, j] 0 = if i = j then 1 / 2 else 0 := by
  obtain ⟨st', tw, h1, _, h3, _⟩ := C39_gate (exactEnv_qr (K := ℂ) Ncon.soId) halfBell_bonds
    (halfBell_call (some 1) (Or.inr (Or.inr rfl))) rfl rfl false
  refine ⟨st', tw, h1, fun i hi j hj => ?_⟩
  rw [h3 0 one_pos [i, j] (inB_two hi hj) 0]
  exact halfBell_gateAmp hi hj

end TN.Mps
