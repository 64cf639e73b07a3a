import Verif.MpsEnvs

/-!
# Expectation values in matrix product states: the properties (C40)

The specification is by wave functions: `opAt G n p ψ` is the operator `G` on site `n` applied to the wave
function `ψ`, and `inner` the inner product.
-/

set_option linter.unusedSectionVars false

namespace TN.Mps

open TN NDArray Finset Ncon

variable {K : Type} [RCLike K]

/-- The operator `G` on site `n` (of dimension `p`) applied to a wave function. -/
def opAt (G : NDArray K) (n p : Nat) (ψ : Nat → List Nat → Nat → K) (a : Nat) (is : List Nat) (b : Nat) : K :=
  ∑ i ∈ range p, G.get [is.getD n 0, i] * ψ a (is.set n i) b

/-- The inner product of two wave functions. -/
def inner (l : Nat) (ds : List Nat) (r : Nat) (φ ψ : Nat → List Nat → Nat → K) : K :=
  ∑ a ∈ range l, sumIdx ds fun is => ∑ b ∈ range r, star (φ a is b) * ψ a is b

/-- The expectation value of `O` on site `n`. -/
def expect (ψ : Nat → List Nat → Nat → K) (l : Nat) (ds : List Nat) (r : Nat) (O : NDArray K) (n : Nat) : K :=
  inner l ds r ψ (opAt O n (ds.getD n 0) ψ)

/-- The expectation value of `O1` on site `n1` times `O2` on site `n2`. -/
def correlator (ψ : Nat → List Nat → Nat → K) (l : Nat) (ds : List Nat) (r : Nat) (O1 : NDArray K) (n1 : Nat)
    (O2 : NDArray K) (n2 : Nat) : K :=
  inner l ds r ψ (opAt O1 n1 (ds.getD n1 0) (opAt O2 n2 (ds.getD n2 0) ψ))

theorem inner_congr {l : Nat} {ds : List Nat} {r : Nat} {φ ψ ψ' : Nat → List Nat → Nat → K}
    (h : ∀ a < l, ∀ is, InB ds is → ∀ b < r, ψ a is b = ψ' a is b) :
    inner l ds r φ ψ = inner l ds r φ ψ' := by
  refine Finset.sum_congr rfl fun a ha => sumIdx_congr fun is his => Finset.sum_congr rfl fun b hb => ?_
  rw [h a (Finset.mem_range.1 ha) is his b (Finset.mem_range.1 hb)]

theorem inB_set {ds is : List Nat} (h : InB ds is) {n p i : Nat} (hp : ds[n]? = some p) (hi : i < p) :
    InB ds (is.set n i) := by
  have hl := h.length
  obtain ⟨hn, hp⟩ := List.getElem?_eq_some_iff.1 hp
  rw [inB_iff_getD] at h ⊢
  refine ⟨by simpa using h.1, fun k hk => ?_⟩
  by_cases hkn : k = n
  · subst hkn
    simp only [List.getD_eq_getElem?_getD, List.getElem?_set]
    simp [hl, hn, hp, hi]
  · have := h.2 k (by simpa using hk)
    simp only [List.getD_eq_getElem?_getD, List.getElem?_set] at this ⊢
    rw [if_neg (Ne.symm hkn)]
    exact this

theorem opAt_congr {G : NDArray K} {n p l : Nat} {ds : List Nat} {r : Nat} (hp : ds[n]? = some p)
    {ψ ψ' : Nat → List Nat → Nat → K} (h : ∀ a < l, ∀ is, InB ds is → ∀ b < r, ψ a is b = ψ' a is b) :
    ∀ a < l, ∀ is, InB ds is → ∀ b < r, opAt G n p ψ a is b = opAt G n p ψ' a is b := by
  intro a ha is his b hb
  refine Finset.sum_congr rfl fun i hi => ?_
  rw [h a ha _ (inB_set his hp (Finset.mem_range.1 hi)) b hb]

/-! ### Operators on tensors -/

theorem Site.lt {ts : List (NDArray K)} {l : Nat} {ds : List Nat} {r s : Nat} {A : NDArray K} {m p k : Nat}
    (h : Site ts l ds r s A m p k) : s < ts.length := (List.getElem?_eq_some_iff.1 h.get).1

theorem Site.eq {ts : List (NDArray K)} {l : Nat} {ds : List Nat} {r s : Nat} {A : NDArray K} {m p k : Nat}
    (h : Site ts l ds r s A m p k) : ts = ts.take s ++ A :: ts.drop (s + 1) := by
  rw [← h.dropT, List.take_append_drop]

theorem Site.dims {ts : List (NDArray K)} {l : Nat} {ds : List Nat} {r s : Nat} {A : NDArray K} {m p k : Nat}
    (h : Site ts l ds r s A m p k) : ds = ds.take s ++ p :: ds.drop (s + 1) := by
  rw [← h.dropD, List.take_append_drop]

theorem Site.dim {ts : List (NDArray K)} {l : Nat} {ds : List Nat} {r s : Nat} {A : NDArray K} {m p k : Nat}
    (h : Site ts l ds r s A m p k) : ds[s]? = some p := by
  have hl := h.left.length
  rw [List.length_take, List.length_take, min_eq_left (Nat.le_of_lt h.lt)] at hl
  rw [h.dims, List.getElem?_append_right (by simp)]
  simp only [List.length_take]
  rw [hl]
  simp

theorem Site.set {ts : List (NDArray K)} {l : Nat} {ds : List Nat} {r s : Nat} {A : NDArray K} {m p k : Nat}
    (h : Site ts l ds r s A m p k) (B : NDArray K) : ts.set s B = ts.take s ++ B :: ts.drop (s + 1) := by
  rw [List.set_eq_take_append_cons_drop, if_pos h.lt]

theorem Site.bonds_set {ts : List (NDArray K)} {l : Nat} {ds : List Nat} {r s : Nat} {A : NDArray K} {m p k : Nat}
    (h : Site ts l ds r s A m p k) {B : NDArray K} (hB : B.shape = [m, p, k]) :
    Bonds (ts.set s B) l ds r := by
  rw [h.set, h.dims]
  exact h.left.append ⟨p, k, _, rfl, hB, h.right⟩

/-- Replacing a tensor by one with the operator applied applies the operator to the state. -/
theorem amp_opT {ts : List (NDArray K)} {l : Nat} {ds : List Nat} {r s : Nat} {A : NDArray K} {m p k : Nat}
    (h : Site ts l ds r s A m p k) {O : NDArray K} : ∀ a < l, ∀ is, InB ds is → ∀ b < r,
    amp (ts.set s (opT O A)) a is b = opAt O s p (amp ts) a is b := by
  intro a ha is his b _
  have hd : (ds.take s).length = s := by
    have := h.left.length
    rw [List.length_take (l := ts), min_eq_left (Nat.le_of_lt h.lt)] at this
    exact this
  have hts := h.eq
  rw [h.dims] at his
  have hlen := his.length
  simp only [List.length_append, List.length_cons] at hlen
  obtain ⟨is', x, rfl, hx⟩ : ∃ is' x, is = is' ++ x ∧ is'.length = (ds.take s).length :=
    ⟨is.take (ds.take s).length, is.drop (ds.take s).length, (List.take_append_drop _ _).symm, by
      rw [List.length_take (l := is)]; omega⟩
  rw [inB_append_iff hx] at his
  obtain ⟨i1, i2⟩ := his
  cases i2 with
  | cons hi i2 =>
  rename_i i js
  have hxs : is'.length = s := hx.trans hd
  have hset : ∀ {α : Type} (pre post : List α) (a a' : α), (pre ++ a :: post).set pre.length a' =
      pre ++ a' :: post := by intros; simp
  have e1 : (is' ++ i :: js).getD s 0 = i := by rw [← hxs]; simp
  have e2 : ∀ j, (is' ++ i :: js).set s j = is' ++ j :: js := fun j => by rw [← hxs, hset]
  unfold opAt
  simp only [e1, e2]
  have e3 : ∀ j, amp ts a (is' ++ j :: js) b = amp (ts.take s ++ A :: ts.drop (s + 1)) a (is' ++ j :: js) b :=
    fun j => by rw [← hts]
  simp only [e3]
  rw [h.set]
  simp only [amp_append h.left ha hx, amp_cons (A := opT O A) h.shape, amp_cons h.shape, opT_get h.shape]
  simp only [Finset.mul_sum, Finset.sum_mul]
  refine Eq.trans ?_ Finset.sum_comm
  refine Finset.sum_congr rfl fun c _ => ?_
  rw [Finset.sum_comm]
  refine Finset.sum_congr rfl fun x _ => Finset.sum_congr rfl fun y _ => by ring

/-- The number of a local measurement. -/
theorem sandwich_site (E : Env K) {ts ts' : List (NDArray K)} {l : Nat} {ds : List Nat} {r s : Nat} {A L R O : NDArray K}
    {m p k : Nat} (h : Site ts l ds r s A m p k) (h' : Bonds (ts'.take s) l (ds.take s) m) (hO : O.shape = [p, p])
    (hs : s < ts'.length)
    (hL : IsL L (ts.take s) (ts'.take s) l (ds.take s) m)
    (hR : IsR R (ts.drop (s + 1)) (ts'.drop (s + 1)) k (ds.drop (s + 1)) r) :
    sandwich E L A O R = .ok (overlap ts (ts'.set s (opT O A)) l ds r) := by
  rw [sandwich_ok E h.left h' h.shape hO hL hR, ← h.eq, ← h.dims, List.set_eq_take_append_cons_drop, if_pos hs]

theorem GoodL.isL {ts : List (NDArray K)} {l : Nat} {ds : List Nat} {r s : Nat} {A L : NDArray K} {m p k : Nat}
    (h : Site ts l ds r s A m p k) (hL : GoodL ts l ds s L) : IsL L (ts.take s) (ts.take s) l (ds.take s) m := by
  obtain ⟨m', h1, h2⟩ := hL
  obtain rfl := h.left.unique h1
  exact h2

theorem Bonds.unique_left {ts : List (NDArray K)} {l l' : Nat} {ds : List Nat} {r : Nat} (h : Bonds ts l ds r)
    (h' : Bonds ts l' ds r) : l = l' := by
  cases ts with
  | nil => exact h.2.trans h'.2.symm
  | cons A ts =>
    obtain ⟨p, m, d, _, h2, _⟩ := h
    obtain ⟨p', m', d', _, h3, _⟩ := h'
    rw [h2] at h3
    simp only [List.cons.injEq] at h3
    exact h3.1

theorem GoodR.isR {ts : List (NDArray K)} {l : Nat} {ds : List Nat} {r s : Nat} {A R : NDArray K} {m p k : Nat}
    (h : Site ts l ds r s A m p k) (hR : GoodR ts ds r (s + 1) R) :
    IsR R (ts.drop (s + 1)) (ts.drop (s + 1)) k (ds.drop (s + 1)) r := by
  obtain ⟨k', h1, h2⟩ := hR
  obtain rfl := h.right.unique_left h1
  exact h2

theorem overlap_expect {ts : List (NDArray K)} {l : Nat} {ds : List Nat} {r s : Nat} {A : NDArray K} {m p k : Nat}
    (h : Site ts l ds r s A m p k) (O : NDArray K) :
    overlap ts (ts.set s (opT O A)) l ds r = expect (amp ts) l ds r O s := by
  have hp : ds.getD s 0 = p := by rw [List.getD_eq_getElem?_getD, h.dim]; rfl
  rw [expect, hp]
  exact inner_congr (amp_opT h)

/-- The operators fit the sites. -/
def Fits (ds : List Nat) (O : NDArray K) (s : Int) : Prop := O.shape = [ds.getD s.toNat 0, ds.getD s.toNat 0]

/-- **C40**, local operators: `measure_local_operator` returns the expectation values. -/
theorem C40_local (E : Env K) {st : State K} {l : Nat} {ds : List Nat} {r : Nat}
    (hb : Bonds st.tensors l ds r) (hc : CenterOK st) {ops : List (NDArray K)} {sites : List Int}
    (hlen : ops.length = sites.length) (hs : ∀ s ∈ sites, 0 ≤ s ∧ s < st.tensors.length)
    (hO : ∀ x ∈ ops.zip sites, Fits ds x.1 x.2) :
    measureLocal E st ops sites =
      .ok ((ops.zip sites).map fun x => expect (amp st.tensors) l ds r x.1 x.2.toNat) := by
  unfold measureLocal
  rw [if_neg (not_not.2 hlen)]
  by_cases hsn : sites = []
  · subst hsn
    simp [rightEnvs, leftEnvs, bind, Except.bind, pure, Except.pure]
  have hne : 0 < st.tensors.length := by
    obtain ⟨s, hs'⟩ := List.exists_mem_of_ne_nil _ hsn
    have := hs s hs'
    omega
  obtain ⟨rs, r1, r2⟩ := C40_right_envs E hb hne hc (sites := sites) fun s h => ⟨by have := hs s h; omega, (hs s h).2⟩
  obtain ⟨ls, l1, l2⟩ := C40_left_envs E hb hne hc (sites := sites) fun s h => ⟨(hs s h).1, by have := hs s h; omega⟩
  rw [r1, l1]
  simp only [bind, Except.bind]
  refine mapM_ok fun x hx => ?_
  have hxs := (List.of_mem_zip hx).2
  obtain ⟨R, h1, h2⟩ := r2 _ hxs
  obtain ⟨L, h3, h4⟩ := l2 _ hxs
  have hb' := hs _ hxs
  obtain ⟨A, m, p, k, h⟩ := hb.exists_site (s := x.2.toNat) (by omega)
  have hp : ds.getD x.2.toNat 0 = p := by rw [List.getD_eq_getElem?_getD, h.dim]; rfl
  have he : (x.2 + 1).toNat = x.2.toNat + 1 := by omega
  rw [he] at h2
  have hf := hO x hx
  rw [Fits, hp] at hf
  simp only [h1, h3, tensorAt, h.get]
  rw [sandwich_site E h h.left hf h.lt (h4.isL h) (h2.isR h), overlap_expect h]

/-! ### Correlators -/

theorem Site.other {ts : List (NDArray K)} {l : Nat} {ds : List Nat} {r s : Nat} {A : NDArray K} {m p k : Nat}
    (h : Site ts l ds r s A m p k) {n : Nat} (hn : n ≠ s) {C B : NDArray K} {m' p' k' : Nat}
    (hC : Site ts l ds r n C m' p' k') (hB : B.shape = [m', p', k']) : Site (ts.set n B) l ds r s A m p k := by
  have hb := hC.bonds_set hB
  obtain ⟨A', m1, p1, k1, h1⟩ := hb.exists_site (s := s) (by simpa using h.lt)
  have hA := h1.get
  rw [List.getElem?_set_ne hn, h.get] at hA
  cases hA
  have := h1.shape.symm.trans h.shape
  simp only [List.cons.injEq, and_true] at this
  obtain ⟨rfl, rfl, rfl⟩ := this
  exact h1

theorem overlap_two {ts : List (NDArray K)} {l : Nat} {ds : List Nat} {r s n : Nat} {A C : NDArray K}
    {m p k m' p' k' : Nat} (h : Site ts l ds r s A m p k) (hC : Site ts l ds r n C m' p' k') (hn : n ≠ s)
    (O1 O2 : NDArray K) :
    overlap ts ((ts.set n (opT O1 C)).set s (opT O2 A)) l ds r = correlator (amp ts) l ds r O1 n O2 s := by
  have hp : ds.getD s 0 = p := by rw [List.getD_eq_getElem?_getD, h.dim]; rfl
  have hp' : ds.getD n 0 = p' := by rw [List.getD_eq_getElem?_getD, hC.dim]; rfl
  rw [correlator, hp, hp', List.set_comm _ _ hn]
  refine inner_congr fun a ha is his b hb => ?_
  rw [amp_opT (hC.other (Ne.symm hn) h (B := opT O2 A) h.shape) a ha is his b hb]
  exact opAt_congr hC.dim (amp_opT h) a ha is his b hb

theorem take_set_of_le {α : Type} {l : List α} {n s : Nat} (h : s ≤ n) (a : α) : (l.set n a).take s = l.take s := by
  rw [List.take_set, List.set_eq_of_length_le]
  rw [List.length_take]
  omega

theorem drop_set_of_lt {α : Type} {l : List α} {n s : Nat} (h : n < s) (a : α) : (l.set n a).drop s = l.drop s := by
  rw [List.drop_set, if_pos h]

theorem range_cons (k : Nat) (f : Nat → Int) :
    (List.range (k + 1)).map f = f 0 :: (List.range k).map fun j => f (j + 1) := by
  rw [List.range_succ_eq_map, List.map_cons, List.map_map]
  rfl

theorem valueAt_ok {wanted : List Int} {n : Int} {get : Py (NDArray K)} {f : NDArray K → Py K} {v : K}
    (h : n ∈ wanted → ∃ X, get = .ok X ∧ f X = .ok v) :
    valueAt wanted n get f = .ok (if n ∈ wanted then [v] else []) := by
  unfold valueAt
  by_cases hn : n ∈ wanted
  · obtain ⟨X, h1, h2⟩ := h hn
    rw [if_pos hn, if_pos hn, h1]
    simp only [bind, Except.bind, h2]
    rfl
  · rw [if_neg hn, if_neg hn]

theorem filter_map_cons (wanted : List Int) (n : Int) (ns : List Int) (v : Int → K) :
    ((n :: ns).filter (fun s => decide (s ∈ wanted))).map v =
      (if n ∈ wanted then [v n] else []) ++ (ns.filter (fun s => decide (s ∈ wanted))).map v := by
  by_cases h : n ∈ wanted <;> simp [h]

theorem tensorMod_ok {ts : List (NDArray K)} {l : Nat} {ds : List Nat} {r s : Nat} {A : NDArray K} {m p k : Nat}
    (h : Site ts l ds r s A m p k) : tensorMod ts s = .ok A := by
  have hlt := h.lt
  rw [tensorMod, Int.emod_eq_of_lt (by omega) (by omega), Int.toNat_natCast, tensorAt, h.get]

/-- The loop over the sites left of `site1`. -/
theorem corrLeft_ok (E : Env K) {ts : List (NDArray K)} {l : Nat} {ds : List Nat} {r s1 : Nat}
    (hb : Bonds ts l ds r) {C : NDArray K} {mc pc kc : Nat} (hC : Site ts l ds r s1 C mc pc kc)
    (op1 op2 : NDArray K) {ls : Envs K} {wanted : List Int}
    (hw : ∀ s ∈ wanted, Fits ds op2 s ∧ ∃ L, ls.find s = .ok L ∧ GoodL ts l ds s.toNat L) {n1 : Int} :
    ∀ (k n : Nat) (R : NDArray K), n < s1 → k ≤ n + 1 → n1 + k = n + 1 →
    (∀ A m p c, Site ts l ds r n A m p c →
      IsR R (ts.drop (n + 1)) ((ts.set s1 (opT op1 C)).drop (n + 1)) c (ds.drop (n + 1)) r) →
    corrLeft E ts op2 ls wanted n1 ((List.range k).map fun j : Nat => (n : Int) - j) R =
      .ok ((((List.range k).map fun j : Nat => (n : Int) - j).filter (fun s => decide (s ∈ wanted))).map
        fun s => correlator (amp ts) l ds r op1 s1 op2 s.toNat) := by
  intro k
  induction k with
  | zero => intro n R _ _ _ _; rfl
  | succ k ih =>
    intro n R hn hk hn1 hR
    have hlt := hC.lt
    obtain ⟨A, m, p, c, h⟩ := hb.exists_site (s := n) (by omega)
    have hmod : (n : Int) % (ts.length : Int) = n := Int.emod_eq_of_lt (by omega) (by omega)
    have hv : valueAt wanted (n : Int) (ls.find ((n : Int) % (ts.length : Int)))
        (fun L => sandwich E L A op2 R) =
        .ok (if (n : Int) ∈ wanted then [correlator (amp ts) l ds r op1 s1 op2 n] else []) := by
      refine valueAt_ok fun hnw => ?_
      obtain ⟨hf, L, h1, h2⟩ := hw _ hnw
      rw [Int.toNat_natCast] at h2
      rw [hmod]
      refine ⟨L, h1, ?_⟩
      have hp : ds.getD n 0 = p := by rw [List.getD_eq_getElem?_getD, h.dim]; rfl
      rw [Fits, Int.toNat_natCast, hp] at hf
      have ht : (ts.set s1 (opT op1 C)).take n = ts.take n := take_set_of_le (Nat.le_of_lt hn) _
      rw [sandwich_site E (ts' := ts.set s1 (opT op1 C)) h (by rw [ht]; exact h.left) hf
        (by simpa using h.lt) (by rw [ht]; exact h2.isL h) (hR A m p c h)]
      rw [overlap_two h hC (by omega)]
    rw [range_cons, filter_map_cons]
    simp only [corrLeft, Nat.cast_zero, sub_zero, tensorMod_ok h, bind, Except.bind, hv]
    cases k with
    | zero =>
      rw [if_neg (by omega)]
      rfl
    | succ k =>
      rw [if_pos (by push_cast at hn1; omega)]
      obtain ⟨R', t1, t2⟩ := transferR_ok E h.shape (hR A m p c h)
      rw [t1]
      obtain ⟨n, rfl⟩ : ∃ n', n = n' + 1 := ⟨n - 1, by omega⟩
      have hcast : (fun j : Nat => ((n + 1 : Nat) : Int) - ((j + 1 : Nat) : Int)) = fun j : Nat => (n : Int) - j := by
        funext j
        push_cast
        omega
      rw [hcast]
      have hs := ih n R' (by omega) (by omega) (by push_cast at hn1 ⊢; omega) (by
        intro A' m' p' c' h'
        have hd : (ts.set s1 (opT op1 C)).drop (n + 1) = A :: (ts.set s1 (opT op1 C)).drop (n + 1 + 1) :=
          (h.other (by omega) hC (B := opT op1 C) hC.shape).dropT
        rw [hd, h.dropT, h.dropD]
        obtain rfl : c' = m := h'.bonds_take.unique h.left
        exact t2)
      simp only [hs]
      rfl

/-- The loop over the sites right of `site1`. -/
theorem corrRight_ok (E : Env K) {ts : List (NDArray K)} {l : Nat} {ds : List Nat} {r s1 : Nat}
    (hb : Bonds ts l ds r) {C : NDArray K} {mc pc kc : Nat} (hC : Site ts l ds r s1 C mc pc kc)
    (op1 op2 : NDArray K) {rs : Envs K} {wanted : List Int}
    (hw : ∀ s ∈ wanted, Fits ds op2 s ∧ ∃ R, rs.find s = .ok R ∧ GoodR ts ds r (s + 1).toNat R) {n2 : Int} :
    ∀ (k n : Nat) (L : NDArray K), s1 < n → n + k ≤ ts.length → n2 + 1 = n + k →
    (∀ A m p c, Site ts l ds r n A m p c →
      IsL L (ts.take n) ((ts.set s1 (opT op1 C)).take n) l (ds.take n) m) →
    corrRight E ts op2 rs wanted n2 ((List.range k).map fun j : Nat => (n : Int) + j) L =
      .ok ((((List.range k).map fun j : Nat => (n : Int) + j).filter (fun s => decide (s ∈ wanted))).map
        fun s => correlator (amp ts) l ds r op1 s1 op2 s.toNat) := by
  intro k
  induction k with
  | zero => intro n R _ _ _ _; rfl
  | succ k ih =>
    intro n L hn hk hn2 hL
    obtain ⟨A, m, p, c, h⟩ := hb.exists_site (s := n) (by omega)
    have hmod : (n : Int) % (ts.length : Int) = n := Int.emod_eq_of_lt (by omega) (by omega)
    have h' := h.other (by omega) hC (B := opT op1 C) hC.shape
    have hv : valueAt wanted (n : Int) (rs.find ((n : Int) % (ts.length : Int)))
        (fun R => sandwich E L A op2 R) =
        .ok (if (n : Int) ∈ wanted then [correlator (amp ts) l ds r op1 s1 op2 n] else []) := by
      refine valueAt_ok fun hnw => ?_
      obtain ⟨hf, R, h1, h2⟩ := hw _ hnw
      have he : ((n : Int) + 1).toNat = n + 1 := by omega
      rw [he] at h2
      rw [hmod]
      refine ⟨R, h1, ?_⟩
      have hp : ds.getD n 0 = p := by rw [List.getD_eq_getElem?_getD, h.dim]; rfl
      rw [Fits, Int.toNat_natCast, hp] at hf
      have hd : (ts.set s1 (opT op1 C)).drop (n + 1) = ts.drop (n + 1) := drop_set_of_lt (by omega) _
      rw [sandwich_site E (ts' := ts.set s1 (opT op1 C)) h h'.left hf
        (by simpa using h.lt) (hL A m p c h) (by rw [hd]; exact h2.isR h)]
      rw [overlap_two h hC (by omega)]
    rw [range_cons, filter_map_cons]
    simp only [corrRight, Nat.cast_zero, add_zero, tensorMod_ok h, bind, Except.bind, hv]
    cases k with
    | zero =>
      rw [if_neg (by omega)]
      rfl
    | succ k =>
      rw [if_pos (by push_cast at hn2; omega)]
      obtain ⟨L', t1, t2⟩ := transferL_ok E h.left h'.left h.shape (hL A m p c h)
      rw [t1]
      have hcast : (fun j : Nat => (n : Int) + ((j + 1 : Nat) : Int)) =
          fun j : Nat => ((n + 1 : Nat) : Int) + j := by
        funext j
        push_cast
        omega
      rw [hcast]
      have hs := ih (n + 1) L' (by omega) (by omega) (by push_cast at hn2 ⊢; omega) (by
        intro A' m' p' c' h''
        rw [h'.takeT, h.takeT, h.takeD]
        obtain rfl : m' = c := h''.left.unique h.bonds_take
        exact t2)
      simp only [hs]
      rfl

theorem le_foldr_max' {l : List Int} {x b : Int} (h : x ∈ b :: l) : x ≤ l.foldr max b := by
  induction l with
  | nil => exact (List.mem_singleton.1 h).le
  | cons y l ih =>
    simp only [List.mem_cons] at h ih
    rcases h with h | h | h
    · exact (ih (Or.inl h)).trans (le_max_right _ _)
    · exact h ▸ le_max_left _ _
    · exact (ih (Or.inr h)).trans (le_max_right _ _)

theorem foldr_max_mem {l : List Int} {b : Int} : l.foldr max b ∈ b :: l := by
  induction l with
  | nil => simp
  | cons y l ih =>
    rw [List.foldr_cons]
    rcases max_choice y (l.foldr max b) with h | h
    · rw [h]; simp
    · rw [h]
      simp only [List.mem_cons] at ih ⊢
      tauto

theorem foldr_min_mem {l : List Int} {b : Int} : l.foldr min b ∈ b :: l := by
  induction l with
  | nil => simp
  | cons y l ih =>
    rw [List.foldr_cons]
    rcases min_choice y (l.foldr min b) with h | h
    · rw [h]; simp
    · rw [h]
      simp only [List.mem_cons] at ih ⊢
      tauto

theorem foldr_min_le' {l : List Int} {x b : Int} (h : x ∈ b :: l) : l.foldr min b ≤ x := by
  induction l with
  | nil => exact (List.mem_singleton.1 h).ge
  | cons y l ih =>
    simp only [List.mem_cons] at h ih
    rcases h with h | h | h
    · exact (min_le_right _ _).trans (ih (Or.inl h))
    · exact h ▸ min_le_left _ _
    · exact (min_le_right _ _).trans (ih (Or.inr h))

/-- The requested sites among `a, …, a + k - 1`, in increasing order. -/
def wantedIn (sites : List Int) (a k : Nat) : List Nat :=
  (List.range' a k).filter fun s : Nat => decide ((s : Int) ∈ sites)

theorem wantedIn_append (sites : List Int) (a j k : Nat) :
    wantedIn sites a (j + k) = wantedIn sites a j ++ wantedIn sites (a + j) k := by
  rw [wantedIn, ← List.range'_append_1, List.filter_append]
  rfl

theorem wantedIn_nil {sites : List Int} {a k : Nat} (h : ∀ s ∈ sites, s < a ∨ ((a + k : Nat) : Int) ≤ s) :
    wantedIn sites a k = [] := by
  rw [wantedIn, List.filter_eq_nil_iff]
  intro s hs
  rw [List.mem_range'_1] at hs
  rw [decide_eq_true_eq]
  intro h'
  have := h _ h'
  omega

theorem wantedIn_congr {sites sites' : List Int} {a k : Nat}
    (h : ∀ s : Nat, a ≤ s → s < a + k → ((s : Int) ∈ sites ↔ (s : Int) ∈ sites')) :
    wantedIn sites a k = wantedIn sites' a k := by
  refine List.filter_congr fun s hs => ?_
  rw [List.mem_range'_1] at hs
  exact decide_eq_decide.2 (h s hs.1 hs.2)

theorem up_eq (sites : List Int) (a k : Nat) (f : Nat → K) :
    (((List.range k).map fun j : Nat => (a : Int) + j).filter (fun s => decide (s ∈ sites))).map
      (fun s => f s.toNat) = (wantedIn sites a k).map f := by
  induction k generalizing a with
  | zero => rfl
  | succ k ih =>
    have hcast : (fun j : Nat => (a : Int) + ((j + 1 : Nat) : Int)) = fun j : Nat => ((a + 1 : Nat) : Int) + j := by
      funext j
      push_cast
      omega
    rw [range_cons, filter_map_cons, hcast, ih, wantedIn, wantedIn, List.range'_succ]
    by_cases h : (a : Int) ∈ sites
    · simp [h]
    · simp [h]

theorem down_eq (sites : List Int) (a k : Nat) (f : Nat → K) :
    ((((List.range k).map fun j : Nat => ((a + k : Nat) : Int) - 1 - j).filter
      (fun s => decide (s ∈ sites))).map (fun s => f s.toNat)).reverse = (wantedIn sites a k).map f := by
  rw [← up_eq, ← List.map_reverse, ← List.filter_reverse, ← List.map_reverse]
  congr 2
  refine List.ext_getElem (by simp) fun i h1 h2 => ?_
  simp only [List.length_map, List.length_reverse, List.length_range] at h1
  simp only [List.getElem_map, List.getElem_reverse, List.getElem_range, List.length_range]
  omega

theorem partLeft_ok (E : Env K) {st : State K} {l : Nat} {ds : List Nat} {r s1 : Nat}
    (hb : Bonds st.tensors l ds r) {C : NDArray K} {mc pc kc : Nat} (hC : Site st.tensors l ds r s1 C mc pc kc)
    {op1 op2 : NDArray K} (h1 : Fits ds op1 s1) {rs ls : Envs K} {left : List Int}
    (hl : ∀ s ∈ left, 0 ≤ s ∧ s < s1)
    (hw : ∀ s ∈ left, Fits ds op2 s ∧ ∃ L, ls.find s = .ok L ∧ GoodL st.tensors l ds s.toNat L)
    {R : NDArray K} (hR : rs.find s1 = .ok R) (hR' : GoodR st.tensors ds r (s1 + 1) R) :
    partLeft E st op1 op2 s1 rs ls left =
      .ok ((wantedIn left 0 s1).map fun s => correlator (amp st.tensors) l ds r op1 s1 op2 s) := by
  cases left with
  | nil =>
    rw [wantedIn_nil (by simp)]
    rfl
  | cons x xs =>
    obtain ⟨n1, hn1⟩ : ∃ n1 : Nat, (n1 : Int) = xs.foldr min x := by
      have := (hl _ (foldr_min_mem (l := xs) (b := x))).1
      exact ⟨_, Int.toNat_of_nonneg this⟩
    have hn1s : n1 < s1 := by
      have := (hl _ (foldr_min_mem (l := xs) (b := x))).2
      omega
    have hpc : ds.getD s1 0 = pc := by rw [List.getD_eq_getElem?_getD, hC.dim]; rfl
    rw [Fits, Int.toNat_natCast, hpc] at h1
    obtain ⟨R', t1, t2⟩ := startR_ok E hC.shape h1 (hR'.isR hC)
    have hdrop : (st.tensors.set s1 (opT op1 C)).drop s1 = opT op1 C :: st.tensors.drop (s1 + 1) := by
      rw [List.drop_set, if_neg (lt_irrefl _), hC.dropT, Nat.sub_self]
      rfl
    obtain ⟨s, rfl⟩ : ∃ s, s1 = s + 1 := ⟨s1 - 1, by omega⟩
    have hloop := corrLeft_ok E hb hC op1 op2 hw (n1 := n1) (s + 1 - n1) s R' (by omega) (by omega) (by omega) (by
      intro A m p c h
      rw [hdrop, hC.dropT, hC.dropD]
      obtain rfl : c = mc := h.bonds_take.unique hC.left
      exact t2)
    have hlist : ((List.range (((s + 1 : Nat) : Int) - n1).toNat).map
        (fun k : Nat => ((s + 1 : Nat) : Int) - 1 - k)) = (List.range (s + 1 - n1)).map fun j : Nat => (s : Int) - j := by
      have : (((s + 1 : Nat) : Int) - n1).toNat = s + 1 - n1 := by omega
      rw [this]
      refine List.map_congr_left fun k _ => ?_
      push_cast
      omega
    have hdown := down_eq (x :: xs) n1 (s + 1 - n1) fun s' => correlator (amp st.tensors) l ds r op1 (s + 1) op2 s'
    have hlist' : ((List.range (s + 1 - n1)).map fun j : Nat => ((n1 + (s + 1 - n1) : Nat) : Int) - 1 - j) =
        (List.range (s + 1 - n1)).map fun j : Nat => (s : Int) - j := by
      refine List.map_congr_left fun k _ => ?_
      have : n1 + (s + 1 - n1) = s + 1 := by omega
      rw [this]
      push_cast
      omega
    rw [hlist'] at hdown
    have hsplit : wantedIn (x :: xs) 0 (s + 1) = wantedIn (x :: xs) n1 (s + 1 - n1) := by
      have : s + 1 = n1 + (s + 1 - n1) := by omega
      conv_lhs => rw [this]
      rw [wantedIn_append, wantedIn_nil, List.nil_append, Nat.zero_add]
      intro s' hs'
      right
      have := foldr_min_le' hs'
      omega
    unfold partLeft
    simp only [Int.toNat_natCast, tensorAt, hC.get, hR, t1, bind, Except.bind, ← hn1]
    rw [hlist, hloop]
    simp only [pure, Except.pure]
    rw [hdown, hsplit]

theorem partRight_ok (E : Env K) {st : State K} {l : Nat} {ds : List Nat} {r s1 : Nat}
    (hb : Bonds st.tensors l ds r) {C : NDArray K} {mc pc kc : Nat} (hC : Site st.tensors l ds r s1 C mc pc kc)
    {op1 op2 : NDArray K} (h1 : Fits ds op1 s1) {rs ls : Envs K} {right : List Int}
    (hl : ∀ s ∈ right, s1 < s ∧ s < st.tensors.length)
    (hw : ∀ s ∈ right, Fits ds op2 s ∧ ∃ R, rs.find s = .ok R ∧ GoodR st.tensors ds r (s + 1).toNat R)
    {L : NDArray K} (hL : ls.find s1 = .ok L) (hL' : GoodL st.tensors l ds s1 L) :
    partRight E st op1 op2 s1 rs ls right = .ok ((wantedIn right (s1 + 1) (st.tensors.length - (s1 + 1))).map
      fun s => correlator (amp st.tensors) l ds r op1 s1 op2 s) := by
  cases right with
  | nil =>
    rw [wantedIn_nil (by simp)]
    rfl
  | cons x xs =>
    have hm := hl _ (foldr_max_mem (l := xs) (b := x))
    obtain ⟨n2, hn2⟩ : ∃ n2 : Nat, (n2 : Int) = xs.foldr max x := ⟨_, Int.toNat_of_nonneg (by omega)⟩
    have hpc : ds.getD s1 0 = pc := by rw [List.getD_eq_getElem?_getD, hC.dim]; rfl
    rw [Fits, Int.toNat_natCast, hpc] at h1
    obtain ⟨L', t1, t2⟩ := startL_ok E hC.left hC.left hC.shape h1 (hL'.isL hC)
    have htake : (st.tensors.set s1 (opT op1 C)).take (s1 + 1) = st.tensors.take s1 ++ [opT op1 C] := by
      have hlen : (st.tensors.take s1).length = s1 := by
        rw [List.length_take]
        have := hC.lt
        omega
      rw [hC.set, List.take_append, hlen, Nat.add_sub_cancel_left, List.take_of_length_le (by omega)]
      rfl
    have hloop := corrRight_ok E hb hC op1 op2 hw (n2 := n2) (n2 - s1) (s1 + 1) L' (by omega) (by omega) (by omega) (by
      intro A m p c h
      rw [htake, hC.takeT, hC.takeD]
      obtain rfl : m = kc := h.left.unique hC.bonds_take
      exact t2)
    have hlist : ((List.range ((n2 : Int) - s1).toNat).map (fun k : Nat => (s1 : Int) + 1 + k)) =
        (List.range (n2 - s1)).map fun j : Nat => ((s1 + 1 : Nat) : Int) + j := by
      have : ((n2 : Int) - s1).toNat = n2 - s1 := by omega
      rw [this]
      refine List.map_congr_left fun k _ => ?_
      push_cast
      omega
    have hup := up_eq (x :: xs) (s1 + 1) (n2 - s1) fun s' => correlator (amp st.tensors) l ds r op1 s1 op2 s'
    have hsplit : wantedIn (x :: xs) (s1 + 1) (st.tensors.length - (s1 + 1)) = wantedIn (x :: xs) (s1 + 1) (n2 - s1) := by
      have : st.tensors.length - (s1 + 1) = (n2 - s1) + (st.tensors.length - (n2 + 1)) := by omega
      rw [this, wantedIn_append]
      rw [wantedIn_nil (a := s1 + 1 + (n2 - s1)), List.append_nil]
      intro s' hs'
      left
      have := le_foldr_max' hs'
      omega
    unfold partRight
    simp only [Int.toNat_natCast, tensorAt, hC.get, hL, t1, bind, Except.bind, ← hn2]
    rw [hlist, hloop, hup, hsplit]

theorem ncon_ops (so : Ncon.SetOrder) {A B : NDArray K} {p : Nat} (hA : A.shape = [p, p])
    (hB : B.shape = [p, p]) : ∃ t, nconInt so [A, B] [[-1, 1], [1, -2]] = .ok t ∧ t.shape = [p, p] ∧
      ∀ i < p, ∀ j < p, t.get [i, j] = ∑ k ∈ range p, A.get [i, k] * B.get [k, j] := by
  obtain ⟨t, h1, h2, h3⟩ := nconInt_spec so (ts := [A, B]) (l := [[-1, 1], [1, -2]])
    (closed := [1]) (out := [-1, -2]) (dim := fun _ => p)
    (by simp) rfl (by
      intro p hp
      simp only [List.zip_cons_cons, List.zip_nil_right, List.mem_cons, List.not_mem_nil, or_false] at hp
      rcases hp with rfl | rfl
      · exact hA
      · exact hB) (by decide)
  refine ⟨t, h1, h2, fun i hi j hj => ?_⟩
  rw [h3 [i, j] (inB_two hi hj)]
  refine Finset.sum_congr rfl fun k _ => ?_
  show A.get [i, k] * (B.get [k, j] * 1) = _
  rw [mul_one]

theorem opAt_mul {A B T : NDArray K} {p n : Nat} {ds : List Nat} (hn : ds[n]? = some p)
    (hT : ∀ i < p, ∀ j < p, T.get [i, j] = ∑ k ∈ range p, A.get [i, k] * B.get [k, j])
    (ψ : Nat → List Nat → Nat → K) (a : Nat) {is : List Nat} (his : InB ds is) (b : Nat) :
    opAt T n p ψ a is b = opAt A n p (opAt B n p ψ) a is b := by
  obtain ⟨hlt, hp⟩ := List.getElem?_eq_some_iff.1 hn
  have hlen := his.length
  have hi : is.getD n 0 < p := by
    have := (inB_iff_getD.1 his).2 n (by omega)
    rw [List.getD_eq_getElem _ _ hlt, hp] at this
    exact this
  unfold opAt
  rw [Finset.sum_congr rfl fun j hj => by rw [hT _ hi j (Finset.mem_range.1 hj), Finset.sum_mul]]
  rw [Finset.sum_comm]
  refine Finset.sum_congr rfl fun k _ => ?_
  rw [Finset.mul_sum]
  refine Finset.sum_congr rfl fun j _ => ?_
  have : (is.set n k).getD n 0 = k := by
    rw [List.getD_eq_getElem?_getD, List.getElem?_set]
    simp [hlen, hlt]
  rw [this, List.set_set, mul_assoc]

theorem partHere_ok (E : Env K) {st : State K} {l : Nat} {ds : List Nat} {r s1 : Nat}
    {C : NDArray K} {mc pc kc : Nat} (hC : Site st.tensors l ds r s1 C mc pc kc)
    {op1 op2 : NDArray K} (h1 : Fits ds op1 s1) {rs ls : Envs K} {sites : List Int}
    (h2 : (s1 : Int) ∈ sites → Fits ds op2 s1)
    {L R : NDArray K} (hL : ls.find s1 = .ok L) (hL' : GoodL st.tensors l ds s1 L)
    (hR : rs.find s1 = .ok R) (hR' : GoodR st.tensors ds r (s1 + 1) R) :
    partHere E st op1 op2 s1 rs ls sites =
      .ok ((wantedIn sites s1 1).map fun s => correlator (amp st.tensors) l ds r op1 s1 op2 s) := by
  unfold partHere
  by_cases h : (s1 : Int) ∈ sites
  · rw [if_pos h]
    have hpc : ds.getD s1 0 = pc := by rw [List.getD_eq_getElem?_getD, hC.dim]; rfl
    have h2 := h2 h
    rw [Fits, Int.toNat_natCast, hpc] at h1 h2
    obtain ⟨t, t1, t2, t3⟩ := ncon_ops E.so h1 h2
    simp only [hL, hR, Int.toNat_natCast, tensorAt, hC.get, bind, Except.bind]
    rw [t1]
    simp only []
    rw [sandwich_site E hC hC.left t2 hC.lt (hL'.isL hC) (hR'.isR hC), overlap_expect hC]
    have hw : wantedIn sites s1 1 = [s1] := by simp [wantedIn, h]
    rw [hw]
    simp only [pure, Except.pure, List.map_cons, List.map_nil]
    congr 2
    rw [expect, correlator, hpc]
    exact inner_congr fun a _ is his b _ => opAt_mul hC.dim t3 _ a his b
  · rw [if_neg h]
    have hw : wantedIn sites s1 1 = [] := by simp [wantedIn, h]
    rw [hw]
    rfl

/-- **C40**, correlators: `measure_two_body_correlator` returns the full correlators; they are those of the
distinct requested sites in increasing order.  What is missing: one value for each requested site, in the
order of the request; see `C40_order_false`. -/
theorem C40_correlator_partial (E : Env K) {st : State K} {l : Nat} {ds : List Nat} {r : Nat}
    (hb : Bonds st.tensors l ds r) (hc : CenterOK st) {op1 op2 : NDArray K} {site1 : Nat}
    (hs1 : site1 < st.tensors.length) {sites2 : List Int}
    (hs : ∀ s ∈ sites2, 0 ≤ s ∧ s < st.tensors.length)
    (h1 : Fits ds op1 site1) (h2 : ∀ s ∈ sites2, Fits ds op2 s) :
    measureTwo E st op1 op2 site1 sites2 =
      .ok (((List.range st.tensors.length).filter fun s : Nat => decide ((s : Int) ∈ sites2)).map
        fun s => correlator (amp st.tensors) l ds r op1 site1 op2 s) := by
  obtain ⟨C, mc, pc, kc, hC⟩ := hb.exists_site hs1
  obtain ⟨left, hleft⟩ : ∃ x, x = sites2.filter (fun s => decide (s < (site1 : Int))) := ⟨_, rfl⟩
  obtain ⟨right, hright⟩ : ∃ x, x = sites2.filter (fun s => decide ((site1 : Int) < s)) := ⟨_, rfl⟩
  have hlm : ∀ s, s ∈ left ↔ s ∈ sites2 ∧ s < site1 := by simp [hleft]
  have hrm : ∀ s, s ∈ right ↔ s ∈ sites2 ∧ site1 < s := by simp [hright]
  have hmod : ∀ l : List Int, (∀ s ∈ l, s ∈ sites2) → l.map (fun s => s % (st.tensors.length : Int)) = l := by
    intro l hl
    refine (List.map_congr_left fun s hs' => ?_).trans (List.map_id _)
    exact Int.emod_eq_of_lt (hs s (hl s hs')).1 (hs s (hl s hs')).2
  have hne : 0 < st.tensors.length := by omega
  obtain ⟨rs, r1, r2⟩ := C40_right_envs E hb hne hc (sites := (site1 : Int) :: right) (by
    intro s h
    rcases List.mem_cons.1 h with rfl | h
    · omega
    · have := hs s ((hrm s).1 h).1
      omega)
  obtain ⟨ls, l1, l2⟩ := C40_left_envs E hb hne hc (sites := left ++ [(site1 : Int)]) (by
    intro s h
    rcases List.mem_append.1 h with h | h
    · have := hs s ((hlm s).1 h).1
      omega
    · rw [List.mem_singleton] at h
      omega)
  obtain ⟨R, hR, hR'⟩ := r2 site1 (by simp)
  obtain ⟨L, hL, hL'⟩ := l2 site1 (by simp)
  have he : ((site1 : Int) + 1).toNat = site1 + 1 := by omega
  rw [he] at hR'
  rw [Int.toNat_natCast] at hL'
  have p1 := partLeft_ok E hb hC (op1 := op1) (op2 := op2) h1 (rs := rs) (ls := ls) (left := left)
    (fun s h => ⟨(hs s ((hlm s).1 h).1).1, ((hlm s).1 h).2⟩)
    (fun s h => ⟨h2 s ((hlm s).1 h).1, l2 s (by simp [h])⟩) hR hR'
  have p2 := partHere_ok E hC (op1 := op1) (op2 := op2) h1 (rs := rs) (ls := ls) (sites := sites2)
    (fun h => h2 _ h) hL hL' hR hR'
  have p3 := partRight_ok E hb hC (op1 := op1) (op2 := op2) h1 (rs := rs) (ls := ls) (right := right)
    (fun s h => ⟨((hrm s).1 h).2, (hs s ((hrm s).1 h).1).2⟩)
    (fun s h => ⟨h2 s ((hrm s).1 h).1, r2 s (by simp [h])⟩) hL hL'
  unfold measureTwo
  rw [if_neg (by omega)]
  simp only [← hleft, ← hright]
  rw [hmod left fun s h => ((hlm s).1 h).1, hmod right fun s h => ((hrm s).1 h).1, r1, l1]
  simp only [bind, Except.bind, p1, p2, p3, pure, Except.pure]
  congr 1
  have hsplit : (List.range st.tensors.length).filter (fun s : Nat => decide ((s : Int) ∈ sites2)) =
      wantedIn left 0 site1 ++ wantedIn sites2 site1 1 ++
        wantedIn right (site1 + 1) (st.tensors.length - (site1 + 1)) := by
    have e1 : wantedIn left 0 site1 = wantedIn sites2 0 site1 :=
      wantedIn_congr fun s _ h => by rw [hlm]; exact ⟨fun h => h.1, fun h => ⟨h, by omega⟩⟩
    have e2 : wantedIn right (site1 + 1) (st.tensors.length - (site1 + 1)) =
        wantedIn sites2 (site1 + 1) (st.tensors.length - (site1 + 1)) :=
      wantedIn_congr fun s _ h => by rw [hrm]; exact ⟨fun h => h.1, fun h => ⟨h, by omega⟩⟩
    have e3 : List.range st.tensors.length = List.range' 0 (site1 + 1 + (st.tensors.length - (site1 + 1))) := by
      rw [List.range_eq_range']
      congr 1
      omega
    rw [e1, e2, e3]
    have := wantedIn_append sites2 0 (site1 + 1) (st.tensors.length - (site1 + 1))
    rw [Nat.zero_add] at this
    refine this.trans ?_
    rw [wantedIn_append, Nat.zero_add]
  rw [hsplit, List.map_append, List.map_append]

/-! ### A concrete state -/

/-- The basis vector with the values `0` and `1` at the two sites. -/
noncomputable def upDown (K : Type) [RCLike K] : List (NDArray K) :=
  [⟨[1, 2, 1], fun i => if i.getD 1 0 = 0 then 1 else 0⟩, ⟨[1, 2, 1], fun i => if i.getD 1 0 = 1 then 1 else 0⟩]

theorem upDown_bonds : Bonds (upDown K) 1 [2, 2] 1 :=
  ⟨2, 1, [2], rfl, rfl, 2, 1, [], rfl, rfl, rfl, rfl⟩

/-- The projector on the value `1`. -/
noncomputable def numberOp (K : Type) [RCLike K] : NDArray K :=
  ⟨[2, 2], fun i => if i.getD 0 0 = 1 ∧ i.getD 1 0 = 1 then 1 else 0⟩

theorem upDown_amp {i j : Nat} : amp (upDown K) 0 [i, j] 0 = if i = 0 ∧ j = 1 then 1 else 0 := by
  simp only [upDown, amp, List.getD_cons_succ, List.getD_cons_zero, Finset.sum_range_succ, Finset.sum_range_zero]
  by_cases hi : i = 0 <;> by_cases hj : j = 1 <;> simp [hi, hj]

theorem upDown_expect (n : Nat) (hn : n < 2) :
    expect (amp (upDown K)) 1 [2, 2] 1 (numberOp K) n = if n = 1 then 1 else 0 := by
  have : n = 0 ∨ n = 1 := by omega
  rcases this with rfl | rfl <;>
  simp [expect, inner, opAt, sumIdx, Finset.sum_range_succ, upDown_amp, numberOp]

theorem upDown_correlator (n : Nat) (hn : n < 2) :
    correlator (amp (upDown K)) 1 [2, 2] 1 (eyeT K 2) 1 (numberOp K) n = if n = 1 then 1 else 0 := by
  have : n = 0 ∨ n = 1 := by omega
  rcases this with rfl | rfl <;>
  simp [correlator, inner, opAt, sumIdx, Finset.sum_range_succ, upDown_amp, numberOp, eyeT]

theorem upDown_measure (E : Env K) (sites : List Int) (hs : ∀ s ∈ sites, 0 ≤ s ∧ s < 2) :
    measureTwo E ⟨upDown K, none⟩ (eyeT K 2) (numberOp K) ((1 : Nat) : Int) sites =
      .ok (((List.range 2).filter fun s : Nat => decide ((s : Int) ∈ sites)).map
        fun s => correlator (amp (upDown K)) 1 [2, 2] 1 (eyeT K 2) 1 (numberOp K) s) :=
  C40_correlator_partial E (st := ⟨upDown K, none⟩) upDown_bonds (by intro c h; cases h)
    (show 1 < (upDown K).length by simp [upDown]) hs rfl (by
      intro s h
      have := hs s h
      have : s = 0 ∨ s = 1 := by omega
      rcases this with rfl | rfl <;> rfl)

/-- **C40**, the order of a request is not kept: for `sites2 = [1, 0]` the values are those of `[0, 1]`. -/
theorem C40_order_false (E : Env K) : ∃ vals,
    measureTwo E ⟨upDown K, none⟩ (eyeT K 2) (numberOp K) ((1 : Nat) : Int) [1, 0] = .ok vals ∧
      vals ≠ ([1, 0] : List Nat).map fun s => correlator (amp (upDown K)) 1 [2, 2] 1 (eyeT K 2) 1 (numberOp K) s := by
  refine ⟨_, upDown_measure E [1, 0] (by decide), ?_⟩
  have : ((List.range 2).filter fun s : Nat => decide ((s : Int) ∈ ([1, 0] : List Int))) = [0, 1] := by decide
  rw [this]
  simp [upDown_correlator]

/-- **C40**, repeated sites of a request are dropped. -/
theorem C40_repeated_false (E : Env K) : ∃ vals,
    measureTwo E ⟨upDown K, none⟩ (eyeT K 2) (numberOp K) ((1 : Nat) : Int) [0, 0] = .ok vals ∧
      vals.length ≠ ([0, 0] : List Int).length := by
  refine ⟨_, upDown_measure E [0, 0] (by decide), ?_⟩
  have : ((List.range 2).filter fun s : Nat => decide ((s : Int) ∈ ([0, 0] : List Int))) = [0] := by decide
  rw [this]
  simp

example : measureLocal (exactEnv ℂ Ncon.soId) ⟨upDown ℂ, none⟩ [numberOp ℂ, numberOp ℂ] [1, 0] = .ok [1, 0] := by
  rw [C40_local (exactEnv ℂ Ncon.soId) (st := ⟨upDown ℂ, none⟩) upDown_bonds (by intro c h; cases h) rfl
    (by decide : ∀ s ∈ ([1, 0] : List Int), 0 ≤ s ∧ s < (2 : Int)) (by
      intro x hx
      simp only [List.zip_cons_cons, List.zip_nil_right, List.mem_cons, List.not_mem_nil, or_false] at hx
      rcases hx with rfl | rfl <;> rfl)]
  simp [upDown_expect]

theorem Normalized.centerOK {st : State K} {c l : Nat} {ds : List Nat} {r : Nat} (h : Normalized st c l ds r)
    (hc : c < ds.length) : CenterOK st := by
  intro c' hc'
  rw [h.center, Option.some.injEq] at hc'
  subst hc'
  exact ⟨by rw [← h.bonds.length]; exact hc, h.canonical⟩

/-- After the constructor has brought a state into canonical form the hypotheses are met. -/
example : ∃ st, init (exactEnv ℂ Ncon.soId) (bell ℂ) (some 1) true = .ok st ∧ CenterOK st ∧
    measureLocal (exactEnv ℂ Ncon.soId) st [eyeT ℂ 2] [0] =
      .ok [expect (amp st.tensors) 1 [2, 2] 1 (eyeT ℂ 2) 0] := by
  obtain ⟨st, h, hn, _⟩ := C38_init (exactEnv_qr (K := ℂ) Ncon.soId) (exactEnv_svd Ncon.soId) bell_bonds
    bell_nonzero (by simp [bell]) (center := some 1) (by simp [bell])
  have hl : st.tensors.length = 2 := hn.bonds.length.symm
  refine ⟨st, h, hn.centerOK (by simp), ?_⟩
  exact C40_local (exactEnv ℂ Ncon.soId) hn.bonds (hn.centerOK (by simp)) rfl (by simp [hl]) (by
    intro x hx
    simp only [List.zip_cons_cons, List.zip_nil_right, List.mem_cons, List.not_mem_nil, or_false] at hx
    subst hx
    rfl)

end TN.Mps
