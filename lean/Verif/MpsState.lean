import Verif.MpsPair

/-!
# The state an MPS represents

`amp` multiplies out the tensors; `Bonds` says that the bond dimensions fit.  The lemmas here say
what a change of two neighbouring tensors does to the state.
-/

set_option linter.unusedSectionVars false

namespace TN.Mps

open TN NDArray Finset Ncon

variable {K : Type} [RCLike K]

/-- The tensors have rank three, neighbouring bond dimensions agree, the outer bonds have dimensions
`l` and `r` and the physical dimensions are `ds`. -/
def Bonds : List (NDArray K) → Nat → List Nat → Nat → Prop
  | [], l, ds, r => ds = [] ∧ l = r
  | A :: ts, l, ds, r => ∃ p m ds', ds = p :: ds' ∧ A.shape = [l, p, m] ∧ Bonds ts m ds' r

/-- The amplitude of the state for physical indices `is` and outer bond indices `a`, `b`: the entry of
the product of the matrices. -/
def amp : List (NDArray K) → Nat → List Nat → Nat → K
  | [], a, _, b => if a = b then 1 else 0
  | A :: ts, a, i :: is, b => ∑ c ∈ range (A.shape.getD 2 0), A.get [a, i, c] * amp ts c is b
  | _ :: _, _, [], _ => 0

/-- Some amplitude of the state is not zero. -/
def Nonzero (ts : List (NDArray K)) (l : Nat) (ds : List Nat) (r : Nat) : Prop :=
  ∃ a < l, ∃ is, InB ds is ∧ ∃ b < r, amp ts a is b ≠ 0

theorem Bonds.length {ts : List (NDArray K)} : ∀ {l : Nat} {ds : List Nat} {r : Nat},
    Bonds ts l ds r → ds.length = ts.length := by
  induction ts with
  | nil => rintro l ds r ⟨rfl, _⟩; rfl
  | cons A ts ih =>
    rintro l ds r ⟨p, m, ds', rfl, _, h⟩
    simp [ih h]

theorem Bonds.append {xs ys : List (NDArray K)} : ∀ {l m : Nat} {d e : List Nat} {r : Nat},
    Bonds xs l d m → Bonds ys m e r → Bonds (xs ++ ys) l (d ++ e) r := by
  induction xs with
  | nil => rintro l m d e r ⟨rfl, rfl⟩ h; exact h
  | cons A xs ih =>
    rintro l m d e r ⟨p, n, d', rfl, h1, h2⟩ h
    exact ⟨p, n, d' ++ e, rfl, h1, ih h2 h⟩

theorem Bonds.split {xs ys : List (NDArray K)} : ∀ {l : Nat} {ds : List Nat} {r : Nat},
    Bonds (xs ++ ys) l ds r → ∃ d e m, ds = d ++ e ∧ Bonds xs l d m ∧ Bonds ys m e r := by
  induction xs with
  | nil => intro l ds r h; exact ⟨[], ds, l, rfl, ⟨rfl, rfl⟩, h⟩
  | cons A xs ih =>
    rintro l ds r ⟨p, n, d', rfl, h1, h2⟩
    obtain ⟨d, e, m, rfl, h3, h4⟩ := ih h2
    exact ⟨p :: d, e, m, rfl, ⟨p, n, d, rfl, h1, h3⟩, h4⟩

theorem amp_cons {A : NDArray K} {ts : List (NDArray K)} {l p m : Nat} (hA : A.shape = [l, p, m])
    (a i : Nat) (is : List Nat) (b : Nat) :
    amp (A :: ts) a (i :: is) b = ∑ c ∈ range m, A.get [a, i, c] * amp ts c is b := by
  rw [amp, hA]
  rfl

theorem amp_append {xs ys : List (NDArray K)} : ∀ {l m : Nat} {d : List Nat}, Bonds xs l d m →
    ∀ {a : Nat}, a < l → ∀ {i : List Nat}, i.length = d.length → ∀ (j : List Nat) (b : Nat),
    amp (xs ++ ys) a (i ++ j) b = ∑ c ∈ range m, amp xs a i c * amp ys c j b := by
  induction xs with
  | nil =>
    rintro l m d ⟨rfl, rfl⟩ a ha i hi j b
    obtain rfl : i = [] := by simpa using hi
    simp only [List.nil_append, amp, ite_mul, one_mul, zero_mul]
    rw [Finset.sum_ite_eq]
    simp [ha]
  | cons A xs ih =>
    rintro l m d ⟨p, n, d', rfl, h1, h2⟩ a ha i hi j b
    cases i with
    | nil => simp at hi
    | cons i is =>
      rw [List.cons_append, List.cons_append, amp_cons h1]
      simp only [amp_cons h1, Finset.sum_mul]
      rw [Finset.sum_comm]
      refine Finset.sum_congr rfl fun c hc => ?_
      rw [ih h2 (Finset.mem_range.1 hc) (by simpa using hi) j b, Finset.mul_sum]
      exact Finset.sum_congr rfl fun x _ => (mul_assoc _ _ _).symm

/-- Two tensors at the left end. -/
theorem amp_pair {A B : NDArray K} {ts : List (NDArray K)} {l p m q r : Nat} (hA : A.shape = [l, p, m])
    (hB : B.shape = [m, q, r]) (a i j : Nat) (is : List Nat) (b : Nat) :
    amp (A :: B :: ts) a (i :: j :: is) b =
      ∑ e ∈ range r, (∑ c ∈ range m, A.get [a, i, c] * B.get [c, j, e]) * amp ts e is b := by
  rw [amp_cons hA]
  simp only [amp_cons hB, Finset.sum_mul, Finset.mul_sum]
  rw [Finset.sum_comm]
  exact Finset.sum_congr rfl fun e _ => Finset.sum_congr rfl fun c _ => (mul_assoc _ _ _).symm

/-- The shapes at a bond. -/
theorem Bonds.at {ts : List (NDArray K)} : ∀ {l : Nat} {ds : List Nat} {r : Nat}, Bonds ts l ds r →
    ∀ {n : Nat} {A B : NDArray K}, ts[n]? = some A → ts[n + 1]? = some B →
    ∃ l' p m q r', A.shape = [l', p, m] ∧ B.shape = [m, q, r'] := by
  induction ts with
  | nil => intro l ds r _ n A B h; simp at h
  | cons X ts ih =>
    rintro l ds r ⟨p, m, ds', rfl, h1, h2⟩ n A B hA hB
    cases n with
    | zero =>
      cases ts with
      | nil => simp at hB
      | cons Y ts =>
        obtain ⟨q, r', ds'', rfl, h3, _⟩ := h2
        simp only [List.getElem?_cons_zero, Option.some.injEq, zero_add, List.getElem?_cons_succ] at hA hB
        subst hA hB
        exact ⟨l, p, m, q, r', h1, h3⟩
    | succ n => exact ih h2 (by simpa using hA) (by simpa using hB)

theorem Bonds.get {ts : List (NDArray K)} : ∀ {l : Nat} {ds : List Nat} {r : Nat}, Bonds ts l ds r →
    ∀ {n : Nat} {A : NDArray K}, ts[n]? = some A → ∃ l' p m, A.shape = [l', p, m] := by
  induction ts with
  | nil => intro l ds r _ n A h; simp at h
  | cons X ts ih =>
    rintro l ds r ⟨p, m, ds', rfl, h1, h2⟩ n A hA
    cases n with
    | zero =>
      simp only [List.getElem?_cons_zero, Option.some.injEq] at hA
      subst hA
      exact ⟨l, p, m, h1⟩
    | succ n => exact ih h2 (by simpa using hA)

theorem SameProduct.outer {s : K} {A B A' B' : NDArray K} (h : SameProduct s A B A' B') :
    SameOuter A B A' B' := by
  obtain ⟨l, p, m, q, r, k, h1, h2, h3, h4, _⟩ := h
  exact ⟨l, p, m, q, r, k, h1, h2, h3, h4⟩

/-- Replacing the tensors at a bond keeps the outer dimensions. -/
theorem Bonds.set {ts : List (NDArray K)} : ∀ {l : Nat} {ds : List Nat} {r : Nat}, Bonds ts l ds r →
    ∀ {n : Nat} {A B A' B' : NDArray K}, ts[n]? = some A → ts[n + 1]? = some B →
    SameOuter A B A' B' → Bonds ((ts.set n A').set (n + 1) B') l ds r := by
  induction ts with
  | nil => intro l ds r _ n A B A' B' h; simp at h
  | cons X ts ih =>
    rintro l ds r ⟨p, m, ds', rfl, h1, h2⟩ n A B A' B' hA hB ho
    cases n with
    | zero =>
      cases ts with
      | nil => simp at hB
      | cons Y ts =>
        obtain ⟨q, r', ds'', rfl, h3, h4⟩ := h2
        simp only [List.getElem?_cons_zero, Option.some.injEq, zero_add, List.getElem?_cons_succ] at hA hB
        subst hA hB
        obtain ⟨l', p', m', q', r'', k, o1, o2, o3, o4⟩ := ho
        rw [h1] at o1
        rw [h3] at o2
        simp only [List.cons.injEq, and_true] at o1 o2
        obtain ⟨rfl, rfl, rfl⟩ := o1
        obtain ⟨_, rfl, rfl⟩ := o2
        exact ⟨p, k, _, rfl, o3, q, r', ds'', rfl, o4, h4⟩
    | succ n => exact ⟨p, m, ds', rfl, h1, ih h2 (by simpa using hA) (by simpa using hB) ho⟩

/-- Replacing the tensors at a bond by tensors with the same product keeps the state. -/
theorem amp_set {ts : List (NDArray K)} : ∀ {l : Nat} {ds : List Nat} {r : Nat}, Bonds ts l ds r →
    ∀ {n : Nat} {A B A' B' : NDArray K} {s : K}, ts[n]? = some A → ts[n + 1]? = some B →
    SameProduct s A B A' B' → ∀ {a : Nat}, a < l → ∀ {is : List Nat}, InB ds is → ∀ (b : Nat),
    amp ts a is b = s * amp ((ts.set n A').set (n + 1) B') a is b := by
  induction ts with
  | nil => intro l ds r _ n A B A' B' s h; simp at h
  | cons X ts ih =>
    rintro l ds r ⟨p, m, ds', rfl, h1, h2⟩ n A B A' B' s hA hB ho a ha is his b
    cases his with
    | cons hi his =>
    rename_i i is
    cases n with
    | zero =>
      cases ts with
      | nil => simp at hB
      | cons Y ts =>
        obtain ⟨q, r', ds'', rfl, h3, h4⟩ := h2
        cases his with
        | cons hj his =>
        rename_i j is
        simp only [List.getElem?_cons_zero, Option.some.injEq, zero_add, List.getElem?_cons_succ] at hA hB
        subst hA hB
        obtain ⟨l', p', m', q', r'', k, o1, o2, o3, o4, o5⟩ := ho
        rw [h1] at o1
        rw [h3] at o2
        simp only [List.cons.injEq, and_true] at o1 o2
        obtain ⟨rfl, rfl, rfl⟩ := o1
        obtain ⟨_, rfl, rfl⟩ := o2
        show _ = s * amp (A' :: B' :: ts) _ _ _
        rw [amp_pair h1 h3, amp_pair o3 o4, Finset.mul_sum]
        refine Finset.sum_congr rfl fun e he => ?_
        rw [o5 a ha i hi j hj e (Finset.mem_range.1 he), mul_assoc]
    | succ n =>
      show _ = s * amp (X :: (ts.set n A').set (n + 1) B') _ _ _
      rw [amp_cons h1, amp_cons h1, Finset.mul_sum]
      refine Finset.sum_congr rfl fun c hc => ?_
      rw [ih h2 (by simpa using hA) (by simpa using hB) ho (Finset.mem_range.1 hc) his b]
      ring

theorem not_zeroProduct {ts : List (NDArray K)} {l : Nat} {ds : List Nat} {r : Nat}
    (hb : Bonds ts l ds r) (hz : Nonzero ts l ds r) {n : Nat} {A B : NDArray K} (hA : ts[n]? = some A)
    (hB : ts[n + 1]? = some B) : ¬ ZeroProduct A B := by
  rintro ⟨l', p, m, q, r', h1, h2, h3⟩
  obtain ⟨a, ha, is, his, b, _, hne⟩ := hz
  refine hne ?_
  rw [amp_set hb hA hB (s := 0) (A' := A) (B' := B) ⟨l', p, m, q, r', m, h1, h2, h1, h2,
    fun a ha i hi j hj b hb => by rw [h3 a ha i hi j hj b hb, zero_mul]⟩ ha his b, zero_mul]

/-! ### Sweeps over bonds -/

theorem atBond_some {f : NDArray K → NDArray K → Py (NDArray K × NDArray K × ℝ)}
    {ts : List (NDArray K)} {n : Nat} {A B : NDArray K} (hA : ts[n]? = some A) (hB : ts[n + 1]? = some B) :
    atBond f ts n = (f A B >>= fun x => pure ((ts.set n x.1).set (n + 1) x.2.1, x.2.2)) := by
  unfold atBond
  rw [hA, hB]

/-- The move `f` keeps the product of two tensors up to the factor divided out. -/
def ExactStep (f : NDArray K → NDArray K → Py (NDArray K × NDArray K × ℝ)) (nz : Bool) : Prop :=
  ∀ A B : NDArray K, (∃ l p m q r, A.shape = [l, p, m] ∧ B.shape = [m, q, r]) →
    (nz = true → ¬ ZeroProduct A B) → ∃ A' B' z, f A B = .ok (A', B', z) ∧ 0 ≤ z ∧ (nz = true → z ≠ 0) ∧
      SameProduct (if nz then (z : K) else 1) A B A' B'

/-- A sweep of exact moves keeps the state, up to the product of the factors divided out. -/
theorem sweep_exact {f : NDArray K → NDArray K → Py (NDArray K × NDArray K × ℝ)} {nz : Bool}
    (hf : ExactStep f nz) {l : Nat} {ds : List Nat} {r : Nat} : ∀ (ns : List Nat) (ts : List (NDArray K))
    (z0 : ℝ), Bonds ts l ds r → (nz = true → Nonzero ts l ds r) → (∀ n ∈ ns, n + 1 < ts.length) →
    ∃ ts' z, sweep f ns ts z0 = .ok (ts', z) ∧ Bonds ts' l ds r ∧ ∃ s : ℝ, 0 < s ∧ (nz = false → s = 1) ∧
      ∀ a < l, ∀ is, InB ds is → ∀ b, amp ts a is b = (s : K) * amp ts' a is b := by
  intro ns
  induction ns with
  | nil =>
    intro ts z0 hb _ _
    exact ⟨ts, z0, rfl, hb, 1, one_pos, fun _ => rfl, fun a _ is _ b => by simp⟩
  | cons n ns ih =>
    intro ts z0 hb hz hn
    have hn0 := hn n (by simp)
    obtain ⟨A, hA⟩ : ∃ A, ts[n]? = some A := ⟨_, List.getElem?_eq_getElem (by omega)⟩
    obtain ⟨B, hB⟩ : ∃ B, ts[n + 1]? = some B := ⟨_, List.getElem?_eq_getElem hn0⟩
    obtain ⟨A', B', z, h1, h2, h3, h4⟩ := hf A B (hb.at hA hB)
      (fun h => not_zeroProduct hb (hz h) hA hB)
    have hb' := hb.set hA hB h4.outer
    have hamp := fun a (ha : a < l) is (his : InB ds is) b => amp_set hb hA hB h4 ha his b
    have hz' : nz = true → Nonzero ((ts.set n A').set (n + 1) B') l ds r := by
      intro h
      obtain ⟨a, ha, is, his, b, hbr, hne⟩ := hz h
      refine ⟨a, ha, is, his, b, hbr, fun h0 => hne ?_⟩
      rw [hamp a ha is his b, h0, mul_zero]
    obtain ⟨ts', z', g1, g2, s, g3, g4, g5⟩ := ih _ z hb' hz' (fun k hk => by
      rw [List.length_set, List.length_set]; exact hn k (by simp [hk]))
    refine ⟨ts', z', ?_, g2, (if nz then z else 1) * s, ?_, fun h => by rw [h, g4 h]; simp, ?_⟩
    · rw [sweep, atBond_some hA hB, h1]
      exact g1
    · refine mul_pos ?_ g3
      cases nz with
      | false => simp
      | true => simpa using lt_of_le_of_ne h2 (Ne.symm (h3 rfl))
    · intro a ha is his b
      rw [hamp a ha is his b, g5 a ha is his b]
      cases nz <;> simp [mul_assoc]

/-- What a successful sweep does: `P` is kept by the pairs. -/
theorem sweep_bonds {f : NDArray K → NDArray K → Py (NDArray K × NDArray K × ℝ)}
    (hf : ∀ A B A' B' z, (∃ l p m q r, A.shape = [l, p, m] ∧ B.shape = [m, q, r]) →
      f A B = .ok (A', B', z) → SameOuter A B A' B') {l : Nat} {ds : List Nat} {r : Nat} :
    ∀ (ns : List Nat) (ts ts' : List (NDArray K)) (z0 z : ℝ), Bonds ts l ds r →
    sweep f ns ts z0 = .ok (ts', z) → Bonds ts' l ds r := by
  intro ns
  induction ns with
  | nil =>
    intro ts ts' z0 z hb h
    cases h
    exact hb
  | cons n ns ih =>
    intro ts ts' z0 z hb h
    rw [sweep] at h
    rcases hA : ts[n]? with _ | A
    · unfold atBond at h; rw [hA] at h; cases h
    rcases hB : ts[n + 1]? with _ | B
    · unfold atBond at h; rw [hA, hB] at h; cases h
    rw [atBond_some hA hB] at h
    rcases hx : f A B with e | ⟨A', B', z'⟩
    · rw [hx] at h; cases h
    rw [hx] at h
    exact ih _ ts' z' z (hb.set hA hB (hf A B A' B' z' (hb.at hA hB) hx)) h

/-- One step of a successful sweep. -/
theorem sweep_cons {f : NDArray K → NDArray K → Py (NDArray K × NDArray K × ℝ)} {n : Nat} {ns : List Nat}
    {ts ts' : List (NDArray K)} {z0 z : ℝ} (h : sweep f (n :: ns) ts z0 = .ok (ts', z)) :
    ∃ A B A' B' z1, ts[n]? = some A ∧ ts[n + 1]? = some B ∧ f A B = .ok (A', B', z1) ∧
      sweep f ns ((ts.set n A').set (n + 1) B') z1 = .ok (ts', z) := by
  rw [sweep] at h
  rcases hA : ts[n]? with _ | A
  · unfold atBond at h; rw [hA] at h; cases h
  rcases hB : ts[n + 1]? with _ | B
  · unfold atBond at h; rw [hA, hB] at h; cases h
  rw [atBond_some hA hB] at h
  rcases hx : f A B with e | ⟨A', B', z'⟩
  · rw [hx] at h; cases h
  rw [hx] at h
  exact ⟨A, B, A', B', z', rfl, rfl, hx, h⟩

/-- A sweep to the right leaves isometries behind. -/
theorem sweep_right {f : NDArray K → NDArray K → Py (NDArray K × NDArray K × ℝ)}
    (hf : ∀ A B A' B' z, (∃ l p m q r, A.shape = [l, p, m] ∧ B.shape = [m, q, r]) →
      f A B = .ok (A', B', z) → SameOuter A B A' B' ∧ LeftIso A') {l : Nat} {ds : List Nat} {r : Nat} :
    ∀ (k c : Nat) (ts ts' : List (NDArray K)) (z0 z : ℝ), Bonds ts l ds r →
    sweep f (List.range' c k) ts z0 = .ok (ts', z) → Bonds ts' l ds r ∧
      (∀ n < c, ts'[n]? = ts[n]?) ∧ (∀ n, c + k < n → ts'[n]? = ts[n]?) ∧
      ∀ n, c ≤ n → n < c + k → ∃ A, ts'[n]? = some A ∧ LeftIso A := by
  intro k
  induction k with
  | zero =>
    intro c ts ts' z0 z hb h
    cases h
    exact ⟨hb, fun _ _ => rfl, fun _ _ => rfl, fun n h1 h2 => by omega⟩
  | succ k ih =>
    intro c ts ts' z0 z hb h
    rw [List.range'_succ] at h
    obtain ⟨A, B, A', B', z1, hA, hB, hx, h⟩ := sweep_cons h
    obtain ⟨o1, o2⟩ := hf A B A' B' z1 (hb.at hA hB) hx
    obtain ⟨i1, i2, i3, i4⟩ := ih (c + 1) _ ts' z1 z (hb.set hA hB o1) h
    have hlt : c < ts.length := (List.getElem?_eq_some_iff.1 hA).1
    refine ⟨i1, fun n hn => ?_, fun n hn => ?_, fun n h1 h2 => ?_⟩
    · rw [i2 n (by omega), List.getElem?_set_ne (by omega), List.getElem?_set_ne (by omega)]
    · rw [i3 n (by omega), List.getElem?_set_ne (by omega), List.getElem?_set_ne (by omega)]
    · rcases Nat.eq_or_lt_of_le h1 with rfl | h1
      · refine ⟨A', ?_, o2⟩
        rw [i2 c (by omega), List.getElem?_set_ne (by omega), List.getElem?_set_self hlt]
      · exact i4 n h1 (by omega)

/-- A sweep to the left leaves isometries behind. -/
theorem sweep_left {f : NDArray K → NDArray K → Py (NDArray K × NDArray K × ℝ)}
    (hf : ∀ A B A' B' z, (∃ l p m q r, A.shape = [l, p, m] ∧ B.shape = [m, q, r]) →
      f A B = .ok (A', B', z) → SameOuter A B A' B' ∧ RightIso B') {l : Nat} {ds : List Nat} {r : Nat} :
    ∀ (k c : Nat) (ts ts' : List (NDArray K)) (z0 z : ℝ), Bonds ts l ds r →
    sweep f (List.range' c k).reverse ts z0 = .ok (ts', z) → Bonds ts' l ds r ∧
      (∀ n < c, ts'[n]? = ts[n]?) ∧ (∀ n, c + k < n → ts'[n]? = ts[n]?) ∧
      ∀ n, c < n → n ≤ c + k → ∃ A, ts'[n]? = some A ∧ RightIso A := by
  intro k
  induction k with
  | zero =>
    intro c ts ts' z0 z hb h
    cases h
    exact ⟨hb, fun _ _ => rfl, fun _ _ => rfl, fun n h1 h2 => by omega⟩
  | succ k ih =>
    intro c ts ts' z0 z hb h
    rw [List.range'_concat, List.reverse_append, List.reverse_singleton, List.singleton_append,
      one_mul] at h
    obtain ⟨A, B, A', B', z1, hA, hB, hx, h⟩ := sweep_cons h
    obtain ⟨o1, o2⟩ := hf A B A' B' z1 (hb.at hA hB) hx
    obtain ⟨i1, i2, i3, i4⟩ := ih c _ ts' z1 z (hb.set hA hB o1) h
    have hlt : c + k + 1 < ts.length := (List.getElem?_eq_some_iff.1 hB).1
    refine ⟨i1, fun n hn => ?_, fun n hn => ?_, fun n h1 h2 => ?_⟩
    · rw [i2 n (by omega), List.getElem?_set_ne (by omega), List.getElem?_set_ne (by omega)]
    · rw [i3 n (by omega), List.getElem?_set_ne (by omega), List.getElem?_set_ne (by omega)]
    · rcases Nat.eq_or_lt_of_le h2 with rfl | h2
      · refine ⟨B', ?_, o2⟩
        rw [i3 _ (by omega), ← add_assoc, List.getElem?_set_self (by simpa using hlt)]
      · exact i4 n h1 (by omega)

end TN.Mps
