import Verif.MpsEnvs

/-!
# Checking the canonical form

`get_tensor`, `check_orthonormality` and `check_canonical` of `BaseMPS`
(`matrixproductstates/base_mps.py`), with the connector matrix of an `InfiniteMPS`.
-/

set_option linter.unusedSectionVars false

namespace TN.Mps

open TN NDArray Finset Ncon

variable {K : Type} [RCLike K]

/-! ### The model -/

/-- The attributes of a `BaseMPS`: the tensors, the centre and the connector matrix. -/
structure Full (K : Type) where
  tensors : List (NDArray K)
  center : Option Nat
  connector : Option (NDArray K)

/-- `get_tensor` (base_mps.py:673-697). -/
def getTensor (so : SetOrder) (st : Full K) (site : Int) : Py (NDArray K) :=
  if site ≥ st.tensors.length then .error .indexError
  else if site < 0 then .error .valueError
  else match st.tensors[site.toNat]? with
    | none => .error .indexError
    | some A =>
      match st.connector with
      | some C =>
        if site = (st.tensors.length : Int) - 1 then nconInt so [A, C] [[-1, -2, 1], [1, -3]] else .ok A
      | none => .ok A

/-- `check_orthonormality` (base_mps.py:616-649).  The product of the two nodes is written as a call
of `ncon`; the square root is that of the real number which its argument is. -/
noncomputable def checkOrthonormality (so : SetOrder) (st : Full K) (which : String) (site : Int) :
    Py ℝ :=
  if which ∉ ["l", "left", "r", "right"] then .error .valueError
  else do
    let A ← getTensor so st site
    let result ← if which ∈ ["l", "left"] then nconInt so [A, conjT A] [[1, 2, -1], [1, 2, -2]]
      else nconInt so [A, conjT A] [[-1, 2, 1], [-2, 2, 1]]
    let tmp : NDArray K := ⟨result.shape, fun i =>
      result.get i - if i.getD 0 0 = i.getD 1 0 then 1 else 0⟩
    let z ← nconInt so [tmp, conjT tmp] [[1, 2], [1, 2]]
    pure (Real.sqrt (RCLike.re (z.get [])))

/-- `check_canonical` (base_mps.py:652-671).  Without a centre nothing is checked and `None` is
returned. -/
noncomputable def checkCanonical (so : SetOrder) (st : Full K) : Py (Option ℝ) :=
  match st.center with
  | none => .ok none
  | some c => do
    let deviations ← ((List.range st.tensors.length).filter (fun n => n ≠ c)).mapM fun site : Nat => do
      let d ← checkOrthonormality so st (if site < c then "l" else "r") site
      pure (d ^ 2)
    match deviations with
    | [] => .error .indexError
    | d :: ds => pure (some (Real.sqrt (ds.foldl (· + ·) d)))

/-! ### Specification -/

/-- The squared distance of `A` from being a left isometry. -/
noncomputable def leftDev (A : NDArray K) : ℝ :=
  ∑ x ∈ range (A.shape.getD 2 0), ∑ y ∈ range (A.shape.getD 2 0),
    ‖(∑ a ∈ range (A.shape.getD 0 0), ∑ i ∈ range (A.shape.getD 1 0),
      A.get [a, i, x] * star (A.get [a, i, y])) - if x = y then 1 else 0‖ ^ 2

/-- The squared distance of `A` from being a right isometry. -/
noncomputable def rightDev (A : NDArray K) : ℝ :=
  ∑ x ∈ range (A.shape.getD 0 0), ∑ y ∈ range (A.shape.getD 0 0),
    ‖(∑ i ∈ range (A.shape.getD 1 0), ∑ b ∈ range (A.shape.getD 2 0),
      A.get [x, i, b] * star (A.get [y, i, b])) - if x = y then 1 else 0‖ ^ 2

theorem leftDev_nonneg (A : NDArray K) : 0 ≤ leftDev A :=
  Finset.sum_nonneg fun _ _ => Finset.sum_nonneg fun _ _ => sq_nonneg _

theorem rightDev_nonneg (A : NDArray K) : 0 ≤ rightDev A :=
  Finset.sum_nonneg fun _ _ => Finset.sum_nonneg fun _ _ => sq_nonneg _

theorem dev_zero {n : Nat} {f : Nat → Nat → K} :
    ∑ x ∈ range n, ∑ y ∈ range n, ‖f x y‖ ^ 2 = 0 ↔ ∀ x < n, ∀ y < n, f x y = 0 := by
  rw [Finset.sum_eq_zero_iff_of_nonneg fun _ _ => Finset.sum_nonneg fun _ _ => sq_nonneg _]
  refine ⟨fun h x hx y hy => ?_, fun h x hx => ?_⟩
  · have h1 := h x (Finset.mem_range.2 hx)
    rw [Finset.sum_eq_zero_iff_of_nonneg fun _ _ => sq_nonneg _] at h1
    simpa using h1 y (Finset.mem_range.2 hy)
  · refine Finset.sum_eq_zero fun y hy => ?_
    rw [h x (Finset.mem_range.1 hx) y (Finset.mem_range.1 hy)]
    simp

theorem leftDev_zero {A : NDArray K} {l p k : Nat} (hA : A.shape = [l, p, k]) :
    leftDev A = 0 ↔ LeftIso A := by
  unfold leftDev
  simp only [hA, List.getD_cons_zero, List.getD_cons_succ]
  rw [dev_zero]
  constructor
  · intro h
    refine ⟨l, p, k, hA, fun x hx y hy => ?_⟩
    have h1 := sub_eq_zero.1 (h y hy x hx)
    rw [show (if x = y then (1 : K) else 0) = if y = x then 1 else 0 by
      simp only [eq_comm], ← h1]
    exact Finset.sum_congr rfl fun a _ => Finset.sum_congr rfl fun i _ => mul_comm _ _
  · rintro ⟨l', p', k', hA', h⟩ x hx y hy
    rw [hA] at hA'
    simp only [List.cons.injEq, and_true] at hA'
    obtain ⟨rfl, rfl, rfl⟩ := hA'
    rw [sub_eq_zero, show (if x = y then (1 : K) else 0) = if y = x then 1 else 0 by
      simp only [eq_comm], ← h y hy x hx]
    exact Finset.sum_congr rfl fun a _ => Finset.sum_congr rfl fun i _ => mul_comm _ _

theorem rightDev_zero {A : NDArray K} {l p k : Nat} (hA : A.shape = [l, p, k]) :
    rightDev A = 0 ↔ RightIso A := by
  unfold rightDev
  simp only [hA, List.getD_cons_zero, List.getD_cons_succ]
  rw [dev_zero]
  constructor
  · intro h
    exact ⟨l, p, k, hA, fun x hx y hy => sub_eq_zero.1 (h x hx y hy)⟩
  · rintro ⟨l', p', k', hA', h⟩ x hx y hy
    rw [hA] at hA'
    simp only [List.cons.injEq, and_true] at hA'
    obtain ⟨rfl, rfl, rfl⟩ := hA'
    exact sub_eq_zero.2 (h x hx y hy)

/-! ### One site -/

theorem norm_ncon (so : SetOrder) {t : NDArray K} {a b : Nat} (ht : t.shape = [a, b]) :
    ∃ z, nconInt so [t, conjT t] [[1, 2], [1, 2]] = .ok z ∧
      z.get [] = ((∑ x ∈ range a, ∑ y ∈ range b, ‖t.get [x, y]‖ ^ 2 : ℝ) : K) := by
  obtain ⟨z, h1, h2, h3⟩ := nconInt_spec so (ts := [t, conjT t]) (l := [[1, 2], [1, 2]])
    (closed := [1, 2]) (out := []) (dim := fun x => if x = 1 then a else b)
    (by simp) rfl (by
      intro p hp
      simp only [List.zip_cons_cons, List.zip_nil_right, List.mem_cons, List.not_mem_nil, or_false] at hp
      rcases hp with rfl | rfl
      · exact ht
      · exact ht) (by decide)
  refine ⟨z, h1, ?_⟩
  rw [h3 [] (by simp)]
  push_cast
  refine Finset.sum_congr rfl fun x _ => Finset.sum_congr rfl fun y _ => ?_
  show t.get [x, y] * (star (t.get [x, y]) * 1) = _
  rw [mul_one]
  exact RCLike.mul_conj _

theorem left_ncon (so : SetOrder) {A : NDArray K} {l p k : Nat} (hA : A.shape = [l, p, k]) :
    ∃ t, nconInt so [A, conjT A] [[1, 2, -1], [1, 2, -2]] = .ok t ∧ t.shape = [k, k] ∧
      ∀ x < k, ∀ y < k, t.get [x, y] =
        ∑ a ∈ range l, ∑ i ∈ range p, A.get [a, i, x] * star (A.get [a, i, y]) := by
  obtain ⟨t, h1, h2, h3⟩ := nconInt_spec so (ts := [A, conjT A]) (l := [[1, 2, -1], [1, 2, -2]])
    (closed := [1, 2]) (out := [-1, -2])
    (dim := fun x => if x = 1 then l else if x = 2 then p else k)
    (by simp) rfl (by
      intro p hp
      simp only [List.zip_cons_cons, List.zip_nil_right, List.mem_cons, List.not_mem_nil, or_false] at hp
      rcases hp with rfl | rfl
      · exact hA
      · exact hA) (by decide)
  refine ⟨t, h1, h2, fun x hx y hy => ?_⟩
  rw [h3 [x, y] (inB_two hx hy)]
  refine Finset.sum_congr rfl fun a _ => Finset.sum_congr rfl fun i _ => ?_
  show A.get [a, i, x] * (star (A.get [a, i, y]) * 1) = _
  rw [mul_one]

theorem right_ncon (so : SetOrder) {A : NDArray K} {l p k : Nat} (hA : A.shape = [l, p, k]) :
    ∃ t, nconInt so [A, conjT A] [[-1, 2, 1], [-2, 2, 1]] = .ok t ∧ t.shape = [l, l] ∧
      ∀ x < l, ∀ y < l, t.get [x, y] =
        ∑ i ∈ range p, ∑ b ∈ range k, A.get [x, i, b] * star (A.get [y, i, b]) := by
  obtain ⟨t, h1, h2, h3⟩ := nconInt_spec so (ts := [A, conjT A]) (l := [[-1, 2, 1], [-2, 2, 1]])
    (closed := [2, 1]) (out := [-1, -2])
    (dim := fun x => if x = 1 then k else if x = 2 then p else l)
    (by simp) rfl (by
      intro p hp
      simp only [List.zip_cons_cons, List.zip_nil_right, List.mem_cons, List.not_mem_nil, or_false] at hp
      rcases hp with rfl | rfl
      · exact hA
      · exact hA) (by decide)
  refine ⟨t, h1, h2, fun x hx y hy => ?_⟩
  rw [h3 [x, y] (inB_two hx hy)]
  refine Finset.sum_congr rfl fun a _ => Finset.sum_congr rfl fun i _ => ?_
  show A.get [x, a, i] * (star (A.get [y, a, i]) * 1) = _
  rw [mul_one]

/-- **C63** (one site).  `check_orthonormality` returns the Frobenius norm of the deviation of the
Gram matrix of the tensor, connector included, from the identity. -/
theorem C63_orthonormality (so : SetOrder) {st : Full K} {site : Int} {A : NDArray K} {l p k : Nat}
    (hg : getTensor so st site = .ok A) (hA : A.shape = [l, p, k]) :
    checkOrthonormality so st "l" site = .ok (Real.sqrt (leftDev A)) ∧
    checkOrthonormality so st "left" site = .ok (Real.sqrt (leftDev A)) ∧
    checkOrthonormality so st "r" site = .ok (Real.sqrt (rightDev A)) ∧
    checkOrthonormality so st "right" site = .ok (Real.sqrt (rightDev A)) ∧
    (Real.sqrt (leftDev A) = 0 ↔ LeftIso A) ∧ (Real.sqrt (rightDev A) = 0 ↔ RightIso A) := by
  have hl : ∀ w ∈ ["l", "left"], checkOrthonormality so st w site = .ok (Real.sqrt (leftDev A)) := by
    intro w hw
    obtain ⟨t, t1, t2, t3⟩ := left_ncon so hA
    obtain ⟨z, z1, z2⟩ := norm_ncon so (t := ⟨t.shape, fun i =>
      t.get i - if i.getD 0 0 = i.getD 1 0 then 1 else 0⟩) (a := k) (b := k) t2
    unfold checkOrthonormality
    rw [if_neg (by simp only [List.mem_cons, List.not_mem_nil, or_false] at hw ⊢; tauto)]
    simp only [hg, bind, Except.bind, if_pos hw, t1, z1]
    refine congrArg (fun x : ℝ => Except.ok (Real.sqrt x)) ?_
    rw [z2, RCLike.ofReal_re, leftDev]
    simp only [hA, List.getD_cons_zero, List.getD_cons_succ]
    refine Finset.sum_congr rfl fun x hx => Finset.sum_congr rfl fun y hy => ?_
    rw [t3 x (Finset.mem_range.1 hx) y (Finset.mem_range.1 hy)]
  have hr : ∀ w ∈ ["r", "right"], checkOrthonormality so st w site = .ok (Real.sqrt (rightDev A)) := by
    intro w hw
    obtain ⟨t, t1, t2, t3⟩ := right_ncon so hA
    obtain ⟨z, z1, z2⟩ := norm_ncon so (t := ⟨t.shape, fun i =>
      t.get i - if i.getD 0 0 = i.getD 1 0 then 1 else 0⟩) (a := l) (b := l) t2
    unfold checkOrthonormality
    rw [if_neg (by simp only [List.mem_cons, List.not_mem_nil, or_false] at hw ⊢; tauto)]
    have hw' : w ∉ ["l", "left"] := by
      simp only [List.mem_cons, List.not_mem_nil, or_false] at hw ⊢
      rcases hw with rfl | rfl <;> decide
    simp only [hg, bind, Except.bind, if_neg hw', t1, z1]
    refine congrArg (fun x : ℝ => Except.ok (Real.sqrt x)) ?_
    rw [z2, RCLike.ofReal_re, rightDev]
    simp only [hA, List.getD_cons_zero, List.getD_cons_succ]
    refine Finset.sum_congr rfl fun x hx => Finset.sum_congr rfl fun y hy => ?_
    rw [t3 x (Finset.mem_range.1 hx) y (Finset.mem_range.1 hy)]
  refine ⟨hl _ (by simp), hl _ (by simp), hr _ (by simp), hr _ (by simp), ?_, ?_⟩
  · rw [Real.sqrt_eq_zero (leftDev_nonneg A), leftDev_zero hA]
  · rw [Real.sqrt_eq_zero (rightDev_nonneg A), rightDev_zero hA]

/-! ### All sites -/

theorem getTensor_finite (so : SetOrder) {st : Full K} (hf : st.connector = none) {n : Nat}
    {A : NDArray K} (h : st.tensors[n]? = some A) : getTensor so st n = .ok A := by
  have hlt := (List.getElem?_eq_some_iff.1 h).1
  unfold getTensor
  rw [if_neg (by omega), if_neg (by omega)]
  simp [h, hf]

theorem foldl_add (l : List ℝ) : ∀ d : ℝ, l.foldl (· + ·) d = d + l.sum := by
  induction l with
  | nil => intro d; simp
  | cons x l ih => intro d; rw [List.foldl_cons, ih, List.sum_cons]; ring

/-- **C63** (the whole state).  For a finite MPS of at least two sites `check_canonical` returns the
norm of the vector of the local deviations; it is zero exactly when the state is in canonical form
with respect to its centre. -/
theorem C63_canonical_partial (so : SetOrder) {st : Full K} {l : Nat} {ds : List Nat} {r c : Nat}
    (hb : Bonds st.tensors l ds r) (hf : st.connector = none) (hc : st.center = some c)
    (hN : 2 ≤ st.tensors.length) :
    ∃ d : ℝ, checkCanonical so st = .ok (some d) ∧ 0 ≤ d ∧
      d ^ 2 = ∑ n ∈ (range st.tensors.length).filter (· ≠ c),
        (if n < c then leftDev (st.tensors.getD n ⟨[], fun _ => 0⟩)
          else rightDev (st.tensors.getD n ⟨[], fun _ => 0⟩)) ∧
      (d = 0 ↔ Canonical st.tensors c) := by
  obtain ⟨dev, hdev⟩ : ∃ dev : Nat → ℝ, dev = fun n =>
    if n < c then leftDev (st.tensors.getD n ⟨[], fun _ => 0⟩)
      else rightDev (st.tensors.getD n ⟨[], fun _ => 0⟩) := ⟨_, rfl⟩
  have hdev0 : ∀ n, 0 ≤ dev n := by
    intro n
    rw [hdev]
    simp only
    split_ifs
    · exact leftDev_nonneg _
    · exact rightDev_nonneg _
  have hshape : ∀ n < st.tensors.length, ∃ A l' p k, st.tensors[n]? = some A ∧ A.shape = [l', p, k] := by
    intro n hn
    obtain ⟨A, m, p, k, hs⟩ := hb.exists_site hn
    exact ⟨A, m, p, k, hs.get, hs.shape⟩
  obtain ⟨L, hL⟩ : ∃ L, L = (List.range st.tensors.length).filter (fun n => n ≠ c) := ⟨_, rfl⟩
  have hmap : (L.mapM fun site : Nat => do
      let d ← checkOrthonormality so st (if site < c then "l" else "r") site
      pure (d ^ 2)) = (.ok (L.map dev) : Py (List ℝ)) := by
    refine mapM_ok fun n hn => ?_
    have hn' : n < st.tensors.length := by
      rw [hL] at hn
      simpa using (List.mem_filter.1 hn).1
    obtain ⟨A, l', p, k, h1, h2⟩ := hshape n hn'
    obtain ⟨g1, -, g2, -⟩ := C63_orthonormality so (getTensor_finite so hf h1) h2
    have hA : st.tensors.getD n ⟨[], fun _ => 0⟩ = A := by
      rw [List.getD_eq_getElem?_getD, h1]; rfl
    simp only [bind, Except.bind]
    by_cases hnc : n < c
    · rw [if_pos hnc, g1]
      simp only [hdev, if_pos hnc, hA]
      rw [Real.sq_sqrt (leftDev_nonneg A)]
      rfl
    · rw [if_neg hnc, g2]
      simp only [hdev, if_neg hnc, hA]
      rw [Real.sq_sqrt (rightDev_nonneg A)]
      rfl
  have hne : L ≠ [] := by
    intro h
    have h0 : ∀ n < st.tensors.length, n = c := by
      intro n hn
      by_contra hnc
      have : n ∈ L := by rw [hL]; exact List.mem_filter.2 ⟨by simpa using hn, by simpa using hnc⟩
      rw [h] at this
      simp at this
    have := h0 0 (by omega)
    have := h0 1 (by omega)
    omega
  obtain ⟨x, xs, hx⟩ := List.exists_cons_of_ne_nil hne
  have hsum : (L.map dev).sum = ∑ n ∈ (range st.tensors.length).filter (· ≠ c), dev n := by
    rw [hL]
    exact (Finset.sum_list_map_count _ _).trans (by
      rw [← Finset.sum_list_map_count]
      rfl)
  have hs0 : 0 ≤ (L.map dev).sum := List.sum_nonneg (by
    intro y hy
    obtain ⟨n, _, rfl⟩ := List.mem_map.1 hy
    exact hdev0 n)
  refine ⟨Real.sqrt (L.map dev).sum, ?_, Real.sqrt_nonneg _, ?_, ?_⟩
  · unfold checkCanonical
    simp only [hc]
    rw [← hL]
    simp only [bind, Except.bind] at hmap ⊢
    rw [hmap]
    simp only [hx, List.map_cons]
    rw [foldl_add, List.sum_cons]
    rfl
  · rw [Real.sq_sqrt hs0, hsum, hdev]
  · rw [Real.sqrt_eq_zero hs0, hsum, Finset.sum_eq_zero_iff_of_nonneg fun n _ => hdev0 n]
    constructor
    · intro h n A hA
      have hlt := (List.getElem?_eq_some_iff.1 hA).1
      obtain ⟨A', l', p, k, h1, h2⟩ := hshape n hlt
      obtain rfl : A' = A := Option.some.inj (h1.symm.trans hA)
      have hA' : st.tensors.getD n ⟨[], fun _ => 0⟩ = A' := by
        rw [List.getD_eq_getElem?_getD, h1]; rfl
      refine ⟨fun hnc => ?_, fun hnc => ?_⟩
      · have := h n (Finset.mem_filter.2 ⟨Finset.mem_range.2 hlt, by omega⟩)
        simp only [hdev, if_pos hnc, hA'] at this
        exact (leftDev_zero h2).1 this
      · have := h n (Finset.mem_filter.2 ⟨Finset.mem_range.2 hlt, by omega⟩)
        simp only [hdev, if_neg (show ¬ n < c by omega), hA'] at this
        exact (rightDev_zero h2).1 this
    · intro h n hn
      obtain ⟨hn1, hn2⟩ := Finset.mem_filter.1 hn
      obtain ⟨A, l', p, k, h1, h2⟩ := hshape n (Finset.mem_range.1 hn1)
      have hA' : st.tensors.getD n ⟨[], fun _ => 0⟩ = A := by
        rw [List.getD_eq_getElem?_getD, h1]; rfl
      have := h n A h1
      by_cases hnc : n < c
      · simp only [hdev, if_pos hnc, hA']
        exact (leftDev_zero h2).2 (this.1 hnc)
      · simp only [hdev, if_neg hnc, hA']
        exact (rightDev_zero h2).2 (this.2 (by omega))

/-- C63 at a concrete state: the constructor's result passes the check. -/
example (so : SetOrder) : (∃ st, init (exactEnv ℂ Ncon.soId) (bell ℂ) (some 1) true = .ok st ∧
    checkCanonical so ⟨st.tensors, st.center, none⟩ = .ok (some 0)) := by
  obtain ⟨st, h, hn, _⟩ := C38_init (exactEnv_qr (K := ℂ) Ncon.soId) (exactEnv_svd Ncon.soId) bell_bonds
    bell_nonzero (by simp [bell]) (center := some 1) (by simp [bell])
  refine ⟨st, h, ?_⟩
  obtain ⟨d, h1, -, -, h4⟩ := C63_canonical_partial so (st := ⟨st.tensors, st.center, none⟩) hn.bonds rfl
    hn.center (by simp [← hn.bonds.length])
  rw [h1, h4.2 hn.canonical]

/-- C63 for one site at a tensor that is not an isometry: its Gram matrix is four times the
identity and the deviation is `√18`. -/
example (so : SetOrder) : ∃ d : ℝ, checkOrthonormality so
    ⟨[⟨[1, 2, 2], fun i => if i.getD 1 0 = i.getD 2 0 then (2 : ℂ) else 0⟩], some 0, none⟩ "l" 0
      = .ok d ∧ d ^ 2 = 18 := by
  refine ⟨_, (C63_orthonormality so (st := ⟨[⟨[1, 2, 2], fun i => if i.getD 1 0 = i.getD 2 0 then (2 : ℂ) else 0⟩], some 0, none⟩)
    (site := 0) (getTensor_finite so rfl (n := 0) rfl) rfl).1, ?_⟩
  rw [Real.sq_sqrt (leftDev_nonneg _)]
  have h2 : (starRingEnd ℂ) 2 = 2 := Complex.conj_ofReal 2
  simp [leftDev, Finset.sum_range_succ, h2]
  norm_num

/-- **C63** fails for one site: there is nothing to check and the call raises `IndexError`. -/
theorem C63_single_false (so : SetOrder) (A : NDArray K) (C : Option (NDArray K)) :
    checkCanonical so ⟨[A], some 0, C⟩ = .error .indexError := by
  have : (List.range ([A] : List (NDArray K)).length).filter (fun n => n ≠ 0) = [] := by simp
  unfold checkCanonical
  simp only
  rw [this]
  rfl

/-- A wrong name of the side or a site out of range is refused. -/
theorem C63_refused (so : SetOrder) (st : Full K) (which : String) (site : Int) :
    (which ∉ ["l", "left", "r", "right"] → checkOrthonormality so st which site = .error .valueError) ∧
    (which ∈ ["l", "left", "r", "right"] → site ≥ st.tensors.length →
      checkOrthonormality so st which site = .error .indexError) ∧
    (which ∈ ["l", "left", "r", "right"] → site < 0 →
      checkOrthonormality so st which site = .error .valueError) := by
  unfold checkOrthonormality getTensor
  refine ⟨fun h => by rw [if_pos h], fun h h' => ?_, fun h h' => ?_⟩
  · rw [if_neg (not_not.2 h), if_pos h']
    rfl
  · rw [if_neg (not_not.2 h), if_neg (by omega), if_pos h']
    rfl

end TN.Mps
