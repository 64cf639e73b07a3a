import Verif.MpsCanon

/-!
# Gates on matrix product states: the model and the local step

`apply_two_site_gate` and `apply_one_site_gate` (base_mps.py:481-614).
-/

set_option linter.unusedSectionVars false

namespace TN.Mps

open TN NDArray Finset Ncon

variable {K : Type} [RCLike K]

/-- `set_center_position` (base_mps.py:550-556) for the sites `n` and `n + 1`. -/
def newCenter (c : Option Nat) (n site : Nat) : Option Nat :=
  match c with
  | none => none
  | some c => if c = n ∨ c = n + 1 then some site else none

/-- `max_singular_values or max_truncation_err` as a truth value (base_mps.py:535-536). -/
def truncates (D : Option Nat) (err : Option ℝ) : Prop := (∃ d, D = some d ∧ d ≠ 0) ∨ ∃ e, err = some e ∧ e ≠ 0

/-- `left_tensor, right_tensor, tw` (base_mps.py:561-592); `toRight` is `center_position == site2`. -/
noncomputable def gateFactor (E : Env K) (D : Option Nat) (err : Option ℝ) (relative toRight : Bool)
    (t : NDArray K) : Py (NDArray K × NDArray K × NDArray K) :=
  if err.isSome || D.isSome then do
    let (u, s, v, tw) ← Decomp.svd E.svd t 2 D err relative
    if toRight then do
      let right ← nconInt E.so [diagflat s, v] [[-1, 1], [1, -2, -3]]
      pure (u, right, tw)
    else do
      let left ← nconInt E.so [u, diagflat s] [[-1, -2, 1], [1, -3]]
      pure (left, v, tw)
  else
    let tw : NDArray K := ⟨[1], fun _ => 0⟩
    if toRight then do
      let (r, q) ← Decomp.rq E.qr E.sign t 2 false
      pure (r, q, tw)
    else do
      let (q, r) ← Decomp.qr E.qr E.sign t 2 false
      pure (q, r, tw)

open Classical in
/-- `BaseMPS.apply_two_site_gate` (base_mps.py:481-596). -/
noncomputable def applyTwoSite (E : Env K) (st : State K) (gate : NDArray K) (site1 site2 : Int)
    (D : Option Nat) (err : Option ℝ) (cp : Option Int) (relative : Bool) : Py (State K × NDArray K) :=
  let N : Int := st.tensors.length
  if gate.shape.length ≠ 4 then .error .valueError
  else if site1 < 0 ∨ site1 ≥ N - 1 then .error .valueError
  else if site2 < 1 ∨ site2 ≥ N then .error .valueError
  else if site2 ≤ site1 then .error .valueError
  else if site2 ≠ site1 + 1 then .error .valueError
  else if cp.any (fun c : Int => decide (c ≠ site1 ∧ c ≠ site2)) then .error .valueError
  else if truncates D err ∧ ¬ (st.center = some site1.toNat ∨ st.center = some site2.toNat) then
    .error .valueError
  else
    match st.tensors[site1.toNat]?, st.tensors[site2.toNat]? with
    | some A, some B => do
      let t ← nconInt E.so [A, B, gate] [[-1, 1, 2], [2, 3, -4], [-2, -3, 1, 3]]
      let toRight := decide (cp = some site2)
      let (left, right, tw) ← gateFactor E D err relative toRight t
      pure (⟨(st.tensors.set site1.toNat left).set site2.toNat right,
        newCenter st.center site1.toNat (if toRight then site2.toNat else site1.toNat)⟩, tw)
    | _, _ => .error .indexError

/-- `BaseMPS.apply_one_site_gate` (base_mps.py:598-614). -/
noncomputable def applyOneSite (E : Env K) (st : State K) (gate : NDArray K) (site : Int) : Py (State K) :=
  if gate.shape.length ≠ 2 then .error .valueError
  else if site < 0 ∨ site ≥ st.tensors.length then .error .valueError
  else
    match st.tensors[site.toNat]? with
    | some A => do
      let t ← nconInt E.so [gate, A] [[-2, 1], [-1, 1, -3]]
      pure ⟨st.tensors.set site.toNat t, st.center⟩
    | none => .error .indexError

/-! ### Specification -/

/-- The entries of the product of `A` and `B` over their common bond. -/
def pairGet (A B : NDArray K) (m a i j b : Nat) : K := ∑ c ∈ range m, A.get [a, i, c] * B.get [c, j, b]

/-- The entries of the product of `A` and `B` after the gate. -/
def gateGet (G A B : NDArray K) (p m q a i' j' b : Nat) : K :=
  ∑ i ∈ range p, ∑ j ∈ range q, G.get [i', j', i, j] * pairGet A B m a i j b

/-- The amplitude of the state after the gate `G` on the sites `n` and `n + 1` with physical dimensions
`p` and `q`. -/
def gateAmp (G : NDArray K) (n p q : Nat) (ts : List (NDArray K)) (a : Nat) (is : List Nat) (b : Nat) : K :=
  ∑ i ∈ range p, ∑ j ∈ range q,
    G.get [is.getD n 0, is.getD (n + 1) 0, i, j] * amp ts a ((is.set n i).set (n + 1) j) b

/-! ### The contraction with the gate -/

theorem ncon_gate (so : SetOrder) {A B G : NDArray K} {l p m q r p' q' : Nat} (hA : A.shape = [l, p, m])
    (hB : B.shape = [m, q, r]) (hG : G.shape = [p', q', p, q]) :
    ∃ t, nconInt so [A, B, G] [[-1, 1, 2], [2, 3, -4], [-2, -3, 1, 3]] = .ok t ∧
      t.shape = [l, p', q', r] ∧ ∀ a < l, ∀ i < p', ∀ j < q', ∀ b < r,
        t.get [a, i, j, b] = gateGet G A B p m q a i j b := by
  obtain ⟨t, h1, h2, h3⟩ := nconInt_spec so (ts := [A, B, G])
    (l := [[-1, 1, 2], [2, 3, -4], [-2, -3, 1, 3]])
    (closed := [1, 3, 2]) (out := [-1, -2, -3, -4])
    (dim := fun x => if x = -1 then l else if x = 1 then p else if x = 2 then m else if x = 3 then q
      else if x = -4 then r else if x = -2 then p' else q')
    (by simp) rfl (by
      intro p hp
      simp only [List.zip_cons_cons, List.zip_nil_right, List.mem_cons, List.not_mem_nil, or_false] at hp
      rcases hp with rfl | rfl | rfl
      · exact hA
      · exact hB
      · exact hG) (by decide)
  refine ⟨t, h1, h2, fun a ha i hi j hj b hb => ?_⟩
  rw [h3 [a, i, j, b] (.cons ha (.cons hi (.cons hj (.cons hb .nil))))]
  refine Finset.sum_congr rfl fun x _ => Finset.sum_congr rfl fun y _ => ?_
  rw [pairGet, Finset.mul_sum]
  refine Finset.sum_congr rfl fun c _ => ?_
  show A.get [a, x, c] * (B.get [c, y, b] * (G.get [i, j, x, y] * 1)) = _
  ring

theorem ncon_gate_one (so : SetOrder) {A G : NDArray K} {l p m p' : Nat} (hA : A.shape = [l, p, m])
    (hG : G.shape = [p', p]) :
    ∃ t, nconInt so [G, A] [[-2, 1], [-1, 1, -3]] = .ok t ∧ t.shape = [l, p', m] ∧
      ∀ a < l, ∀ i < p', ∀ b < m, t.get [a, i, b] = ∑ x ∈ range p, G.get [i, x] * A.get [a, x, b] := by
  obtain ⟨t, h1, h2, h3⟩ := nconInt_spec so (ts := [G, A]) (l := [[-2, 1], [-1, 1, -3]])
    (closed := [1]) (out := [-1, -2, -3])
    (dim := fun x => if x = -1 then l else if x = 1 then p else if x = -2 then p' else m)
    (by simp) rfl (by
      intro p hp
      simp only [List.zip_cons_cons, List.zip_nil_right, List.mem_cons, List.not_mem_nil, or_false] at hp
      rcases hp with rfl | rfl
      · exact hG
      · exact hA) (by decide)
  refine ⟨t, h1, h2, fun a ha i hi b hb => ?_⟩
  rw [h3 [a, i, b] (inB_three ha hi hb)]
  refine Finset.sum_congr rfl fun x _ => ?_
  show G.get [i, x] * (A.get [a, x, b] * 1) = _
  rw [mul_one]

/-! ### The factorisations of a tensor of rank four -/

theorem qr_four {E : Env K} (hE : QrOK E) {t : NDArray K} {l p q r : Nat} (ht : t.shape = [l, p, q, r]) :
    ∃ Q T k, Decomp.qr E.qr E.sign t 2 false = .ok (Q, T) ∧ Q.shape = [l, p, k] ∧ T.shape = [k, q, r] ∧
      LeftIso Q ∧ k = min (l * p) (q * r) ∧ ∀ a < l, ∀ i < p, ∀ j < q, ∀ b < r,
        t.get [a, i, j, b] = pairGet Q T k a i j b := by
  obtain ⟨Q, T, h1, ⟨d, h2, h3, h4⟩, h5, h6⟩ := Decomp.qr_factorises_shape (kernel := E.qr)
    (sign := E.sign) (t := t) (p := 2) (nonneg := false) (fun M hM => ⟨hE M _ _ (Decomp.reshape_shape hM),
      by simp⟩)
  rw [ht] at h2 h3 h4 h5 h6
  simp only [List.take_succ_cons, List.take_zero, List.drop_succ_cons, List.drop_zero,
    List.cons_append, List.nil_append] at h2 h3 h4 h5 h6
  obtain rfl : d = min [l, p].prod [q, r].prod := by
    rw [h2] at h6
    simpa using h6
  refine ⟨Q, T, _, h1, h2, h3, ⟨l, p, _, h2, fun x hx y hy => ?_⟩, by simp, fun a ha i hi j hj b hb => ?_⟩
  · rw [← h5 x hx y hy]
    rfl
  · exact h4 [a, i] [j, b] (inB_two ha hi) (inB_two hj hb)

theorem rq_four {E : Env K} (hE : QrOK E) {t : NDArray K} {l p q r : Nat} (ht : t.shape = [l, p, q, r]) :
    ∃ T Q k, Decomp.rq E.qr E.sign t 2 false = .ok (T, Q) ∧ T.shape = [l, p, k] ∧ Q.shape = [k, q, r] ∧
      RightIso Q ∧ k = min (l * p) (q * r) ∧ ∀ a < l, ∀ i < p, ∀ j < q, ∀ b < r,
        t.get [a, i, j, b] = pairGet T Q k a i j b := by
  obtain ⟨T, Q, h1, ⟨d, h2, h3, h4⟩, h5, h6⟩ := Decomp.rq_factorises_shape (kernel := E.qr)
    (sign := E.sign) (t := t) (p := 2) (nonneg := false) (fun M hM => ⟨hE _ _ _ (by
      rw [Decomp.conjTranspose, Decomp.reshape_shape hM]; rfl), by simp⟩)
  rw [ht] at h2 h3 h4 h5 h6
  simp only [List.take_succ_cons, List.take_zero, List.drop_succ_cons, List.drop_zero,
    List.cons_append, List.nil_append] at h2 h3 h4 h5 h6
  obtain rfl : d = min [l, p].prod [q, r].prod := by
    rw [h3] at h6
    simpa using h6
  refine ⟨T, Q, _, h1, h2, h3, ⟨_, q, r, h3, fun x hx y hy => ?_⟩, by simp, fun a ha i hi j hj b hb => ?_⟩
  · rw [← h5 x hx y hy]
    rfl
  · exact h4 [a, i] [j, b] (inB_two ha hi) (inB_two hj hb)

/-- What the factorisation of the tensor after the gate gives: the factors have the outer shape, the
factor away from the (true) centre is isometric, and the squared distance of their product from the tensor is
that of the discarded weights. -/
structure Factored (t L R tw : NDArray K) (l p q r : Nat) : Prop where
  shapes : ∃ k, L.shape = [l, p, k] ∧ R.shape = [k, q, r] ∧
    ∑ a ∈ range l, ∑ i ∈ range p, ∑ j ∈ range q, ∑ b ∈ range r,
      ‖t.get [a, i, j, b] - pairGet L R k a i j b‖ ^ 2 = norm tw ^ 2

theorem gateFactor_exact {E : Env K} (hE : QrOK E) (toRight relative : Bool) {t : NDArray K}
    {l p q r : Nat} (ht : t.shape = [l, p, q, r]) :
    ∃ L R k tw, gateFactor E none none relative toRight t = .ok (L, R, tw) ∧ L.shape = [l, p, k] ∧
      R.shape = [k, q, r] ∧ (toRight = false → LeftIso L) ∧ (toRight = true → RightIso R) ∧
      (tw.shape = [1] ∧ tw.get [0] = 0) ∧ k = min (l * p) (q * r) ∧ ∀ a < l, ∀ i < p, ∀ j < q, ∀ b < r,
        t.get [a, i, j, b] = pairGet L R k a i j b := by
  cases toRight with
  | false =>
    obtain ⟨Q, T, k, h1, h2, h3, h4, hk, h5⟩ := qr_four hE ht
    refine ⟨Q, T, k, ⟨[1], fun _ => 0⟩, ?_, h2, h3, fun _ => h4, by simp, ⟨rfl, rfl⟩, hk, h5⟩
    simp only [gateFactor, Option.isSome_none, Bool.or_self, Bool.false_eq_true, if_false, h1, bind,
      Except.bind]
    rfl
  | true =>
    obtain ⟨T, Q, k, h1, h2, h3, h4, hk, h5⟩ := rq_four hE ht
    refine ⟨T, Q, k, ⟨[1], fun _ => 0⟩, ?_, h2, h3, by simp, fun _ => h4, ⟨rfl, rfl⟩, hk, h5⟩
    simp only [gateFactor, Option.isSome_none, Bool.or_self, Bool.false_eq_true, if_false, if_true, h1,
      bind, Except.bind]
    rfl

theorem gateFactor_svd {E : Env K} (hS : SvdOK E) {D : Option Nat} {err : Option ℝ}
    (hsvd : D.isSome ∨ err.isSome) {toRight relative : Bool} {t : NDArray K} {l p q r : Nat}
    (ht : t.shape = [l, p, q, r]) {L R tw : NDArray K}
    (h : gateFactor E D err relative toRight t = .ok (L, R, tw)) :
    Factored t L R tw l p q r ∧ (toRight = true → LeftIso L) ∧ (toRight = false → RightIso R) := by
  unfold gateFactor at h
  rw [if_pos (by simpa [or_comm] using hsvd)] at h
  rcases hs : Decomp.svd E.svd t 2 D err relative with e | ⟨u, s, v, w⟩
  · rw [hs] at h; cases h
  rw [hs] at h
  simp only [bind, Except.bind] at h
  obtain ⟨k, h1, h2, h3, h4, h5, rest, h6, h7, h8⟩ := svd_three hS hs
  rw [ht] at h1 h3 h4 h5 h8
  simp only [List.take_succ_cons, List.take_zero, List.drop_succ_cons, List.drop_zero,
    List.cons_append, List.nil_append] at h1 h3 h4 h5 h8
  have hu : LeftIso u := ⟨l, p, k, h1, fun x hx y hy => by
    rw [← h4 x hx y hy]
    rfl⟩
  have hv : RightIso v := ⟨k, q, r, h3, fun x hx y hy => by
    rw [← h5 x hx y hy]
    rfl⟩
  have hw : norm w ^ 2 = Decomp.norm2 rest ^ 2 := by
    rw [norm_sq, h6, Decomp.norm2, Real.sq_sqrt (List.sum_nonneg fun x hx => by
      obtain ⟨y, _, rfl⟩ := List.mem_map.1 hx
      positivity)]
    simp only [sumIdx]
    rw [Finset.sum_congr rfl fun x hx => by
      rw [h7 x (Finset.mem_range.1 hx)]]
    simp only [RCLike.norm_ofReal, sq_abs]
    rw [Finset.sum_range, ← List.sum_ofFn]
    congr 1
    refine List.ext_getElem (by simp) fun i hi hi' => ?_
    simp at hi'
    simp
  have hprod : ∀ a i j b, ∑ x ∈ range k, u.get ([a, i] ++ [x]) * s.get [x] * v.get (x :: [j, b]) =
      ∑ x ∈ range k, u.get [a, i, x] * s.get [x] * v.get [x, j, b] := fun _ _ _ _ => rfl
  cases toRight with
  | true =>
    simp only [if_true] at h
    obtain ⟨t', g1, g2, g3⟩ := ncon_rest_right E.so (diagflat_shape h2) h3
    rw [g1] at h
    simp only [pure, Except.pure, Except.ok.injEq, Prod.mk.injEq] at h
    obtain ⟨rfl, rfl, rfl⟩ := h
    refine ⟨⟨k, h1, g2, ?_⟩, fun _ => hu, by simp⟩
    rw [hw, ← h8]
    simp only [sumIdx]
    refine Finset.sum_congr rfl fun a _ => Finset.sum_congr rfl fun i _ =>
      Finset.sum_congr rfl fun j hj => Finset.sum_congr rfl fun b hb => ?_
    rw [hprod, pairGet, Finset.sum_congr rfl fun x hx => by
      rw [g3 x (Finset.mem_range.1 hx) j (Finset.mem_range.1 hj) b (Finset.mem_range.1 hb)]]
    have : ∀ x ∈ range k, u.get [a, i, x] * ∑ c ∈ range k, (diagflat s).get [x, c] * v.get [c, j, b] =
        u.get [a, i, x] * s.get [x] * v.get [x, j, b] := by
      intro x hx
      simp only [diagflat_get, ite_mul, zero_mul]
      rw [Finset.sum_ite_eq, if_pos hx, mul_assoc]
    rw [Finset.sum_congr rfl this]
    rfl
  | false =>
    simp only [Bool.false_eq_true, if_false] at h
    obtain ⟨t', g1, g2, g3⟩ := ncon_rest_left E.so h1 (diagflat_shape h2)
    rw [g1] at h
    simp only [pure, Except.pure, Except.ok.injEq, Prod.mk.injEq] at h
    obtain ⟨rfl, rfl, rfl⟩ := h
    refine ⟨⟨k, g2, h3, ?_⟩, by simp, fun _ => hv⟩
    rw [hw, ← h8]
    simp only [sumIdx]
    refine Finset.sum_congr rfl fun a ha => Finset.sum_congr rfl fun i hi =>
      Finset.sum_congr rfl fun j hj => Finset.sum_congr rfl fun b hb => ?_
    rw [hprod, pairGet, Finset.sum_congr rfl fun x hx => by
      rw [g3 a (Finset.mem_range.1 ha) i (Finset.mem_range.1 hi) x (Finset.mem_range.1 hx)]]
    have : ∀ x ∈ range k, (∑ c ∈ range k, u.get [a, i, c] * (diagflat s).get [c, x]) * v.get [x, j, b] =
        u.get [a, i, x] * s.get [x] * v.get [x, j, b] := by
      intro x hx
      simp only [diagflat_get, mul_ite, mul_zero]
      rw [Finset.sum_ite_eq', if_pos hx]
    rw [Finset.sum_congr rfl this]
    rfl

end TN.Mps
