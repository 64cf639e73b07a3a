import Verif.BsGmres

/-!
# C94: `eigs` of the symmetric backend

backends/symmetric/symmetric_backend.py:170-292.  Simplifications: `args`, `maxiter` and the cache (C27, C83) are left out; the elements have
one type, for complex eigenvalues the complex numbers; `A` does not keep the tensor that it is given.
-/

set_option linter.unusedSectionVars false

namespace TN.Bs

open NDArray

section
variable {Q : Type} [AddCommGroup Q] [LinearOrder Q] {K : Type} [RCLike K]

/-! ### The model -/

/-- `sp.sparse.linalg.eigs(A, k, which, v0, ncv)`: the eigenvalues and the columns of the matrix of eigenvectors. -/
abbrev EigsKernel (K : Type) := (List K → Py (List K)) → Nat → String → List K → Nat → Py (List K × List (List K))

/-- The argument `initial_state`. -/
inductive Init (Q K : Type) where
  | missing
  | tensor (T : BST Q K)
  | other

/-- `SymmetricBackend.eigs` (symmetric_backend.py:223-292): the eigenvalues, the eigenvectors and the initial state after the call.  `fresh` is
`self.randn(shape, dtype)`, or `none` if one of the two is not given. -/
def symEigs (argsort : List Nat → List Nat) (empty : Nat → List K) (kernel : EigsKernel K) (A : BST Q K → Py (BST Q K))
    (initial : Init Q K) (fresh : Option (BST Q K)) (ncv numeig : Nat) (which : String) : Py (List K × List (BST Q K) × BST Q K) :=
  if which = "SI" ∨ which = "LI" then .error .valueError
  else if numeig + 1 ≥ ncv then .error .valueError
  else do
    let init ← match initial with
      | .missing => match fresh with
        | none => .error .valueError
        | some T => .ok T
      | .tensor T => .ok T
      | .other => .error .typeError
    let init ← init.contiguous argsort empty none
    let (eta, U) ← kernel (gmresMatvec argsort empty A init.legs) numeig which init.data ncv
    .ok (eta, (List.range numeig).map fun n => plainTensor (U.getD n []) init.legs, init)

/-! ### Specification -/

/-- What is asked of the kernel: for a function on vectors of the length of `v0`, if it does not raise it returns `k` numbers and `k` such vectors
of norm 1, and the residuals are at most `ε`. -/
def EigsOK (ε : ℝ) (kernel : EigsKernel K) : Prop :=
  ∀ (mv : List K → Py (List K)) (k : Nat) (which : String) (v0 : List K) (ncv : Nat), k + 1 < ncv →
    (∀ v, v.length = v0.length → ∃ y, mv v = .ok y ∧ y.length = v0.length) → ∀ eta U, kernel mv k which v0 ncv = .ok (eta, U) →
      eta.length = k ∧ U.length = k ∧
      ∀ n < k, (U.getD n []).length = v0.length ∧ vnorm (U.getD n []) = 1 ∧
        ∃ y, mv (U.getD n []) = .ok y ∧ vnorm (List.zipWith (· - ·) y ((U.getD n []).map fun x => eta.getD n 0 * x)) ≤ ε

/-- `c` times an array. -/
def dscale (c : K) (d : NDArray K) : NDArray K := ⟨d.shape, fun i => c * d.get i⟩

/-! ### Proofs -/

theorem order_ne {S T : BST Q K} (h : axesView S = axesView T) (ho : T.order ≠ []) : S.order ≠ [] := by
  intro h0
  have := congrArg (List.map List.length) h
  rw [axesView_lengths, axesView_lengths, h0] at this
  exact ho (by simpa using this.symm)

/-- Vectors of stored elements stand for tensors with the axes of `b`, and `matvec` for the operator on their dense forms. -/
theorem matvec_spec {argsort : List Nat → List Nat} (ha : ArgsortOK argsort) {empty : Nat → List K} (he : ∀ n, (empty n).length = n)
    {A : BST Q K → Py (BST Q K)} {b X : BST Q K} (ho : b.order ≠ []) (h1 : ∀ g ∈ b.order, g.length = 1) (hA : Keeps A b)
    (hX : X.Valid) (hv : axesView X = axesView b) (hp : X = plainTensor X.data X.legs) (v : List K) (hl : v.length = X.data.length) :
    (plainTensor v X.legs).Valid ∧ axesView (plainTensor v X.legs) = axesView b ∧
    ∃ y Y f f', A (plainTensor v X.legs) = .ok y ∧ gmresMatvec argsort empty A X.legs v = .ok Y.data ∧ y.todense = .ok f ∧
      Y.todense = .ok f' ∧ f'.Same f ∧ Y.Valid ∧ view Y.legs = view X.legs ∧ Y = plainTensor Y.data Y.legs := by
  have p1 : (plainTensor v X.legs).Valid := plain_valid hX.wf (by rw [hl, hX.size])
  have p2 : axesView (plainTensor v X.legs) = axesView b := by
    rw [axesView_plain, ← hv, hp, axesView_plain]
    rfl
  refine ⟨p1, p2, ?_⟩
  obtain ⟨y, y1, y2, y3⟩ := hA _ p1 p2
  obtain ⟨Y, f, f', c1, c2, c3, c4, c5, c6, c7⟩ := contiguous_plain ha he y2 (order_ne y3 ho) (single_of_view y3 h1)
  refine ⟨y, Y, f, f', y1, ?_, c3, c4, c5, c2, view_inj (by rw [c6, y3, hv]) c7 hp, c7⟩
  rw [gmresMatvec, y1]
  change (y.contiguous argsort empty none >>= fun res => Except.ok res.data) = _
  rw [c1]; rfl

/-- **C94.**  The initial state has no fused legs.  Then for every operator that keeps its axes `eigs` raises if the kernel does, and otherwise
returns `numeig` pairs; the eigenvectors have the axes of the initial state and norm 1, and the residual of the dense forms is at most that of the
kernel.  The initial state keeps its value. -/
theorem C94_eigs_partial {argsort : List Nat → List Nat} (ha : ArgsortOK argsort) {empty : Nat → List K}
    (he : ∀ n, (empty n).length = n) {ε : ℝ} {kernel : EigsKernel K} (hk : EigsOK ε kernel) {A : BST Q K → Py (BST Q K)}
    {b : BST Q K} (hb : b.Valid) (ho : b.order ≠ []) (h1 : ∀ g ∈ b.order, g.length = 1) (hA : Keeps A b) {initial : Init Q K}
    {fresh : Option (BST Q K)} (hi : initial = .tensor b ∨ initial = .missing ∧ fresh = some b) {ncv numeig : Nat} {which : String}
    (hw : which ≠ "SI" ∧ which ≠ "LI") (hn : numeig + 1 < ncv) :
    (∃ e mv v0, v0.length = b.data.length ∧ kernel mv numeig which v0 ncv = .error e ∧
      symEigs argsort empty kernel A initial fresh ncv numeig which = .error e) ∨
    ∃ eta V b', symEigs argsort empty kernel A initial fresh ncv numeig which = .ok (eta, V, b') ∧ eta.length = numeig ∧
      V.length = numeig ∧ (∃ d d', b.todense = .ok d ∧ b'.todense = .ok d' ∧ d'.Same d ∧ axesView b' = axesView b) ∧
      ∀ n (h : n < V.length), V[n].Valid ∧ axesView V[n] = axesView b ∧
        ∃ dx y dy, V[n].todense = .ok dx ∧ dnorm dx = 1 ∧ A V[n] = .ok y ∧ y.todense = .ok dy ∧ dy.shape = dx.shape ∧
          ddist dy (dscale (eta.getD n 0) dx) ≤ ε := by
  obtain ⟨X, d, d', x1, x2, x3, x4, x5, x6, x7⟩ := contiguous_plain ha he hb ho h1
  have hlX : X.data.length = b.data.length := by
    obtain ⟨X', -, -, c1, -, -, -, -, -, c7⟩ := C26_contiguous ha he hb ho none (by simp)
    rw [x1] at c1; cases c1
    have hE : eff X.legs = permL b.order.flatten (eff b.legs) := by
      rw [(c7 rfl).2, permL_eff _ _ fun n hn => hb.mem_order.1 hn]; rfl
    rw [x2.size, hb.size, hE, ← (stored_unperm_perm (L := eff b.legs) (order := b.order.flatten) (by simpa [eff] using hb.perm)).length_eq, List.length_map]
  have hS : symEigs argsort empty kernel A initial fresh ncv numeig which =
      (kernel (gmresMatvec argsort empty A X.legs) numeig which X.data ncv >>= fun p =>
        .ok (p.1, (List.range numeig).map fun n => plainTensor (p.2.getD n []) X.legs, X)) := by
    rw [symEigs, if_neg (by tauto), if_neg (by omega)]
    rcases hi with rfl | ⟨rfl, rfl⟩ <;> simp only [bind, Except.bind, x1]
  cases hK : kernel (gmresMatvec argsort empty A X.legs) numeig which X.data ncv with
  | error e => exact .inl ⟨e, _, _, hlX, hK, by rw [hS, hK]; rfl⟩
  | ok p =>
  obtain ⟨eta, U⟩ := p
  right
  obtain ⟨k2, k3, k4⟩ := hk (gmresMatvec argsort empty A X.legs) numeig which X.data ncv hn (by
    intro v hv
    obtain ⟨-, -, y, Y, f, f', -, g1, -, -, -, g2, g3, -⟩ := matvec_spec ha he ho h1 hA x2 x6 x7 v hv
    exact ⟨_, g1, by rw [g2.size, x2.size, eff_of_view g2.wf x2.wf g3]⟩) eta U hK
  refine ⟨eta, (List.range numeig).map fun n => plainTensor (U.getD n []) X.legs, X, by rw [hS, hK]; rfl, k2, by simp,
    ⟨d, d', x3, x4, x5, x6⟩, ?_⟩
  · intro n h
    rw [List.length_map, List.length_range] at h
    obtain ⟨l1, l2, w, w1, w2⟩ := k4 n h
    obtain ⟨p1, p2, y, Y, f, f', g0, g1, g2, g3, g4, g5, g6, g7⟩ := matvec_spec ha he ho h1 hA x2 x6 x7 _ l1
    rw [g1] at w1; cases w1
    rw [List.getElem_map, List.getElem_range]
    obtain ⟨P, hP⟩ : ∃ P, P = plainTensor (U.getD n []) X.legs := ⟨_, rfl⟩
    rw [← hP] at p1 p2 g0 ⊢
    have hoP : P.order ≠ [] := order_ne p2 ho
    obtain ⟨dx, q1, q2⟩ := C69_norm p1 hoP
    obtain ⟨m1, dx', dm, m2, m3, m4, m5⟩ := C50_map (f := fun x => eta.getD n 0 * x) (by simp) p1 hoP
    rw [q1] at m2; cases m2
    obtain ⟨v1, v2⟩ := vdist g5 m1 g7 (by rw [hP]; rfl) (by rw [g6, hP]; rfl) hoP g3 m3
    have hsh : f.shape = dx.shape := by rw [← g4.1, v1, m4]
    refine ⟨p1, p2, dx, y, f, q1, ?_, g0, g2, hsh, ?_⟩
    · rw [dnorm, ← q2, bsNorm, hP]; exact l2
    · have hsm : dm.Same (dscale (eta.getD n 0) dx) := ⟨m4, fun i hi => m5 i (m4 ▸ hi)⟩
      rw [← ddist_same g4 hsm (by rw [hsh]; rfl), ← v2, hP]
      exact w2

/-- **C94.**  What is refused: imaginary parts, too few Krylov vectors, no initial state without shape and dtype, and an initial state that is not a
symmetric tensor. -/
theorem C94_refused {argsort : List Nat → List Nat} {empty : Nat → List K} {kernel : EigsKernel K} {A : BST Q K → Py (BST Q K)}
    {initial : Init Q K} {fresh : Option (BST Q K)} {ncv numeig : Nat} {which : String} :
    (which = "SI" ∨ which = "LI" ∨ ncv ≤ numeig + 1 ∨ initial = .missing ∧ fresh = none →
      symEigs argsort empty kernel A initial fresh ncv numeig which = .error .valueError) ∧
    (which ≠ "SI" → which ≠ "LI" → numeig + 1 < ncv → initial = .other →
      symEigs argsort empty kernel A initial fresh ncv numeig which = .error .typeError) := by
  constructor
  · intro h
    rw [symEigs]
    split_ifs with h1 h2
    · rfl
    · rfl
    · rcases h with h | h | h | ⟨rfl, rfl⟩
      · exact absurd (Or.inl h) h1
      · exact absurd (Or.inr h) h1
      · omega
      · rfl
  · intro h1 h2 h3 h4
    rw [symEigs, if_neg (by tauto), if_neg (by omega), h4]
    rfl

/-! ### A kernel, and what fails -/

open Classical in
/-- A kernel that returns pairs within `ε` if there are some. -/
noncomputable def bestEigs (ε : ℝ) : EigsKernel K := fun mv k _ v0 _ =>
  if h : ∃ p : List K × List (List K), p.1.length = k ∧ p.2.length = k ∧
      ∀ n < k, (p.2.getD n []).length = v0.length ∧ vnorm (p.2.getD n []) = 1 ∧
        ∃ y, mv (p.2.getD n []) = .ok y ∧ vnorm (List.zipWith (· - ·) y ((p.2.getD n []).map fun x => p.1.getD n 0 * x)) ≤ ε then
    .ok h.choose else .error .valueError

theorem bestEigs_ok (ε : ℝ) : EigsOK ε (bestEigs (K := K) ε) := by
  intro mv k which v0 ncv _ _ eta U h
  rw [bestEigs] at h
  split_ifs at h with hp
  have e := hp.choose_spec
  rw [Except.ok.inj h] at e
  exact e

/-- For the identity and vectors with elements the kernel does not raise. -/
theorem bestEigs_id {mv : List K → Py (List K)} (hmv : ∀ v, mv v = .ok v) (k : Nat) (which : String) (x : K) (v0 : List K) (ncv : Nat) :
    ∃ p, bestEigs 0 mv k which (x :: v0) ncv = .ok p := by
  rw [bestEigs, dif_pos]
  · exact ⟨_, rfl⟩
  · refine ⟨⟨List.replicate k 1, List.replicate k (1 :: List.replicate v0.length 0)⟩, by simp, by simp, fun n hn => ?_⟩
    have e : (List.replicate k ((1 : K) :: List.replicate v0.length 0)).getD n [] = 1 :: List.replicate v0.length 0 := by
      simp [List.getD_eq_getElem?_getD, hn]
    have e1 : (List.replicate k (1 : K)).getD n 0 = 1 := by simp [List.getD_eq_getElem?_getD, hn]
    rw [e, e1]
    refine ⟨by simp, by simp [vnorm], _, hmv _, ?_⟩
    simp [vnorm]

/-- **C94**, what fails: with fused legs the eigenvectors do not have the shape of the initial state. -/
theorem C94_shape_false : ∃ (b : BST Int ℝ), b.Valid ∧ b.shape = .ok [9] ∧
    ∃ eta V b', symEigs argsortI (fun n => List.replicate n 0) (bestEigs 0) (fun T => .ok T) (.tensor b) none 4 1 "LR" = .ok (eta, V, b') ∧
      V.map BST.shape = [.ok [3, 3]] := by
  obtain ⟨⟨eta, U⟩, h1⟩ := bestEigs_id (mv := gmresMatvec argsortI (fun n => List.replicate n 0) (fun T => .ok T) (gmEx []).legs)
    (fun v => id_matvec _ v) 1 "LR" (1 : ℝ) [2, 3, 4] 4
  refine ⟨gmEx [[0, 1]], gmEx_valid (by decide) (by decide), rfl, eta, [plainTensor (U.getD 0 []) (gmEx []).legs], gmEx [[0, 1]], ?_, rfl⟩
  rw [symEigs, if_neg (by decide), if_neg (by decide)]
  change (BST.contiguous argsortI (fun n => List.replicate n 0) (gmEx [[0, 1]]) none >>= _) = _
  rw [show BST.contiguous argsortI (fun n => List.replicate n 0) (gmEx [[0, 1]]) none = .ok (gmEx [[0, 1]]) from rfl]
  change (bestEigs 0 (gmresMatvec argsortI (fun n => List.replicate n 0) (fun T => .ok T) (gmEx []).legs) 1 "LR" [1, 2, 3, 4] 4 >>= _) = _
  rw [h1]
  rfl

/-- A transposed initial state. -/
noncomputable example := C94_eigs_partial argsortI_ok (empty := fun n => List.replicate n (0 : ℝ)) (by simp) (bestEigs_ok 0) (A := fun T => .ok T)
  (b := gmEx [[1], [0]]) (gmEx_valid (by decide) (by decide)) (by decide) (by decide) (id_keeps _) (initial := .tensor (gmEx [[1], [0]]))
  (fresh := none) (.inl rfl) (ncv := 4) (numeig := 2) (which := "LM") (by decide) (by decide)

end
end TN.Bs
