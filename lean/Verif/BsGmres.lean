import Verif.BsIndex
import Verif.BsDiag

/-!
# C93: `gmres` of the symmetric backend

backends/symmetric/symmetric_backend.py:450-620.  The solver of scipy works on vectors of stored elements; the function makes tensors of the
vectors and vectors of the tensors.  Simplifications: elements have one type, so that the comparison of dtypes is left out; `A_args`,
`A_kwargs`, `M`, the warning and the cache (C27, C83) are left out; `A_mv` does not keep the tensor that it is given.
-/

set_option linter.unusedSectionVars false

namespace TN.Bs

open NDArray

section
variable {Q : Type} [AddCommGroup Q] [LinearOrder Q] {K : Type} [RCLike K]

/-! ### The model -/

/-- `ChargeArray.size` (blocksparsetensor.py:136-144).  `reduce` of an empty list raises. -/
def bsSize (T : BST Q K) : Py Nat :=
  if T.order.flatten = [] then .error .typeError else .ok (T.order.flatten.map T.ldim).prod

/-- `randn_like` (initialization.py:131-145); `randn n` are `n` random numbers. -/
def randnLike (randn : Nat → List K) (T : BST Q K) : BST Q K := ⟨randn T.data.length, T.legs, T.order⟩

/-- `BlockSparseTensor(data, charges, flows)` without `order` (blocksparsetensor.py:60-95, 491-520): every leg is one axis. -/
def plainTensor (data : List K) (legs : List (Leg Q)) : BST Q K := ⟨data, legs, (List.range legs.length).map fun n => [n]⟩

/-- `sp.sparse.linalg.gmres(A_op, b, x0, tol, atol, restart)`: the solution and `info`. -/
abbrev VecSolver (K : Type) := (List K → Py (List K)) → List K → List K → ℝ → ℝ → Nat → Py (List K × Int)

/-- `matvec` (symmetric_backend.py:581-585) -/
def gmresMatvec (argsort : List Nat → List Nat) (empty : Nat → List K) (A : BST Q K → Py (BST Q K)) (legs : List (Leg Q))
    (v : List K) : Py (List K) := do
  let res ← A (plainTensor v legs)
  let res ← res.contiguous argsort empty none
  .ok res.data

/-- `SymmetricBackend.gmres` (symmetric_backend.py:539-617): the solution, `info`, and the tensors `b` and `x0` after the call. -/
noncomputable def symGmres (argsort : List Nat → List Nat) (empty randn : Nat → List K) (solver : VecSolver K)
    (A : BST Q K → Py (BST Q K)) (b : BST Q K) (x0 : Option (BST Q K)) (m : Option Int) (tol : ℝ) (atol : Option ℝ) :
    Py (BST Q K × Int × BST Q K × BST Q K) := do
  let x0 := x0.getD (randnLike randn b)
  let same ← compareShapes x0 b
  if same = false then .error .valueError
  else do
    let size ← bsSize b
    let m := m.getD (min size 100)
    if m ≤ 0 ∨ m > size then .error .valueError
    else if tol < 0 then .error .valueError
    else if atol.getD tol < 0 then .error .valueError
    else do
      let x0 ← x0.contiguous argsort empty none
      let b ← b.contiguous argsort empty none
      let (x, info) ← solver (gmresMatvec argsort empty A x0.legs) b.data x0.data tol (atol.getD tol) m.toNat
      if info < 0 then .error .valueError
      else .ok (plainTensor x x0.legs, info, b, x0)

/-! ### Specification -/

/-- The norm of a vector. -/
noncomputable def vnorm (v : List K) : ℝ := Real.sqrt ((v.map fun x => ‖x‖ ^ 2).sum)

/-- The norm of an array. -/
noncomputable def dnorm (d : NDArray K) : ℝ := Real.sqrt (((grid d.shape).map fun i => ‖d.get i‖ ^ 2).sum)

/-- The norm of the difference of two arrays of the same shape. -/
noncomputable def ddist (d e : NDArray K) : ℝ := Real.sqrt (((grid d.shape).map fun i => ‖d.get i - e.get i‖ ^ 2).sum)

/-- What is asked of the solver: for a function on vectors of the length of `b` it returns such a vector, reports no breakdown, and if it
reports convergence the residual is within the tolerances. -/
def SolverOK (solver : VecSolver K) : Prop :=
  ∀ (mv : List K → Py (List K)) (b x0 : List K) (tol atol : ℝ) (m : Nat), 0 < m → x0.length = b.length →
    (∀ v, v.length = b.length → ∃ y, mv v = .ok y ∧ y.length = b.length) →
    ∃ x info, solver mv b x0 tol atol m = .ok (x, info) ∧ 0 ≤ info ∧ x.length = b.length ∧
      (info = 0 → ∃ y, mv x = .ok y ∧ vnorm (List.zipWith (· - ·) y b) ≤ max (tol * vnorm b) atol)

/-- What a user sees of the axes of a tensor: their charges and flows. -/
def axesView (T : BST Q K) : List (List (List Q × Bool)) := T.sparseShape.map view

/-- The operator is defined on the tensors with the axes of `b` and returns tensors with these axes, stored in any order. -/
def Keeps (A : BST Q K → Py (BST Q K)) (b : BST Q K) : Prop :=
  ∀ T : BST Q K, T.Valid → axesView T = axesView b → ∃ y, A T = .ok y ∧ y.Valid ∧ axesView y = axesView b

/-! ### Layout -/

theorem eff_of_view {L M : List (Leg Q)} (hL : LegsWF L) (hM : LegsWF M) (h : view L = view M) : eff L = eff M := by
  have e : ∀ L : List (Leg Q), LegsWF L → eff L = (view L).map fun p => if p.2 then p.1.map (fun q => -q) else p.1 := by
    intro L hL
    rw [eff, view, List.map_map]
    refine List.map_congr_left fun l hl => ?_
    rw [Charge.dual_charges (hL l hl)]
    rfl
  rw [e L hL, e M hM, h]

theorem singles_order {o : List (List Nat)} (h : ∀ g ∈ o, g.length = 1) : o = o.flatten.map fun n => [n] := by
  induction o with
  | nil => rfl
  | cons g o ih =>
    obtain ⟨n, rfl⟩ := List.length_eq_one_iff.1 (h g (by simp))
    rw [List.flatten_cons, List.map_append, ← ih fun g hg => h g (by simp [hg])]
    rfl

theorem axesView_lengths (T : BST Q K) : (axesView T).map List.length = T.order.map List.length := by
  rw [axesView, BST.sparseShape, List.map_map, List.map_map]
  refine List.map_congr_left fun g _ => ?_
  simp [view, pick]

theorem axesView_plain (v : List K) (L : List (Leg Q)) : axesView (plainTensor v L) = (view L).map fun p => [p] := by
  rw [axesView, BST.sparseShape, plainTensor, List.map_map, List.map_map, view, List.map_map]
  conv_rhs => rw [← map_range_getD L (.raw [], false), List.map_map]
  refine List.map_congr_left fun n _ => ?_
  simp [view, pick]

theorem single_of_view {S T : BST Q K} (h : axesView S = axesView T) (hT : ∀ g ∈ T.order, g.length = 1) : ∀ g ∈ S.order, g.length = 1 := by
  have h1 := congrArg (List.map List.length) h
  rw [axesView_lengths, axesView_lengths] at h1
  intro g hg
  have : g.length ∈ T.order.map List.length := h1 ▸ List.mem_map_of_mem hg
  obtain ⟨g', hg', e⟩ := List.mem_map.1 this
  rw [← e, hT g' hg']

/-- A tensor without fused legs whose data are in the order of the axes is a plain tensor. -/
theorem plain_of {T : BST Q K} (h1 : ∀ g ∈ T.order, g.length = 1) (hf : T.order.flatten = List.range T.legs.length) :
    T = plainTensor T.data T.legs := by
  have := singles_order h1
  rw [hf] at this
  cases T
  simp_all [plainTensor]

theorem view_inj {S T : BST Q K} (h : axesView S = axesView T) (hS : S = plainTensor S.data S.legs) (hT : T = plainTensor T.data T.legs) :
    view S.legs = view T.legs := by
  rw [hS, hT, axesView_plain, axesView_plain] at h
  exact (List.map_injective_iff.2 fun a b e => by simpa using e) h

theorem contiguous_plain {argsort : List Nat → List Nat} (ha : ArgsortOK argsort) {empty : Nat → List K}
    (he : ∀ n, (empty n).length = n) {T : BST Q K} (h : T.Valid) (ho : T.order ≠ []) (h1 : ∀ g ∈ T.order, g.length = 1) :
    ∃ T' d d', T.contiguous argsort empty none = .ok T' ∧ T'.Valid ∧ T.todense = .ok d ∧ T'.todense = .ok d' ∧ d'.Same d ∧
      axesView T' = axesView T ∧ T' = plainTensor T'.data T'.legs := by
  obtain ⟨T', d, d', c1, c2, c3, c4, c5, c6, c7⟩ := C26_contiguous ha he h ho none (by simp)
  have hv : axesView T' = axesView T := by rw [axesView, c6, axesView]
  refine ⟨T', d, d', c1, c2, c3, c4, c5, hv, plain_of (single_of_view hv h1) ?_⟩
  rw [(c7 rfl).1]
  have := c2.perm.length_eq
  rw [(c7 rfl).1] at this
  simp only [List.length_range] at this
  rw [this]

/-! ### Differences of tensors -/

theorem vdist {S T : BST Q K} (hS : S.Valid) (hT : T.Valid) (hpS : S = plainTensor S.data S.legs) (hpT : T = plainTensor T.data T.legs)
    (hv : view S.legs = view T.legs) (ho : T.order ≠ []) {s t : NDArray K} (hs : S.todense = .ok s) (ht : T.todense = .ok t) :
    s.shape = t.shape ∧ vnorm (List.zipWith (· - ·) S.data T.data) = ddist s t := by
  have hl : S.legs.length = T.legs.length := by simpa [view] using congrArg List.length hv
  have hord : S.order = T.order := by rw [hpS, hpT]; simp [plainTensor, hl]
  have he := eff_of_view hS.wf hT.wf hv
  have hsz : S.data.length = T.data.length := by rw [hS.size, hT.size, he]
  obtain ⟨D, hD⟩ : ∃ D : BST Q K, D = ⟨List.zipWith (· - ·) S.data T.data, S.legs, S.order⟩ := ⟨_, rfl⟩
  have hDv : D.Valid := by
    subst hD
    exact ⟨hS.wf, hS.perm, hS.groups, by simp [hsz, hT.size, he]⟩
  have hoS : S.order ≠ [] := hord ▸ ho
  have hsv : ∀ o, D.sval o = S.sval o - T.sval o := by
    intro o
    subst hD
    simp only [BST.sval, he]
    split_ifs with hm
    · have h1 := List.idxOf_lt_length_iff.2 hm
      have hT' := hT.size
      simp [List.getD_eq_getElem?_getD, hsz ▸ hT' ▸ h1, hT' ▸ h1]
    · simp
  obtain ⟨d, d1, d2⟩ := sum_dense hDv (by rw [hD]; exact hoS) (fun x => ‖x‖ ^ 2) (by simp)
  obtain ⟨d', d1', d3, d4⟩ := hDv.todense (by rw [hD]; exact hoS)
  obtain ⟨s', s1, s2, s3⟩ := hS.todense hoS
  obtain ⟨t', t1, t2, t3⟩ := hT.todense ho
  rw [d1] at d1'; cases d1'
  rw [hs] at s1; cases s1
  rw [ht] at t1; cases t1
  have hld : S.ldim = T.ldim := by
    funext n
    rw [BST.ldim, BST.ldim, ← dims_eff, ← dims_eff, he]
  have hlD : D.ldim = S.ldim := by rw [hD]; rfl
  have hsh : d.shape = s.shape := by rw [d3, s2, hlD, hD]
  refine ⟨by rw [s2, t2, hord, hld], ?_⟩
  rw [vnorm, ddist]
  have : (List.zipWith (· - ·) S.data T.data) = D.data := by rw [hD]
  rw [this, d2, hsh]
  congr 2
  refine List.map_congr_left fun i hi => ?_
  rw [mem_grid, s2] at hi
  obtain ⟨σ, hσ, hσi⟩ := exists_gpos hS.order_nodup hi
  have hσ' : ∀ n, n < S.legs.length → σ n < S.ldim n := fun n hn => hσ n (hS.mem_order.2 hn)
  have e1 := d4 σ (by rw [hlD, hD]; exact hσ')
  have e2 := s3 σ hσ'
  have e3 := t3 σ (by rw [← hl, ← hld]; exact hσ')
  rw [hlD, hD] at e1
  rw [← hord, ← hld, hσi, ← hl] at e3
  rw [hσi] at e2
  change d.get (S.order.map fun g => gpos S.ldim g σ) = _ at e1
  rw [hσi, ← hD, hsv] at e1
  rw [e1, e2, e3]
  rw [hD]

theorem ddist_same {s s' t t' : NDArray K} (hs : s'.Same s) (ht : t'.Same t) (h : s.shape = t.shape) : ddist s' t' = ddist s t := by
  rw [ddist, ddist, hs.1]
  congr 2
  refine List.map_congr_left fun i hi => ?_
  rw [mem_grid] at hi
  rw [hs.2 i (hs.1 ▸ hi), ht.2 i (ht.1 ▸ h ▸ hi)]

theorem dnorm_same {s s' : NDArray K} (hs : s'.Same s) : dnorm s' = dnorm s := by
  rw [dnorm, dnorm, hs.1]
  congr 2
  refine List.map_congr_left fun i hi => ?_
  rw [mem_grid] at hi
  rw [hs.2 i (hs.1 ▸ hi)]

theorem bsSize_eq {T : BST Q K} (h : T.Valid) (ho : T.order ≠ []) {d : NDArray K} (hd : T.todense = .ok d) :
    bsSize T = .ok d.shape.prod := by
  obtain ⟨d', d1, d2, -⟩ := h.todense ho
  rw [hd] at d1; cases d1
  rw [bsSize, if_neg, d2, gdim_prod]
  obtain ⟨g, hg⟩ := List.exists_mem_of_ne_nil _ ho
  obtain ⟨n, hn⟩ := List.exists_mem_of_ne_nil _ (h.groups g hg)
  exact List.ne_nil_of_mem (List.mem_flatten.2 ⟨g, hg, hn⟩)

theorem plain_valid {v : List K} {L : List (Leg Q)} (hL : LegsWF L) (hv : v.length = (stored (eff L)).length) : (plainTensor v L).Valid :=
  ⟨hL, by simp [plainTensor, ← List.flatMap_def], by simp [plainTensor], hv⟩

theorem randnLike_valid {randn : Nat → List K} (hr : ∀ n, (randn n).length = n) {T : BST Q K} (h : T.Valid) : (randnLike randn T).Valid :=
  ⟨h.wf, h.perm, h.groups, (hr _).trans h.size⟩

/-- The call after the checks. -/
theorem symGmres_eq {argsort : List Nat → List Nat} {empty randn : Nat → List K} {solver : VecSolver K} {A : BST Q K → Py (BST Q K)}
    {b : BST Q K} {x0 : Option (BST Q K)} {m : Option Int} {tol : ℝ} {atol : Option ℝ} {n : Nat} {X B : BST Q K}
    (hc : compareShapes (x0.getD (randnLike randn b)) b = .ok true) (hn : bsSize b = .ok n) (hn0 : 0 < n)
    (hm : ∀ k, m = some k → 0 < k ∧ k ≤ n) (ht : 0 ≤ tol) (hat : ∀ a, atol = some a → 0 ≤ a)
    (hX : (x0.getD (randnLike randn b)).contiguous argsort empty none = .ok X) (hB : b.contiguous argsort empty none = .ok B) :
    ∃ k : Nat, 0 < k ∧ symGmres argsort empty randn solver A b x0 m tol atol = (do
      let (x, info) ← solver (gmresMatvec argsort empty A X.legs) B.data X.data tol (atol.getD tol) k
      if info < 0 then .error .valueError else .ok (plainTensor x X.legs, info, B, X)) := by
  have hm' : 0 < m.getD (min n 100) ∧ m.getD (min n 100) ≤ n := by
    cases m with
    | none => simp only [Option.getD_none]; omega
    | some k => exact hm k rfl
  refine ⟨(m.getD (min n 100)).toNat, by omega, ?_⟩
  have hat' : ¬ atol.getD tol < 0 := by
    cases atol with
    | none => simpa using ht
    | some a => simpa using hat a rfl
  rw [symGmres]
  simp only [hc, hn, hX, hB, bind, Except.bind]
  rw [if_neg (by simp), if_neg (by omega), if_neg (not_lt.2 ht), if_neg hat']

/-- **C93.**  `b` has no fused legs and is given without guess, or with a guess of the same transposition.  Then for every operator that keeps
the axes of `b` the call returns a tensor with the axes of `b`; if it reports convergence the residual of the dense forms is within the tolerances.
The arguments keep their values. -/
theorem C93_solves_partial {argsort : List Nat → List Nat} (ha : ArgsortOK argsort) {empty randn : Nat → List K}
    (he : ∀ n, (empty n).length = n) (hr : ∀ n, (randn n).length = n) {solver : VecSolver K} (hs : SolverOK solver)
    {A : BST Q K → Py (BST Q K)} {b : BST Q K} (hb : b.Valid) (ho : b.order ≠ []) (h1 : ∀ g ∈ b.order, g.length = 1) (hA : Keeps A b)
    {d : NDArray K} (hd : b.todense = .ok d) (hpos : 0 < d.shape.prod) {x0 : Option (BST Q K)}
    (hx : ∀ x, x0 = some x → x.Valid ∧ compareShapes x b = .ok true ∧ x.order = b.order) {m : Option Int}
    (hm : ∀ k, m = some k → 0 < k ∧ k ≤ d.shape.prod) {tol : ℝ} (ht : 0 ≤ tol) {atol : Option ℝ} (hat : ∀ a, atol = some a → 0 ≤ a) :
    ∃ x info b' x0', symGmres argsort empty randn solver A b x0 m tol atol = .ok (x, info, b', x0') ∧ 0 ≤ info ∧ x.Valid ∧
      axesView x = axesView b ∧ (∃ d', b'.todense = .ok d' ∧ d'.Same d ∧ axesView b' = axesView b) ∧
      (∀ g, x0 = some g → ∃ e e', g.todense = .ok e ∧ x0'.todense = .ok e' ∧ e'.Same e ∧ axesView x0' = axesView g) ∧
      (info = 0 → ∃ y dy, A x = .ok y ∧ y.todense = .ok dy ∧ dy.shape = d.shape ∧
        ddist dy d ≤ max (tol * dnorm d) (atol.getD tol)) := by
  obtain ⟨X0, hX0⟩ : ∃ X0, X0 = x0.getD (randnLike randn b) := ⟨_, rfl⟩
  obtain ⟨hXv, hXc, hXo⟩ : X0.Valid ∧ compareShapes X0 b = .ok true ∧ X0.order = b.order := by
    cases x0 with
    | none =>
      subst hX0
      obtain ⟨s, hs⟩ : ∃ s, b.shape = .ok s := by
        rw [BST.shape, if_neg fun h => hb.groups _ h rfl]; exact ⟨_, rfl⟩
      exact ⟨randnLike_valid hr hb, C89_compare_order (s := s) hs hs rfl, rfl⟩
    | some g => rw [show X0 = g from hX0]; exact hx g rfl
  have hXax : axesView X0 = axesView b := (C89_compare_partial hXc hXo).2
  obtain ⟨X, e, e', x1, x2, x3, x4, x5, x6, x7⟩ := contiguous_plain ha he hXv (hXo ▸ ho) (hXo ▸ h1)
  obtain ⟨B, d0, d', b1, b2, b3, b4, b5, b6, b7⟩ := contiguous_plain ha he hb ho h1
  rw [hd] at b3; cases b3
  have hvX : view X.legs = view B.legs := view_inj (by rw [x6, b6, hXax]) x7 b7
  have heff := eff_of_view x2.wf b2.wf hvX
  obtain ⟨k, hk, hG⟩ := symGmres_eq (argsort := argsort) (empty := empty) (solver := solver) (A := A) (hX0 ▸ hXc) (bsSize_eq hb ho hd)
    hpos hm ht hat (hX0 ▸ x1) b1
  have hoB : B.order ≠ [] := by
    intro h0
    have := congrArg (List.map List.length) b6
    rw [axesView_lengths, axesView_lengths, h0] at this
    exact ho (by simpa using this.symm)
  have hplain : ∀ v : List K, v.length = B.data.length → (plainTensor v X.legs).Valid ∧ axesView (plainTensor v X.legs) = axesView b := by
    intro v hv
    refine ⟨plain_valid x2.wf (by rw [hv, b2.size, heff]), ?_⟩
    rw [axesView_plain, hvX, ← b6, b7, axesView_plain]
    rfl
  have hmv : ∀ v : List K, v.length = B.data.length → ∃ y Y f f', A (plainTensor v X.legs) = .ok y ∧
      gmresMatvec argsort empty A X.legs v = .ok Y.data ∧ y.todense = .ok f ∧ Y.todense = .ok f' ∧ f'.Same f ∧ Y.Valid ∧
      view Y.legs = view B.legs ∧ Y = plainTensor Y.data Y.legs := by
    intro v hv
    obtain ⟨p1, p2⟩ := hplain v hv
    obtain ⟨y, y1, y2, y3⟩ := hA _ p1 p2
    have hoy : y.order ≠ [] := by
      intro h0
      have := congrArg (List.map List.length) y3
      rw [axesView_lengths, axesView_lengths, h0] at this
      exact ho (by simpa using this.symm)
    obtain ⟨Y, f, f', c1, c2, c3, c4, c5, c6, c7⟩ := contiguous_plain ha he y2 hoy (single_of_view y3 h1)
    refine ⟨y, Y, f, f', y1, ?_, c3, c4, c5, c2, view_inj (by rw [c6, y3, b6]) c7 b7, c7⟩
    rw [gmresMatvec, y1]
    change (y.contiguous argsort empty none >>= fun res => Except.ok res.data) = _
    rw [c1]; rfl
  have hlen : ∀ {Y : BST Q K}, Y.Valid → view Y.legs = view B.legs → Y.data.length = B.data.length := fun hY hv => by
    rw [hY.size, b2.size, eff_of_view hY.wf b2.wf hv]
  obtain ⟨x, info, s1, s2, s3, s4⟩ := hs (gmresMatvec argsort empty A X.legs) B.data X.data tol (atol.getD tol) k hk (hlen x2 hvX) (by
    intro v hv
    obtain ⟨y, Y, f, f', -, g1, -, -, -, g2, g3, -⟩ := hmv v hv
    exact ⟨_, g1, hlen g2 g3⟩)
  rw [s1] at hG
  obtain ⟨p1, p2⟩ := hplain x s3
  refine ⟨plainTensor x X.legs, info, B, X, ?_, s2, p1, p2, ⟨d', b4, b5, b6⟩, ?_, ?_⟩
  · rw [hG]
    change (if info < 0 then _ else _) = _
    rw [if_neg (not_lt.2 s2)]
  · intro g hg
    rw [hg] at hX0
    rw [← show X0 = g from hX0]
    exact ⟨e, e', x3, x4, x5, x6⟩
  · intro hi
    obtain ⟨w, w1, w2⟩ := s4 hi
    obtain ⟨y, Y, f, f', g0, g1, g2, g3, g4, g5, g6, g7⟩ := hmv x s3
    rw [g1] at w1; cases w1
    obtain ⟨v1, v2⟩ := vdist g5 b2 g7 b7 g6 hoB g3 b4
    have hsh : f.shape = d.shape := by rw [← g4.1, v1, b5.1]
    refine ⟨y, f, g0, g2, hsh, ?_⟩
    rw [v2, ddist_same g4 b5 hsh] at w2
    have hn : vnorm B.data = dnorm d := by
      obtain ⟨q, q1, q2⟩ := C69_norm b2 hoB
      rw [b4] at q1; cases q1
      rw [← dnorm_same b5]
      exact q2
    rwa [hn] at w2

/-- **C93.**  What is refused: a guess for which `compare_shapes` does not hold, a number of Krylov vectors below one or above the size of the dense
form, and negative tolerances. -/
theorem C93_refused {argsort : List Nat → List Nat} {empty randn : Nat → List K} {solver : VecSolver K} {A : BST Q K → Py (BST Q K)}
    {b : BST Q K} (hb : b.Valid) (ho : b.order ≠ []) {d : NDArray K} (hd : b.todense = .ok d) (x0 : BST Q K) (m : Int) (tol : ℝ)
    (atol : Option ℝ) :
    (compareShapes x0 b = .ok false → symGmres argsort empty randn solver A b (some x0) (some m) tol atol = .error .valueError) ∧
    (compareShapes x0 b = .ok true → (m ≤ 0 ∨ m > d.shape.prod ∨ tol < 0 ∨ ∃ a < 0, atol = some a) →
      symGmres argsort empty randn solver A b (some x0) (some m) tol atol = .error .valueError) := by
  have hn := bsSize_eq hb ho hd
  refine ⟨fun hc => ?_, fun hc h => ?_⟩
  · rw [symGmres]
    simp [hc, bind, Except.bind]
  · rw [symGmres]
    simp only [Option.getD_some, hc, hn, bind, Except.bind]
    rw [if_neg (by simp)]
    by_cases h1 : m ≤ 0 ∨ m > d.shape.prod
    · rw [if_pos h1]
    rw [if_neg h1]
    by_cases h2 : tol < 0
    · rw [if_pos h2]
    rw [if_neg h2]
    rcases h with h | h | h | ⟨a, ha, rfl⟩
    · exact absurd (Or.inl h) h1
    · exact absurd (Or.inr h) h1
    · exact absurd h h2
    · rw [if_pos (by simpa using ha)]

/-! ### A solver, and what fails -/

open Classical in
/-- A solver that finds a vector within the tolerances if there is one and returns the guess otherwise. -/
noncomputable def bestSolver : VecSolver K := fun mv b x0 tol atol _ =>
  if h : ∃ x : List K, x.length = b.length ∧ ∃ y, mv x = .ok y ∧ vnorm (List.zipWith (· - ·) y b) ≤ max (tol * vnorm b) atol then
    .ok (h.choose, 0) else .ok (x0, 1)

theorem bestSolver_ok : SolverOK (bestSolver (K := K)) := by
  intro mv b x0 tol atol m _ hl _
  rw [bestSolver]
  split_ifs with h
  · exact ⟨_, _, rfl, le_refl _, h.choose_spec.1, fun _ => h.choose_spec.2⟩
  · exact ⟨_, _, rfl, by decide, hl, fun h => by simp at h⟩

theorem vnorm_zero {v : List K} (h : vnorm v ≤ 0) : ∀ x ∈ v, x = 0 := by
  have h0 : (v.map fun x => ‖x‖ ^ 2).sum ≤ 0 := Real.sqrt_eq_zero'.1 (le_antisymm h (Real.sqrt_nonneg _))
  intro x hx
  have h1 : ‖x‖ ^ 2 ≤ (v.map fun x => ‖x‖ ^ 2).sum := List.single_le_sum (by simp) _ (List.mem_map_of_mem hx)
  have h2 : ‖x‖ ^ 2 = 0 := le_antisymm (h1.trans h0) (by positivity)
  simpa using h2

theorem zip_sub_eq {y b : List K} (hl : y.length = b.length) (h : ∀ x ∈ List.zipWith (· - ·) y b, x = 0) : y = b := by
  refine List.ext_getElem hl fun k k1 k2 => ?_
  exact sub_eq_zero.1 (h _ (List.mem_iff_getElem.2 ⟨k, by simp [k1, k2], by simp⟩))

/-- With the identity as operator and tolerance 0 the solver returns the right hand side. -/
theorem bestSolver_id {mv : List K → Py (List K)} {b x0 : List K} {m : Nat} (hmv : ∀ v, v.length = b.length → mv v = .ok v) :
    bestSolver mv b x0 0 0 m = .ok (b, 0) := by
  have h : ∃ x : List K, x.length = b.length ∧ ∃ y, mv x = .ok y ∧ vnorm (List.zipWith (· - ·) y b) ≤ max (0 * vnorm b) 0 :=
    ⟨b, rfl, b, hmv b rfl, by
      have : ∀ b : List K, ((List.zipWith (· - ·) b b).map fun x => ‖x‖ ^ 2).sum = 0 := by
        intro b
        induction b with
        | nil => rfl
        | cons x b ih => simp
      rw [vnorm, this]; simp⟩
  rw [bestSolver, dif_pos h]
  obtain ⟨h1, y, h2, h3⟩ := h.choose_spec
  rw [hmv _ h1] at h2
  cases h2
  rw [zip_sub_eq h1 (vnorm_zero (by simpa using h3))]

/-- `[[1, 2, 0], [0, 0, 3], [0, 0, 4]]` with the charges 0, 1, 1 of the rows and 0, 0, 1 of the columns. -/
def gmEx (order : List (List Nat)) : BST Int ℝ := ⟨[1, 2, 3, 4], [(.raw [0, 1, 1], false), (.raw [0, 0, 1], true)], order⟩

theorem gmEx_wf : LegsWF (gmEx []).legs := by
  intro l hl
  simp only [gmEx, List.mem_cons, List.not_mem_nil, or_false] at hl
  rcases hl with rfl | rfl <;> trivial

theorem gmEx_valid {order : List (List Nat)} (h : order.flatten.Perm [0, 1]) (hg : ∀ g ∈ order, g ≠ []) : (gmEx order).Valid :=
  ⟨gmEx_wf, h, hg, by change 4 = (stored (eff (gmEx []).legs)).length; decide +kernel⟩

theorem id_matvec {argsort : List Nat → List Nat} {empty : Nat → List K} (L : List (Leg Q)) (v : List K) :
    gmresMatvec argsort empty (fun T => .ok T) L v = .ok v := by
  rw [gmresMatvec]
  change (BST.contiguous argsort empty (plainTensor v L) none >>= fun res => Except.ok res.data) = _
  rw [BST.contiguous, if_pos]
  · rfl
  · simp [plainTensor, ← List.flatMap_def]

theorem bestSolver_matvec {argsort : List Nat → List Nat} {empty : Nat → List K} (L : List (Leg Q)) (b x0 : List K) (m : Nat) :
    bestSolver (gmresMatvec argsort empty (fun T => .ok T) L) b x0 0 ((none : Option ℝ).getD 0) m = .ok (b, 0) :=
  bestSolver_id fun v _ => id_matvec L v

/-- **C93**, what fails: a transposed guess is accepted, and the solution that is reported for the identity as operator and tolerance 0 is not `b`. -/
theorem C93_guess_false : ∃ (b x0 : BST Int ℝ) (x b' x0' : BST Int ℝ) (d dx : NDArray ℝ), b.Valid ∧ x0.Valid ∧
    (∀ g ∈ b.order, g.length = 1) ∧ compareShapes x0 b = .ok true ∧
    symGmres argsortI (fun n => List.replicate n 0) (fun n => List.replicate n 1) bestSolver (fun T => .ok T) b (some x0) none 0 none =
      .ok (x, 0, b', x0') ∧ b.todense = .ok d ∧ x.todense = .ok dx ∧ dx.shape = d.shape ∧ ∃ i, InB d.shape i ∧ dx.get i ≠ d.get i := by
  obtain ⟨k, -, hG⟩ := symGmres_eq (argsort := argsortI) (empty := fun n => List.replicate n (0 : ℝ)) (randn := fun n => List.replicate n 1)
    (solver := bestSolver) (A := fun T => .ok T) (b := gmEx [[0], [1]]) (x0 := some (gmEx [[1], [0]])) (m := none) (tol := 0) (atol := none)
    (n := 9) (X := ⟨[1, 2, 3, 4], [(.raw [0, 0, 1], true), (.raw [0, 1, 1], false)], [[0], [1]]⟩) (B := gmEx [[0], [1]])
    (C89_compare_order (s := [3, 3]) rfl rfl rfl) rfl (by norm_num) (by simp) (le_refl _) (by simp) rfl rfl
  rw [bestSolver_matvec] at hG
  refine ⟨gmEx [[0], [1]], gmEx [[1], [0]], _, _, _, _, _, gmEx_valid (by decide) (by decide), gmEx_valid (by decide) (by decide), by decide,
    C89_compare_order (s := [3, 3]) rfl rfl rfl, hG, rfl, rfl, rfl, [0, 1], by change InB [3, 3] _; simp [InB], ?_⟩
  change (0 : ℝ) ≠ 2
  norm_num

/-- **C93**, what fails: with fused legs the solution does not have the shape of `b`. -/
theorem C93_shape_false : ∃ (b x b' x0' : BST Int ℝ), b.Valid ∧
    symGmres argsortI (fun n => List.replicate n 0) (fun n => List.replicate n 1) bestSolver (fun T => .ok T) b none none 0 none =
      .ok (x, 0, b', x0') ∧ b.shape = .ok [9] ∧ x.shape = .ok [3, 3] := by
  obtain ⟨k, -, hG⟩ := symGmres_eq (argsort := argsortI) (empty := fun n => List.replicate n (0 : ℝ)) (randn := fun n => List.replicate n 1)
    (solver := bestSolver) (A := fun T => .ok T) (b := gmEx [[0, 1]]) (x0 := none) (m := none) (tol := 0) (atol := none)
    (n := 9) (X := ⟨[1, 1, 1, 1], (gmEx []).legs, [[0, 1]]⟩) (B := gmEx [[0, 1]])
    (C89_compare_order (s := [9]) rfl rfl rfl) rfl (by norm_num) (by simp) (le_refl _) (by simp) rfl rfl
  rw [bestSolver_matvec] at hG
  exact ⟨gmEx [[0, 1]], _, _, _, gmEx_valid (by decide) (by decide), hG, rfl, rfl⟩

/-- The operator 0. -/
def zeroOp (T : BST Int ℝ) : Py (BST Int ℝ) := .ok ⟨List.replicate T.data.length 0, T.legs, T.order⟩

theorem zeroOp_solver (x0 : List ℝ) (m : Nat) :
    bestSolver (gmresMatvec argsortI (fun n => List.replicate n 0) zeroOp (gmEx []).legs) [1, 2, 3, 4] x0 0 ((none : Option ℝ).getD 0) m =
      .ok (x0, 1) := by
  rw [bestSolver, dif_neg]
  rintro ⟨x, hx, y, hy, h⟩
  have e : gmresMatvec argsortI (fun n => List.replicate n 0) zeroOp (gmEx []).legs x = .ok (List.replicate x.length (0 : ℝ)) := by
    rw [gmresMatvec]
    change (BST.contiguous argsortI (fun n => List.replicate n 0) (plainTensor (List.replicate x.length 0) (gmEx []).legs) none >>= fun res => Except.ok res.data) = _
    rw [BST.contiguous, if_pos]
    · rfl
    · simp [plainTensor, ← List.flatMap_def]
  rw [e, hx] at hy
  cases hy
  have := vnorm_zero (by simpa using h) (0 - 1 : ℝ) (by simp)
  norm_num at this

/-- **C93**, what fails: without a guess the result is not that for the guess zero. -/
theorem C93_default_false : ∃ (b x x' b1 b2 g1 g2 : BST Int ℝ), b.Valid ∧ Keeps zeroOp b ∧
    symGmres argsortI (fun n => List.replicate n 0) (fun n => List.replicate n 1) bestSolver zeroOp b none none 0 none = .ok (x, 1, b1, g1) ∧
    symGmres argsortI (fun n => List.replicate n 0) (fun n => List.replicate n 1) bestSolver zeroOp b
      (some ⟨List.replicate b.data.length 0, b.legs, b.order⟩) none 0 none = .ok (x', 1, b2, g2) ∧
    x.data = [1, 1, 1, 1] ∧ x'.data = [0, 0, 0, 0] := by
  obtain ⟨k, -, hG⟩ := symGmres_eq (argsort := argsortI) (empty := fun n => List.replicate n (0 : ℝ)) (randn := fun n => List.replicate n 1)
    (solver := bestSolver) (A := zeroOp) (b := gmEx [[0], [1]]) (x0 := none) (m := none) (tol := 0) (atol := none)
    (n := 9) (X := ⟨[1, 1, 1, 1], (gmEx []).legs, [[0], [1]]⟩) (B := gmEx [[0], [1]])
    (C89_compare_order (s := [3, 3]) rfl rfl rfl) rfl (by norm_num) (by simp) (le_refl _) (by simp) rfl rfl
  obtain ⟨k', -, hG'⟩ := symGmres_eq (argsort := argsortI) (empty := fun n => List.replicate n (0 : ℝ)) (randn := fun n => List.replicate n 1)
    (solver := bestSolver) (A := zeroOp) (b := gmEx [[0], [1]])
    (x0 := some ⟨List.replicate 4 0, (gmEx [[0], [1]]).legs, [[0], [1]]⟩) (m := none) (tol := 0) (atol := none)
    (n := 9) (X := ⟨[0, 0, 0, 0], (gmEx []).legs, [[0], [1]]⟩) (B := gmEx [[0], [1]])
    (C89_compare_order (s := [3, 3]) rfl rfl rfl) rfl (by norm_num) (by simp) (le_refl _) (by simp) rfl rfl
  have z := zeroOp_solver
  refine ⟨gmEx [[0], [1]], _, _, _, _, _, _, gmEx_valid (by decide) (by decide), ?_, hG.trans (by rw [show (gmEx [[0], [1]]).data = [1, 2, 3, 4] from rfl, z]; rfl),
    hG'.trans (by rw [show (gmEx [[0], [1]]).data = [1, 2, 3, 4] from rfl, z]; rfl), rfl, rfl⟩
  intro T hT hv
  exact ⟨_, rfl, ⟨hT.wf, hT.perm, hT.groups, by simpa using hT.size⟩, hv⟩

/-! ### Examples -/

theorem id_keeps (b : BST Int ℝ) : Keeps (fun T => .ok T) b := fun T hT hv => ⟨T, rfl, hT, hv⟩

/-- A transposed right hand side. -/
noncomputable example := C93_solves_partial argsortI_ok (empty := fun n => List.replicate n (0 : ℝ)) (randn := fun n => List.replicate n 1) (by simp)
  (by simp) bestSolver_ok (A := fun T => .ok T) (b := gmEx [[1], [0]]) (gmEx_valid (by decide) (by decide)) (by decide) (by decide) (id_keeps _)
  rfl (by decide) (x0 := some (gmEx [[1], [0]]))
  (fun x hx => by cases hx; exact ⟨gmEx_valid (by decide) (by decide), C89_compare_order (s := [3, 3]) rfl rfl rfl, rfl⟩) (m := some 4)
  (fun k hk => by cases hk; decide) (tol := 1) (by norm_num) (atol := some 0) (fun a ha => by cases ha; norm_num)

example := (C93_refused (argsort := argsortI) (empty := fun n => List.replicate n (0 : ℝ)) (randn := fun n => List.replicate n 1)
  (solver := bestSolver) (A := fun T => .ok T) (gmEx_valid (order := [[0], [1]]) (by decide) (by decide)) (by decide) rfl (gmEx [[0], [1]]) 10 1 none).2
  (C89_compare_order (s := [3, 3]) rfl rfl rfl) (.inr (.inl (by decide)))

end
end TN.Bs
