import Verif.BsEigs

/-!
# C95: `gmres` and `eigs` of the numpy backend

backends/abstract_backend.py:478-611 and backends/numpy/numpy_backend.py:216-411.  The functions of scipy work on vectors.  Simplifications:
`A_args`, `A_kwargs`, `M`, `maxiter` and the comparison of dtypes are left out; of the dtype of `b` only the conversion `astype` is kept.
-/

set_option linter.unusedSectionVars false

namespace TN.Np

open NDArray TN.Bs

section
variable {K : Type} [RCLike K]

/-! ### The model -/

/-- `t.ravel()` -/
def vec (t : NDArray K) : List K := (grid t.shape).map t.get

/-- `v.reshape(s)` for a vector -/
def unvec (v : List K) (s : List Nat) : Py (NDArray K) :=
  if v.length = s.prod then .ok ⟨s, fun i => v.getD (ravel s i) 0⟩ else .error .valueError

/-- `matvec` (numpy_backend.py:281-282, 392-396) -/
def matvec (A : NDArray K → Py (NDArray K)) (s : List Nat) (v : List K) : Py (List K) := do
  let t ← unvec v s
  let y ← A t
  .ok (vec y)

/-- `NumPyBackend._gmres` (numpy_backend.py:392-411); `cast` is the conversion to the dtype of `b`. -/
def gmresNumpy (solver : VecSolver K) (cast : K → K) (A : NDArray K → Py (NDArray K)) (b : NDArray K) (x0 : List K) (tol atol : ℝ)
    (m : Nat) : Py (NDArray K × Int) := do
  let (x, info) ← solver (matvec A b.shape) (vec b) x0 tol atol m
  if info < 0 then .error .valueError
  else do
    let x ← unvec x b.shape
    .ok (⟨x.shape, fun i => cast (x.get i)⟩, info)

/-- `AbstractBackend.gmres` (abstract_backend.py:566-611) of the numpy backend.  For an array without axes `np.prod` returns a float, and no array can
be made with it. -/
noncomputable def gmres (solver : VecSolver K) (cast : K → K) (A : NDArray K → Py (NDArray K)) (b : NDArray K) (x0 : Option (NDArray K))
    (m : Int) (tol : ℝ) (atol : Option ℝ) : Py (NDArray K × Int) := do
  let N := b.shape.prod
  let x0 ← match x0 with
    | none => if b.shape = [] then .error .typeError else .ok (List.replicate N (0 : K))
    | some g => if g.shape ≠ b.shape then .error .valueError else if b.shape = [] then .error .typeError else .ok (vec g)
  let m := if m > N then (N : Int) else m
  if tol < 0 then .error .valueError
  else if atol.getD tol < 0 then .error .valueError
  else if m ≤ 0 then .error .valueError
  else gmresNumpy solver cast A b x0 tol (atol.getD tol) m.toNat

/-- The argument `initial_state`. -/
inductive Init (K : Type) where
  | missing
  | array (t : NDArray K)
  | other

/-- `NumPyBackend.eigs` (numpy_backend.py:261-298).  `fresh` is `self.randn(shape, dtype)`, or `none` if one of the two is not given.  The initial
state is given to the kernel as it is; here its elements. -/
def eigs (kernel : EigsKernel K) (A : NDArray K → Py (NDArray K)) (initial : Init K) (fresh : Option (NDArray K)) (ncv numeig : Nat)
    (which : String) : Py (List K × List (NDArray K)) :=
  if which = "SI" ∨ which = "LI" then .error .valueError
  else if numeig + 1 ≥ ncv then .error .valueError
  else do
    let init ← match initial with
      | .missing => match fresh with
        | none => .error .valueError
        | some t => .ok t
      | .array t => .ok t
      | .other => .error .typeError
    let (eta, U) ← kernel (matvec A init.shape) numeig which (vec init) ncv
    let V ← (List.range numeig).mapM fun n => unvec (U.getD n []) init.shape
    .ok (eta, V)

/-! ### Specification -/

/-- The operator is defined on the arrays of the shape `s` and returns such arrays. -/
def OnShape (A : NDArray K → Py (NDArray K)) (s : List Nat) : Prop := ∀ t : NDArray K, t.shape = s → ∃ y, A t = .ok y ∧ y.shape = s

/-! ### Vectors and arrays -/

theorem vec_length (t : NDArray K) : (vec t).length = t.shape.prod := by rw [vec, List.length_map, grid_length]

theorem unvec_ok {v : List K} {s : List Nat} (h : v.length = s.prod) : unvec v s = .ok ⟨s, fun i => v.getD (ravel s i) 0⟩ := if_pos h

theorem vec_unvec {v : List K} {s : List Nat} (h : v.length = s.prod) : vec (⟨s, fun i => v.getD (ravel s i) 0⟩ : NDArray K) = v := by
  refine List.ext_getElem (by rw [vec_length, h]) fun k k1 k2 => ?_
  simp only [vec, List.getElem_map, grid_getElem]
  rw [ravel_unravel (by rw [← h]; exact k2)]
  simp [k2]

theorem vnorm_vec (t : NDArray K) : vnorm (vec t) = dnorm t := by
  rw [vnorm, dnorm, vec, List.map_map]; rfl

theorem vdist_vec {s t : NDArray K} (h : s.shape = t.shape) : vnorm (List.zipWith (· - ·) (vec s) (vec t)) = ddist s t := by
  rw [vnorm, ddist, vec, vec, h]
  congr 2
  induction grid t.shape with
  | nil => rfl
  | cons i l ih => simp

theorem matvec_ok {A : NDArray K → Py (NDArray K)} {s : List Nat} (hA : OnShape A s) {v : List K} (hv : v.length = s.prod) :
    ∃ y, A ⟨s, fun i => v.getD (ravel s i) 0⟩ = .ok y ∧ y.shape = s ∧ matvec A s v = .ok (vec y) := by
  obtain ⟨y, y1, y2⟩ := hA ⟨s, fun i => v.getD (ravel s i) 0⟩ rfl
  refine ⟨y, y1, y2, ?_⟩
  rw [matvec, unvec_ok hv]
  change (A ⟨s, fun i => v.getD (ravel s i) 0⟩ >>= fun y => Except.ok (vec y)) = _
  rw [y1]; rfl

/-! ### Theorems -/

/-- **C95.**  The conversion to the dtype of `b` changes nothing.  Then for every operator on the arrays of the shape of `b` the call returns such an
array; if it reports convergence the residual is within the tolerances. -/
theorem C95_gmres_partial {solver : VecSolver K} (hs : SolverOK solver) {cast : K → K} (hc : ∀ x, cast x = x)
    {A : NDArray K → Py (NDArray K)} {b : NDArray K} (hb : b.shape ≠ []) (hpos : 0 < b.shape.prod) (hA : OnShape A b.shape)
    {x0 : Option (NDArray K)} (hx : ∀ g, x0 = some g → g.shape = b.shape) {m : Int} (hm : 0 < m) {tol : ℝ} (ht : 0 ≤ tol)
    {atol : Option ℝ} (hat : ∀ a, atol = some a → 0 ≤ a) :
    ∃ x info, gmres solver cast A b x0 m tol atol = .ok (x, info) ∧ 0 ≤ info ∧ x.shape = b.shape ∧
      (info = 0 → ∃ y, A x = .ok y ∧ y.shape = b.shape ∧ ddist y b ≤ max (tol * dnorm b) (atol.getD tol)) := by
  obtain ⟨g, g1, g2⟩ : ∃ g : List K, g.length = b.shape.prod ∧ (match x0 with
    | none => if b.shape = [] then .error .typeError else .ok (List.replicate b.shape.prod (0 : K))
    | some g => if g.shape ≠ b.shape then .error .valueError else if b.shape = [] then .error .typeError else .ok (vec g) : Py (List K)) =
      .ok g := by
    cases x0 with
    | none => exact ⟨_, by simp, if_neg hb⟩
    | some g =>
      refine ⟨vec g, by rw [vec_length, hx g rfl], ?_⟩
      simp only [hx g rfl, ne_eq, not_true_eq_false, if_false, hb]
  have hat' : ¬ atol.getD tol < 0 := by
    cases atol with
    | none => simpa using ht
    | some a => simpa using hat a rfl
  obtain ⟨k, hk, hG⟩ : ∃ k : Nat, 0 < k ∧ gmres solver cast A b x0 m tol atol = gmresNumpy solver cast A b g tol (atol.getD tol) k := by
    refine ⟨(if m > b.shape.prod then (b.shape.prod : Int) else m).toNat, by split_ifs <;> omega, ?_⟩
    cases x0 with
    | none =>
      simp only [if_neg hb] at g2
      cases g2
      simp only [gmres, if_neg hb, bind, Except.bind]
      rw [if_neg (not_lt.2 ht), if_neg hat', if_neg (by split_ifs <;> omega)]
    | some h =>
      simp only [hx h rfl, ne_eq, not_true_eq_false, if_false, hb] at g2
      cases g2
      simp only [gmres, hx h rfl, ne_eq, not_true_eq_false, if_false, hb, bind, Except.bind]
      rw [if_neg (not_lt.2 ht), if_neg hat', if_neg (by split_ifs <;> omega)]
  obtain ⟨x, info, s1, s2, s3, s4⟩ := hs (matvec A b.shape) (vec b) g tol (atol.getD tol) k hk (by rw [g1, vec_length]) (by
    intro v hv
    rw [vec_length] at hv ⊢
    obtain ⟨y, -, y2, y3⟩ := matvec_ok hA hv
    exact ⟨_, y3, by rw [vec_length, y2]⟩)
  rw [vec_length] at s3
  refine ⟨⟨b.shape, fun i => x.getD (ravel b.shape i) 0⟩, info, ?_, s2, rfl, fun hi => ?_⟩
  · rw [hG, gmresNumpy, s1]
    change (if info < 0 then _ else _) = _
    rw [if_neg (not_lt.2 s2), unvec_ok s3]
    simp only [bind, Except.bind, hc]
  · obtain ⟨w, w1, w2⟩ := s4 hi
    obtain ⟨y, y1, y2, y3⟩ := matvec_ok hA s3
    rw [y3] at w1; cases w1
    rw [vdist_vec y2, vnorm_vec] at w2
    exact ⟨y, y1, y2, w2⟩

/-- **C95.**  Without a guess the call is that with the guess zero. -/
theorem C95_default (solver : VecSolver K) (cast : K → K) (A : NDArray K → Py (NDArray K)) (b : NDArray K) (m : Int) (tol : ℝ)
    (atol : Option ℝ) : gmres solver cast A b none m tol atol = gmres solver cast A b (some ⟨b.shape, fun _ => 0⟩) m tol atol := by
  have e : vec (⟨b.shape, fun _ => 0⟩ : NDArray K) = List.replicate b.shape.prod 0 := by
    rw [vec, ← grid_length]
    exact List.map_const' ..
  simp only [gmres, e, ne_eq, not_true_eq_false, if_false]

/-- **C95.**  More Krylov vectors than elements are as many as elements. -/
theorem C95_clip (solver : VecSolver K) (cast : K → K) (A : NDArray K → Py (NDArray K)) (b : NDArray K) (x0 : Option (NDArray K)) {m : Int}
    (hm : b.shape.prod ≤ m) (tol : ℝ) (atol : Option ℝ) :
    gmres solver cast A b x0 m tol atol = gmres solver cast A b x0 b.shape.prod tol atol := by
  have e : (if m > b.shape.prod then (b.shape.prod : Int) else m) = b.shape.prod := by split_ifs <;> omega
  simp only [gmres, e, gt_iff_lt, lt_irrefl, if_false]

/-- **C95.**  What is refused: a guess of another shape, no Krylov vectors, and negative tolerances. -/
theorem C95_refused {solver : VecSolver K} {cast : K → K} {A : NDArray K → Py (NDArray K)} {b : NDArray K} (hb : b.shape ≠ [])
    {x0 : Option (NDArray K)} {m : Int} {tol : ℝ} {atol : Option ℝ}
    (h : (∃ g, x0 = some g ∧ g.shape ≠ b.shape) ∨ m ≤ 0 ∨ tol < 0 ∨ ∃ a < 0, atol = some a) :
    gmres solver cast A b x0 m tol atol = .error .valueError := by
  by_cases h0 : ∃ g, x0 = some g ∧ g.shape ≠ b.shape
  · obtain ⟨g, rfl, hg⟩ := h0
    simp [gmres, hg, bind, Except.bind]
  have h' : m ≤ 0 ∨ tol < 0 ∨ ∃ a < 0, atol = some a := h.resolve_left h0
  have key : (if tol < 0 then .error .valueError else if atol.getD tol < 0 then .error .valueError
      else if (if m > b.shape.prod then (b.shape.prod : Int) else m) ≤ 0 then .error .valueError
      else (.ok () : Py Unit)) = .error .valueError := by
    split_ifs with h1 h2 h3 h4 h5 <;> try rfl
    all_goals
      exfalso
      rcases h' with h | h | ⟨a, ha, rfl⟩
      · omega
      · exact h1 h
      · exact h2 (by simpa using ha)
  have key' : ∀ z : Py (NDArray K × Int), (if tol < 0 then .error .valueError else if atol.getD tol < 0 then .error .valueError
      else if (if m > b.shape.prod then (b.shape.prod : Int) else m) ≤ 0 then .error .valueError else z) = .error .valueError := by
    intro z
    split_ifs at key ⊢ <;> rfl
  cases x0 with
  | none => simp only [gmres, if_neg hb, bind, Except.bind]; exact key' _
  | some g =>
    have hg : g.shape = b.shape := by
      by_contra hg
      exact h0 ⟨g, rfl, hg⟩
    simp only [gmres, hg, ne_eq, not_true_eq_false, if_false, if_neg hb, bind, Except.bind]
    exact key' _

/-- **C95.**  For every operator on the arrays of the shape of the initial state `eigs` raises if the kernel does, and otherwise returns `numeig` numbers
and `numeig` arrays of that shape and norm 1; the residuals are at most those of the kernel. -/
theorem C95_eigs {ε : ℝ} {kernel : EigsKernel K} (hk : EigsOK ε kernel) {A : NDArray K → Py (NDArray K)} {b : NDArray K}
    (hA : OnShape A b.shape) {initial : Init K} {fresh : Option (NDArray K)} (hi : initial = .array b ∨ initial = .missing ∧ fresh = some b)
    {ncv numeig : Nat} {which : String} (hw : which ≠ "SI" ∧ which ≠ "LI") (hn : numeig + 1 < ncv) :
    (∃ e mv v0, v0.length = b.shape.prod ∧ kernel mv numeig which v0 ncv = .error e ∧ eigs kernel A initial fresh ncv numeig which = .error e) ∨
    ∃ eta V, eigs kernel A initial fresh ncv numeig which = .ok (eta, V) ∧ eta.length = numeig ∧ V.length = numeig ∧
      ∀ n (h : n < V.length), V[n].shape = b.shape ∧ dnorm V[n] = 1 ∧
        ∃ y, A V[n] = .ok y ∧ y.shape = b.shape ∧ ddist y (dscale (eta.getD n 0) V[n]) ≤ ε := by
  have hS : eigs kernel A initial fresh ncv numeig which = (kernel (matvec A b.shape) numeig which (vec b) ncv >>= fun p =>
      ((List.range numeig).mapM fun n => unvec (p.2.getD n []) b.shape) >>= fun V => .ok (p.1, V)) := by
    rw [eigs, if_neg (by tauto), if_neg (by omega)]
    rcases hi with rfl | ⟨rfl, rfl⟩ <;> rfl
  cases hK : kernel (matvec A b.shape) numeig which (vec b) ncv with
  | error e => exact .inl ⟨e, _, _, vec_length b, hK, by rw [hS, hK]; rfl⟩
  | ok p =>
  obtain ⟨eta, U⟩ := p
  right
  obtain ⟨k2, -, k4⟩ := hk (matvec A b.shape) numeig which (vec b) ncv hn (by
    intro v hv
    rw [vec_length] at hv ⊢
    obtain ⟨y, -, y2, y3⟩ := matvec_ok hA hv
    exact ⟨_, y3, by rw [vec_length, y2]⟩) eta U hK
  have hV : ((List.range numeig).mapM fun n => unvec (U.getD n []) b.shape) =
      .ok ((List.range numeig).map fun n => (⟨b.shape, fun i => (U.getD n []).getD (ravel b.shape i) 0⟩ : NDArray K)) := by
    have : ∀ l : List Nat, (∀ n ∈ l, n < numeig) → (l.mapM fun n => unvec (U.getD n []) b.shape) =
        .ok (l.map fun n => (⟨b.shape, fun i => (U.getD n []).getD (ravel b.shape i) 0⟩ : NDArray K)) := by
      intro l hl
      induction l with
      | nil => rfl
      | cons n l ih =>
        rw [List.mapM_cons, unvec_ok (by rw [(k4 n (hl n (by simp))).1, vec_length]), ih fun n hn => hl n (by simp [hn])]
        rfl
    exact this _ fun n hn => List.mem_range.1 hn
  refine ⟨eta, _, by rw [hS, hK]; exact congrArg (· >>= fun V => Except.ok (eta, V)) hV, k2, by simp, fun n h => ?_⟩
  rw [List.length_map, List.length_range] at h
  rw [List.getElem_map, List.getElem_range]
  obtain ⟨l1, l2, w, w1, w2⟩ := k4 n h
  rw [vec_length] at l1
  obtain ⟨y, y1, y2, y3⟩ := matvec_ok hA l1
  rw [y3] at w1; cases w1
  refine ⟨rfl, by rw [← vnorm_vec, vec_unvec l1]; exact l2, y, y1, y2, ?_⟩
  rw [← vdist_vec (by rw [y2]; rfl)]
  have e : vec (dscale (eta.getD n 0) (⟨b.shape, fun i => (U.getD n []).getD (ravel b.shape i) 0⟩ : NDArray K)) =
      (U.getD n []).map fun x => eta.getD n 0 * x := by
    conv_rhs => rw [← vec_unvec l1]
    rw [vec, vec, List.map_map]
    rfl
  rw [e]
  exact w2

/-- **C95.**  What `eigs` refuses. -/
theorem C95_eigs_refused {kernel : EigsKernel K} {A : NDArray K → Py (NDArray K)} {initial : Init K} {fresh : Option (NDArray K)}
    {ncv numeig : Nat} {which : String} :
    (which = "SI" ∨ which = "LI" ∨ ncv ≤ numeig + 1 ∨ initial = .missing ∧ fresh = none →
      eigs kernel A initial fresh ncv numeig which = .error .valueError) ∧
    (which ≠ "SI" → which ≠ "LI" → numeig + 1 < ncv → initial = .other →
      eigs kernel A initial fresh ncv numeig which = .error .typeError) := by
  constructor
  · intro h
    rw [eigs]
    split_ifs with h1 h2
    · rfl
    · rfl
    · rcases h with h | h | h | ⟨rfl, rfl⟩
      · exact absurd (Or.inl h) h1
      · exact absurd (Or.inr h) h1
      · omega
      · rfl
  · intro h1 h2 h3 h4
    rw [eigs, if_neg (by tauto), if_neg (by omega), h4]
    rfl

/-! ### What fails -/

/-- **C95**, what fails: an array without axes is refused. -/
theorem C95_scalar_false {solver : VecSolver K} {cast : K → K} {A : NDArray K → Py (NDArray K)} {b : NDArray K} (hb : b.shape = [])
    {m : Int} {tol : ℝ} {atol : Option ℝ} : gmres solver cast A b none m tol atol = .error .typeError := by
  simp [gmres, hb, bind, Except.bind]

/-- Twice an array. -/
def twice (t : NDArray ℝ) : Py (NDArray ℝ) := .ok ⟨t.shape, fun i => 2 * t.get i⟩

/-- `[1]` -/
def one : NDArray ℝ := ⟨[1], fun _ => 1⟩

/-- The conversion of a real number to an integer. -/
noncomputable def trunc (x : ℝ) : ℝ := ((if 0 ≤ x then ⌊x⌋ else ⌈x⌉ : ℤ) : ℝ)

/-- **C95**, what fails: for an array of integers the solution is rounded towards zero although convergence is reported. -/
theorem C95_integer_false : ∃ x : NDArray ℝ, (∀ i, trunc (one.get i) = one.get i) ∧ OnShape twice one.shape ∧
    gmres bestSolver trunc twice one none 1 0 none = .ok (x, 0) ∧ ∃ y, twice x = .ok y ∧ ddist y one = 1 := by
  have hA : OnShape twice one.shape := fun t ht => ⟨_, rfl, ht⟩
  have hsol : ∀ x0 k, bestSolver (matvec twice [1]) [1] x0 0 0 k = .ok ([(1 / 2 : ℝ)], 0) := by
    intro x0 k
    have hmv : ∀ z : ℝ, matvec twice [1] [z] = .ok [2 * z] := fun z => rfl
    have h : ∃ x : List ℝ, x.length = [(1 : ℝ)].length ∧ ∃ y, matvec twice [1] x = .ok y ∧
        vnorm (List.zipWith (· - ·) y [(1 : ℝ)]) ≤ max (0 * vnorm [(1 : ℝ)]) 0 :=
      ⟨[1 / 2], rfl, _, hmv _, by simp [vnorm]⟩
    rw [bestSolver, dif_pos h]
    obtain ⟨h1, y, h2, h3⟩ := h.choose_spec
    obtain ⟨z, hz⟩ := List.length_eq_one_iff.1 h1
    rw [hz] at h2 ⊢
    rw [hmv] at h2
    cases h2
    have := vnorm_zero (by simpa using h3) (2 * z - 1) (by simp)
    rw [show z = 1 / 2 by linarith]
  refine ⟨⟨[1], fun i => trunc ([(1 / 2 : ℝ)].getD (ravel [1] i) 0)⟩, fun i => by simp [one, trunc], hA, ?_, _, rfl, ?_⟩
  · have e : vec one = [1] := rfl
    simp only [gmres, gmresNumpy, e, show one.shape = [1] from rfl, bind, Except.bind]
    rw [if_neg (by simp)]
    simp only [Option.getD_none, lt_irrefl, if_false]
    rw [if_neg (by norm_num), hsol]
    rfl
  · have : ravel [1] [0] = 0 := rfl
    have hf : ⌊(2 : ℝ)⁻¹⌋ = 0 := by rw [Int.floor_eq_zero_iff]; constructor <;> norm_num
    simp [ddist, grid, one, this, hf, trunc]

/-! ### Examples -/

noncomputable example := C95_gmres_partial (bestSolver_ok (K := ℝ)) (cast := fun x => x) (fun _ => rfl) (A := twice) (b := ⟨[2, 3], fun i => i.length⟩)
  (by simp) (by decide) (fun t ht => ⟨_, rfl, ht⟩) (x0 := some ⟨[2, 3], fun _ => 5⟩) (fun g hg => by cases hg; rfl) (m := 100) (by decide) (tol := 1)
  (by norm_num) (atol := none) (by simp)

noncomputable example := C95_eigs (bestEigs_ok (K := ℝ) 0) (A := twice) (b := ⟨[2, 3], fun _ => 1⟩) (fun t ht => ⟨_, rfl, ht⟩)
  (initial := .array ⟨[2, 3], fun _ => 1⟩) (fresh := none) (.inl rfl) (ncv := 5) (numeig := 2) (which := "LM") (by decide) (by decide)

example := C95_refused (solver := bestSolver (K := ℝ)) (cast := fun x => x) (A := twice) (b := one) (by simp [one])
  (x0 := some ⟨[2], fun _ => 5⟩) (m := 1) (tol := 1) (atol := none) (.inl ⟨_, rfl, by simp [one]⟩)

example := C95_clip (bestSolver (K := ℝ)) (fun x => x) twice one none (m := 7) (by decide) 1 none

end
end TN.Np
