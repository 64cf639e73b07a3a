import Verif.ExMeraShift
import Verif.DecompProps
import Verif.MpsKernel

/-!
# C91: the updates of the example `simple_mera`

examples/simple_mera/simple_mera.py:145-301.
-/

set_option linter.unusedSectionVars false

namespace TN.Mera

open TN Finset

/-- `jax.grad(E, holomorphic=True)` at `w` of a function that need not be holomorphic: jax applies the transposed derivative to the cotangent 1,
which gives `∂(Re E)/∂x - i ∂(Re E)/∂y` for every entry `x + i y`. -/
noncomputable def entryGrad (E : NDArray ℂ → ℂ) (w : NDArray ℂ) : NDArray ℂ :=
  ⟨w.shape, fun i => ((deriv (fun s : ℝ => (E (setEntry w i (w.get i + s))).re) 0 : ℝ) : ℂ) -
    Complex.I * ((deriv (fun s : ℝ => (E (setEntry w i (w.get i + s * Complex.I))).re) 0 : ℝ) : ℂ)⟩

/-- `env_iso` (simple_mera.py:145) -/
noncomputable def envIso (op rho iso dis : NDArray ℂ) : NDArray ℂ := entryGrad (fun w => energy op rho w dis) iso

/-- `env_dis` (simple_mera.py:164) -/
noncomputable def envDis (op rho iso dis : NDArray ℂ) : NDArray ℂ := entryGrad (fun w => energy op rho iso w) dis

/-- The kernel of `jnp.linalg.svd`. -/
abbrev SvdKernel := NDArray ℂ → NDArray ℂ × List ℝ × NDArray ℂ

/-- The common part of the two updates: the node of the environment is split by `split_node_full_svd` between its first `pivot` edges and the rest
(GraphSplitFull2, C17), the edges `s1` and `s2` of the outer nodes are disconnected from the node of the singular values and
connected to each other, the two nodes are contracted, and the result is conjugated (simple_mera.py:200-213, 231-244). -/
noncomputable def polar (kernel : SvdKernel) (env : NDArray ℂ) (pivot : Nat) : Py (NDArray ℂ) := do
  let (u, _, vh, _) ← Decomp.svd kernel env pivot none none false
  let res ← u.tensordot vh [pivot] [0]
  pure (conjT res)

/-- `update_iso` (simple_mera.py:184-213).  Shapes that do not fit are not rejected here; the theorems are about those that do. -/
noncomputable def updateIso (kernel : SvdKernel) (op rho iso dis : NDArray ℂ) : Py (NDArray ℂ) :=
  polar kernel (envIso op rho iso dis) 2

/-- `update_dis` (simple_mera.py:216-244) -/
noncomputable def updateDis (kernel : SvdKernel) (op rho iso dis : NDArray ℂ) : Py (NDArray ℂ) :=
  polar kernel (envDis op rho iso dis) 2

/-- What is assumed of the kernel. -/
def KernelOK (kernel : SvdKernel) : Prop := ∀ (m : NDArray ℂ) (a b : Nat), m.shape = [a, b] →
  Decomp.IsSvd m (kernel m).1 (kernel m).2.1 (kernel m).2.2

/-! ### The polar factor -/

/-- Orthonormal columns. -/
def Cols {m n : Nat} (X : Fin m → Fin n → ℂ) : Prop := ∀ l l', ∑ k, X k l * star (X k l') = if l = l' then 1 else 0

theorem re_mul_le (x y : ℂ) : (x * y).re ≤ ((star x * x).re + (y * star y).re) / 2 := by
  simp only [Complex.mul_re, Complex.star_def, Complex.conj_re, Complex.conj_im]
  nlinarith [sq_nonneg (x.re - y.re), sq_nonneg (x.im + y.im)]

/-- The trace with a matrix of orthonormal columns is at most the sum of the singular values. -/
theorem trace_le {m n : Nat} {u : Fin m → Fin n → ℂ} {v : Fin n → Fin n → ℂ} {s : Fin n → ℝ}
    (hs : ∀ x, 0 ≤ s x) (hu : ∀ x y, ∑ i, star (u i x) * u i y = if x = y then 1 else 0)
    (hv : ∀ x y, ∑ j, v x j * star (v y j) = if x = y then 1 else 0) {X : Fin m → Fin n → ℂ} (hX : Cols X) :
    (∑ i, ∑ j, (∑ x, u i x * (s x : ℂ) * v x j) * X i j).re ≤ ∑ x, s x := by
  have h1 : (∑ i, ∑ j, (∑ x, u i x * (s x : ℂ) * v x j) * X i j) = ∑ x, (s x : ℂ) * ∑ i, u i x * ∑ j, v x j * X i j := by
    simp only [sum_mul, mul_sum]
    rw [sum_congr rfl fun i _ => sum_comm, sum_comm]
    exact sum_congr rfl fun x _ => sum_congr rfl fun i _ => sum_congr rfl fun j _ => by ring
  rw [h1, Complex.re_sum]
  refine sum_le_sum fun x _ => ?_
  rw [Complex.re_ofReal_mul]
  refine mul_le_of_le_one_right (hs x) ?_
  rw [Complex.re_sum]
  refine (sum_le_sum fun i _ => re_mul_le _ _).trans ?_
  rw [← sum_div, sum_add_distrib, ← Complex.re_sum, ← Complex.re_sum, hu x x, if_pos rfl]
  have h2 : ∑ i, (∑ j, v x j * X i j) * star (∑ j, v x j * X i j) = 1 := by
    have h3 : ∀ i, (∑ j, v x j * X i j) * star (∑ j, v x j * X i j) = ∑ j, ∑ j', v x j * star (v x j') * (X i j * star (X i j')) := by
      intro i
      rw [star_sum, sum_mul_sum]
      exact sum_congr rfl fun j _ => sum_congr rfl fun j' _ => by rw [star_mul']; ring
    rw [sum_congr rfl fun i _ => h3 i, sum_comm, sum_congr rfl fun j _ => sum_comm]
    simp only [← mul_sum, hX _ _, mul_ite, mul_one, mul_zero, sum_ite_eq, mem_univ, if_true]
    rw [hv x x, if_pos rfl]
  rw [h2]
  norm_num

theorem polar_value {m n : Nat} {u : Fin m → Fin n → ℂ} {v : Fin n → Fin n → ℂ} {s : Fin n → ℝ}
    (hu : ∀ x y, ∑ i, star (u i x) * u i y = if x = y then 1 else 0)
    (hv : ∀ x y, ∑ j, v x j * star (v y j) = if x = y then 1 else 0) :
    (∑ i, ∑ j, (∑ x, u i x * (s x : ℂ) * v x j) * star (∑ y, u i y * v y j)) = ∑ x, (s x : ℂ) := by
  have h1 : ∀ i j, (∑ x, u i x * (s x : ℂ) * v x j) * star (∑ y, u i y * v y j) =
      ∑ x, ∑ y, (s x : ℂ) * (star (u i y) * u i x) * (v x j * star (v y j)) := by
    intro i j
    rw [star_sum, sum_mul_sum]
    exact sum_congr rfl fun x _ => sum_congr rfl fun y _ => by rw [star_mul']; ring
  have h2 : (∑ i, ∑ j, (∑ x, u i x * (s x : ℂ) * v x j) * star (∑ y, u i y * v y j)) =
      ∑ x, ∑ y, (s x : ℂ) * (∑ i, star (u i y) * u i x) * (∑ j, v x j * star (v y j)) := by
    simp only [h1]
    rw [sum_congr rfl fun i _ => sum_comm, sum_comm]
    refine sum_congr rfl fun x _ => ?_
    rw [sum_congr rfl fun i _ => sum_comm, sum_comm]
    refine sum_congr rfl fun y _ => ?_
    simp only [mul_sum, sum_mul]
    rw [sum_comm]
  rw [h2]
  refine sum_congr rfl fun x _ => ?_
  rw [sum_eq_single x (fun y _ hy => by rw [hv x y, if_neg (Ne.symm hy), mul_zero]) (by simp), hu, hv, if_pos rfl, mul_one, mul_one]

theorem polar_cols {m n : Nat} {u : Fin m → Fin n → ℂ} {v : Fin n → Fin n → ℂ}
    (hu : ∀ x y, ∑ i, star (u i x) * u i y = if x = y then 1 else 0)
    (hv : ∀ x y, ∑ j, v x j * star (v y j) = if x = y then 1 else 0) :
    Cols fun i j => star (∑ y, u i y * v y j) := by
  have hv' : ∀ j j', ∑ x, star (v x j) * v x j' = if j = j' then 1 else 0 := by
    have h1 : (Matrix.of v) * (Matrix.of v).conjTranspose = 1 := by
      ext x y
      rw [Matrix.mul_apply, Matrix.one_apply]
      exact hv x y
    have h2 := mul_eq_one_comm.1 h1
    intro j j'
    have h3 := congrFun (congrFun h2 j) j'
    rw [Matrix.mul_apply, Matrix.one_apply] at h3
    exact h3
  intro l l'
  have h1 : ∀ k, star (∑ y, u k y * v y l) * star (star (∑ y, u k y * v y l')) = ∑ x, ∑ y, (star (u k x) * u k y) * (star (v x l) * v y l') := by
    intro k
    rw [star_star, star_sum, sum_mul_sum]
    exact sum_congr rfl fun x _ => sum_congr rfl fun y _ => by rw [star_mul']; ring
  simp only [h1]
  rw [sum_comm, sum_congr rfl fun x _ => sum_comm]
  simp only [← sum_mul, hu, ite_mul, one_mul, zero_mul, sum_ite_eq, mem_univ, if_true]
  exact hv' l l'

/-! ### The updates -/

/-- The columns of a tensor are orthonormal. -/
def IsoT (A B : List Nat) (w : NDArray ℂ) : Prop := ∀ j j', InB B j → InB B j' →
  (sumIdx A fun i => w.get (i ++ j) * star (w.get (i ++ j'))) = if j = j' then 1 else 0

theorem sumIdx_fin (s : List Nat) (f : List Nat → ℂ) : sumIdx s f = ∑ k : Fin s.prod, f (unravel s k) := by
  rw [← sum_range_unravel, Fin.sum_univ_eq_sum_range (fun k => f (unravel s k))]

theorem cols_iff {A B : List Nat} {w : NDArray ℂ} :
    IsoT A B w ↔ Cols fun (k : Fin A.prod) (l : Fin B.prod) => w.get (unravel A k ++ unravel B l) := by
  constructor
  · intro h l l'
    have := h _ _ (unravel_inB l.2) (unravel_inB l'.2)
    rw [sumIdx_fin] at this
    rw [this]
    have e : unravel B l = unravel B l' ↔ l = l' :=
      ⟨fun q => Fin.ext (by rw [← ravel_unravel l.2, q, ravel_unravel l'.2]), fun q => by rw [q]⟩
    simp only [e]
  · intro h j j' hj hj'
    have := h ⟨ravel B j, ravel_lt hj⟩ ⟨ravel B j', ravel_lt hj'⟩
    simp only [unravel_ravel hj, unravel_ravel hj'] at this
    rw [sumIdx_fin, this]
    have e : (⟨ravel B j, ravel_lt hj⟩ : Fin B.prod) = ⟨ravel B j', ravel_lt hj'⟩ ↔ j = j' :=
      ⟨fun q => by rw [← unravel_ravel hj, Fin.mk.inj q, unravel_ravel hj'], fun q => by subst q; rfl⟩
    simp only [e]

/-- The sum of the products of the entries. -/
noncomputable def pairing (s : List Nat) (env w : NDArray ℂ) : ℂ := sumIdx s fun i => env.get i * w.get i

/-- What the updates compute, for any factors. -/
theorem best_of_factors {A B : List Nat} {env u vh w : NDArray ℂ} {S : List ℝ} (hn : S.length = B.prod) (hS : ∀ x ∈ S, 0 ≤ x)
    (hu : Decomp.LeftIsometry u A S.length) (hv : Decomp.RightIsometry vh B S.length)
    (he : ∀ i j, InB A i → InB B j → env.get (i ++ j) = ∑ x ∈ range S.length, u.get (i ++ [x]) * ((S.getD x 0 : ℝ) : ℂ) * vh.get (x :: j))
    (hw : ∀ i j, InB A i → InB B j → w.get (i ++ j) = star (∑ x ∈ range S.length, u.get (i ++ [x]) * vh.get (x :: j))) :
    IsoT A B w ∧ (pairing (A ++ B) env w = ((S.sum : ℝ) : ℂ)) ∧ ∀ X, IsoT A B X → (pairing (A ++ B) env X).re ≤ S.sum := by
  obtain ⟨m, hm⟩ : ∃ m, m = A.prod := ⟨_, rfl⟩
  have hw' : (fun (k : Fin A.prod) (l : Fin B.prod) => w.get (unravel A k ++ unravel B l)) =
      fun (k : Fin A.prod) (l : Fin B.prod) => star (∑ x : Fin B.prod, u.get (unravel A k ++ [(x : Nat)]) * vh.get ((x : Nat) :: unravel B l)) := by
    funext k l
    rw [hw _ _ (unravel_inB k.2) (unravel_inB l.2), hn, Fin.sum_univ_eq_sum_range (fun x => u.get (unravel A k ++ [x]) * vh.get (x :: unravel B l))]
  have he' : ∀ (k : Fin A.prod) (l : Fin B.prod), env.get (unravel A k ++ unravel B l) =
      ∑ x : Fin B.prod, u.get (unravel A k ++ [(x : Nat)]) * ((S.getD x 0 : ℝ) : ℂ) * vh.get ((x : Nat) :: unravel B l) := by
    intro k l
    rw [he _ _ (unravel_inB k.2) (unravel_inB l.2), hn,
      Fin.sum_univ_eq_sum_range (fun x => u.get (unravel A k ++ [x]) * ((S.getD x 0 : ℝ) : ℂ) * vh.get (x :: unravel B l))]
  have hu' : ∀ x y : Fin B.prod, ∑ k : Fin A.prod, star (u.get (unravel A k ++ [(x : Nat)])) * u.get (unravel A k ++ [(y : Nat)]) = if x = y then 1 else 0 := by
    intro x y
    have := hu x (by rw [hn]; exact x.2) y (by rw [hn]; exact y.2)
    rw [sumIdx_fin] at this
    rw [this]; simp only [Fin.ext_iff]
  have hv' : ∀ x y : Fin B.prod, ∑ l : Fin B.prod, vh.get ((x : Nat) :: unravel B l) * star (vh.get ((y : Nat) :: unravel B l)) = if x = y then 1 else 0 := by
    intro x y
    have := hv x (by rw [hn]; exact x.2) y (by rw [hn]; exact y.2)
    rw [sumIdx_fin] at this
    rw [this]; simp only [Fin.ext_iff]
  have hsum : S.sum = ∑ x : Fin B.prod, S.getD x 0 := by
    have h1 : ∀ l : List ℝ, l.sum = ∑ x ∈ range l.length, l.getD x 0 := by
      intro l
      induction l with
      | nil => rfl
      | cons x l ih => rw [List.sum_cons, List.length_cons, sum_range_succ', ih, add_comm]; rfl
    rw [h1, hn, Fin.sum_univ_eq_sum_range (fun x => S.getD x 0)]
  have hp : ∀ X : NDArray ℂ, pairing (A ++ B) env X = ∑ k : Fin A.prod, ∑ l : Fin B.prod,
      (∑ x : Fin B.prod, u.get (unravel A k ++ [(x : Nat)]) * ((S.getD x 0 : ℝ) : ℂ) * vh.get ((x : Nat) :: unravel B l)) *
        X.get (unravel A k ++ unravel B l) := by
    intro X
    rw [pairing, sumIdx_append, sumIdx_fin]
    refine sum_congr rfl fun k _ => ?_
    rw [sumIdx_fin]
    exact sum_congr rfl fun l _ => by rw [he']
  refine ⟨cols_iff.2 (by rw [hw']; exact polar_cols hu' hv'), ?_, fun X hX => ?_⟩
  · rw [hp w]
    have h2 : ∀ (k : Fin A.prod) (l : Fin B.prod), w.get (unravel A k ++ unravel B l) = _ := fun k l => congrFun (congrFun hw' k) l
    simp only [h2]
    rw [polar_value (s := fun x : Fin B.prod => S.getD x 0) hu' hv', hsum, Complex.ofReal_sum]
  · rw [hp X, hsum]
    refine trace_le (s := fun x : Fin B.prod => S.getD x 0) (fun x => ?_) hu' hv' (cols_iff.1 hX)
    have hx : (x : Nat) < S.length := by rw [hn]; exact x.2
    rw [List.getD_eq_getElem _ _ hx]
    exact hS _ (List.getElem_mem hx)

theorem polar_ok {kernel : SvdKernel} (hk : KernelOK kernel) {env : NDArray ℂ} {p : Nat}
    (hd : (env.shape.drop p).prod ≤ (env.shape.take p).prod) :
    ∃ (u vh : NDArray ℂ) (S : List ℝ), S.length = (env.shape.drop p).prod ∧ (∀ x ∈ S, 0 ≤ x) ∧ u.shape = env.shape.take p ++ [S.length] ∧
      vh.shape = S.length :: env.shape.drop p ∧ Decomp.LeftIsometry u (env.shape.take p) S.length ∧
      Decomp.RightIsometry vh (env.shape.drop p) S.length ∧ (polar kernel env p = (u.tensordot vh [p] [0]).map conjT) ∧
      ∀ i j, InB (env.shape.take p) i → InB (env.shape.drop p) j →
        env.get (i ++ j) = ∑ x ∈ range S.length, u.get (i ++ [x]) * ((S.getD x 0 : ℝ) : ℂ) * vh.get (x :: j) := by
  obtain ⟨m, hm, hms, _⟩ := Decomp.reshape_matrix (List.take_append_drop p env.shape).symm
  have hsv := hk m _ _ hms
  obtain ⟨U, S, V, hUSV⟩ : ∃ U S V, kernel m = (U, S, V) := ⟨_, _, _, rfl⟩
  rw [hUSV] at hsv
  obtain ⟨u, s, vh, rest, h1, h2, _, h4, _, h6, h7, h8, h9⟩ := Decomp.C29_svd_exact (relative := false) hm hUSV hsv
  obtain ⟨⟨a, b, q1, _, _, q4, _⟩, q5, _⟩ := hsv
  rw [hms] at q1
  simp only [List.cons.injEq, and_true] at q1
  obtain ⟨rfl, rfl⟩ := q1
  refine ⟨u, vh, S, by rw [q4]; exact min_eq_right hd, q5, h2, h4, h7, h8, ?_, fun i j hi hj => ?_⟩
  · rw [polar, h1]
    show (u.tensordot vh [p] [0] >>= fun res => pure (conjT res)) = _
    cases u.tensordot vh [p] [0] <;> rfl
  · rw [h9 i j hi hj]
    exact sum_congr rfl fun x hx => by rw [h6 x (mem_range.1 hx)]; rfl

/-- **C91.**  If the isometry has at most as many columns as rows, `update_iso` returns an isometry, and among all isometries it has the
largest real part of the sum of the products with the entries of the environment. -/
theorem C91_update_iso {a b t e : Nat} {kernel : SvdKernel} (hk : KernelOK kernel) {op rho iso dis : NDArray ℂ} (f : Fits a b t e op rho iso dis)
    (hd : t ≤ a * b) : ∃ w, updateIso kernel op rho iso dis = .ok w ∧ w.shape = [a, b, t] ∧ IsIso a b t w ∧
      ∀ v, IsIso a b t v → (pairing [a, b, t] (envIso op rho iso dis) v).re ≤ (pairing [a, b, t] (envIso op rho iso dis) w).re := by
  have hs : (envIso op rho iso dis).shape = [a, b, t] := f.iso
  obtain ⟨u, vh, S, g1, g2, g3, g4, g5, g6, g7, g8⟩ := polar_ok hk (env := envIso op rho iso dis) (p := 2) (by rw [hs]; simpa using hd)
  rw [hs] at g1 g3 g4 g5 g6 g8
  simp only [List.take_succ_cons, List.take_zero, List.drop_succ_cons, List.drop_zero, List.cons_append, List.nil_append] at g1 g3 g4 g5 g6 g8
  have ht : ∃ r, u.tensordot vh [2] [0] = .ok r ∧ r.shape = [a, b, t] ∧ ∀ i j k, r.get [i, j, k] = ∑ x ∈ range S.length, u.get [i, j, x] * vh.get [x, k] := by
    refine ⟨_, by rw [NDArray.tensordot, if_pos (by simp [NDArray.ndim, g3, g4])], ?_, fun i j k => ?_⟩
    · simp [NDArray.ndim, g3, g4, NDArray.freeAxes, List.range_succ]
    · simp [NDArray.ndim, g3, g4, NDArray.freeAxes, List.range_succ, NDArray.mergeIdx, sumIdx]
  obtain ⟨r, r1, r2, r3⟩ := ht
  obtain ⟨e1, e2, e3⟩ := best_of_factors (A := [a, b]) (B := [t]) (env := envIso op rho iso dis) (w := conjT r) (by simpa using g1) g2 g5 g6 g8
    (fun i j hi hj => by
      obtain ⟨i0, i1, rfl⟩ : ∃ i0 i1, i = [i0, i1] := List.length_eq_two.1 hi.length
      obtain ⟨j0, rfl⟩ : ∃ j0, j = [j0] := List.length_eq_one_iff.1 hj.length
      exact congrArg star (r3 i0 i1 j0))
  have hI : ∀ v, IsoT [a, b] [t] v ↔ IsIso a b t v := by
    intro v
    constructor
    · intro h r hr s hs
      refine (h [r] [s] (by simpa using hr) (by simpa using hs)).trans ?_
      simp only [List.cons.injEq, and_true]
    · intro h j j' hj hj'
      obtain ⟨j0, rfl⟩ : ∃ j0, j = [j0] := List.length_eq_one_iff.1 hj.length
      obtain ⟨j1, rfl⟩ : ∃ j0, j' = [j0] := List.length_eq_one_iff.1 hj'.length
      refine (h j0 (by simpa using hj) j1 (by simpa using hj')).trans ?_
      simp only [List.cons.injEq, and_true]
  refine ⟨conjT r, by rw [updateIso, g7, r1]; rfl, r2, (hI _).1 e1, fun v hv => ?_⟩
  have e2' : pairing [a, b, t] (envIso op rho iso dis) (conjT r) = ((S.sum : ℝ) : ℂ) := e2
  rw [e2', Complex.ofReal_re]
  exact e3 v ((hI v).2 hv)

/-- **C91.**  The same for `update_dis`. -/
theorem C91_update_dis {a b t e : Nat} {kernel : SvdKernel} (hk : KernelOK kernel) {op rho iso dis : NDArray ℂ} (f : Fits a b t e op rho iso dis)
    (hd : b * a ≤ e * e) : ∃ w, updateDis kernel op rho iso dis = .ok w ∧ w.shape = [e, e, b, a] ∧ IsUni a b e w ∧
      ∀ v, IsUni a b e v → (pairing [e, e, b, a] (envDis op rho iso dis) v).re ≤ (pairing [e, e, b, a] (envDis op rho iso dis) w).re := by
  have hs : (envDis op rho iso dis).shape = [e, e, b, a] := f.dis
  obtain ⟨u, vh, S, g1, g2, g3, g4, g5, g6, g7, g8⟩ := polar_ok hk (env := envDis op rho iso dis) (p := 2) (by rw [hs]; simpa using hd)
  rw [hs] at g1 g3 g4 g5 g6 g8
  simp only [List.take_succ_cons, List.take_zero, List.drop_succ_cons, List.drop_zero, List.cons_append, List.nil_append] at g1 g3 g4 g5 g6 g8
  have ht : ∃ r, u.tensordot vh [2] [0] = .ok r ∧ r.shape = [e, e, b, a] ∧
      ∀ i j k l, r.get [i, j, k, l] = ∑ x ∈ range S.length, u.get [i, j, x] * vh.get [x, k, l] := by
    refine ⟨_, by rw [NDArray.tensordot, if_pos (by simp [NDArray.ndim, g3, g4])], ?_, fun i j k l => ?_⟩
    · simp [NDArray.ndim, g3, g4, NDArray.freeAxes, List.range_succ]
    · simp [NDArray.ndim, g3, g4, NDArray.freeAxes, List.range_succ, NDArray.mergeIdx, sumIdx]
  obtain ⟨r, r1, r2, r3⟩ := ht
  obtain ⟨e1, e2, e3⟩ := best_of_factors (A := [e, e]) (B := [b, a]) (env := envDis op rho iso dis) (w := conjT r) (by simpa using g1) g2 g5 g6 g8
    (fun i j hi hj => by
      obtain ⟨i0, i1, rfl⟩ : ∃ i0 i1, i = [i0, i1] := List.length_eq_two.1 hi.length
      obtain ⟨j0, j1, rfl⟩ : ∃ j0 j1, j = [j0, j1] := List.length_eq_two.1 hj.length
      exact congrArg star (r3 i0 i1 j0 j1))
  have hI : ∀ v, IsoT [e, e] [b, a] v ↔ IsUni a b e v := by
    intro v
    constructor
    · intro h x hx y hy x' hx' y' hy'
      refine (h [x, y] [x', y'] (by simp [hx, hy]) (by simp [hx', hy'])).trans ?_
      simp only [List.cons.injEq, and_true]
    · intro h j j' hj hj'
      obtain ⟨j0, j1, rfl⟩ : ∃ j0 j1, j = [j0, j1] := List.length_eq_two.1 hj.length
      obtain ⟨k0, k1, rfl⟩ : ∃ j0 j1, j' = [j0, j1] := List.length_eq_two.1 hj'.length
      simp only [InB, List.forall₂_cons] at hj hj'
      refine (h j0 hj.1 j1 hj.2.1 k0 hj'.1 k1 hj'.2.1).trans ?_
      simp only [List.cons.injEq, and_true]
  refine ⟨conjT r, by rw [updateDis, g7, r1]; rfl, r2, (hI _).1 e1, fun v hv => ?_⟩
  have e2' : pairing [e, e, b, a] (envDis op rho iso dis) (conjT r) = ((S.sum : ℝ) : ℂ) := e2
  rw [e2', Complex.ofReal_re]
  exact e3 v ((hI v).2 hv)

end TN.Mera
