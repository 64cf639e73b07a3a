import Verif.JaxEigshInv
import Mathlib.Analysis.InnerProductSpace.Orthonormal
import Mathlib.LinearAlgebra.Matrix.Hermitian

/-!
# What is behind the properties of `eigsh` of the jax backend
-/

set_option linter.unusedSectionVars false

namespace TN.Krylov

noncomputable section

open Classical Matrix

variable {𝕜 : Type} [RCLike 𝕜] {n m : Nat}

/-- The kernels do what their documentation says: `qr`, `eigh` and `argsort`. -/
structure Kernels.HermOK (K : Kernels 𝕜 m) : Prop where
  qr : K.QROK
  eig : ∀ M : Mat 𝕜 m, M.IsHermitian → K.EigOK M
  unitary : ∀ M : Mat 𝕜 m, M.IsHermitian → (K.eig M).2ᴴ * (K.eig M).2 = 1
  sort : K.SortOK

/-! ### As many vectors as the dimension -/

theorem Ortho.orthonormal {V : Fin m → Vec 𝕜 n} {k : Nat} (h : Ortho V k) :
    Orthonormal 𝕜 fun a : {a : Fin m // a.val < k} => V a := by
  rw [orthonormal_iff_ite]
  intro a b
  rw [h a b a.2 b.2]
  exact if_congr ⟨fun e => Subtype.ext e, fun e => congrArg Subtype.val e⟩ rfl rfl

theorem card_lt {k : Nat} (hk : k ≤ m) : Fintype.card {a : Fin m // a.val < k} = k := by
  rw [Fintype.card_subtype, Fin.card_filter_val_lt, min_eq_right hk]

theorem Ortho.le_dim {V : Fin m → Vec 𝕜 n} {k : Nat} (h : Ortho V k) (hk : k ≤ m) : k ≤ n := by
  have := h.orthonormal.linearIndependent.fintype_card_le_finrank
  rw [card_lt hk, finrank_euclideanSpace_fin] at this
  exact this

theorem Ortho.basis {V : Fin m → Vec 𝕜 n} (h : Ortho V n) (hn : n ≤ m) :
    ∃ b : OrthonormalBasis {a : Fin m // a.val < n} 𝕜 (Vec 𝕜 n), ∀ a, b a = V a := by
  have hr : Orthonormal 𝕜 ((Set.univ : Set {a : Fin m // a.val < n}).domRestrict fun a => V a) :=
    h.orthonormal.comp _ Subtype.val_injective
  obtain ⟨b, hb⟩ := hr.exists_orthonormalBasis_extension_of_card_eq (by rw [card_lt hn, finrank_euclideanSpace_fin])
  exact ⟨b, fun a => hb a (Set.mem_univ a)⟩

theorem Fact.residual_zero {A : Vec 𝕜 n →ₗ[𝕜] Vec 𝕜 n} {V : Fin m → Vec 𝕜 n} {H : Mat 𝕜 m} {r : Vec 𝕜 n}
    (h : Fact A V H n r) : r = 0 := by
  obtain ⟨b, hb⟩ := h.ortho.basis h.le
  apply b.repr.injective
  rw [map_zero]
  ext a
  rw [OrthonormalBasis.repr_apply_apply, hb, h.perp a a.2]
  rfl

theorem cut_charpoly {H : Mat 𝕜 m} {k : Nat} (hk : k ≤ m) : (cut k H).charpoly =
    (toSquareBlockProp (cut k H) fun a : Fin m => a.val < k).charpoly * Polynomial.X ^ (m - k) := by
  set p : Fin m → Prop := fun a => a.val < k with hp
  set M := cut k H with hM
  have hoff : ∀ i, ¬ p i → ∀ j, M i j = 0 := fun i hi j => if_neg (fun h => hi h.1)
  have hdet : M.charpoly = (toSquareBlockProp (charmatrix M) p).det * (toSquareBlockProp (charmatrix M) fun i => ¬ p i).det := by
    rw [Matrix.charpoly]
    refine Matrix.twoBlockTriangular_det _ p fun i hi j hj => ?_
    have hij : i ≠ j := fun e => hi (e ▸ hj)
    rw [charmatrix_apply_ne _ _ _ hij, hoff i hi j]; simp
  have h1 : toSquareBlockProp (charmatrix M) p = charmatrix (toSquareBlockProp M p) := by
    ext1 a b
    by_cases hab : a = b
    · subst hab; rw [charmatrix_apply_eq]; simp [toSquareBlockProp_def, charmatrix_apply_eq]
    · have : (a : Fin m) ≠ b := fun e => hab (Subtype.ext e)
      rw [charmatrix_apply_ne _ _ _ hab]
      simp [toSquareBlockProp_def, charmatrix_apply_ne _ _ _ this]
  have h2 : (toSquareBlockProp (charmatrix M) fun i => ¬ p i) = (Polynomial.X : Polynomial 𝕜) • 1 := by
    ext1 a b
    by_cases hab : a = b
    · subst hab; simp [toSquareBlockProp_def, charmatrix_apply_eq, hoff a a.2 a]
    · have : (a : Fin m) ≠ b := fun e => hab (Subtype.ext e)
      simp [toSquareBlockProp_def, charmatrix_apply_ne _ _ _ this, hoff a a.2 b, Matrix.one_apply_ne hab]
  have hcard : Fintype.card {i : Fin m // ¬ p i} = m - k := by
    rw [Fintype.card_subtype_compl, Fintype.card_fin]
    congr 1
    exact card_lt hk
  rw [hdet, h1, h2, Matrix.det_smul, Matrix.det_one, mul_one, hcard]; rfl

/-- The eigenvalues of the cut matrix are the ones of the operator and zeros. -/
theorem Comp.charpoly_cut {A : Vec 𝕜 n →ₗ[𝕜] Vec 𝕜 n} {V : Fin m → Vec 𝕜 n} {H : Mat 𝕜 m} (h : Comp A V H n) :
    (cut n H).charpoly = A.charpoly * Polynomial.X ^ (m - n) := by
  rw [cut_charpoly h.le]
  congr 1
  obtain ⟨b, hb⟩ := h.ortho.basis h.le
  rw [← LinearMap.charpoly_toMatrix A b.toBasis]
  congr 1
  ext a j
  rw [LinearMap.toMatrix_apply, OrthonormalBasis.coe_toBasis, OrthonormalBasis.coe_toBasis_repr_apply,
    OrthonormalBasis.repr_apply_apply, hb, hb, h.comp a j a.2 j.2]
  exact cut_in a.2 j.2

/-! ### The end of the method -/

theorem comb_mask {k : Nat} {V : Fin m → Vec 𝕜 n} {u : Fin m → 𝕜} (hu : ∀ a : Fin m, k ≤ a.val → u a = 0) :
    comb V u = comb (mask k V) u := by
  refine Finset.sum_congr rfl fun a _ => ?_
  by_cases ha : a.val < k
  · rw [mask_lt ha]
  · rw [hu a (by omega), zero_smul, zero_smul]

theorem cut_eig {H : Mat 𝕜 m} {k : Nat} {u : Fin m → 𝕜} {z : 𝕜} (hu : cut k H *ᵥ u = z • u) (hz : z ≠ 0) (a : Fin m)
    (ha : k ≤ a.val) : u a = 0 := by
  have h := congrFun hu a
  have h0 : (cut k H *ᵥ u) a = 0 := by
    show ∑ b, cut k H a b * u b = 0
    exact Finset.sum_eq_zero fun b _ => by rw [cut_row ha, zero_mul]
  rw [h0, Pi.smul_apply, smul_eq_mul] at h
  exact (mul_eq_zero.mp h.symm).resolve_left hz

theorem Comp.cut_herm {A : Vec 𝕜 n →ₗ[𝕜] Vec 𝕜 n} (hA : A.IsSymmetric) {V : Fin m → Vec 𝕜 n} {H : Mat 𝕜 m} {k : Nat}
    (h : Comp A V H k) : (cut k H).IsHermitian := by
  ext a b
  rw [Matrix.conjTranspose_apply]
  by_cases hab : a.val < k ∧ b.val < k
  · rw [cut_in hab.1 hab.2, cut_in hab.2 hab.1]; exact h.herm hA hab.1 hab.2
  · rw [cut, cut, if_neg hab, if_neg (fun e => hab ⟨e.2, e.1⟩), star_zero]

/-- The pairs that are returned: a zero, or a Ritz pair. -/
theorem Comp.finish_mask {A : Vec 𝕜 n →ₗ[𝕜] Vec 𝕜 n} {V : Fin m → Vec 𝕜 n} {H : Mat 𝕜 m} {k : Nat}
    (h : Comp A (mask k V) H k) {K : Kernels 𝕜 m} (hE : K.EigOK (cut k H)) {w : Which} {numeig : Nat}
    {p : 𝕜 × Option (Vec 𝕜 n)} (hp : p ∈ Krylov.finish K w numeig V H k) :
    (p.1 = 0 ∧ k < m) ∨ ∃ u v, cut k H *ᵥ u = p.1 • u ∧ (∀ a : Fin m, k ≤ a.val → u a = 0) ∧ comb (mask k V) u ≠ 0 ∧
      v = ((1 / ‖comb (mask k V) u‖ : ℝ) : 𝕜) • comb (mask k V) u ∧ p.2 = some v ∧ ‖v‖ = 1 ∧ inner 𝕜 v (A v) = p.1 := by
  obtain ⟨j, rfl⟩ := mem_finish hp
  have hu := hE.vec j
  have hu0 := hE.ne j
  generalize (K.eig (cut k H)).1 j = z at *
  generalize (fun a => (K.eig (cut k H)).2 a j) = u at *
  by_cases hz : z = 0 ∧ k < m
  · exact .inl hz
  · right
    have hout : ∀ a : Fin m, k ≤ a.val → u a = 0 := by
      intro a ha
      by_cases hz0 : z = 0
      · exact absurd ⟨hz0, by omega⟩ hz
      · exact cut_eig hu hz0 a ha
    have hx : comb (mask k V) u ≠ 0 := by
      intro hx
      apply hu0
      funext a
      by_cases ha : a.val < k
      · exact (h.comb_eq_zero u).1 hx a ha
      · exact hout a (by omega)
    have e := comb_mask (V := V) hout
    refine ⟨u, _, hu, hout, hx, rfl, ?_, norm_unit hx, ?_⟩
    · rw [← e] at hx ⊢
      exact getVector_some hx
    · have hne : (‖comb (mask k V) u‖ : 𝕜) ≠ 0 := by exact_mod_cast norm_ne_zero_iff.mpr hx
      rw [map_smul, inner_smul_left, inner_smul_right, h.inner_self hu, inner_self_eq_norm_sq_to_K, RCLike.conj_ofReal]
      simp only [one_div, RCLike.ofReal_inv]
      field_simp

theorem finish_sorted {K : Kernels 𝕜 m} (hS : K.SortOK) (w : Which) (numeig : Nat) (V : Fin m → Vec 𝕜 n) (H : Mat 𝕜 m)
    (k : Nat) : ((finish K w numeig V H k).map fun p => w.key p.1).Pairwise (· ≥ ·) := by
  rw [finish, List.map_take, List.map_ofFn]
  refine List.Pairwise.take ?_
  rw [List.pairwise_ofFn]
  intro i j hij
  exact order_anti hS w _ (le_of_lt hij)

/-- The eigenvalues that are returned are the first ones by their keys. -/
theorem finish_roots {K : Kernels 𝕜 m} (hS : K.SortOK) {H : Mat 𝕜 m} {k : Nat} (hE : K.EigOK (cut k H)) (w : Which)
    (numeig : Nat) (V : Fin m → Vec 𝕜 n) : ∃ others : Multiset 𝕜,
      (cut k H).charpoly.roots = ↑((finish K w numeig V H k).map Prod.fst) + others ∧
      ∀ p ∈ finish K w numeig V H k, ∀ z ∈ others, w.key z ≤ w.key p.1 := by
  set l := finish K w numeig V H k with hl
  rw [finish] at hl
  set vals := (K.eig (cut k H)).1 with hvals
  have hl1 : l.map Prod.fst = (List.ofFn fun j => vals (order K w vals j)).take numeig := by
    rw [hl, List.map_take, List.map_ofFn]; rfl
  refine ⟨↑((List.ofFn fun j => vals (order K w vals j)).drop numeig), ?_, ?_⟩
  · rw [hl1, Multiset.coe_add, List.take_append_drop, hE.charpoly]
    have : ∏ j, (Polynomial.X - Polynomial.C (vals j)) =
        ((Finset.univ.val.map vals).map fun a => Polynomial.X - Polynomial.C a).prod := by
      rw [Multiset.map_map]; rfl
    rw [this, Polynomial.roots_multiset_prod_X_sub_C]
    have e : (List.ofFn fun j => vals (order K w vals j)) = (List.finRange m).map fun j => vals (order K w vals j) :=
      List.ofFn_eq_map
    rw [e, ← Multiset.map_coe]
    have hb : Function.Bijective (order K w vals) := hS.bij _
    have e2 : (Finset.univ : Finset (Fin m)).val.map (order K w vals) = (Finset.univ : Finset (Fin m)).val := by
      have := Finset.map_univ_equiv (Equiv.ofBijective _ hb)
      have := congrArg Finset.val this
      exact this
    rw [← e2, Multiset.map_map]
    rfl
  · intro p hp z hz
    have hp1 : p.1 ∈ (List.ofFn fun j => vals (order K w vals j)).take numeig := by
      rw [← hl1]; exact List.mem_map_of_mem hp
    obtain ⟨i, hi, hpi⟩ := List.mem_take_iff_getElem.mp hp1
    obtain ⟨j, hj, hzj⟩ := List.mem_drop_iff_getElem.mp (Multiset.mem_coe.mp hz)
    rw [List.getElem_ofFn] at hpi hzj
    rw [← hpi, ← hzj]
    refine order_anti hS w vals ?_
    show i ≤ numeig + j
    omega

/-! ### The zeros outside of the cut -/

theorem Comp.definite_inj {A : Vec 𝕜 n →ₗ[𝕜] Vec 𝕜 n} {V : Fin m → Vec 𝕜 n} {H : Mat 𝕜 m} {k : Nat} (h : Comp A V H k)
    (hA : ∀ v : Vec 𝕜 n, v ≠ 0 → inner 𝕜 v (A v) ≠ 0) (u : Fin m → 𝕜) (hu : ∀ a : Fin m, k ≤ a.val → u a = 0)
    (h0 : cut k H *ᵥ u = 0) : u = 0 := by
  have hx : comb V u = 0 := by
    by_contra hx
    have := h.inner_self (z := 0) (u := u) (by rw [h0, zero_smul])
    rw [zero_mul] at this
    exact hA _ hx this
  funext a
  by_cases ha : a.val < k
  · exact (h.comb_eq_zero u).1 hx a ha
  · exact hu a (by omega)

theorem Comp.re_value {A : Vec 𝕜 n →ₗ[𝕜] Vec 𝕜 n} {V : Fin m → Vec 𝕜 n} {H : Mat 𝕜 m} {k : Nat} (h : Comp A V H k)
    {u : Fin m → 𝕜} {z : 𝕜} (hu0 : u ≠ 0) (hu : cut k H *ᵥ u = z • u) (hz : z ≠ 0) :
    comb V u ≠ 0 ∧ RCLike.re (inner 𝕜 (comb V u) (A (comb V u))) = RCLike.re z * ‖comb V u‖ ^ 2 := by
  refine ⟨fun hx => hz (h.eig_zero hu0 hu hx), ?_⟩
  rw [h.inner_self hu, inner_self_eq_norm_sq_to_K, ← RCLike.ofReal_pow, mul_comm, RCLike.re_ofReal_mul, mul_comm]

/-- If all the other eigenvalues come after zero in the order, the first ones are the zeros. -/
theorem zeros_first {K : Kernels 𝕜 m} (hS : K.SortOK) (w : Which) {vals : Fin m → 𝕜} {c : Nat}
    (hc : (Finset.univ.filter fun j => vals j = 0).card = c) (hk : ∀ j, vals j ≠ 0 → w.key (vals j) < w.key (0 : 𝕜))
    (i : Fin m) (hi : i.val < c) : vals (order K w vals i) = 0 := by
  refine initial_segment (fun j => vals (order K w vals j) = 0) (fun a b hab hb => ?_) ?_ i hi
  · by_contra ha
    have h1 := order_anti hS w vals hab
    rw [hb] at h1
    exact absurd h1 (not_le.mpr (hk _ ha))
  · rw [← hc]; convert card_order hS w vals (fun z => z = 0)

/-- If all the other eigenvalues come before zero in the order, the zeros are the last ones. -/
theorem zeros_last {K : Kernels 𝕜 m} (hS : K.SortOK) (w : Which) {vals : Fin m → 𝕜} {k : Nat} (hkm : k ≤ m)
    (hc : (Finset.univ.filter fun j => vals j = 0).card = m - k) (hk : ∀ j, vals j ≠ 0 → w.key (0 : 𝕜) < w.key (vals j))
    (i : Fin m) (hi : i.val < k) : vals (order K w vals i) ≠ 0 := by
  refine initial_segment (fun j => vals (order K w vals j) ≠ 0) (fun a b hab hb ha => ?_) ?_ i hi
  · have h1 := order_anti hS w vals hab
    rw [ha] at h1
    exact absurd h1 (not_le.mpr (hk _ hb))
  · rw [card_order hS w _ (fun z => z ≠ 0)]
    have := Finset.card_filter_add_card_filter_not (s := (Finset.univ : Finset (Fin m))) (fun j => vals j = 0)
    rw [hc, Finset.card_univ, Fintype.card_fin] at this
    have h4 := Nat.add_left_cancel (this.trans (show m = (m - k) + k by omega))
    convert h4

/-! ### The states of the outer loop -/

/-- Before the last restart, no factorisation ends with a residual that is exactly as long as the tolerance. -/
def LNoTie (K : Kernels 𝕜 m) {numeig : Nat} (T : Kernels 𝕜 numeig) (eps : ℝ) (A : Vec 𝕜 n → Vec 𝕜 n) (init : Vec 𝕜 n)
    (w : Which) (tol : ℝ) (maxiter : Nat) : Prop :=
  ∀ i < maxiter - 1, (eigshState K T eps A init w tol i : LOuter 𝕜 n m).converged = false →
    (eigshState K T eps A init w tol i : LOuter 𝕜 n m).norm ≠ tol

theorem lfact_zero (A : Vec 𝕜 n →ₗ[𝕜] Vec 𝕜 n) (r : Vec 𝕜 n) :
    Fact A (mask 0 fun _ : Fin m => 0) (tri (fun _ => 0) fun _ => 0) 0 r :=
  ⟨Nat.zero_le _, fun a b ha => absurd ha (by omega), fun a _ => mask_ge (Nat.zero_le _), fun a ha => absurd ha (by omega),
    fun a ha => absurd ha (by omega), tri_hess _ _⟩

/-- With at least as many Krylov vectors as the dimension, there are no restarts. -/
theorem LInv.no_restart {A : Vec 𝕜 n →ₗ[𝕜] Vec 𝕜 n} {numeig : Nat} {T : Kernels 𝕜 numeig} {eps tol : ℝ} (h0 : 0 ≤ tol)
    {o : LOuter 𝕜 n m} {r : Vec 𝕜 n} (h : LInv A T eps tol o r) (hn : n ≤ m) (hne : o.norm ≠ tol) :
    o.converged = true ∨ o.arConverged = true := by
  by_contra hs
  obtain ⟨hc, hlt⟩ := h.lt hs hne
  obtain ⟨hm, -⟩ := h.full hc hlt
  have hle := h.fact.ortho.le_dim h.fact.le
  have hk : o.numits = n := by omega
  have hf := h.fact
  rw [hk] at hf
  have hr := hf.residual_zero
  have hnr := h.norm
  rw [hr, norm_zero] at hnr
  linarith

theorem louterLoop_stop (K : Kernels 𝕜 m) {numeig : Nat} (T : Kernels 𝕜 numeig) (A : Vec 𝕜 n → Vec 𝕜 n) (eps tol : ℝ)
    (w : Which) {o : LOuter 𝕜 n m} (h : o.converged = true ∨ o.arConverged = true) :
    ∀ rest, louterLoop K T A eps tol w rest o = o
  | 0 => rfl
  | rest + 1 => by rw [louterLoop, if_pos h]

theorem eigshState_first {K : Kernels 𝕜 m} {numeig : Nat} {T : Kernels 𝕜 numeig} {eps : ℝ} {A : Vec 𝕜 n →ₗ[𝕜] Vec 𝕜 n}
    (hA : A.IsSymmetric) {init : Vec 𝕜 n} {w : Which} {tol : ℝ} (h0 : 0 ≤ tol) {maxiter : Nat} (hm : 0 < m) (hn : n ≤ m)
    (ht : LNoTie (m := m) K T eps A init w tol maxiter) :
    (eigshState K T eps A init w tol (maxiter - 1) : LOuter 𝕜 n m) =
      (lanczosFact A tol init (fun _ => 0) (fun _ => 0) (fun _ => 0) 0).toOuter tol := by
  obtain ⟨r, hd, -⟩ := lanczosFact_done (m := m) hA h0 (lfact_zero A init) hm
  have hi := hd.inv T eps
  unfold LNoTie at ht
  unfold eigshState at ht ⊢
  rcases Nat.eq_zero_or_pos (maxiter - 1) with hz | hz
  · rw [hz]; rfl
  · exact louterLoop_stop K T A eps tol w (hi.no_restart h0 hn (ht 0 hz rfl)) _

/-- The state at the end of the method. -/
theorem eigsh_final {K : Kernels 𝕜 m} (hK : K.QROK) {numeig : Nat} {T : Kernels 𝕜 numeig} {eps : ℝ}
    {A : Vec 𝕜 n →ₗ[𝕜] Vec 𝕜 n} (hA : A.IsSymmetric) {init : Vec 𝕜 n} (hn0 : 0 < numeig) (hn : numeig ≤ m)
    (hmn : m ≤ numeig → n ≤ m) {w : Which} {tol : ℝ} (h0 : 0 ≤ tol) {maxiter : Nat}
    (ht : LNoTie (m := m) K T eps A init w tol maxiter) :
    ∃ r, LInv A T eps tol (eigshState K T eps A init w tol (maxiter - 1) : LOuter 𝕜 n m) r := by
  obtain ⟨r, hd, -⟩ := lanczosFact_done (m := m) hA h0 (lfact_zero A init) (by omega)
  by_cases hlt : numeig < m
  · exact (hd.inv T eps).loop hK hA h0 hn0 hlt (maxiter - 1) _ r ht
  · rw [eigshState_first hA h0 (by omega) (hmn (by omega)) ht]
    exact ⟨r, hd.inv T eps⟩

theorem LInv.small {A : Vec 𝕜 n →ₗ[𝕜] Vec 𝕜 n} {numeig : Nat} {T : Kernels 𝕜 numeig} {eps tol : ℝ}
    {o : LOuter 𝕜 n m} {r : Vec 𝕜 n} (h : LInv A T eps tol o r) (hlt : o.numits < m) (hne : o.numits ≠ numeig) :
    ‖r‖ ≤ tol := by
  have hc : o.converged = false := Bool.eq_false_iff.mpr fun hc => hne (h.conv hc).1
  by_contra hr
  rw [h.norm] at hr
  have := (h.full hc (not_le.mp hr)).1
  omega

/-! ### Rows that are not in use -/

/-- The rows after the last one are zero, and so is the last one if its residual was too small. -/
structure LClean (tol : ℝ) (c : LCarry 𝕜 n m) : Prop where
  after : ∀ a : Fin m, c.i < a.val → c.V a = 0
  last : ¬ tol < c.norm → ∀ a : Fin m, c.i ≤ a.val → c.V a = 0

theorem LClean.body {A : Vec 𝕜 n → Vec 𝕜 n} {tol : ℝ} {c : LCarry 𝕜 n m} (h : LClean tol c) :
    LClean tol (lanczosBody A tol c) := by
  unfold lanczosBody
  simp only
  split_ifs with hi
  · refine ⟨fun a ha => ?_, fun hn a ha => ?_⟩
    · show setRow _ _ _ a = 0
      have ha : c.i + 1 < a.val := ha
      rw [setRow_other (by omega)]; exact h.after a (by omega)
    · show setRow _ _ _ a = 0
      have ha : c.i + 1 ≤ a.val := ha
      by_cases e : a.val = c.i + 1
      · rw [setRow_self e]; exact if_neg hn
      · rw [setRow_other e]; exact h.after a (by omega)
  · refine ⟨fun a ha => ?_, fun hn a ha => ?_⟩
    · have ha : c.i + 1 < a.val := ha
      exact absurd a.isLt (by omega)
    · have ha : c.i + 1 ≤ a.val := ha
      exact absurd a.isLt (by omega)

theorem LClean.loop {A : Vec 𝕜 n → Vec 𝕜 n} {tol : ℝ} : ∀ (fuel : Nat) {c : LCarry 𝕜 n m}, LClean tol c →
    LClean tol (lanczosLoop A tol fuel c)
  | 0, _, h => h
  | fuel + 1, c, h => by
    rw [lanczosLoop]
    split_ifs
    · exact LClean.loop fuel h.body
    · exact h

theorem lanczosFact_clean (A : Vec 𝕜 n → Vec 𝕜 n) (tol : ℝ) (init : Vec 𝕜 n) :
    LClean tol (lanczosFact A tol init (fun _ => 0) (fun _ => 0) (fun _ => 0) 0 : LCarry 𝕜 n m) := by
  have h1 : ∀ a : Fin m, 0 < a.val → setRow (fun _ : Fin m => (0 : Vec 𝕜 n)) 0 (normalize tol init) a = 0 := fun a ha =>
    setRow_other (by omega)
  refine LClean.loop _ ⟨fun a ha => h1 a ha, fun hn a ha => ?_⟩
  by_cases e : a.val = 0
  · have h2 : setRow (fun _ : Fin m => (0 : Vec 𝕜 n)) 0 (normalize tol init) a = 0 := by
      rw [setRow_self e]; exact if_neg hn
    exact h2
  · exact h1 a (by omega)

end

end TN.Krylov
