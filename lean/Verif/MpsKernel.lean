import Verif.MpsPair
import Mathlib.Analysis.InnerProductSpace.PiL2
import Mathlib.Analysis.InnerProductSpace.SingularValues

/-!
# The assumptions on the numerical kernels can be met

Every matrix has a QR factorisation in the sense of `IsQr` and a singular value decomposition in the
sense of `IsSvd`, so `QrOK` and `SvdOK` are satisfiable.
-/

namespace TN.Mps

open TN NDArray Finset

variable {K : Type} [RCLike K]

theorem exists_qr (m : NDArray K) {a b : Nat} (hm : m.shape = [a, b]) :
    ∃ q r, Decomp.IsQr m q r := by
  classical
  let col : Fin b → EuclideanSpace K (Fin a) := fun j => WithLp.toLp 2 fun i => m.get [i, j]
  let W := Submodule.span K (Set.range col)
  obtain ⟨d, hd⟩ : ∃ d, d = Module.finrank K W := ⟨_, rfl⟩
  have hda : d ≤ a := by
    rw [hd]
    refine (Submodule.finrank_le W).trans ?_
    simp
  have hdb : d ≤ b := by
    rw [hd]
    refine (finrank_range_le_card (R := K) col).trans ?_
    simp
  let bW : OrthonormalBasis (Fin d) K W := (stdOrthonormalBasis K W).reindex (finCongr hd.symm)
  let v : Fin a → EuclideanSpace K (Fin a) := fun i => if h : i.val < d then (bW ⟨i, h⟩ : _) else 0
  have hv : Orthonormal K (Set.domRestrict {i : Fin a | i.val < d} v) := by
    have hon : Orthonormal K fun x : Fin d => ((bW x : W) : EuclideanSpace K (Fin a)) := by
      have := bW.orthonormal.comp_linearIsometry W.subtypeₗᵢ
      exact this
    have hinj : Function.Injective (fun i : {i : Fin a | i.val < d} => (⟨i.1.1, i.2⟩ : Fin d)) := by
      intro x y h
      simp only [Fin.mk.injEq] at h
      exact Subtype.ext (Fin.ext h)
    have h2 := hon.comp _ hinj
    convert h2 using 1
    funext i
    simp only [Set.domRestrict_apply, v, Function.comp]
    exact dif_pos i.2
  obtain ⟨B, hB⟩ := hv.exists_orthonormalBasis_extension_of_card_eq (by simp)
  have hB' : ∀ (x : Nat) (h : x < d), B ⟨x, by omega⟩ = (bW ⟨x, h⟩ : EuclideanSpace K (Fin a)) := by
    intro x h
    rw [hB ⟨x, by omega⟩ h]
    exact dif_pos h
  have hmem : ∀ j, col j ∈ W := fun j => Submodule.subset_span ⟨j, rfl⟩
  refine ⟨⟨[a, min a b], fun i => if h : i.getD 0 0 < a ∧ i.getD 1 0 < a then
      B ⟨i.getD 1 0, h.2⟩ ⟨i.getD 0 0, h.1⟩ else 0⟩,
    ⟨[min a b, b], fun i => if h : i.getD 0 0 < d ∧ i.getD 1 0 < b then
      bW.repr ⟨col ⟨i.getD 1 0, h.2⟩, hmem _⟩ ⟨i.getD 0 0, h.1⟩ else 0⟩,
    ⟨a, min a b, b, hm, rfl, rfl, rfl, fun i hi j hj => ?_, fun x hx y hy => ?_⟩⟩
  · have h1 := bW.sum_repr ⟨col ⟨j, hj⟩, hmem _⟩
    have h2 := congrArg (fun w : W => (w : EuclideanSpace K (Fin a)) ⟨i, hi⟩) h1
    simp only [AddSubmonoidClass.coe_finsetSum, Submodule.coe_smul] at h2
    rw [WithLp.ofLp_sum, Finset.sum_apply] at h2
    have h3 : (col ⟨j, hj⟩) ⟨i, hi⟩ = m.get [i, j] := rfl
    rw [h3] at h2
    rw [← h2]
    simp only [List.getD_cons_zero, List.getD_cons_succ]
    have h4 : ∀ x ∈ range (min a b), (if h : i < a ∧ x < a then B ⟨x, h.2⟩ ⟨i, h.1⟩ else 0) *
        (if h : x < d ∧ j < b then bW.repr ⟨col ⟨j, h.2⟩, hmem _⟩ ⟨x, h.1⟩ else 0) =
        if h : x < d then (bW.repr ⟨col ⟨j, hj⟩, hmem _⟩ ⟨x, h⟩ •
          ((bW ⟨x, h⟩ : W) : EuclideanSpace K (Fin a))) ⟨i, hi⟩ else 0 := by
      intro x hx
      have hx' := Finset.mem_range.1 hx
      by_cases h : x < d
      · rw [dif_pos ⟨hi, by omega⟩, dif_pos ⟨h, hj⟩, dif_pos h, hB' x h, mul_comm]
        rfl
      · rw [dif_neg h, dif_neg (c := x < d ∧ j < b) (fun hh => h hh.1), mul_zero]
    rw [Finset.sum_congr rfl h4]
    have hsub : range d ⊆ range (min a b) := by
      intro x hx
      rw [Finset.mem_range] at hx ⊢
      omega
    rw [← Finset.sum_subset hsub (fun x _ hx => by
      rw [dif_neg (fun h => hx (Finset.mem_range.2 h))]), Finset.sum_range]
    refine Finset.sum_congr rfl fun x _ => ?_
    rw [dif_pos x.2]
  · have hx' : x < a := by omega
    have hy' : y < a := by omega
    simp only [List.getD_cons_zero, List.getD_cons_succ]
    have h1 := orthonormal_iff_ite.1 B.orthonormal ⟨x, hx'⟩ ⟨y, hy'⟩
    rw [PiLp.inner_apply] at h1
    simp only [Fin.mk.injEq] at h1
    rw [← h1, Finset.sum_range]
    refine Finset.sum_congr rfl fun i _ => ?_
    rw [dif_pos ⟨i.2, hx'⟩, dif_pos ⟨i.2, hy'⟩]
    simp [mul_comm]

theorem exists_svd (A : NDArray K) {m n : Nat} (hA : A.shape = [m, n]) :
    ∃ u s vh, Decomp.IsSvd A u s vh := by
  classical
  let T : EuclideanSpace K (Fin n) →ₗ[K] EuclideanSpace K (Fin m) :=
    Matrix.toEuclideanLin (Matrix.of fun (i : Fin m) (j : Fin n) => A.get [i, j])
  have hn : Module.finrank K (EuclideanSpace K (Fin n)) = n := by simp
  have hT := T.isSymmetric_adjoint_comp_self
  let V := hT.eigenvectorBasis hn
  obtain ⟨d, hd⟩ : ∃ d, d = Module.finrank K (LinearMap.range T) := ⟨_, rfl⟩
  have hdm : d ≤ m := by
    rw [hd]
    refine (Submodule.finrank_le _).trans ?_
    simp
  have hdn : d ≤ n := by
    rw [hd]
    exact (LinearMap.finrank_range_le T).trans hn.le
  have hinner : ∀ i j : Fin n, inner K (T (V i)) (T (V j)) =
      if i = j then ((T.singularValues i ^ 2 : ℝ) : K) else 0 := by
    intro i j
    rw [← LinearMap.adjoint_inner_right]
    have h1 : LinearMap.adjoint T (T (V j)) = ((hT.eigenvalues hn j : ℝ) : K) • V j :=
      hT.apply_eigenvectorBasis hn j
    rw [h1, inner_smul_right, ← T.sq_singularValues_fin hn j]
    have h2 := orthonormal_iff_ite.1 V.orthonormal i j
    rw [h2]
    split_ifs with h
    · subst h; simp
    · simp
  have hpos : ∀ i : Nat, i < d → 0 < T.singularValues i := by
    intro i hi
    rw [hd] at hi
    exact T.singularValues_pos_iff_lt_finrank_range.2 hi
  have hzero : ∀ i : Fin n, d ≤ i.val → T (V i) = 0 := by
    intro i hi
    have h1 := hinner i i
    rw [if_pos rfl, (T.singularValues_eq_zero_iff_le_finrank_range).2 (by omega)] at h1
    simpa using h1
  let w : Fin m → EuclideanSpace K (Fin m) := fun i =>
    if h : i.val < d then (((T.singularValues i)⁻¹ : ℝ) : K) • T (V ⟨i, by omega⟩) else 0
  have hw : Orthonormal K (Set.domRestrict {i : Fin m | i.val < d} w) := by
    rw [orthonormal_iff_ite]
    rintro ⟨i, hi⟩ ⟨j, hj⟩
    simp only [Set.domRestrict_apply, w]
    have hi' : i.val < d := hi
    have hj' : j.val < d := hj
    rw [dif_pos hi', dif_pos hj', inner_smul_left, inner_smul_right, hinner]
    simp only [Subtype.mk.injEq, Fin.ext_iff]
    split_ifs with h
    · rw [h]
      have := (hpos j hj).ne'
      have h' : ((T.singularValues j : ℝ) : K) ≠ 0 := by exact_mod_cast this
      simp
      field_simp
    · simp
  obtain ⟨U, hU⟩ := hw.exists_orthonormalBasis_extension_of_card_eq (by simp)
  have hU' : ∀ (x : Nat) (h : x < d), T (V ⟨x, by omega⟩) =
      ((T.singularValues x : ℝ) : K) • U ⟨x, by omega⟩ := by
    intro x h
    rw [hU ⟨x, by omega⟩ h]
    simp only [w]
    rw [dif_pos h, smul_smul]
    have := (hpos x h).ne'
    have h' : ((T.singularValues x : ℝ) : K) ≠ 0 := by exact_mod_cast this
    rw [RCLike.ofReal_inv, mul_inv_cancel₀ h', one_smul]
  have hlen : ((List.range (min m n)).map fun x => T.singularValues x).length = min m n := by simp
  refine ⟨⟨[m, min m n], fun i => if h : i.getD 0 0 < m ∧ i.getD 1 0 < m then
      U ⟨i.getD 1 0, h.2⟩ ⟨i.getD 0 0, h.1⟩ else 0⟩, (List.range (min m n)).map fun x => T.singularValues x,
    ⟨[min m n, n], fun i => if h : i.getD 0 0 < n ∧ i.getD 1 0 < n then
      star (V ⟨i.getD 0 0, h.1⟩ ⟨i.getD 1 0, h.2⟩) else 0⟩,
    ⟨⟨m, n, hA, by simp, by simp, hlen, fun i hi j hj => ?_, fun x hx y hy => ?_, fun x hx y hy => ?_⟩,
      ?_, ?_⟩⟩
  · have h1 := V.sum_repr' (EuclideanSpace.single (⟨j, hj⟩ : Fin n) (1 : K))
    have h2 := congrArg (fun x => (T x) ⟨i, hi⟩) h1
    simp only [map_sum, map_smul] at h2
    have h3 : (T (EuclideanSpace.single (⟨j, hj⟩ : Fin n) (1 : K))) ⟨i, hi⟩ = A.get [i, j] := by
      simp [T, Matrix.toEuclideanLin]
    rw [h3] at h2
    rw [← h2, WithLp.ofLp_sum, Finset.sum_apply, hlen]
    simp only [List.getD_cons_zero, List.getD_cons_succ]
    have h4 : ∀ x ∈ range (min m n), (if h : i < m ∧ x < m then U ⟨x, h.2⟩ ⟨i, h.1⟩ else 0) *
        ((((List.range (min m n)).map fun x => T.singularValues x).getD x 0 : ℝ) : K) *
        (if h : x < n ∧ j < n then star (V ⟨x, h.1⟩ ⟨j, h.2⟩) else 0) =
        if h : x < n then (inner K (V ⟨x, h⟩) (EuclideanSpace.single (⟨j, hj⟩ : Fin n) (1 : K)) •
          T (V ⟨x, h⟩)) ⟨i, hi⟩ else 0 := by
      intro x hx
      have hx' := Finset.mem_range.1 hx
      have hxm : x < m := by omega
      have hxn : x < n := by omega
      rw [dif_pos ⟨hi, hxm⟩, dif_pos ⟨hxn, hj⟩, dif_pos hxn]
      have hs : ((List.range (min m n)).map fun x => T.singularValues x).getD x 0 = T.singularValues x := by
        rw [List.getD_eq_getElem _ _ (by simpa using hx'), List.getElem_map, List.getElem_range]
      rw [hs]
      by_cases h : x < d
      · rw [hU' x h, EuclideanSpace.inner_single_right]
        simp only [PiLp.smul_apply, smul_eq_mul, one_mul, RCLike.star_def]
        ring
      · rw [hzero ⟨x, hxn⟩ (by simpa using h),
          (T.singularValues_eq_zero_iff_le_finrank_range).2 (by omega)]
        simp
    rw [Finset.sum_congr rfl h4]
    have hsub : range (min m n) ⊆ range n := by
      intro x hx
      rw [Finset.mem_range] at hx ⊢
      omega
    rw [Finset.sum_subset hsub (fun x hx hx' => by
      rw [dif_pos (Finset.mem_range.1 hx), hzero ⟨x, Finset.mem_range.1 hx⟩ (by
        rw [Finset.mem_range] at hx hx'
        simp only
        omega)]
      simp), Finset.sum_range]
    refine Finset.sum_congr rfl fun x _ => ?_
    rw [dif_pos x.2]
  · rw [hlen] at hx hy
    have hx' : x < m := by omega
    have hy' : y < m := by omega
    simp only [List.getD_cons_zero, List.getD_cons_succ]
    have h1 := orthonormal_iff_ite.1 U.orthonormal ⟨x, hx'⟩ ⟨y, hy'⟩
    rw [PiLp.inner_apply] at h1
    simp only [Fin.mk.injEq] at h1
    rw [← h1, Finset.sum_range]
    refine Finset.sum_congr rfl fun i _ => ?_
    rw [dif_pos ⟨i.2, hx'⟩, dif_pos ⟨i.2, hy'⟩]
    simp [mul_comm]
  · rw [hlen] at hx hy
    have hx' : x < n := by omega
    have hy' : y < n := by omega
    simp only [List.getD_cons_zero, List.getD_cons_succ]
    have h1 := orthonormal_iff_ite.1 V.orthonormal ⟨x, hx'⟩ ⟨y, hy'⟩
    rw [PiLp.inner_apply] at h1
    simp only [Fin.mk.injEq] at h1
    rw [← h1, Finset.sum_range]
    refine Finset.sum_congr rfl fun i _ => ?_
    rw [dif_pos ⟨hx', i.2⟩, dif_pos ⟨hy', i.2⟩]
    simp [mul_comm]
  · intro x hx
    obtain ⟨i, _, rfl⟩ := List.mem_map.1 hx
    exact T.singularValues_nonneg i
  · rw [List.pairwise_map]
    refine List.pairwise_lt_range.imp fun h => ?_
    exact T.singularValues_antitone h.le

/-- An exact QR kernel. -/
noncomputable def exactQr (m : NDArray K) : NDArray K × NDArray K :=
  haveI := Classical.propDecidable (∃ q r, Decomp.IsQr m q r)
  if h : ∃ q r, Decomp.IsQr m q r then (h.choose, h.choose_spec.choose) else (m, m)

theorem exactQr_ok (m : NDArray K) {a b : Nat} (hm : m.shape = [a, b]) :
    Decomp.IsQr m (exactQr m).1 (exactQr m).2 := by
  have h := exists_qr m hm
  unfold exactQr
  rw [dif_pos h]
  exact h.choose_spec.choose_spec

/-- An exact SVD kernel. -/
noncomputable def exactSvd (m : NDArray K) : NDArray K × List ℝ × NDArray K :=
  haveI := Classical.propDecidable (∃ u s v, Decomp.IsSvd m u s v)
  if h : ∃ u s v, Decomp.IsSvd m u s v then
    (h.choose, h.choose_spec.choose, h.choose_spec.choose_spec.choose) else (m, [], m)

theorem exactSvd_ok (m : NDArray K) {a b : Nat} (hm : m.shape = [a, b]) :
    Decomp.IsSvd m (exactSvd m).1 (exactSvd m).2.1 (exactSvd m).2.2 := by
  have h := exists_svd m hm
  unfold exactSvd
  rw [dif_pos h]
  exact h.choose_spec.choose_spec.choose_spec

/-- Exact kernels. -/
noncomputable def exactEnv (K : Type) [RCLike K] (so : Ncon.SetOrder) : Env K := ⟨so, exactQr, id, exactSvd⟩

theorem exactEnv_qr (so : Ncon.SetOrder) : QrOK (exactEnv K so) := fun m _ _ h => exactQr_ok m h

theorem exactEnv_svd (so : Ncon.SetOrder) : SvdOK (exactEnv K so) := fun m _ _ h => exactSvd_ok m h

end TN.Mps
