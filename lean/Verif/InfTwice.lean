import Verif.InfProps

/-!
# `canonicalize` of a state that has a connector
-/

set_option linter.unusedSectionVars false

namespace TN.Inf

open TN NDArray Finset Ncon Mps Matrix
open scoped ComplexOrder

variable {K : Type} [RCLike K]

theorem getTensor_inner (so : SetOrder) {st : Full K} {site : Nat} (h : site < st.tensors.length - 1) {A : NDArray K}
    (hA : st.tensors[site]? = some A) : getTensor so st site = .ok A := by
  unfold getTensor
  rw [if_neg (by omega), if_neg (by omega), Int.toNat_natCast, hA]
  rcases st.connector with _ | C
  · rfl
  · simp only
    rw [if_neg (by omega)]

/-- In Schmidt form the whole cell with the connector is a left isometry. -/
theorem SchmidtForm.cell_left {so : SetOrder} {st : Full K} {n : Nat} {ds : List Nat} (h : SchmidtForm so st n ds)
    (hne : st.tensors ≠ []) : sumIdx ds (fun is => (period st n is)ᴴ * period st n is) = 1 := by
  have hpos : 0 < st.tensors.length := List.length_pos_iff.2 hne
  obtain ⟨C, lam, hC, hCs, -⟩ := h.schmidt
  obtain ⟨B, m, p, k, hsite⟩ := h.bonds.exists_site (s := st.tensors.length - 1) (by omega)
  have hdrop : st.tensors.drop (st.tensors.length - 1 + 1) = [] := List.drop_eq_nil_of_le (by omega)
  have hdropd : ds.drop (st.tensors.length - 1 + 1) = [] := List.drop_eq_nil_of_le (by rw [h.bonds.length]; omega)
  obtain rfl : k = n := by
    have := hsite.right
    rw [hdrop, hdropd] at this
    exact this.2
  have hall : AllLeft (st.tensors.take (st.tensors.length - 1)) := by
    intro A hA
    rw [List.mem_take_iff_getElem] at hA
    obtain ⟨i, hi, rfl⟩ := hA
    obtain ⟨A', g1, g2⟩ := h.left i (by omega)
    rw [getTensor_inner so (by omega) (List.getElem?_eq_getElem (by omega))] at g1
    cases g1
    exact g2
  have htake : st.tensors.take (st.tensors.length - 1) ++ [B] = st.tensors := by
    rw [← hsite.takeT]
    exact List.take_of_length_le (by omega)
  have htaked : ds.take (st.tensors.length - 1) ++ [p] = ds := by
    rw [← hsite.takeD]
    exact List.take_of_length_le (by rw [h.bonds.length]; omega)
  have hlast := cell_last hsite.left hall hsite.shape
  rw [htake, htaked] at hlast
  obtain ⟨T, t1, t2, t3⟩ := getTensor_last so (ts := st.tensors) hsite.get hsite.shape (conn := some C)
    (fun C' hC' => by simp only [Option.some.injEq] at hC'; rw [← hC']; exact hCs) st.center
  obtain ⟨T', g1, g2⟩ := h.left (st.tensors.length - 1) (by omega)
  obtain rfl : T' = T := by
    rw [← hC, show ((st.tensors.length : Int) - 1) = ((st.tensors.length - 1 : Nat) : Int) by omega] at t1
    exact Except.ok.inj (g1.symm.trans t1)
  rw [leftIso_slice t2] at g2
  have h1 : sumIdx ds (fun is => (period st k is)ᴴ * period st k is) =
      (toMat k k C)ᴴ * sumIdx ds (fun is => (cell st.tensors k k is)ᴴ * cell st.tensors k k is) * toMat k k C := by
    rw [sumIdx_matMul]
    refine sumIdx_congr fun is _ => ?_
    rw [period, hC, connMat, Matrix.conjTranspose_mul]
    simp only [Matrix.mul_assoc]
  rw [h1, hlast, ← g2, Matrix.mul_sum, Matrix.sum_mul]
  refine Finset.sum_congr rfl fun i hi => ?_
  rw [t3 i (Finset.mem_range.1 hi), Matrix.conjTranspose_mul, connMat]
  simp only [Matrix.mul_assoc]

theorem pull_mul {ι : Type} {n : Nat} (s : Finset ι) (A : ι → Matrix (Fin n) (Fin n) K) (C X : Matrix (Fin n) (Fin n) K) :
    pull s (fun i => A i * C) X = Cᴴ * pull s A X * C := by
  unfold pull
  rw [Matrix.mul_sum, Matrix.sum_mul]
  refine Finset.sum_congr rfl fun i _ => ?_
  rw [Matrix.conjTranspose_mul]
  simp only [Matrix.mul_assoc]

theorem Gauge.pull_of_iso {ι : Type} {n : Nat} {X Xi Y Yi U V : Matrix (Fin n) (Fin n) K} {lam : Fin n → ℝ}
    (g : Gauge X Xi Y Yi U V lam) {s : Finset ι} {A : ι → Matrix (Fin n) (Fin n) K} {c : K}
    (h : ∑ i ∈ s, (regauge Xi Yi U V lam (A i) * lamInv lam)ᴴ * (regauge Xi Yi U V lam (A i) * lamInv lam) = c • 1) :
    pull s A (Xᴴ * X) = c • (Xᴴ * X) := by
  simp only [(g.similar _).1] at h
  have h1 : ∀ i, (Uᴴ * X * A i * (Xi * U))ᴴ * (Uᴴ * X * A i * (Xi * U)) =
      (Xi * U)ᴴ * ((A i)ᴴ * (Xᴴ * X) * A i) * (Xi * U) := by
    intro i
    have : (Uᴴ * X * A i * (Xi * U))ᴴ * (Uᴴ * X * A i * (Xi * U)) =
        (Xi * U)ᴴ * ((A i)ᴴ * (Xᴴ * (U * Uᴴ) * X) * A i) * (Xi * U) := by
      simp only [conjTranspose_mul, conjTranspose_conjTranspose, Matrix.mul_assoc]
    rw [this, g.ur, Matrix.mul_one]
  simp only [h1, ← Finset.mul_sum, ← Finset.sum_mul] at h
  obtain ⟨_, h2, h3⟩ := g.similar 1
  have h4 : (Uᴴ * X)ᴴ * ((Xi * U)ᴴ * pull s A (Xᴴ * X) * (Xi * U)) * (Uᴴ * X) =
      (Xi * U * (Uᴴ * X))ᴴ * pull s A (Xᴴ * X) * (Xi * U * (Uᴴ * X)) := by
    simp only [Matrix.conjTranspose_mul, Matrix.mul_assoc]
  rw [h3, Matrix.conjTranspose_one, Matrix.one_mul, Matrix.mul_one] at h4
  have h5 : (Xi * U)ᴴ * pull s A (Xᴴ * X) * (Xi * U) = c • 1 := h
  rw [h5, Matrix.mul_smul, Matrix.mul_one, Matrix.smul_mul, Matrix.conjTranspose_mul,
    Matrix.conjTranspose_conjTranspose, show Xᴴ * U * (Uᴴ * X) = Xᴴ * (U * Uᴴ) * X by simp only [Matrix.mul_assoc], g.ur,
    Matrix.mul_one] at h4
  exact h4.symm

/-- If `canonicalize` brings a state with a connector to Schmidt form, the connector keeps the left
eigenvector of the transfer matrix up to a factor. -/
theorem connector_keeps {E : Kern K} (hE : KernOK E) {st : Full K} {o : Opts K} {n : Nat} {ds : List Nat} {e : ℝ}
    {L R Ci : Matrix (Fin n) (Fin n) K} (h : Request E st o n ds e L R Ci) {st' : Full K} {z : ℝ}
    (hrun : canonicalize E st o = .ok (st', z)) (hs : SchmidtForm E.so st' n ds) :
    ∃ c : K, (connMat n st.connector)ᴴ * L * connMat n st.connector = c • L := by
  obtain ⟨C, lh, hC, hCs, -⟩ := hs.schmidt
  obtain ⟨ts, q, U, V, lam, s, r2, r3, r4, _, f⟩ := canonicalize_ok hE h hrun hC hCs
  obtain ⟨C', c1, c2, c3⟩ := f.conn
  have hne : st'.tensors ≠ [] := by
    rw [← List.length_pos_iff, ← f.bonds.length, h.bonds.length, List.length_pos_iff]
    exact h.ne
  have h1 := hs.cell_left hne
  have hzK : (z : K) ≠ 0 := by exact_mod_cast f.zpos.ne'
  obtain ⟨D, hD⟩ : ∃ D, D = connMat n st.connector := ⟨_, rfl⟩
  rw [← hD]
  have h2 : sumIdx ds (fun is => (regauge (toMat n n q.li) (toMat n n q.ri) U V lam (cell ts n n is * D) * lamInv lam)ᴴ *
      (regauge (toMat n n q.li) (toMat n n q.ri) U V lam (cell ts n n is * D) * lamInv lam)) =
      ((s : K) * (z : K)⁻¹) ^ 2 • 1 := by
    rw [← h1, ← sumIdx_smul]
    refine sumIdx_congr fun is his => ?_
    have h3 : regauge (toMat n n q.li) (toMat n n q.ri) U V lam (cell ts n n is * D) * lamInv lam =
        ((s : K) * (z : K)⁻¹) • period st' n is := by
      rw [hD, f.cells is his, period, c1, connMat, c3, Matrix.smul_mul, Matrix.mul_smul, smul_smul, mul_assoc,
        inv_mul_cancel₀ hzK, mul_one]
    rw [h3, Matrix.conjTranspose_smul, Matrix.smul_mul, Matrix.mul_smul, smul_smul]
    congr 1
    simp
    ring
  rw [← sum_range_unravel ds fun is => (regauge (toMat n n q.li) (toMat n n q.ri) U V lam (cell ts n n is * D) *
    lamInv lam)ᴴ * (regauge (toMat n n q.li) (toMat n n q.ri) U V lam (cell ts n n is * D) * lamInv lam)] at h2
  have h3 := f.gauge.pull_of_iso (s := range ds.prod) (A := fun k => cell ts n n (unravel ds k) * D) h2
  obtain ⟨b, hb0, hb⟩ := r4.left
  have hbK : (b : K) ≠ 0 := by exact_mod_cast hb0.ne'
  have h4 := r3.eigL
  rw [cellPull_eq, RCLike.ofReal_one, one_smul] at h4
  rw [pull_mul, hb, pull_smul, h4, Matrix.mul_smul, Matrix.smul_mul, smul_comm] at h3
  exact ⟨_, smul_right_injective _ hbK h3⟩

/-- **C65.** `canonicalize` of a state that is in Schmidt form returns one in Schmidt form exactly if all
Schmidt values are equal: the eigenvectors are those of the transfer matrix without the connector. -/
theorem C65_again {E : Kern K} (hE : KernOK E) {st : Full K} {o : Opts K} {n : Nat} {ds : List Nat} {e : ℝ}
    {L R Ci : Matrix (Fin n) (Fin n) K} (h : Request E st o n ds e L R Ci) {C : NDArray K} {lam : Fin n → ℝ}
    (hC : st.connector = some C) (hlam : ∀ i, 0 < lam i)
    (hCd : toMat n n C = diagonal fun i => (((lam i)⁻¹ : ℝ) : K)) {st' : Full K} {z : ℝ}
    (hrun : canonicalize E st o = .ok (st', z)) {C' : NDArray K} (hC' : st'.connector = some C')
    (hCs' : C'.shape = [n, n]) : SchmidtForm E.so st' n ds ↔ ∀ i j, lam i = lam j := by
  constructor
  · intro hs
    obtain ⟨c, hc⟩ := connector_keeps hE h hrun hs
    rw [hC, connMat, hCd, star_diag] at hc
    have h1 : ∀ i, (((lam i)⁻¹ ^ 2 : ℝ) : K) = c := by
      intro i
      have h2 := congrFun (congrFun hc i) i
      rw [Matrix.mul_diagonal, Matrix.diagonal_mul, Matrix.smul_apply, smul_eq_mul] at h2
      have h3 : L i i ≠ 0 := (h.irred.left.diag_pos (i := i)).ne'
      refine mul_right_cancel₀ h3 ?_
      rw [← h2]
      push_cast
      ring
    intro i j
    have h2 : (lam i)⁻¹ ^ 2 = (lam j)⁻¹ ^ 2 := by
      rw [← RCLike.ofReal_inj (K := K), h1 i, h1 j]
    have h3 := (pow_left_inj₀ (inv_pos.2 (hlam i)).le (inv_pos.2 (hlam j)).le two_ne_zero).1 h2
    exact inv_injective h3
  · intro heq
    obtain ⟨i0⟩ : Nonempty (Fin n) := ⟨⟨0, h.dim⟩⟩
    refine schmidt_form hE h (γ := (lam i0)⁻¹) (inv_pos.2 (hlam i0)) ?_ hrun hC' hCs'
    rw [hC, connMat, hCd, Matrix.smul_one_eq_diagonal]
    congr 1
    funext i
    rw [heq i i0]

end TN.Inf
