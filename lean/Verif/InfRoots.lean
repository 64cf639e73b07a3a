import Verif.InfEigs

/-!
# The roots of the dominant eigenvectors
-/

set_option linter.unusedSectionVars false

namespace TN.Inf

open TN NDArray Finset Ncon Mps Matrix
open scoped ComplexOrder

variable {K : Type} [RCLike K]

/-- The Frobenius norm. -/
noncomputable def frob {n : Nat} (P : Matrix (Fin n) (Fin n) K) : ℝ := Real.sqrt (∑ i, ∑ j, ‖P i j‖ ^ 2)

/-- All eigenvalues of `P`, divided by their Euclidean norm, are larger than the cutoff. -/
def AboveCutoff {n : Nat} (cutoff : ℝ) (P : Matrix (Fin n) (Fin n) K) : Prop :=
  (P - ((cutoff * frob P : ℝ) : K) • (1 : Matrix (Fin n) (Fin n) K)).PosDef

theorem isEigh_eq {n : Nat} {T u : Matrix (Fin n) (Fin n) K} {l : Fin n → ℝ} (h : Lanczos.IsEigh T l u) :
    T = u * diagonal (fun i => (l i : K)) * uᴴ := by
  rw [← h.eig, Matrix.mul_assoc, h.right, Matrix.mul_one]

theorem isEigh_entry {n : Nat} {T u : Matrix (Fin n) (Fin n) K} {l : Fin n → ℝ} (h : Lanczos.IsEigh T l u) (i : Fin n) :
    (uᴴ * T * u) i i = (l i : K) := by
  rw [Matrix.mul_assoc, h.eig, ← Matrix.mul_assoc, h.left, Matrix.one_mul, Matrix.diagonal_apply_eq]

/-- A congruence of a positive definite matrix with a unitary one has a positive diagonal. -/
theorem diag_pos_unitary {n : Nat} {P u : Matrix (Fin n) (Fin n) K} (hP : P.PosDef) (hu : uᴴ * u = 1) (i : Fin n) :
    0 < (uᴴ * P * u) i i := by
  have : (uᴴ * P * u).PosDef := by
    refine hP.conjTranspose_mul_mul_same ?_
    intro x y hxy
    have := congrArg (fun v => uᴴ *ᵥ v) hxy
    simpa [Matrix.mulVec_mulVec, hu] using this
  exact this.diag_pos

theorem frob_sq {n : Nat} (P : Matrix (Fin n) (Fin n) K) : ((frob P ^ 2 : ℝ) : K) = (Pᴴ * P).trace := by
  rw [frob, Real.sq_sqrt (Finset.sum_nonneg fun _ _ => Finset.sum_nonneg fun _ _ => sq_nonneg _), Matrix.trace]
  rw [Finset.sum_comm]
  push_cast
  refine Finset.sum_congr rfl fun j _ => ?_
  rw [Matrix.diag_apply, Matrix.mul_apply]
  refine Finset.sum_congr rfl fun i _ => ?_
  rw [Matrix.conjTranspose_apply, RCLike.star_def, RCLike.conj_mul]

theorem isEigh_frob {n : Nat} {T u : Matrix (Fin n) (Fin n) K} {l : Fin n → ℝ} (h : Lanczos.IsEigh T l u) :
    Real.sqrt (∑ i, l i ^ 2) = frob T := by
  have h1 : (Tᴴ * T).trace = ((∑ i, l i ^ 2 : ℝ) : K) := by
    rw [isEigh_eq h]
    simp only [Matrix.conjTranspose_mul, Matrix.conjTranspose_conjTranspose, Matrix.diagonal_conjTranspose]
    have : u * (diagonal (star fun i => (l i : K)) * uᴴ) * (u * diagonal (fun i => (l i : K)) * uᴴ) =
        u * (diagonal (star fun i => (l i : K)) * (uᴴ * u) * diagonal (fun i => (l i : K)) * uᴴ) := by
      simp only [Matrix.mul_assoc]
    rw [this, h.left, Matrix.mul_one, Matrix.trace_mul_comm, Matrix.mul_assoc, h.left, Matrix.mul_one,
      Matrix.diagonal_mul_diagonal, Matrix.trace_diagonal]
    push_cast
    refine Finset.sum_congr rfl fun i _ => ?_
    simp [pow_two]
  have h2 : frob T ^ 2 = ∑ i, l i ^ 2 := by
    have := (frob_sq T).trans h1
    exact_mod_cast this
  rw [← h2, Real.sqrt_sq (show 0 ≤ frob T from Real.sqrt_nonneg _)]

theorem frob_smul {n : Nat} (c : ℝ) (hc : 0 ≤ c) (P : Matrix (Fin n) (Fin n) K) : frob ((c : K) • P) = c * frob P := by
  unfold frob
  simp only [Matrix.smul_apply, smul_eq_mul, norm_mul, RCLike.norm_ofReal, abs_of_nonneg hc, mul_pow, ← Finset.mul_sum]
  rw [Real.sqrt_mul (sq_nonneg c), Real.sqrt_sq hc]

theorem frob_transpose {n : Nat} (P : Matrix (Fin n) (Fin n) K) : frob Pᵀ = frob P := by
  unfold frob
  simp only [Matrix.transpose_apply]
  rw [Finset.sum_comm]

theorem AboveCutoff.transpose {n : Nat} {cutoff : ℝ} {P : Matrix (Fin n) (Fin n) K} (h : AboveCutoff cutoff P) :
    AboveCutoff cutoff Pᵀ := by
  unfold AboveCutoff at *
  have := h.transpose
  rwa [Matrix.transpose_sub, Matrix.transpose_smul, Matrix.transpose_one, ← frob_transpose] at this

/-- A cutoff that is not positive is no restriction. -/
theorem AboveCutoff.of_nonpos {n : Nat} {cutoff : ℝ} {P : Matrix (Fin n) (Fin n) K} (hP : P.PosDef) (hc : cutoff ≤ 0) :
    AboveCutoff cutoff P := by
  unfold AboveCutoff
  rw [sub_eq_add_neg, ← neg_smul]
  refine hP.add_posSemidef ?_
  refine Matrix.PosSemidef.one.smul ?_
  rw [← RCLike.ofReal_neg, RCLike.ofReal_nonneg, neg_nonneg]
  exact mul_nonpos_of_nonpos_of_nonneg hc (Real.sqrt_nonneg _)

theorem spectral_mat {E : Kern K} (hE : Lanczos.EighOK E.eigh) {n : Nat} (hn : 0 < n) {m : NDArray K}
    (hm : m.shape = [n, n]) {P : Matrix (Fin n) (Fin n) K} (hP : P.PosDef) {c : K} (hc : c ≠ 0)
    (h : toMat n n m = c • P) {cutoff : ℝ} (hcut : AboveCutoff cutoff P) :
    ∃ d i u, spectral E cutoff m = .ok (d, i, u) ∧ d.shape = [n, n] ∧ i.shape = [n, n] ∧ u.shape = [n, n] ∧
      ∃ x : Fin n → ℝ, (∀ j, 0 < x j) ∧ toMat n n d = diagonal (fun j => (Real.sqrt (x j) : K)) ∧
      toMat n n i = diagonal (fun j => (((Real.sqrt (x j))⁻¹ : ℝ) : K)) ∧
      (toMat n n u)ᴴ * toMat n n u = 1 ∧ toMat n n u * (toMat n n u)ᴴ = 1 ∧
      ∃ b : ℝ, 0 < b ∧ toMat n n u * diagonal (fun j => (x j : K)) * (toMat n n u)ᴴ = (b : K) • P := by
  have : Nonempty (Fin n) := ⟨⟨0, hn⟩⟩
  obtain ⟨sh, g⟩ := m
  change sh = [n, n] at hm
  subst hm
  obtain ⟨m, hm⟩ : ∃ m : NDArray K, m = ⟨[n, n], g⟩ := ⟨_, rfl⟩
  rw [← hm] at h
  -- the trace
  obtain ⟨τ, hτ, hτP⟩ : ∃ τ : ℝ, 0 < τ ∧ P.trace = (τ : K) := by
    have h1 := hP.trace_pos
    refine ⟨RCLike.re P.trace, ?_, ?_⟩
    · exact (RCLike.pos_iff.1 h1).1
    · have h2 := (RCLike.pos_iff.1 h1).2
      exact (RCLike.ext (by simp) (by simp [h2]))
  have ht : ∑ i ∈ range n, m.get [i, i] = c * τ := by
    rw [Finset.sum_range, ← hτP]
    have := congrArg Matrix.trace h
    rw [Matrix.trace_smul, smul_eq_mul] at this
    exact this
  have hτK : (τ : K) ≠ 0 := by exact_mod_cast hτ.ne'
  have ht0 : c * (τ : K) ≠ 0 := mul_ne_zero hc hτK
  -- the symmetrised matrix
  obtain ⟨T, hT⟩ : ∃ T : Matrix (Fin n) (Fin n) K, T = ((τ⁻¹ : ℝ) : K) • P := ⟨_, rfl⟩
  have hentry : ∀ i j : Fin n, m.get [i, j] / (c * τ) = T i j := by
    intro i j
    have := congrFun (congrFun h i) j
    rw [toMat_apply, Matrix.smul_apply, smul_eq_mul] at this
    rw [this, hT, Matrix.smul_apply, smul_eq_mul]
    push_cast
    field_simp
  have hTh : T.IsHermitian := by
    rw [hT]
    unfold Matrix.IsHermitian
    rw [Matrix.conjTranspose_smul, hP.isHermitian.eq]
    simp
  obtain ⟨m2, hm2⟩ : ∃ m2 : NDArray K, m2 = ⟨[n, n], fun i => (m.get i / (c * τ) +
      star (m.get [i.getD 1 0, i.getD 0 0] / (c * τ))) / 2⟩ := ⟨_, rfl⟩
  have hm2T : toMat n n m2 = T := by
    ext i j
    rw [toMat_apply, hm2]
    simp only [List.getD_cons_zero, List.getD_cons_succ]
    rw [hentry i j, hentry j i, ← Matrix.conjTranspose_apply, hTh.eq]
    ring
  have hEi := hE n T hTh
  obtain ⟨l, hl⟩ : ∃ l, l = (E.eigh n T).1 := ⟨_, rfl⟩
  obtain ⟨u, hu⟩ : ∃ u, u = (E.eigh n T).2 := ⟨_, rfl⟩
  rw [← hl, ← hu] at hEi
  obtain ⟨z, hz⟩ : ∃ z, z = Real.sqrt (∑ i, l i ^ 2) := ⟨_, rfl⟩
  have hzf : z = τ⁻¹ * frob P := by
    rw [hz, isEigh_frob hEi, hT, frob_smul _ (inv_nonneg.2 hτ.le)]
  have hlpos : ∀ i, 0 < l i ∧ cutoff * z < l i := by
    intro i
    have h1 := isEigh_entry hEi i
    have hPe : (uᴴ * P * u) i i = ((τ * l i : ℝ) : K) := by
      have : P = (τ : K) • T := by
        rw [hT, smul_smul]
        push_cast
        rw [mul_inv_cancel₀ hτK, one_smul]
      rw [this, Matrix.mul_smul, Matrix.smul_mul, Matrix.smul_apply, h1, smul_eq_mul]
      push_cast
      rfl
    have h2 := diag_pos_unitary hP hEi.left i
    rw [hPe, RCLike.ofReal_pos] at h2
    have h3 := diag_pos_unitary hcut hEi.left i
    rw [Matrix.mul_sub, Matrix.sub_mul, Matrix.mul_smul, Matrix.mul_one, Matrix.smul_mul, hEi.left,
      Matrix.sub_apply, hPe, Matrix.smul_apply, Matrix.one_apply_eq, smul_eq_mul, mul_one, ← RCLike.ofReal_sub,
      RCLike.ofReal_pos, sub_pos] at h3
    refine ⟨pos_of_mul_pos_right h2 hτ.le, ?_⟩
    rw [hzf, show cutoff * (τ⁻¹ * frob P) = τ⁻¹ * (cutoff * frob P) by ring, inv_mul_lt_iff₀ hτ]
    exact h3
  have hz0 : 0 < z := by
    rw [hz]
    refine Real.sqrt_pos.2 ?_
    exact Finset.sum_pos (fun i _ => by have := (hlpos i).1; positivity) Finset.univ_nonempty
  have hx : ∀ i, 0 < l i / z := fun i => div_pos (hlpos i).1 hz0
  have hxc : ∀ i, ¬ l i / z ≤ cutoff := by
    intro i
    rw [not_le, lt_div_iff₀ hz0]
    exact (hlpos i).2
  refine ⟨diagflat (ofVec fun i => Real.sqrt (l i / z)), diagflat (ofVec fun i => Real.sqrt (1 / (l i / z))), ofMat u, ?_,
    rfl, rfl, rfl, fun i => l i / z, hx, toMat_diagVec _, ?_, ?_, ?_, (τ * z)⁻¹, by positivity, ?_⟩
  · show spectralAt E cutoff n _ = _
    unfold spectralAt
    dsimp only
    rw [hm] at ht hm2
    dsimp only at ht hm2
    rw [ht, if_neg ht0, ← hm2, hm2T, ← hl, ← hu, ← hz]
    rw [if_neg hz0.ne']
    simp only [if_neg (hxc _)]
  · rw [toMat_diagVec]
    congr 1
    funext j
    rw [one_div, Real.sqrt_inv]
  · rw [toMat_ofMat]; exact hEi.left
  · rw [toMat_ofMat]; exact hEi.right
  · rw [toMat_ofMat]
    have h1 : diagonal (fun j => ((l j / z : ℝ) : K)) = ((z⁻¹ : ℝ) : K) • diagonal (fun j => (l j : K)) := by
      ext i j
      by_cases hij : i = j
      · subst hij
        rw [Matrix.smul_apply, Matrix.diagonal_apply_eq, Matrix.diagonal_apply_eq, smul_eq_mul]
        push_cast
        ring
      · rw [Matrix.smul_apply, Matrix.diagonal_apply_ne _ hij, Matrix.diagonal_apply_ne _ hij, smul_zero]
    rw [h1, Matrix.mul_smul, Matrix.smul_mul, ← isEigh_eq hEi, hT, smul_smul]
    congr 1
    push_cast
    rw [mul_inv, mul_comm]

/-! ### The first half of `canonicalize` -/

theorem sumIdx_smul {ι : Type} {κ : Type} (s : List Nat) (c : K) (f : List Nat → Matrix ι κ K) :
    sumIdx s (fun i => c • f i) = c • sumIdx s f := by
  rw [← sum_range_unravel, ← sum_range_unravel, Finset.smul_sum]

/-- Rescaling the cell rescales the eigenvalue. -/
theorem Irreducible.scale {ts ts' : List (NDArray K)} {n : Nat} {ds : List Nat} {e : ℝ}
    {L R : Matrix (Fin n) (Fin n) K} (h : Irreducible ts n ds e L R) {s : ℝ} (hs : 0 < s)
    (hc : ∀ is, InB ds is → cell ts n n is = (s : K) • cell ts' n n is) : Irreducible ts' n ds (e / s ^ 2) L R := by
  have hsK : (s : K) ≠ 0 := by exact_mod_cast hs.ne'
  have h1 : ∀ X, cellPull ts n ds X = ((s ^ 2 : ℝ) : K) • cellPull ts' n ds X := by
    intro X
    unfold cellPull
    rw [← sumIdx_smul]
    refine sumIdx_congr fun is his => ?_
    rw [hc is his, Matrix.conjTranspose_smul, Matrix.smul_mul, Matrix.smul_mul, Matrix.mul_smul, smul_smul]
    congr 1
    simp [pow_two]
  have h2 : ∀ X, cellPush ts n ds X = ((s ^ 2 : ℝ) : K) • cellPush ts' n ds X := by
    intro X
    unfold cellPush
    rw [← sumIdx_smul]
    refine sumIdx_congr fun is his => ?_
    rw [hc is his, Matrix.conjTranspose_smul, Matrix.smul_mul, Matrix.smul_mul, Matrix.mul_smul, smul_smul]
    congr 1
    simp [pow_two]
  have h3 : ∀ Y Z : Matrix (Fin n) (Fin n) K,
      ((s ^ 2 : ℝ) : K) • Y = (e : K) • Z ↔ Y = ((e / s ^ 2 : ℝ) : K) • Z := by
    intro Y Z
    have h4 : ((s ^ 2 : ℝ) : K) ≠ 0 := by exact_mod_cast (pow_pos hs 2).ne'
    have h5 : ((e / s ^ 2 : ℝ) : K) = (((s ^ 2 : ℝ) : K))⁻¹ * e := by
      push_cast
      rw [div_eq_inv_mul]
    rw [h5, ← smul_smul]
    constructor
    · intro h
      rw [← h, smul_smul, inv_mul_cancel₀ h4, one_smul]
    · intro h
      rw [h, smul_smul, mul_inv_cancel₀ h4, one_smul]
  exact {
    pos := div_pos h.pos (pow_pos hs 2)
    left := h.left
    right := h.right
    eigL := (h3 _ _).1 ((h1 L).symm.trans h.eigL)
    eigR := (h3 _ _).1 ((h2 R).symm.trans h.eigR)
    onlyL := fun X hX => h.onlyL X ((h1 X).trans ((h3 _ _).2 hX))
    onlyR := fun X hX => h.onlyR X ((h2 X).trans ((h3 _ _).2 hX)) }

theorem Irreducible.nonzero {ts : List (NDArray K)} {n : Nat} {ds : List Nat} {e : ℝ}
    {L R : Matrix (Fin n) (Fin n) K} (h : Irreducible ts n ds e L R) (hn : 0 < n) : Nonzero ts n ds n := by
  by_contra hz
  have h0 : ∀ is, InB ds is → cell ts n n is = 0 := by
    intro is his
    ext a b
    by_contra hne
    exact hz ⟨a, a.2, is, his, b, b.2, hne⟩
  have h1 : cellPull ts n ds L = 0 := by
    unfold cellPull
    rw [sumIdx_congr (g := fun _ => 0) fun is his => by rw [h0 is his]; simp]
    rw [← sum_range_unravel]
    simp
  rw [h.eigL] at h1
  have h2 : (e : K) ≠ 0 := by exact_mod_cast h.pos.ne'
  exact pos_ne_zero hn h.left ((smul_eq_zero.1 h1).resolve_left h2)

/-- `transfer_matrix_eigs` starts with a vector that is not zero. -/
def Starts (E : Kern K) (n : Nat) (init : Option (NDArray K)) : Prop :=
  ∃ v, initialVector E n init = .ok v ∧ v.shape = [n * n] ∧ entries (n * n) v ≠ 0

theorem starts_none {E : Kern K} (hE : RandOK E.randn) {n : Nat} (hn : 0 < n) : Starts E n none := by
  obtain ⟨h1, h2⟩ := hE (n * n) (Nat.mul_pos hn hn)
  exact ⟨E.randn (n * n), by rw [initialVector, pow_two], h1, h2⟩

/-- The roots of `L` and `R` and their inverses. -/
structure RootsOK {n : Nat} (L R : Matrix (Fin n) (Fin n) K) (q : Roots K) : Prop where
  ls : q.l.shape = [n, n]
  lis : q.li.shape = [n, n]
  rs : q.r.shape = [n, n]
  ris : q.ri.shape = [n, n]
  ll : toMat n n q.li * toMat n n q.l = 1
  lr : toMat n n q.l * toMat n n q.li = 1
  rl : toMat n n q.ri * toMat n n q.r = 1
  rr : toMat n n q.r * toMat n n q.ri = 1
  left : ∃ b : ℝ, 0 < b ∧ (toMat n n q.l)ᴴ * toMat n n q.l = (b : K) • L
  right : ∃ b : ℝ, 0 < b ∧ toMat n n q.r * (toMat n n q.r)ᴴ = (b : K) • R

theorem diag_sqrt {n : Nat} {x : Fin n → ℝ} (hx : ∀ j, 0 < x j) :
    diagonal (fun j => (Real.sqrt (x j) : K)) * diagonal (fun j => (((Real.sqrt (x j))⁻¹ : ℝ) : K)) = 1 ∧
    diagonal (fun j => (((Real.sqrt (x j))⁻¹ : ℝ) : K)) * diagonal (fun j => (Real.sqrt (x j) : K)) = 1 ∧
    diagonal (fun j => (Real.sqrt (x j) : K)) * diagonal (fun j => (Real.sqrt (x j) : K)) =
      diagonal (fun j => (x j : K)) := by
  have h0 : ∀ j, Real.sqrt (x j) ≠ 0 := fun j => (Real.sqrt_pos.2 (hx j)).ne'
  refine ⟨?_, ?_, ?_⟩
  · rw [Matrix.diagonal_mul_diagonal, ← Matrix.diagonal_one]
    congr 1
    funext j
    rw [← RCLike.ofReal_mul, mul_inv_cancel₀ (h0 j), RCLike.ofReal_one]
  · rw [Matrix.diagonal_mul_diagonal, ← Matrix.diagonal_one]
    congr 1
    funext j
    rw [← RCLike.ofReal_mul, inv_mul_cancel₀ (h0 j), RCLike.ofReal_one]
  · rw [Matrix.diagonal_mul_diagonal]
    congr 1
    funext j
    rw [← RCLike.ofReal_mul, Real.mul_self_sqrt (hx j).le]

theorem star_diag {n : Nat} (x : Fin n → ℝ) :
    (diagonal (fun j => (x j : K)))ᴴ = diagonal (fun j => (x j : K)) := by
  rw [Matrix.diagonal_conjTranspose]
  congr 1
  funext j
  simp

theorem map_star_eq {n : Nat} (u : Matrix (Fin n) (Fin n) K) : u.map star = uᴴᵀ := rfl

theorem roots_ok {E : Kern K} (hE : KernOK E) {st : Full K} {n : Nat} {ds : List Nat}
    (hb : Bonds st.tensors n ds n) (hne : st.tensors ≠ []) (hn : 0 < n)
    (hc : ∀ c, st.center = some c → c < st.tensors.length) {e : ℝ} {L R : Matrix (Fin n) (Fin n) K}
    (h : Irreducible st.tensors n ds e L R) {o : Opts K} (hl : Starts E n o.left) (hr : Starts E n o.right)
    (hL : AboveCutoff (o.cutoff.getD E.eps) L) (hR : AboveCutoff (o.cutoff.getD E.eps) R) :
    ∃ ts q, roots E st o = .ok (ts, q) ∧ Bonds ts n ds n ∧ Irreducible ts n ds 1 L R ∧ RootsOK L R q ∧
      ∃ a : ℝ, 0 < a ∧ ∀ is, InB ds is → cell st.tensors n n is = (a : K) • cell ts n n is := by
  have hlen : 0 < st.tensors.length := List.length_pos_iff.2 hne
  obtain ⟨s1, z1, p1, p2, p3, s, p4, _, p5⟩ := position_exact hE.qr
    (st := ⟨st.tensors, some (st.center.getD 0)⟩) (c := st.center.getD 0) rfl
    (by
      rcases hcc : st.center with _ | c
      · exact hlen
      · exact hc c hcc) hb (site := 0) le_rfl (by simpa using hlen) true (fun _ => h.nonzero hn)
  have hcell1 : ∀ is, InB ds is → cell st.tensors n n is = (s : K) • cell s1.tensors n n is := by
    intro is his
    ext a b
    exact p5 a a.2 is his b
  have hI1 := h.scale p4 hcell1
  have hlen1 : s1.tensors.length = st.tensors.length := by rw [← p3.length, hb.length]
  have hne1 : s1.tensors ≠ [] := by rw [← List.length_pos_iff, hlen1]; exact hlen
  obtain ⟨v, v1, v2, v3⟩ := hl
  obtain ⟨c1, hc1, l, l1, l2, l3⟩ := transferEigs_left hE.eigs p3 hne1 hn hI1 v1 v2 v3
  obtain ⟨A, hA⟩ : ∃ A, s1.tensors[0]? = some A := ⟨_, List.getElem?_eq_getElem (by omega)⟩
  obtain ⟨g, hg⟩ : ∃ g, g = Real.sqrt ‖((e / s ^ 2 : ℝ) : K)‖ := ⟨_, rfl⟩
  have hg2 : g ^ 2 = e / s ^ 2 := by
    rw [hg, Real.sq_sqrt (_root_.norm_nonneg _), RCLike.norm_ofReal, abs_of_pos hI1.pos]
  have hg0 : 0 < g := by
    rw [hg, Real.sqrt_pos, RCLike.norm_ofReal, abs_of_pos hI1.pos]
    exact hI1.pos
  have hgK : (g : K) ≠ 0 := by exact_mod_cast hg0.ne'
  obtain ⟨A', hA'⟩ : ∃ A' : NDArray K, A' = ⟨A.shape, fun i => A.get i / (g : K)⟩ := ⟨_, rfl⟩
  have hd : divide A g = .ok A' := by rw [divide, if_neg hg0.ne', hA']
  obtain ⟨b1, b2⟩ := amp_scale p3 hA (A' := A') (s := (g : K)) (by rw [hA']) (fun i => by
    rw [hA']; exact (mul_div_cancel₀ _ hgK).symm)
  have hcell2 : ∀ is, InB ds is → cell s1.tensors n n is = (g : K) • cell (s1.tensors.set 0 A') n n is := by
    intro is his
    ext a b
    exact b2 a is b
  have hI2 := hI1.scale hg0 hcell2
  rw [hg2, div_self hI1.pos.ne'] at hI2
  have hne2 : s1.tensors.set 0 A' ≠ [] := by
    rw [← List.length_pos_iff, List.length_set, hlen1]
    exact hlen
  obtain ⟨v', v1', v2', v3'⟩ := hr
  obtain ⟨c2, hc2, r, r1, r2, r3⟩ := transferEigs_right hE.eigs b1 hne2 hn hI2 v1' v2' v3'
  obtain ⟨dl, il, ul, x1, x2, x3, x4, x, x5, x6, x7, x8, x9, b, x10, x11⟩ :=
    spectral_mat hE.eigh hn l2 h.left.transpose hc1 l3 hL.transpose
  obtain ⟨dr, ir, ur, y1, y2, y3, y4, y, y5, y6, y7, y8, y9, b', y10, y11⟩ :=
    spectral_mat hE.eigh hn r2 h.right hc2 r3 hR
  obtain ⟨sl, sl1, sl2, sl3⟩ := sqrtl_mat E.so x4 x2
  obtain ⟨ivl, ivl1, ivl2, ivl3⟩ := invl_mat E.so x3 (N := conjT ul) (c := n) x4
  obtain ⟨sr, sr1, sr2, sr3⟩ := matmul_mat E.so y4 y2
  obtain ⟨ivr, ivr1, ivr2, ivr3⟩ := invr_mat E.so y3 (N := conjT ur) (c := n) y4
  refine ⟨s1.tensors.set 0 A', ⟨sl, ivl, sr, ivr⟩, ?_, b1, hI2, ?_, s * g, mul_pos p4 hg0, ?_⟩
  · unfold roots
    simp only [p1, bind, Except.bind, l1, tensorAt, hA, ← hg, hd, x1, sl1, ivl1, r1, y1, sr1, ivr1, pure, Except.pure]
  · obtain ⟨d1, d2, d3⟩ := diag_sqrt (K := K) x5
    obtain ⟨e1, e2, e3⟩ := diag_sqrt (K := K) y5
    rw [x6, Matrix.transpose_mul, Matrix.diagonal_transpose] at sl3
    rw [x7, Matrix.diagonal_transpose, toMat_conjT, map_star_eq] at ivl3
    rw [y6] at sr3
    rw [y7, toMat_conjT, map_star_eq, Matrix.transpose_transpose] at ivr3
    have hu1 : (toMat n n ul)ᵀ * (toMat n n ul)ᴴᵀ = 1 := by
      rw [← Matrix.transpose_mul, x8, Matrix.transpose_one]
    have hu2 : (toMat n n ul)ᴴᵀ * (toMat n n ul)ᵀ = 1 := by
      rw [← Matrix.transpose_mul, x9, Matrix.transpose_one]
    refine ⟨sl2, ivl2, sr2, ivr2, ?_, ?_, ?_, ?_, ⟨b, x10, ?_⟩, ⟨b', y10, ?_⟩⟩ <;> dsimp only
    · rw [ivl3, sl3, Matrix.mul_assoc, ← Matrix.mul_assoc (diagonal _) (diagonal _), d2, Matrix.one_mul, hu2]
    · rw [ivl3, sl3, Matrix.mul_assoc, ← Matrix.mul_assoc _ _ (diagonal _), hu1, Matrix.one_mul, d1]
    · rw [ivr3, sr3, Matrix.mul_assoc, ← Matrix.mul_assoc _ _ (diagonal _), y8, Matrix.one_mul, e2]
    · rw [ivr3, sr3, Matrix.mul_assoc, ← Matrix.mul_assoc (diagonal _) (diagonal _), e1, Matrix.one_mul, y9]
    · rw [sl3, Matrix.conjTranspose_mul, star_diag, Matrix.mul_assoc, ← Matrix.mul_assoc (diagonal _) (diagonal _), d3]
      have := congrArg Matrix.transpose x11
      rw [Matrix.transpose_mul, Matrix.transpose_mul, Matrix.diagonal_transpose, Matrix.transpose_smul,
        Matrix.transpose_transpose] at this
      rw [← this]
      rfl
    · rw [sr3, Matrix.conjTranspose_mul, star_diag, Matrix.mul_assoc, ← Matrix.mul_assoc (diagonal _) (diagonal _), e3,
        ← Matrix.mul_assoc, y11]
  · intro is his
    rw [hcell1 is his, hcell2 is his, smul_smul]
    push_cast
    rfl

end TN.Inf
