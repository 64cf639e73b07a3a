import Verif.InfTwice
import Verif.LanczosProps2

/-!
# Exact kernels and a concrete infinite MPS
-/

set_option linter.unusedSectionVars false

namespace TN.Inf

open TN NDArray Finset Ncon Mps Matrix
open scoped ComplexOrder

variable {K : Type} [RCLike K]

/-! ### Kernels that satisfy the assumptions -/

/-- A function on arrays that acts as a linear map. -/
def Acts (n : Nat) (f : NDArray K → Py (NDArray K)) (T : (Fin n → K) →ₗ[K] (Fin n → K)) : Prop :=
  ∀ x : NDArray K, x.shape = [n] → ∃ y, f x = .ok y ∧ y.shape = [n] ∧ entries n y = T (entries n x)

/-- The array with the given entries. -/
noncomputable def vecOf {n : Nat} (v : Fin n → K) : NDArray K :=
  ⟨[n], fun i => if h : i.getD 0 0 < n then v ⟨_, h⟩ else 0⟩

theorem entries_vecOf {n : Nat} (v : Fin n → K) : entries n (vecOf v) = v := by
  funext i
  simp [entries, vecOf]

theorem Acts.unique {n : Nat} {f : NDArray K → Py (NDArray K)} {T T' : (Fin n → K) →ₗ[K] (Fin n → K)}
    (h : Acts n f T) (h' : Acts n f T') : T = T' := by
  refine LinearMap.ext fun v => ?_
  obtain ⟨y, y1, _, y3⟩ := h (vecOf v) rfl
  obtain ⟨y', y1', _, y3'⟩ := h' (vecOf v) rfl
  obtain rfl : y = y' := Except.ok.inj (y1.symm.trans y1')
  rw [entries_vecOf] at y3 y3'
  rw [← y3, ← y3']

theorem Dominant.iter {n : Nat} {T : (Fin n → K) →ₗ[K] (Fin n → K)} {e : ℝ} {v : Fin n → K} (h : Dominant T e v)
    (k : Nat) : T^[k] v = ((e : K) ^ k) • v := by
  induction k with
  | zero => simp
  | succ k ih => rw [Function.iterate_succ_apply', ih, map_smul, h.eig, smul_smul, pow_succ]

theorem Dominant.le {n : Nat} {T : (Fin n → K) →ₗ[K] (Fin n → K)} {e e' : ℝ} {v v' : Fin n → K} (h : Dominant T e v)
    (h' : Dominant T e' v') : e' ≤ e := by
  by_contra hlt
  rw [not_le] at hlt
  obtain ⟨C, hC⟩ := h.bound v'
  have h1 : ∀ k, ‖v'‖ * (e' / e) ^ k ≤ C := by
    intro k
    have h2 := hC k
    rw [h'.iter, norm_smul, norm_pow, RCLike.norm_ofReal, abs_of_pos h'.pos] at h2
    rw [div_pow, mul_div_assoc', div_le_iff₀ (pow_pos h.pos k), mul_comm]
    exact h2
  have hv : 0 < ‖v'‖ := norm_pos_iff.2 h'.ne
  have h3 : 1 < e' / e := (one_lt_div h.pos).2 hlt
  obtain ⟨k, hk⟩ := pow_unbounded_of_one_lt (C / ‖v'‖) h3
  have h4 := h1 k
  rw [div_lt_iff₀ hv] at hk
  linarith [mul_comm ‖v'‖ ((e' / e) ^ k)]

/-- A kernel that finds the dominant eigenvector if there is one. -/
noncomputable def exactEigs (f : NDArray K → Py (NDArray K)) (v0 : NDArray K) : K × NDArray K :=
  open Classical in
  if h : ∃ p : Σ n : Nat, ((Fin n → K) →ₗ[K] (Fin n → K)) × ℝ × (Fin n → K),
      v0.shape = [p.1] ∧ Acts p.1 f p.2.1 ∧ Dominant p.2.1 p.2.2.1 p.2.2.2 then
    ((h.choose.2.2.1 : K), vecOf h.choose.2.2.2)
  else (0, v0)

theorem exactEigs_ok : EigsOK (exactEigs (K := K)) := by
  intro n f T v0 hv0 _ hf e v hd
  have h : ∃ p : Σ n : Nat, ((Fin n → K) →ₗ[K] (Fin n → K)) × ℝ × (Fin n → K),
      v0.shape = [p.1] ∧ Acts p.1 f p.2.1 ∧ Dominant p.2.1 p.2.2.1 p.2.2.2 := ⟨⟨n, T, e, v⟩, hv0, hf, hd⟩
  have hval : exactEigs f v0 = ((h.choose.2.2.1 : K), vecOf h.choose.2.2.2) := by
    unfold exactEigs
    rw [dif_pos h]
  rw [hval]
  obtain ⟨p, hp⟩ : ∃ p, p = h.choose := ⟨_, rfl⟩
  have hspec := h.choose_spec
  rw [← hp] at hspec ⊢
  obtain ⟨n', T', e', v'⟩ := p
  obtain ⟨h1, h2, h3⟩ := hspec
  simp only at h1 h2 h3 ⊢
  rw [hv0] at h1
  simp only [List.cons.injEq, and_true] at h1
  subst h1
  obtain rfl := h2.unique hf
  obtain rfl : e' = e := le_antisymm (hd.le h3) (h3.le hd)
  obtain ⟨c, hc⟩ := hd.only v' h3.eig
  refine ⟨rfl, rfl, c, ?_, ?_⟩
  · rintro rfl
    rw [zero_smul] at hc
    exact h3.ne hc
  · rw [entries_vecOf, hc]

/-- A kernel that inverts invertible matrices. -/
noncomputable def exactInv (M : NDArray K) : Py (NDArray K) :=
  open Classical in
  if h : ∃ p : Σ n : Nat, Matrix (Fin n) (Fin n) K, M.shape = [p.1, p.1] ∧ toMat p.1 p.1 M * p.2 = 1 then
    .ok (ofMat h.choose.2)
  else .error .runtimeError

theorem exactInv_ok : InvOK (exactInv (K := K)) := by
  constructor
  · intro n M N hM hN
    have h : ∃ p : Σ n : Nat, Matrix (Fin n) (Fin n) K, M.shape = [p.1, p.1] ∧ toMat p.1 p.1 M * p.2 = 1 :=
      ⟨⟨n, N⟩, hM, hN⟩
    refine ⟨ofMat h.choose.2, by unfold exactInv; rw [dif_pos h], ?_⟩
    obtain ⟨p, hp⟩ : ∃ p, p = h.choose := ⟨_, rfl⟩
    have hspec := h.choose_spec
    rw [← hp] at hspec ⊢
    obtain ⟨n', N'⟩ := p
    obtain ⟨h1, h2⟩ := hspec
    simp only at h1 h2 ⊢
    rw [hM] at h1
    simp only [List.cons.injEq, and_true, and_self] at h1
    subst h1
    refine ⟨rfl, ?_⟩
    rw [toMat_ofMat]
    calc N' = (N * toMat n n M) * N' := by rw [mul_eq_one_comm.1 hN, Matrix.one_mul]
      _ = N := by rw [Matrix.mul_assoc, h2, Matrix.mul_one]
  · intro M t ht
    unfold exactInv at ht
    split_ifs at ht with h
    cases ht
    exact h.choose_spec.1.symm

/-- Kernels in exact arithmetic. -/
noncomputable def exactKern (K : Type) [RCLike K] (so : SetOrder) (eps : ℝ) : Kern K :=
  { exactEnv K so with
    eigs := exactEigs
    eigh := Lanczos.someEigh
    inv := exactInv
    randn := fun n => ⟨[n], fun _ => 1⟩
    eps := eps }

theorem exactKern_ok (so : SetOrder) (eps : ℝ) : KernOK (exactKern K so eps) where
  qr := exactEnv_qr so
  svd := exactEnv_svd so
  eigs := exactEigs_ok
  eigh := Lanczos.someEigh_ok
  inv := exactInv_ok
  randn := by
    intro n hn
    refine ⟨rfl, fun h => ?_⟩
    have := congrFun h ⟨0, hn⟩
    exact one_ne_zero this

/-! ### A cell of one site -/

/-- The matrices `diag(16, 9) / 25` and `12 σ_x / 25`. -/
noncomputable def cellT (K : Type) [RCLike K] : NDArray K :=
  ⟨[2, 2, 2], fun i => match i with
    | [0, 0, 0] => 16 / 25
    | [1, 0, 1] => 9 / 25
    | [0, 1, 1] => 12 / 25
    | [1, 1, 0] => 12 / 25
    | _ => 0⟩

/-- Its Schmidt values. -/
noncomputable def cellLam : Fin 2 → ℝ := ![4 / 5, 3 / 5]

/-- The connector that brings it to Schmidt form. -/
noncomputable def cellC (K : Type) [RCLike K] : NDArray K := ofMat (diagonal fun i => (((cellLam i)⁻¹ : ℝ) : K))

theorem cellT_bonds : Bonds [cellT K] 2 [2] 2 := ⟨2, 2, [], rfl, rfl, rfl, rfl⟩

theorem cellT_zero : cell [cellT K] 2 2 [0] = !![16 / 25, 0; 0, 9 / 25] := by
  rw [cell_one (show (cellT K).shape = [2, 2, 2] from rfl)]
  ext a b
  fin_cases a <;> fin_cases b <;> rfl

theorem cellT_one : cell [cellT K] 2 2 [1] = !![0, 12 / 25; 12 / 25, 0] := by
  rw [cell_one (show (cellT K).shape = [2, 2, 2] from rfl)]
  ext a b
  fin_cases a <;> fin_cases b <;> rfl

theorem cellM_star : (!![16 / 25, 0; 0, 9 / 25] : Matrix (Fin 2) (Fin 2) K)ᴴ = !![16 / 25, 0; 0, 9 / 25] := by
  ext a b
  fin_cases a <;> fin_cases b <;> simp [Matrix.conjTranspose_apply]

theorem cellM'_star : (!![0, 12 / 25; 12 / 25, 0] : Matrix (Fin 2) (Fin 2) K)ᴴ = !![0, 12 / 25; 12 / 25, 0] := by
  ext a b
  fin_cases a <;> fin_cases b <;> simp [Matrix.conjTranspose_apply]

theorem cellC_eq : toMat 2 2 (cellC K) = !![5 / 4, 0; 0, 5 / 3] := by
  rw [cellC, toMat_ofMat]
  ext a b
  fin_cases a <;> fin_cases b <;> simp [cellLam, RCLike.ofReal_ofNat]

theorem cellC_star : (!![5 / 4, 0; 0, 5 / 3] : Matrix (Fin 2) (Fin 2) K)ᴴ = !![5 / 4, 0; 0, 5 / 3] := by
  ext a b
  fin_cases a <;> fin_cases b <;> simp [Matrix.conjTranspose_apply]

theorem sumIdx_two {M : Type} [AddCommMonoid M] (f : List Nat → M) : sumIdx [2] f = f [0] + f [1] := by
  simp [sumIdx, Finset.sum_range_succ]

theorem cellT_pull (X : Matrix (Fin 2) (Fin 2) K) : cellPull [cellT K] 2 [2] X =
    !![(256 * X 0 0 + 144 * X 1 1) / 625, 144 * (X 0 1 + X 1 0) / 625;
       144 * (X 0 1 + X 1 0) / 625, (144 * X 0 0 + 81 * X 1 1) / 625] := by
  unfold cellPull
  rw [sumIdx_two, cellT_zero, cellT_one]
  rw [cellM_star, cellM'_star, Matrix.eta_fin_two X]
  ext a b
  fin_cases a <;> fin_cases b <;> simp <;> ring

theorem cellT_push (X : Matrix (Fin 2) (Fin 2) K) : cellPush [cellT K] 2 [2] X =
    !![(256 * X 0 0 + 144 * X 1 1) / 625, 144 * (X 0 1 + X 1 0) / 625;
       144 * (X 0 1 + X 1 0) / 625, (144 * X 0 0 + 81 * X 1 1) / 625] := by
  unfold cellPush
  rw [sumIdx_two, cellT_zero, cellT_one]
  rw [cellM_star, cellM'_star, Matrix.eta_fin_two X]
  ext a b
  fin_cases a <;> fin_cases b <;> simp <;> ring

/-- The dominant eigenvector. -/
noncomputable def cellX (K : Type) [RCLike K] : Matrix (Fin 2) (Fin 2) K := diagonal fun i => ((![16, 9] i : ℝ) : K)

theorem cellX_posDef : (cellX K).PosDef := by
  refine Matrix.PosDef.diagonal fun i => ?_
  fin_cases i <;> simp

theorem cellX_eig : !![(256 * cellX K 0 0 + 144 * cellX K 1 1) / 625, 144 * (cellX K 0 1 + cellX K 1 0) / 625;
    144 * (cellX K 0 1 + cellX K 1 0) / 625, (144 * cellX K 0 0 + 81 * cellX K 1 1) / 625] =
      ((337 / 625 : ℝ) : K) • cellX K := by
  ext a b
  fin_cases a <;> fin_cases b <;> simp [cellX, RCLike.ofReal_ofNat] <;> norm_num

theorem cellX_only {X : Matrix (Fin 2) (Fin 2) K} (h : !![(256 * X 0 0 + 144 * X 1 1) / 625, 144 * (X 0 1 + X 1 0) / 625;
    144 * (X 0 1 + X 1 0) / 625, (144 * X 0 0 + 81 * X 1 1) / 625] = ((337 / 625 : ℝ) : K) • X) :
    ∃ c : K, X = c • cellX K := by
  have h00 := congrFun (congrFun h 0) 0
  have h01 := congrFun (congrFun h 0) 1
  have h10 := congrFun (congrFun h 1) 0
  simp only [Matrix.of_apply, Matrix.cons_val', Matrix.cons_val_zero, Matrix.cons_val_one, Matrix.smul_apply,
    smul_eq_mul, Matrix.cons_val_fin_one] at h00 h01 h10
  push_cast at h00 h01 h10
  have e1 : X 1 1 = 9 / 16 * X 0 0 := by linear_combination (625 / 144) * h00
  have e2 : X 0 1 = X 1 0 := by linear_combination (625 / 337) * (h10 - h01)
  have e3 : X 1 0 = 0 := by
    rw [e2] at h01
    linear_combination (-625 / 49) * h01
  refine ⟨X 0 0 / 16, ?_⟩
  ext a b
  fin_cases a <;> fin_cases b <;> simp [cellX, e1, e2, e3, RCLike.ofReal_ofNat] <;> ring

theorem cellT_irreducible : Irreducible [cellT K] 2 [2] (337 / 625) (cellX K) (cellX K) where
  pos := by norm_num
  left := cellX_posDef
  right := cellX_posDef
  eigL := by rw [cellT_pull, cellX_eig]
  eigR := by rw [cellT_push, cellX_eig]
  onlyL := fun X h => cellX_only (by rw [← cellT_pull, h])
  onlyR := fun X h => cellX_only (by rw [← cellT_push, h])

theorem cellX_cutoff {eps : ℝ} (h1 : eps ≤ 1 / 4) : AboveCutoff eps (cellX K) := by
  have hf : frob (cellX K) ≤ 20 := by
    unfold frob
    rw [Real.sqrt_le_left (by norm_num)]
    simp only [Fin.sum_univ_two, cellX, Matrix.diagonal_apply]
    simp
    norm_num
  have hf0 : 0 ≤ frob (cellX K) := Real.sqrt_nonneg _
  unfold AboveCutoff
  rw [cellX, Matrix.smul_one_eq_diagonal, Matrix.diagonal_sub, ← cellX]
  refine Matrix.PosDef.diagonal fun i => ?_
  rw [← RCLike.ofReal_sub, RCLike.ofReal_pos]
  have h2 : eps * frob (cellX K) ≤ 1 / 4 * 20 := mul_le_mul h1 hf hf0 (by norm_num)
  fin_cases i <;> simp <;> linarith

theorem cell_thr (x : ℝ) (h : ({} : Opts K).thr = some x) : AboveCutoff x (cellX K) ∧ AboveCutoff x (cellX K) := by
  cases h
  exact ⟨cellX_cutoff (by norm_num), cellX_cutoff (by norm_num)⟩

theorem cell_request (so : SetOrder) {eps : ℝ} (h1 : eps ≤ 1 / 4) :
    Request (exactKern K so eps) ⟨[cellT K], none, none⟩ {} 2 [2] (337 / 625) (cellX K) (cellX K) 1 where
  dim := by norm_num
  bonds := cellT_bonds
  ne := by simp
  center := by intro c h; cases h
  conn := by intro C h; cases h
  inv := by simp [connMat]
  irred := cellT_irreducible
  left := starts_none (exactKern_ok so eps).randn (by norm_num)
  right := starts_none (exactKern_ok so eps).randn (by norm_num)
  cutL := cellX_cutoff h1
  cutR := cellX_cutoff h1

/-- The cell without a connector is brought to Schmidt form. -/
example (so : SetOrder) : ∃ st z, canonicalize (exactKern ℂ so (1 / 2 ^ 52)) ⟨[cellT ℂ], none, none⟩ {} = .ok (st, z) ∧
    SchmidtForm so st 2 [2] := by
  have h := cell_request (K := ℂ) so (eps := 1 / 2 ^ 52) (by norm_num)
  obtain ⟨st, z, C, h1, h2, h3⟩ := C64_total (exactKern_ok so _) h (by simp) cell_thr
  exact ⟨st, z, h1, C64_schmidt_form (exactKern_ok so _) h rfl h1 h2 h3⟩

/-! ### Twice -/

theorem cellLam_pos (i : Fin 2) : 0 < cellLam i := by
  fin_cases i <;> simp [cellLam]

theorem cell_schmidt (so : SetOrder) : SchmidtForm so ⟨[cellT K], some 0, some (cellC K)⟩ 2 [2] where
  bonds := cellT_bonds
  center := rfl
  left := by
    intro site hs
    obtain rfl : site = 0 := by simpa using hs
    obtain ⟨T, t1, t2, t3⟩ := getTensor_last so (ts := [cellT K]) (B := cellT K) rfl
      (show (cellT K).shape = [2, 2, 2] from rfl) (conn := some (cellC K))
      (fun C hC => by simp only [Option.some.injEq] at hC; rw [← hC]; rfl) (some 0)
    refine ⟨T, t1, (leftIso_slice t2).2 ?_⟩
    rw [Finset.sum_range_succ, Finset.sum_range_one, t3 0 (by norm_num), t3 1 (by norm_num),
      ← cell_one (show (cellT K).shape = [2, 2, 2] from rfl), ← cell_one (show (cellT K).shape = [2, 2, 2] from rfl),
      cellT_zero, cellT_one, connMat, cellC_eq, Matrix.conjTranspose_mul,
      Matrix.conjTranspose_mul, cellM_star, cellM'_star, cellC_star]
    ext a b
    fin_cases a <;> fin_cases b <;> simp <;> norm_num
  right := by
    rw [sumIdx_two, cellT_zero, cellT_one, connMat, cellC_eq, Matrix.conjTranspose_mul,
      Matrix.conjTranspose_mul, cellM_star, cellM'_star, cellC_star]
    ext a b
    fin_cases a <;> fin_cases b <;> simp <;> norm_num
  schmidt := by
    refine ⟨cellC K, cellLam, rfl, rfl, cellLam_pos, ?_, ?_, ?_⟩
    · intro i j hij
      fin_cases i <;> fin_cases j <;> simp [cellLam] at hij ⊢ <;> norm_num
    · simp [Fin.sum_univ_two, cellLam]
      norm_num
    · rw [cellC, toMat_ofMat]

theorem cell_request' (so : SetOrder) {eps : ℝ} (h1 : eps ≤ 1 / 4) :
    Request (exactKern K so eps) ⟨[cellT K], some 0, some (cellC K)⟩ {} 2 [2] (337 / 625) (cellX K) (cellX K)
      (diagonal fun i => (cellLam i : K)) where
  dim := by norm_num
  bonds := cellT_bonds
  ne := by simp
  center := by intro c h; simp only [Option.some.injEq] at h; subst h; simp
  conn := by intro C h; simp only [Option.some.injEq] at h; subst h; rfl
  inv := by
    rw [connMat, cellC, toMat_ofMat, Matrix.diagonal_mul_diagonal, ← Matrix.diagonal_one]
    congr 1
    funext i
    rw [← RCLike.ofReal_mul, inv_mul_cancel₀ (cellLam_pos i).ne', RCLike.ofReal_one]
  irred := cellT_irreducible
  left := starts_none (exactKern_ok so eps).randn (by norm_num)
  right := starts_none (exactKern_ok so eps).randn (by norm_num)
  cutL := cellX_cutoff h1
  cutR := cellX_cutoff h1

/-- The state of the cell with a connector is kept. -/
example (so : SetOrder) : ∃ st z, canonicalize (exactKern ℂ so (1 / 2 ^ 52)) ⟨[cellT ℂ], some 0, some (cellC ℂ)⟩ {} =
    .ok (st, z) ∧ ∃ (c : ℝ) (W Wi : Matrix (Fin 2) (Fin 2) ℂ), 0 < c ∧ W * Wi = 1 ∧ Wi * W = 1 ∧
      ∀ is, InB [2] is → period st 2 is = (c : ℂ) • (W * (cell [cellT ℂ] 2 2 is * toMat 2 2 (cellC ℂ)) * Wi) := by
  have h := cell_request' (K := ℂ) so (eps := 1 / 2 ^ 52) (by norm_num)
  obtain ⟨st, z, C, h1, h2, h3⟩ := C64_total (exactKern_ok so _) h (by simp) cell_thr
  exact ⟨st, z, h1, C64_same_state (exactKern_ok so _) h h1 h2 h3⟩

/-- **C65.** There is an infinite MPS in Schmidt form which `canonicalize` brings out of it, whatever the
kernels. -/
theorem C65_twice_false {E : Kern K} (hE : KernOK E) (h1 : E.eps ≤ 1 / 4) :
    ∃ st st' z, SchmidtForm E.so st 2 [2] ∧ canonicalize E st {} = .ok (st', z) ∧ ¬ SchmidtForm E.so st' 2 [2] := by
  have hr : Request E ⟨[cellT K], some 0, some (cellC K)⟩ {} 2 [2] (337 / 625) (cellX K) (cellX K)
      (diagonal fun i => (cellLam i : K)) := by
    have h2 := cell_request' (K := K) E.so h1
    exact { dim := h2.dim, bonds := h2.bonds, ne := h2.ne, center := h2.center, conn := h2.conn, inv := h2.inv,
            irred := h2.irred, left := starts_none hE.randn h2.dim, right := starts_none hE.randn h2.dim,
            cutL := cellX_cutoff h1, cutR := cellX_cutoff h1 }
  obtain ⟨st', z, C', c1, c2, c3⟩ := C64_total hE hr (by simp) cell_thr
  refine ⟨_, st', z, cell_schmidt E.so, c1, fun hs => ?_⟩
  have h2 := (C65_again hE hr rfl cellLam_pos (by rw [cellC, toMat_ofMat]) c1 c2 c3).1 hs 0 1
  simp [cellLam] at h2

/-- The kernels of the theorem exist. -/
example (so : SetOrder) : ∃ st st' z, SchmidtForm so st 2 [2] ∧
    canonicalize (exactKern ℂ so (1 / 2 ^ 52)) st {} = .ok (st', z) ∧ ¬ SchmidtForm so st' 2 [2] :=
  C65_twice_false (exactKern_ok (K := ℂ) so _) (by show (1 / 2 ^ 52 : ℝ) ≤ 1 / 4; norm_num)

/-! ### Initial states -/

/-- **C64.** An initial state with more than one entry, so any one of the right size for a bond of dimension
two or more, is refused. -/
theorem C64_initial_refused {E : Kern K} (hE : KernOK E) {st : Full K} {o : Opts K} {n : Nat} {ds : List Nat}
    (hb : Bonds st.tensors n ds n) (hne : st.tensors ≠ []) (hz : Nonzero st.tensors n ds n)
    (hc : ∀ c, st.center = some c → c < st.tensors.length) {t : NDArray K} (ht : o.left = some t)
    (hsize : 1 < t.shape.prod) : canonicalize E st o = .error .valueError := by
  have hlen : 0 < st.tensors.length := List.length_pos_iff.2 hne
  obtain ⟨s1, z1, p1, p2, p3, _⟩ := position_exact hE.qr
    (st := ⟨st.tensors, some (st.center.getD 0)⟩) (c := st.center.getD 0) rfl
    (by
      rcases hcc : st.center with _ | c
      · exact hlen
      · exact hc c hcc) hb (site := 0) le_rfl (by simpa using hlen) true (fun _ => hz)
  have hlen1 : 0 < s1.tensors.length := by rw [← p3.length, hb.length]; exact hlen
  have hA : tensorAt s1.tensors 0 = .ok s1.tensors[0] := by
    unfold tensorAt
    rw [List.getElem?_eq_getElem hlen1]
  unfold canonicalize roots
  simp only [p1, bind, Except.bind, transferEigs, hA, ht, initialVector, if_pos hsize]

example (so : SetOrder) : canonicalize (exactKern ℂ so 0) ⟨[cellT ℂ], none, none⟩
    { left := some ⟨[4], fun _ => 1⟩ } = .error .valueError :=
  C64_initial_refused (exactKern_ok so 0) (n := 2) (ds := [2]) cellT_bonds (by simp)
    (cellT_irreducible.nonzero (by norm_num)) (by simp) rfl (by simp)

end TN.Inf
