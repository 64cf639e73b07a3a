import Verif.ExMeraState
import Mathlib.Analysis.Matrix.PosDef
import Mathlib.Analysis.Matrix.Spectrum

/-!
# C88: `shift_ham` of the example `simple_mera`
-/

set_option linter.unusedSectionVars false

namespace TN.Mera

open TN Finset
open scoped ComplexOrder

/-- `np.amax` of a vector -/
def amax (l : List ℝ) : ℝ := l.foldl max (l.headD 0)

/-- `shift_ham` (simple_mera.py:247-262).  `eig` is the first result of `np.linalg.eigh`.  Simplification: for a hamiltonian of 8 entries
the code adds the matrix to a column by broadcasting; here the shape is that of the column. -/
noncomputable def shiftHam (eig : NDArray ℂ → List ℝ) (h : NDArray ℂ) (shift : Option ℂ) : Py (NDArray ℂ) := do
  let m ← h.reshape [8, h.shape.prod / 8]
  let s : ℂ := match shift with
    | some s => s
    | none => (amax (eig m) : ℂ)
  let m : NDArray ℂ := ⟨m.shape, fun i => m.get i - s * if i.getD 0 0 = i.getD 1 0 then 1 else 0⟩
  m.reshape [2, 2, 2, 2, 2, 2]

/-- The hamiltonian as a matrix. -/
def hmat (h : NDArray ℂ) : Matrix (Fin 8) (Fin 8) ℂ := fun k l => h.get (unravel [2, 2, 2] k ++ unravel [2, 2, 2] l)

/-- What is assumed of `eigh`: the values for a Hermitian matrix are its eigenvalues. -/
def EigSpec (eig : NDArray ℂ → List ℝ) : Prop := ∀ m : NDArray ℂ, m.shape = [8, 8] →
  (Matrix.of fun k l : Fin 8 => m.get [(k : Nat), (l : Nat)]).IsHermitian →
    ∀ x, x ∈ eig m ↔ x ∈ spectrum ℝ (Matrix.of fun k l : Fin 8 => m.get [(k : Nat), (l : Nat)])

theorem split8 : ∀ k l : Fin 8, unravel [2, 2, 2, 2, 2, 2] (ravel [8, 8] [(k : Nat), (l : Nat)]) = unravel [2, 2, 2] k ++ unravel [2, 2, 2] l := by
  decide

theorem join8 : ∀ o0 < 2, ∀ o1 < 2, ∀ o2 < 2, ∀ i0 < 2, ∀ i1 < 2, ∀ i2 < 2,
    unravel [8, 8] (ravel [2, 2, 2, 2, 2, 2] [o0, o1, o2, i0, i1, i2]) = [ravel [2, 2, 2] [o0, o1, o2], ravel [2, 2, 2] [i0, i1, i2]] ∧
    unravel [2, 2, 2, 2, 2, 2] (ravel [8, 8] [ravel [2, 2, 2] [o0, o1, o2], ravel [2, 2, 2] [i0, i1, i2]]) = [o0, o1, o2, i0, i1, i2] ∧
    (ravel [2, 2, 2] [o0, o1, o2] = ravel [2, 2, 2] [i0, i1, i2] ↔ [o0, o1, o2] = [i0, i1, i2]) := by
  have h : ∀ o0 o1 o2 i0 i1 i2 : Fin 2, 
    unravel [8, 8] (ravel [2, 2, 2, 2, 2, 2] [(o0 : Nat), o1, o2, i0, i1, i2]) = [ravel [2, 2, 2] [(o0 : Nat), o1, o2], ravel [2, 2, 2] [(i0 : Nat), i1, i2]] ∧
    unravel [2, 2, 2, 2, 2, 2] (ravel [8, 8] [ravel [2, 2, 2] [(o0 : Nat), o1, o2], ravel [2, 2, 2] [(i0 : Nat), i1, i2]]) =
      [(o0 : Nat), o1, o2, i0, i1, i2] ∧
    (ravel [2, 2, 2] [(o0 : Nat), o1, o2] = ravel [2, 2, 2] [(i0 : Nat), i1, i2] ↔ [(o0 : Nat), o1, o2] = [(i0 : Nat), i1, i2]) := by
    decide +kernel
  intro o0 h0 o1 h1 o2 h2 i0 k0 i1 k1 i2 k2
  exact h ⟨o0, h0⟩ ⟨o1, h1⟩ ⟨o2, h2⟩ ⟨i0, k0⟩ ⟨i1, k1⟩ ⟨i2, k2⟩

/-- The shift that is applied. -/
noncomputable def shiftOf (eig : NDArray ℂ → List ℝ) (h : NDArray ℂ) : Option ℂ → ℂ
  | some s => s
  | none => (amax (eig ⟨[8, 8], fun i => h.get (unravel [2, 2, 2, 2, 2, 2] (ravel [8, 8] i))⟩) : ℂ)

/-- **C88.**  `shift_ham` subtracts a multiple of the identity. -/
theorem C88_shift {eig : NDArray ℂ → List ℝ} {h : NDArray ℂ} (hs : h.shape = [2, 2, 2, 2, 2, 2]) (shift : Option ℂ) :
    ∃ h', shiftHam eig h shift = .ok h' ∧ h'.shape = [2, 2, 2, 2, 2, 2] ∧
      ∀ o0 o1 o2 i0 i1 i2, InB [2, 2, 2, 2, 2, 2] [o0, o1, o2, i0, i1, i2] →
        h'.get [o0, o1, o2, i0, i1, i2] = h.get [o0, o1, o2, i0, i1, i2] - if [o0, o1, o2] = [i0, i1, i2] then shiftOf eig h shift else 0 := by
  obtain ⟨s, g⟩ := h
  simp only at hs
  subst hs
  refine ⟨⟨[2, 2, 2, 2, 2, 2], fun i => g (unravel [2, 2, 2, 2, 2, 2] (ravel [8, 8] (unravel [8, 8] (ravel [2, 2, 2, 2, 2, 2] i)))) -
    shiftOf eig ⟨[2, 2, 2, 2, 2, 2], g⟩ shift * if (unravel [8, 8] (ravel [2, 2, 2, 2, 2, 2] i)).getD 0 0 = (unravel [8, 8] (ravel [2, 2, 2, 2, 2, 2] i)).getD 1 0
      then 1 else 0⟩, ?_, rfl, ?_⟩
  · have h8 : [2, 2, 2, 2, 2, 2].prod / 8 = 8 := by decide
    have r1 : NDArray.reshape (⟨[2, 2, 2, 2, 2, 2], g⟩ : NDArray ℂ) [8, 8] =
        .ok ⟨[8, 8], fun i => g (unravel [2, 2, 2, 2, 2, 2] (ravel [8, 8] i))⟩ :=
      if_pos (show [8, 8].prod = [2, 2, 2, 2, 2, 2].prod by decide)
    simp only [shiftHam, h8]
    rw [r1]
    cases shift <;> exact if_pos (e := .error .valueError) (show [2, 2, 2, 2, 2, 2].prod = [8, 8].prod by decide)
  · intro o0 o1 o2 i0 i1 i2 hi
    simp only [InB, List.forall₂_cons] at hi
    obtain ⟨h0, h1, h2, k0, k1, k2, -⟩ := hi
    obtain ⟨e1, e2, e3⟩ := join8 o0 h0 o1 h1 o2 h2 i0 k0 i1 k1 i2 k2
    simp only [e1, e2, List.getD_cons_zero, List.getD_cons_succ, e3]
    split <;> simp

/-- **C88.**  For isometric tensors and a state of trace one the shift lowers the energy by the amount of the shift. -/
theorem C88_shift_energy {a b t : Nat} {eig : NDArray ℂ → List ℝ} {h h' rho iso dis : NDArray ℂ} {s : ℂ} (f : Fits a b t 2 h rho iso dis)
    (hi : IsIso a b t iso) (hu : IsUni a b 2 dis) (hsh : shiftHam eig h (some s) = .ok h') :
    energy h' rho iso dis = energy h rho iso dis - s * trace3 t fun r0 r1 r2 s0 s1 s2 => rho.get [r0, r1, r2, s0, s1, s2] := by
  obtain ⟨h1, e1, e2, e3⟩ := C88_shift (eig := eig) f.op (some s)
  obtain rfl : h' = h1 := by rw [hsh] at e1; exact Except.ok.inj e1
  have hid := C88_identity (op := exId) ⟨rfl, f.rho, f.iso, f.dis⟩ hi hu (fun o0 _ o1 _ o2 _ i0 _ i1 _ i2 _ => by simp [exId])
  rw [← hid, energy_sumIdx (op := h') ⟨e2, f.rho, f.iso, f.dis⟩, energy_sumIdx f, energy_sumIdx (op := exId) ⟨rfl, f.rho, f.iso, f.dis⟩,
    sumIdx_mul_left, eq_sub_iff_add_eq, sumIdx_add]
  refine sumIdx_congr fun k hk => ?_
  have h6 := get_six hk
  have := e3 _ _ _ _ _ _ (h6.symm ▸ hk)
  rw [h6] at this
  have hx : exId.get k = if [k.getD 0 0, k.getD 1 0, k.getD 2 0] = [k.getD 3 0, k.getD 4 0, k.getD 5 0] then 1 else 0 := by
    conv_lhs => rw [← h6]
    simp [exId]
  rw [this, hx]
  simp only [shiftOf]
  split <;> ring

theorem le_amax {l : List ℝ} {x : ℝ} (h : x ∈ l) : x ≤ amax l := by
  have : ∀ (l : List ℝ) (y : ℝ), y ≤ l.foldl max y ∧ ∀ x ∈ l, x ≤ l.foldl max y := by
    intro l
    induction l with
    | nil => intro y; simp
    | cons z l ih =>
      intro y
      refine ⟨(le_max_left _ _).trans (ih (max y z)).1, fun x hx => ?_⟩
      rcases List.mem_cons.1 hx with rfl | hx
      · exact (le_max_right _ _).trans (ih (max y x)).1
      · exact (ih (max y z)).2 x hx
  exact (this l _).2 x h

theorem amax_mem {l : List ℝ} (h : l ≠ []) : amax l ∈ l := by
  have : ∀ (l : List ℝ) (y : ℝ), l.foldl max y = y ∨ l.foldl max y ∈ l := by
    intro l
    induction l with
    | nil => intro y; simp
    | cons z l ih =>
      intro y
      rcases ih (max y z) with h | h
      · rw [List.foldl_cons, h]
        rcases max_choice y z with hm | hm <;> rw [hm] <;> simp
      · exact .inr (List.mem_cons_of_mem _ h)
  obtain ⟨z, l, rfl⟩ := List.exists_cons_of_ne_nil h
  rcases this (z :: l) z with h | h
  · rw [amax, List.headD_cons, h]; exact List.mem_cons_self
  · exact h

theorem hmat_herm {h : NDArray ℂ} (hh : Herm 2 h) : (hmat h).IsHermitian := by
  refine Matrix.IsHermitian.ext fun k l => ?_
  have hk : InB [2, 2, 2] (unravel [2, 2, 2] k) := unravel_inB k.2
  have hl : InB [2, 2, 2] (unravel [2, 2, 2] l) := unravel_inB l.2
  simp only [hmat]
  revert hk hl
  generalize unravel [2, 2, 2] (k : Nat) = u
  generalize unravel [2, 2, 2] (l : Nat) = v
  intro hk hl
  obtain ⟨u0, u, rfl, a0, hk⟩ := inB_cons_iff.1 hk
  obtain ⟨u1, u, rfl, a1, hk⟩ := inB_cons_iff.1 hk
  obtain ⟨u2, u, rfl, a2, hk⟩ := inB_cons_iff.1 hk
  obtain ⟨v0, v, rfl, b0, hl⟩ := inB_cons_iff.1 hl
  obtain ⟨v1, v, rfl, b1, hl⟩ := inB_cons_iff.1 hl
  obtain ⟨v2, v, rfl, b2, hl⟩ := inB_cons_iff.1 hl
  obtain rfl : u = [] := by simpa [InB] using hk
  obtain rfl : v = [] := by simpa [InB] using hl
  exact (hh u0 u1 u2 v0 v1 v2 (by simp [*])).symm

theorem sumIdx8 (f : List Nat → ℂ) : sumIdx [2, 2, 2] f = ∑ k : Fin 8, f (unravel [2, 2, 2] k) := by
  rw [← sum_range_unravel, Fin.sum_univ_eq_sum_range (fun k => f (unravel [2, 2, 2] k))]
  rfl

/-- **C88.**  Without a given shift the shifted hamiltonian of a Hermitian one is negative semi-definite, and no smaller shift would do:
its largest eigenvalue is zero. -/
theorem C88_shift_nonpos {eig : NDArray ℂ → List ℝ} (he : EigSpec eig) {h : NDArray ℂ} (hs : h.shape = [2, 2, 2, 2, 2, 2]) (hh : Herm 2 h) :
    ∃ h', shiftHam eig h none = .ok h' ∧ h'.shape = [2, 2, 2, 2, 2, 2] ∧
      (∀ v : List Nat → ℂ, (sumIdx [2, 2, 2] fun o => sumIdx [2, 2, 2] fun i => star (v o) * h'.get (o ++ i) * v i).re ≤ 0) ∧
      ∃ v : List Nat → ℂ, (∃ o, InB [2, 2, 2] o ∧ v o ≠ 0) ∧ ∀ o, InB [2, 2, 2] o → (sumIdx [2, 2, 2] fun i => h'.get (o ++ i) * v i) = 0 := by
  obtain ⟨h', e1, e2, e3⟩ := C88_shift (eig := eig) hs none
  refine ⟨h', e1, e2, ?_⟩
  obtain ⟨c, hc⟩ : ∃ c, c = amax (eig ⟨[8, 8], fun i => h.get (unravel [2, 2, 2, 2, 2, 2] (ravel [8, 8] i))⟩) := ⟨_, rfl⟩
  have hm : (Matrix.of fun k l : Fin 8 => h.get (unravel [2, 2, 2, 2, 2, 2] (ravel [8, 8] [(k : Nat), (l : Nat)]))) = hmat h := by
    ext k l
    simp only [Matrix.of_apply, hmat, split8]
  have hH := hmat_herm hh
  have hsp := he ⟨[8, 8], fun i => h.get (unravel [2, 2, 2, 2, 2, 2] (ravel [8, 8] i))⟩ rfl (by simp only [hm]; exact hH)
  simp only [hm, hH.spectrum_real_eq_range_eigenvalues] at hsp
  have hle : ∀ i, hH.eigenvalues i ≤ c := fun i => hc ▸ le_amax ((hsp _).2 ⟨i, rfl⟩)
  obtain ⟨j, hj⟩ : ∃ j, hH.eigenvalues j = c := by
    rw [hc]
    exact (hsp _).1 (amax_mem (List.ne_nil_of_mem ((hsp _).2 ⟨0, rfl⟩)))
  have hS : ∀ k l : Fin 8, h'.get (unravel [2, 2, 2] k ++ unravel [2, 2, 2] l) = hmat h k l - if k = l then (c : ℂ) else 0 := by
    intro k l
    have hu : ∀ k l : Fin 8, unravel [2, 2, 2] (k : Nat) = unravel [2, 2, 2] (l : Nat) ↔ k = l := by decide
    have hk : InB [2, 2, 2] (unravel [2, 2, 2] k) := unravel_inB k.2
    have hl : InB [2, 2, 2] (unravel [2, 2, 2] l) := unravel_inB l.2
    simp only [hmat, ← hu k l]
    revert hk hl
    generalize unravel [2, 2, 2] (k : Nat) = u
    generalize unravel [2, 2, 2] (l : Nat) = v
    intro hk hl
    obtain ⟨u0, u, rfl, a0, hk⟩ := inB_cons_iff.1 hk
    obtain ⟨u1, u, rfl, a1, hk⟩ := inB_cons_iff.1 hk
    obtain ⟨u2, u, rfl, a2, hk⟩ := inB_cons_iff.1 hk
    obtain ⟨v0, v, rfl, b0, hl⟩ := inB_cons_iff.1 hl
    obtain ⟨v1, v, rfl, b1, hl⟩ := inB_cons_iff.1 hl
    obtain ⟨v2, v, rfl, b2, hl⟩ := inB_cons_iff.1 hl
    obtain rfl : u = [] := by simpa [InB] using hk
    obtain rfl : v = [] := by simpa [InB] using hl
    rw [hc]
    exact e3 u0 u1 u2 v0 v1 v2 (by simp [*])
  constructor
  · intro v
    have hB : (algebraMap ℝ (Matrix (Fin 8) (Fin 8) ℂ) c - hmat h).IsHermitian := by
      refine Matrix.IsHermitian.sub ?_ hH
      rw [Algebra.algebraMap_eq_smul_one]
      exact Matrix.isHermitian_one.smul (IsSelfAdjoint.all c)
    have hP : (algebraMap ℝ (Matrix (Fin 8) (Fin 8) ℂ) c - hmat h).PosSemidef := by
      rw [hB.posSemidef_iff_eigenvalues_nonneg]
      intro i
      have := hB.eigenvalues_mem_spectrum_real i
      rw [← spectrum.singleton_sub_eq, hH.spectrum_real_eq_range_eigenvalues] at this
      obtain ⟨x, hx, y, ⟨k, rfl⟩, hxy⟩ := this
      rw [Set.mem_singleton_iff] at hx
      subst hx
      have := hle k
      show (0 : ℝ) ≤ _
      simp only at hxy
      linarith
    have hp := hP.re_dotProduct_nonneg fun k => v (unravel [2, 2, 2] k)
    have hneg : (sumIdx [2, 2, 2] fun o => sumIdx [2, 2, 2] fun i => star (v o) * h'.get (o ++ i) * v i) =
        -(star (fun k : Fin 8 => v (unravel [2, 2, 2] k)) ⬝ᵥ
          (algebraMap ℝ (Matrix (Fin 8) (Fin 8) ℂ) c - hmat h).mulVec fun k => v (unravel [2, 2, 2] k)) := by
      rw [sumIdx8, dotProduct, ← sum_neg_distrib]
      refine sum_congr rfl fun k _ => ?_
      rw [sumIdx8, Matrix.mulVec, dotProduct, mul_sum, ← sum_neg_distrib]
      refine sum_congr rfl fun l _ => ?_
      rw [hS, Matrix.sub_apply, Matrix.algebraMap_matrix_apply]
      simp only [Pi.star_apply, Complex.coe_algebraMap]
      ring
    rw [hneg, Complex.neg_re]
    exact neg_nonpos.2 hp
  · obtain ⟨w, hw⟩ : ∃ w : Fin 8 → ℂ, w = (hH.eigenvectorBasis j).ofLp := ⟨_, rfl⟩
    have hne : w ≠ 0 := by
      intro h0
      have h1 := hH.eigenvectorBasis.orthonormal.1 j
      have : hH.eigenvectorBasis j = 0 := by
        ext k
        exact congrFun (hw.symm.trans h0) k
      rw [this, norm_zero] at h1
      exact zero_ne_one h1
    have hev := hH.mulVec_eigenvectorBasis j
    have hval : ∀ k : Fin 8, w ⟨ravel [2, 2, 2] (unravel [2, 2, 2] k) % 8, Nat.mod_lt _ (by decide)⟩ = w k := by
      intro k
      congr 1
      revert k; decide
    refine ⟨fun o => w ⟨ravel [2, 2, 2] o % 8, Nat.mod_lt _ (by decide)⟩, ?_, ?_⟩
    · obtain ⟨k, hk⟩ := Function.ne_iff.1 hne
      exact ⟨unravel [2, 2, 2] k, unravel_inB k.2, fun h0 => hk ((hval k).symm.trans h0)⟩
    · intro o ho
      have ho8 : ravel [2, 2, 2] o < 8 := ravel_lt ho
      obtain ⟨k, rfl⟩ : ∃ k : Fin 8, o = unravel [2, 2, 2] k := ⟨⟨ravel [2, 2, 2] o, ho8⟩, (unravel_ravel ho).symm⟩
      rw [sumIdx8]
      have := congrFun hev k
      rw [← hw] at this
      simp only [Matrix.mulVec, dotProduct, Pi.smul_apply, hj] at this
      simp only [hval, hS, sub_mul, sum_sub_distrib, this]
      simp

/-! ### Examples -/

/-- There is an `eigh` as assumed. -/
theorem eigSpec_exists : ∃ eig, EigSpec eig := by
  classical
  refine ⟨fun m => (Matrix.finite_real_spectrum (A := Matrix.of fun k l : Fin 8 => m.get [(k : Nat), (l : Nat)])).toFinset.toList, fun m _ _ x => ?_⟩
  simp

example : ∃ eig h', EigSpec eig ∧ shiftHam eig exRho none = .ok h' ∧
    ∀ v : List Nat → ℂ, (sumIdx [2, 2, 2] fun o => sumIdx [2, 2, 2] fun i => star (v o) * h'.get (o ++ i) * v i).re ≤ 0 := by
  obtain ⟨eig, he⟩ := eigSpec_exists
  obtain ⟨h', h1, -, h2, -⟩ := C88_shift_nonpos he (h := exRho) rfl ex_herm
  exact ⟨eig, h', he, h1, h2⟩

example (eig : NDArray ℂ → List ℝ) : ∃ h', shiftHam eig exId (some 3) = .ok h' ∧ energy h' exRho exIso exDis = -2 := by
  obtain ⟨h', h1, -⟩ := C88_shift (eig := eig) (h := exId) rfl (some 3)
  refine ⟨h', h1, ?_⟩
  rw [C88_shift_energy ex_fits ex_iso ex_uni h1, ex_trace, C88_identity ex_fits ex_iso ex_uni (fun o0 _ o1 _ o2 _ i0 _ i1 _ i2 _ => by simp [exId]), ex_trace]
  norm_num

end TN.Mera
