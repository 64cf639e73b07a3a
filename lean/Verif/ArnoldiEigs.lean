import Verif.ArnoldiProps
import Mathlib.Analysis.Complex.Basic

/-!
# Properties of `eigs` of the jax backend
-/

set_option linter.unusedSectionVars false

namespace TN.Krylov

noncomputable section

open Classical Matrix

variable {n m : Nat}

theorem eigs_ok {K : Kernels ℂ m} {eps : ℝ} {A : Vec ℂ n → Vec ℂ n} {init : Vec ℂ n} {numeig : Nat} {w : Which} {tol : ℝ}
    {maxiter : Nat} {l : List (ℂ × Option (Vec ℂ n))} {k : Nat}
    (h : eigs K eps A init numeig w tol maxiter = .ok (l, k)) :
    (w = .LR ∨ w = .LM) ∧ numeig ≤ m ∧ m ≤ n ∧ k = (eigsState K eps A init numeig w tol (maxiter - 1) : Outer ℂ n m).numits ∧
      l = finish K w numeig (eigsState K eps A init numeig w tol (maxiter - 1) : Outer ℂ n m).V
        (eigsState K eps A init numeig w tol (maxiter - 1) : Outer ℂ n m).H k := by
  unfold eigs at h
  split_ifs at h with h1 h2 h3
  have hw : w = .LR ∨ w = .LM := by
    by_cases hw : w = .LR
    · exact .inl hw
    · by_cases hw' : w = .LM
      · exact .inr hw'
      · exact absurd ⟨hw, hw'⟩ h1
  injection h with h
  injection h with e1 e2
  obtain ⟨h4, h5⟩ : numeig ≤ m ∧ m ≤ n := h3
  refine ⟨hw, h4, h5, e2.symm, ?_⟩
  rw [← e2]
  exact e1.symm

/-- `eigs` raises a ValueError exactly for an unknown `which` and for sizes out of order. -/
theorem C73_errors (K : Kernels ℂ m) (eps : ℝ) (A : Vec ℂ n → Vec ℂ n) (init : Vec ℂ n) (numeig : Nat) (w : Which)
    (tol : ℝ) (maxiter : Nat) : eigs K eps A init numeig w tol maxiter = .error .valueError ↔
      ¬ ((w = .LR ∨ w = .LM) ∧ numeig ≤ m ∧ m ≤ n) := by
  constructor
  · rintro h ⟨hw, h1, h2⟩
    unfold eigs at h
    rw [if_neg (by rintro ⟨a, b⟩; rcases hw with e | e <;> contradiction), if_neg (by omega), if_neg (by omega)] at h
    cases h
  · intro h
    unfold eigs
    split_ifs with h1 h2 h3
    · rfl
    · rfl
    · exfalso
      apply h
      refine ⟨?_, h3⟩
      by_cases hw : w = .LR
      · exact .inl hw
      · by_cases hw' : w = .LM
        · exact .inr hw'
        · exact absurd ⟨hw, hw'⟩ h1
    · rfl

/-- What `eigs` returns: `numeig` pairs by decreasing keys, each of which is a unit vector `v` with `⟪v, A v⟫` or a zero with
NaNs.  If the iteration stopped early with a number of vectors other than `numeig`, the residuals are at most `tol`; if there
are as many Krylov vectors as the dimension, the pairs are eigenpairs. -/
theorem C73_pairs_partial {K : Kernels ℂ m} (hK : K.OK) {eps : ℝ} {A : Vec ℂ n →ₗ[ℂ] Vec ℂ n} {init : Vec ℂ n} {numeig : Nat}
    {w : Which} {tol : ℝ} (h0 : 0 ≤ tol) {maxiter : Nat} (ht : NoTie K eps A init numeig w tol maxiter)
    {l : List (ℂ × Option (Vec ℂ n))} {k : Nat} (h : eigs K eps A init numeig w tol maxiter = .ok (l, k)) :
    l.length = numeig ∧ (l.map fun p => w.key p.1).Pairwise (· ≥ ·) ∧
    ∀ p ∈ l, (p = (0, none) ∧ k < m) ∨ ∃ v, p.2 = some v ∧ ‖v‖ = 1 ∧ inner ℂ v (A v) = p.1 ∧
      (k < m → k ≠ numeig → ‖A v - p.1 • v‖ ≤ tol) ∧ (k = n → A v = p.1 • v) := by
  obtain ⟨hw, hn, hm, hk, hl⟩ := eigs_ok h
  have hlen : l.length = numeig := by rw [hl]; exact finish_length K w hn _ _ _
  refine ⟨hlen, ?_, ?_⟩
  · rw [hl, finish, List.map_take, List.map_ofFn]
    refine List.Pairwise.take ?_
    rw [List.pairwise_ofFn]
    intro i j hij
    exact order_anti hK.sort w _ (le_of_lt hij)
  · intro p hp
    have hn0 : 0 < numeig := by
      rw [← hlen]; exact List.length_pos_of_mem hp
    have hf := eigs_final hK.qr hn0 hn h0 ht
    rw [hl] at hp
    generalize (eigsState K eps A init numeig w tol (maxiter - 1) : Outer ℂ n m) = o at *
    obtain ⟨hcomp, hsmall⟩ := hf
    rw [← hk] at hcomp hsmall
    rcases hcomp.finish (hK.eig _) hp with hz | ⟨u, v, hu, hx, hv, hp2, hv1, hvA⟩
    · exact .inl hz
    · refine .inr ⟨v, hp2, hv1, hvA, fun hkm hkn => ?_, fun hkn => ?_⟩
      · obtain ⟨r, hr, hrt⟩ := hsmall hkm hkn
        have := hr.residual hu
        have hpos : 0 < ‖comb o.V u‖ := norm_pos_iff.mpr hx
        rw [hv, map_smul, smul_comm, ← smul_sub, norm_smul]
        have e : ‖((1 / ‖comb o.V u‖ : ℝ) : ℂ)‖ = 1 / ‖comb o.V u‖ := by simp
        refine (congrArg (· * _) e).trans_le ?_
        show 1 / ‖comb o.V u‖ * _ ≤ tol
        rw [one_div, inv_mul_le_iff₀ hpos]
        exact this.trans (mul_le_mul_of_nonneg_left hrt hpos.le)
      · have hmn : m = n := by have := hcomp.le; omega
        subst hmn
        subst hkn
        have := hcomp.eigen hu
        rw [hv, map_smul, this, smul_comm]

/-- With as many Krylov vectors as the dimension and no early stop, `eigs` returns the wanted eigenvalues of the
operator with their multiplicities: all the other ones have smaller keys. -/
theorem C73_exact {K : Kernels ℂ n} (hK : K.OK) {eps : ℝ} {A : Vec ℂ n →ₗ[ℂ] Vec ℂ n} {init : Vec ℂ n} {numeig : Nat}
    {w : Which} {tol : ℝ} (h0 : 0 ≤ tol) {maxiter : Nat} (hn0 : 0 < numeig) (ht : NoTie K eps A init numeig w tol maxiter)
    {l : List (ℂ × Option (Vec ℂ n))} (h : eigs K eps A init numeig w tol maxiter = .ok (l, n)) :
    ∃ others : Multiset ℂ, A.charpoly.roots = ↑(l.map Prod.fst) + others ∧
      ∀ p ∈ l, ∀ z ∈ others, w.key z ≤ w.key p.1 := by
  obtain ⟨hw, hn, hm, hk, hl⟩ := eigs_ok h
  have hf := eigs_final hK.qr hn0 hn h0 ht
  generalize (eigsState K eps A init numeig w tol (maxiter - 1) : Outer ℂ n n) = o at *
  have hcomp := hf.comp
  rw [← hk] at hcomp
  have hE := hK.eig (cut n o.H)
  rw [finish] at hl
  set vals := (K.eig (cut n o.H)).1 with hvals
  have hl1 : l.map Prod.fst = (List.ofFn fun j => vals (order K w vals j)).take numeig := by
    rw [hl, List.map_take, List.map_ofFn]; rfl
  refine ⟨↑((List.ofFn fun j => vals (order K w vals j)).drop numeig), ?_, ?_⟩
  · rw [hl1, Multiset.coe_add, List.take_append_drop, ← hcomp.charpoly, ← cut_full o.H, hE.charpoly]
    have : ∏ j, (Polynomial.X - Polynomial.C (vals j)) =
        ((Finset.univ.val.map vals).map fun a => Polynomial.X - Polynomial.C a).prod := by
      rw [Multiset.map_map]; rfl
    rw [this, Polynomial.roots_multiset_prod_X_sub_C]
    have e : (List.ofFn fun j => vals (order K w vals j)) = (List.finRange n).map fun j => vals (order K w vals j) :=
      List.ofFn_eq_map
    rw [e, ← Multiset.map_coe]
    have hb : Function.Bijective (order K w vals) := hK.sort.bij _
    have e2 : (Finset.univ : Finset (Fin n)).val.map (order K w vals) = (Finset.univ : Finset (Fin n)).val := by
      have := Finset.map_univ_equiv (Equiv.ofBijective _ hb)
      have := congrArg Finset.val this
      exact this
    rw [← e2, Multiset.map_map]
    rfl
  · intro p hp z hz
    have hp1 : p.1 ∈ (List.ofFn fun j => vals (order K w vals j)).take numeig := by
      rw [← hl1]; exact List.mem_map_of_mem hp
    obtain ⟨i, hi, hpi⟩ := List.mem_take_iff_getElem.mp hp1
    obtain ⟨j, hj, hzj⟩ := List.mem_drop_iff_getElem.mp (Multiset.mem_coe.mp hz)
    rw [List.getElem_ofFn] at hpi hzj
    rw [← hpi, ← hzj]
    refine order_anti hK.sort w vals ?_
    show i ≤ numeig + j
    omega

/-- A matrix within the cut is injective if no vector is orthogonal to its image. -/
theorem Comp.inj {A : Vec ℂ n →ₗ[ℂ] Vec ℂ n} {V : Fin m → Vec ℂ n} {H : Mat ℂ m} {k : Nat} (h : Comp A V H k)
    (hA : ∀ v : Vec ℂ n, v ≠ 0 → inner ℂ v (A v) ≠ 0) (u : Fin m → ℂ) (hu : ∀ a : Fin m, k ≤ a.val → u a = 0)
    (h0 : cut k H *ᵥ u = 0) : u = 0 := by
  have hx : comb V u = 0 := by
    by_contra hx
    have := h.inner_self (z := 0) (u := u) (by rw [h0, zero_smul])
    rw [zero_mul] at this
    exact hA _ hx this
  funext a
  by_cases ha : a.val < k
  · exact (h.comb_eq_zero u).1 hx a ha
  · exact hu a (by omega)

theorem Comp.value {A : Vec ℂ n →ₗ[ℂ] Vec ℂ n} {V : Fin m → Vec ℂ n} {H : Mat ℂ m} {k : Nat} (h : Comp A V H k)
    {u : Fin m → ℂ} {z : ℂ} (hu0 : u ≠ 0) (hu : cut k H *ᵥ u = z • u) (hz : z ≠ 0) :
    comb V u ≠ 0 ∧ inner ℂ (comb V u) (A (comb V u)) = z * (‖comb V u‖ : ℂ) ^ 2 := by
  refine ⟨fun hx => hz (h.eig_zero hu0 hu hx), ?_⟩
  rw [h.inner_self hu, inner_self_eq_norm_sq_to_K]
  rfl

theorem re_value {z : ℂ} {x : ℝ} : (z * (x : ℂ) ^ 2).re = z.re * x ^ 2 := by
  rw [← Complex.ofReal_pow, Complex.re_mul_ofReal]

/-- The spurious zeros come last for an operator with positive real part: the first `min numeig numits` pairs that are
returned are Ritz pairs. -/
theorem C73_positive {K : Kernels ℂ m} (hK : K.OK) {eps : ℝ} {A : Vec ℂ n →ₗ[ℂ] Vec ℂ n} {init : Vec ℂ n} {numeig : Nat}
    {w : Which} {tol : ℝ} (h0 : 0 ≤ tol) {maxiter : Nat} (ht : NoTie K eps A init numeig w tol maxiter)
    (hA : ∀ v : Vec ℂ n, v ≠ 0 → 0 < (inner ℂ v (A v)).re)
    {l : List (ℂ × Option (Vec ℂ n))} {k : Nat} (h : eigs K eps A init numeig w tol maxiter = .ok (l, k)) (i : Nat)
    (hi : i < numeig) (hik : i < k) : ∃ z v, l[i]? = some (z, some v) ∧ 0 < z.re := by
  obtain ⟨hw, hn, hm, hk, hl⟩ := eigs_ok h
  have hf := (eigs_final hK.qr (by omega) hn h0 ht).comp
  rw [hl, finish_getElem K w hn _ _ _ _ hi]
  generalize (eigsState K eps A init numeig w tol (maxiter - 1) : Outer ℂ n m) = o at *
  rw [← hk] at hf
  have hE := hK.eig (cut k o.H)
  have hpos : ∀ j, (K.eig (cut k o.H)).1 j ≠ 0 → 0 < ((K.eig (cut k o.H)).1 j).re := by
    intro j hj
    obtain ⟨hx, hv⟩ := hf.value (hE.ne j) (hE.vec j) hj
    have := hA _ hx
    rw [hv, re_value] at this
    exact (pos_iff_pos_of_mul_pos this).2 (by have := norm_pos_iff.mpr hx; positivity)
  have hc := count_zero hf.le hE (hf.inj fun v hv e => by have := hA v hv; rw [e] at this; simp at this)
  have hne : (K.eig (cut k o.H)).1 (order K w (K.eig (cut k o.H)).1 ⟨i, by omega⟩) ≠ 0 := by
    refine initial_segment (fun j => (K.eig (cut k o.H)).1 (order K w (K.eig (cut k o.H)).1 j) ≠ 0) (fun a b hab hb ha => ?_)
      (c := k) ?_ ⟨i, by omega⟩ hik
    · have h1 := order_anti hK.sort w (K.eig (cut k o.H)).1 hab
      rw [ha] at h1
      have h2 := hpos _ hb
      rcases hw with e | e <;> subst e
      · simp only [Which.key] at h1
        have : (0 : ℂ).re = 0 := rfl
        exact absurd h1 (not_le.mpr (by rw [map_zero]; exact h2))
      · simp only [Which.key, norm_zero] at h1
        exact hb (norm_le_zero_iff.mp h1)
    · rw [card_order hK.sort w _ (fun z => z ≠ 0)]
      have := Finset.card_filter_add_card_filter_not (s := (Finset.univ : Finset (Fin m)))
        (fun j => (K.eig (cut k o.H)).1 j = 0)
      rw [hc, Finset.card_univ, Fintype.card_fin] at this
      have h3 := hf.le
      have h4 := Nat.add_left_cancel (this.trans (show m = (m - k) + k by omega))
      convert h4
  obtain ⟨hx, -⟩ := hf.value (hE.ne _) (hE.vec _) hne
  exact ⟨_, _, by rw [getVector_some hx], hpos _ hne⟩

/-- For an operator with negative real part and `which = 'LR'`, whenever the iteration ends with less than
`num_krylov_vecs` vectors the first pairs that are returned are zeros with vectors of NaNs, and `numeig > numits`, of which the
code warns, is not needed for that. -/
theorem C73_negative_false {K : Kernels ℂ m} (hK : K.OK) {eps : ℝ} {A : Vec ℂ n →ₗ[ℂ] Vec ℂ n} {init : Vec ℂ n}
    {numeig : Nat} {tol : ℝ} (h0 : 0 ≤ tol) {maxiter : Nat} (ht : NoTie K eps A init numeig .LR tol maxiter)
    (hA : ∀ v : Vec ℂ n, v ≠ 0 → (inner ℂ v (A v)).re < 0)
    {l : List (ℂ × Option (Vec ℂ n))} {k : Nat} (h : eigs K eps A init numeig .LR tol maxiter = .ok (l, k)) (i : Nat)
    (hi : i < numeig) (hik : i + k < m) : l[i]? = some (0, none) ∧ ∀ v, v ≠ 0 → A v ≠ (0 : ℂ) • v := by
  refine ⟨?_, fun v hv e => by have := hA v hv; rw [e] at this; simp at this⟩
  obtain ⟨hw, hn, hm, hk, hl⟩ := eigs_ok h
  have hf := (eigs_final hK.qr (by omega) hn h0 ht).comp
  rw [hl, finish_getElem K _ hn _ _ _ _ hi]
  generalize (eigsState K eps A init numeig .LR tol (maxiter - 1) : Outer ℂ n m) = o at *
  rw [← hk] at hf
  have hE := hK.eig (cut k o.H)
  have hneg : ∀ j, (K.eig (cut k o.H)).1 j ≠ 0 → ((K.eig (cut k o.H)).1 j).re < 0 := by
    intro j hj
    obtain ⟨hx, hv⟩ := hf.value (hE.ne j) (hE.vec j) hj
    have := hA _ hx
    rw [hv, re_value] at this
    have := norm_pos_iff.mpr hx
    by_contra hc
    have : 0 ≤ ((K.eig (cut k o.H)).1 j).re * ‖comb o.V fun a => (K.eig (cut k o.H)).2 a j‖ ^ 2 :=
      mul_nonneg (not_lt.mp hc) (by positivity)
    linarith
  have hinj := hf.inj fun v hv e => by have := hA v hv; rw [e] at this; simp at this
  have hc := count_zero hf.le hE hinj
  have hz : (K.eig (cut k o.H)).1 (order K .LR (K.eig (cut k o.H)).1 ⟨i, by omega⟩) = 0 := by
    refine initial_segment (fun j => (K.eig (cut k o.H)).1 (order K .LR (K.eig (cut k o.H)).1 j) = 0)
      (fun a b hab hb => ?_) (c := m - k) ?_ ⟨i, by omega⟩ (by show i < m - k; omega)
    · by_contra ha
      have h1 := order_anti hK.sort .LR (K.eig (cut k o.H)).1 hab
      rw [hb] at h1
      simp only [Which.key] at h1
      rw [map_zero] at h1
      exact absurd h1 (not_le.mpr (hneg _ ha))
    · rw [card_order hK.sort .LR _ (fun z => z = 0), hc]
  have hu := hE.vec (order K .LR (K.eig (cut k o.H)).1 ⟨i, by omega⟩)
  rw [hz, zero_smul] at hu
  rw [hz, getVector_none]
  by_contra hx
  have := hf.inner_self (z := 0) (hu.trans (zero_smul _ _).symm)
  rw [zero_mul] at this
  have h1 := hA _ hx
  rw [this] at h1
  simp at h1

theorem outerLoop_converged (K : Kernels ℂ m) (A : Vec ℂ n → Vec ℂ n) (eps tol : ℝ) (w : Which) (numeig : Nat) :
    ∀ (rest : Nat) (o : Outer ℂ n m), (o.converged = true → o.numits = numeig) →
      (outerLoop K A eps tol w numeig rest o).converged = true → (outerLoop K A eps tol w numeig rest o).numits = numeig
  | 0, o, h => h
  | rest + 1, o, h => by
    rw [outerLoop]
    split_ifs with hs
    · exact h
    · refine outerLoop_converged K A eps tol w numeig rest _ fun hc => ?_
      unfold outerBody at hc ⊢
      simp only at hc ⊢
      split_ifs at hc ⊢ with h1
      · rfl
      · exact Bool.noConfusion hc

/-- Whenever the restarts converge, the first eigenvalue that is returned for an operator with negative real part and
`which = 'LR'` is a zero with a vector of NaNs, if there are more Krylov vectors than wanted eigenvalues. -/
theorem C73_converged_false {K : Kernels ℂ m} (hK : K.OK) {eps : ℝ} {A : Vec ℂ n →ₗ[ℂ] Vec ℂ n} {init : Vec ℂ n}
    {numeig : Nat} (hn0 : 0 < numeig) (hn : numeig < m) {tol : ℝ} (h0 : 0 ≤ tol) {maxiter : Nat}
    (ht : NoTie K eps A init numeig .LR tol maxiter) (hA : ∀ v : Vec ℂ n, v ≠ 0 → (inner ℂ v (A v)).re < 0)
    (hc : (eigsState K eps A init numeig .LR tol (maxiter - 1) : Outer ℂ n m).converged = true)
    {l : List (ℂ × Option (Vec ℂ n))} {k : Nat} (h : eigs K eps A init numeig .LR tol maxiter = .ok (l, k)) :
    k = numeig ∧ l[0]? = some (0, none) := by
  have hk : k = numeig := by
    rw [(eigs_ok h).2.2.2.1]
    exact outerLoop_converged K A eps tol .LR numeig _ _ (fun h => Bool.noConfusion h) hc
  exact ⟨hk, (C73_negative_false hK h0 ht hA h 0 hn0 (by omega)).1⟩

/-- From an eigenvector, the factorisation stops after one iteration with no residual. -/
theorem arnoldiFact_eigenvector {A : Vec ℂ n →ₗ[ℂ] Vec ℂ n} {tol : ℝ} (h0 : 0 < tol) {init : Vec ℂ n} (hi : tol < ‖init‖)
    {z : ℂ} (hz : A init = z • init) (hm : 2 ≤ m) :
    (arnoldiFact A tol init (fun _ => 0) 0 0 : Carry ℂ n m).i = 1 ∧
      (arnoldiFact A tol init (fun _ => 0) 0 0 : Carry ℂ n m).norm = 0 := by
  set v := normalize tol init with hv
  have hAv : A v = z • v := by
    rw [hv, normalize, if_pos hi, map_smul, hz, smul_comm]
  have hv1 : ‖v‖ = 1 := norm_normalize h0.le hi
  have ho : Ortho (setRow (fun _ : Fin m => (0 : Vec ℂ n)) 0 v) 1 :=
    Ortho.setRow (fun a b ha => absurd ha (by omega)) hv1 fun a ha => absurd ha (by omega)
  have hz0 : ∀ a : Fin m, 1 ≤ a.val → setRow (fun _ : Fin m => (0 : Vec ℂ n)) 0 v a = 0 := fun a ha =>
    setRow_other (by omega)
  have hg : (gramSchmidt (upTo 0 (setRow (fun _ : Fin m => (0 : Vec ℂ n)) 0 v)) (A v)).1 = 0 := by
    rw [upTo_eq (fun a ha => hz0 a ha), gramSchmidt_eq ho hz0, gsPass, sum_setRow (fun _ _ => rfl), dif_pos (by omega),
      setRow_self (show (⟨0, by omega⟩ : Fin m).val = 0 from rfl), hAv, inner_smul_right, inner_self_eq_norm_sq_to_K, hv1]
    simp
  obtain ⟨k, rfl⟩ : ∃ k, m = k + 2 := ⟨m - 2, by omega⟩
  have hb : (arnoldiBody A tol (⟨setRow (fun _ => 0) 0 v, 0, v, ‖init‖, 0⟩ : Carry ℂ n (k + 2))).i = 1 ∧
      (arnoldiBody A tol (⟨setRow (fun _ => 0) 0 v, 0, v, ‖init‖, 0⟩ : Carry ℂ n (k + 2))).norm = 0 := by
    unfold arnoldiBody
    simp only
    rw [if_pos (by omega)]
    exact ⟨rfl, by show ‖_‖ = 0; rw [hg, norm_zero]⟩
  have e : (arnoldiFact A tol init (fun _ => 0) 0 0 : Carry ℂ n (k + 2)) =
      arnoldiBody A tol ⟨setRow (fun _ => 0) 0 v, 0, v, ‖init‖, 0⟩ := by
    show arnoldiLoop A tol (k + 2) ⟨setRow (fun _ => 0) 0 v, 0, v, ‖init‖, 0⟩ = _
    rw [arnoldiLoop, if_pos ⟨by show 0 < k + 2; omega, hi⟩, arnoldiLoop, if_neg]
    rintro ⟨-, h2⟩
    rw [hb.2] at h2
    linarith
  rw [e]
  exact hb

/-- From an eigenvector as the initial state, `eigs` finds the eigenvalue 0 and a vector of NaNs for every operator with
negative real part, and there is no warning since `numits = 1 = numeig`. -/
theorem C73_eigenvector_false {K : Kernels ℂ m} (hK : K.OK) {eps tol : ℝ} (h0 : 0 < tol) {A : Vec ℂ n →ₗ[ℂ] Vec ℂ n}
    (hA : ∀ v : Vec ℂ n, v ≠ 0 → (inner ℂ v (A v)).re < 0) {init : Vec ℂ n} (hi : tol < ‖init‖) {z : ℂ}
    (hz : A init = z • init) (hm : 2 ≤ m) (hmn : m ≤ n) (maxiter : Nat) :
    eigs K eps A init 1 .LR tol maxiter = .ok ([(0, none)], 1) := by
  obtain ⟨h1, h2⟩ := arnoldiFact_eigenvector (m := m) h0 hi hz hm
  have hst : ∀ i, (eigsState K eps A init 1 .LR tol i : Outer ℂ n m) =
      (arnoldiFact A tol init (fun _ => 0) 0 0 : Carry ℂ n m).toOuter tol := by
    intro i
    unfold eigsState
    cases i with
    | zero => rfl
    | succ i =>
      rw [outerLoop, if_pos]
      right
      show decide _ = true
      rw [h2]; exact decide_eq_true h0
  have ht : NoTie (m := m) K eps A init 1 .LR tol maxiter := by
    intro i _ _
    rw [hst i]
    show (arnoldiFact A tol init (fun _ => 0) 0 0 : Carry ℂ n m).norm ≠ tol
    rw [h2]; exact ne_of_lt h0
  obtain ⟨⟨l, k⟩, hr⟩ : ∃ x, eigs K eps A init 1 .LR tol maxiter = .ok x := by
    unfold eigs
    rw [if_neg (by simp), if_neg (by omega), if_neg (by omega)]
    exact ⟨_, rfl⟩
  have hk : k = 1 := by
    rw [(eigs_ok hr).2.2.2.1, hst]; exact h1
  subst hk
  have hd := (C73_negative_false hK h0.le ht hA hr 0 (by omega) (by omega)).1
  have hl := (C73_pairs_partial hK h0.le ht hr).1
  rw [hr]
  match l, hl with
  | [x], _ =>
    have : x = (0, none) := by simpa using hd
    rw [this]

end

end TN.Krylov
