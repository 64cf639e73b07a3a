import Verif.JaxEigshProps

/-!
# Properties of `eigsh` of the jax backend
-/

set_option linter.unusedSectionVars false

namespace TN.Krylov

noncomputable section

open Classical Matrix

variable {𝕜 : Type} [RCLike 𝕜] {n m : Nat}

theorem eigsh_ok {K : Kernels 𝕜 m} {numeig : Nat} {T : Kernels 𝕜 numeig} {eps : ℝ} {A : Vec 𝕜 n → Vec 𝕜 n} {init : Vec 𝕜 n}
    {w : Which} {tol : ℝ} {maxiter : Nat} {l : List (𝕜 × Option (Vec 𝕜 n))} {k : Nat}
    (h : eigsh K T eps A init w tol maxiter = .ok (l, k)) :
    (w = .SA ∨ w = .LA ∨ w = .LM) ∧ numeig ≤ m ∧ numeig ≤ n ∧ (m ≤ numeig → n ≤ m) ∧
      k = (eigshState K T eps A init w tol (maxiter - 1) : LOuter 𝕜 n m).numits ∧
      l = finish K w numeig (eigshState K T eps A init w tol (maxiter - 1) : LOuter 𝕜 n m).V
        (tri (eigshState K T eps A init w tol (maxiter - 1) : LOuter 𝕜 n m).al
          (eigshState K T eps A init w tol (maxiter - 1) : LOuter 𝕜 n m).be) k := by
  unfold eigsh at h
  split_ifs at h with h1 h2 h3 h4
  have hw : w = .SA ∨ w = .LA ∨ w = .LM := by
    by_contra hc
    rw [not_or, not_or] at hc
    exact h1 hc
  injection h with h
  injection h with e1 e2
  refine ⟨hw, by omega, by omega, fun h => by omega, e2.symm, ?_⟩
  rw [← e2]
  exact e1.symm

/-- `eigsh` raises a ValueError exactly for an unknown `which` and for sizes out of order. -/
theorem C74_errors (K : Kernels 𝕜 m) {numeig : Nat} (T : Kernels 𝕜 numeig) (eps : ℝ) (A : Vec 𝕜 n → Vec 𝕜 n)
    (init : Vec 𝕜 n) (w : Which) (tol : ℝ) (maxiter : Nat) : eigsh K T eps A init w tol maxiter = .error .valueError ↔
      ¬ ((w = .SA ∨ w = .LA ∨ w = .LM) ∧ numeig ≤ n ∧ (numeig < m ∨ (numeig = m ∧ m = n))) := by
  constructor
  · rintro h ⟨hw, h1, h2⟩
    unfold eigsh at h
    rw [if_neg (by rintro ⟨a, b, c⟩; rcases hw with e | e | e <;> contradiction), if_neg (by omega), if_neg (by omega),
      if_neg (by omega)] at h
    cases h
  · intro h
    unfold eigsh
    split_ifs with h1 h2 h3 h4
    · rfl
    · rfl
    · rfl
    · rfl
    · exfalso
      apply h
      refine ⟨?_, by omega, by omega⟩
      by_contra hc
      rw [not_or, not_or] at hc
      exact h1 hc

/-- What `eigsh` returns for a Hermitian operator: `numeig` pairs by decreasing keys, each of which is a unit vector `v` with
`⟪v, A v⟫`, or a zero if the iteration stopped early.  If it stopped early with a number of vectors other than `numeig`, the
residuals are at most `tol`; if there are as many vectors as the dimension, the pairs are eigenpairs. -/
theorem C74_pairs_partial {K : Kernels 𝕜 m} (hK : K.HermOK) {numeig : Nat} {T : Kernels 𝕜 numeig} {eps : ℝ}
    {A : Vec 𝕜 n →ₗ[𝕜] Vec 𝕜 n} (hA : A.IsSymmetric) {init : Vec 𝕜 n} {w : Which} {tol : ℝ} (h0 : 0 ≤ tol) {maxiter : Nat}
    (ht : LNoTie K T eps A init w tol maxiter) {l : List (𝕜 × Option (Vec 𝕜 n))} {k : Nat}
    (h : eigsh K T eps A init w tol maxiter = .ok (l, k)) :
    l.length = numeig ∧ (l.map fun p => w.key p.1).Pairwise (· ≥ ·) ∧
    ∀ p ∈ l, (p.1 = 0 ∧ k < m) ∨ ∃ v, p.2 = some v ∧ ‖v‖ = 1 ∧ inner 𝕜 v (A v) = p.1 ∧
      (k < m → k ≠ numeig → ‖A v - p.1 • v‖ ≤ tol) ∧ (k = n → A v = p.1 • v) := by
  obtain ⟨hw, hn, hnn, hmn, hk, hl⟩ := eigsh_ok h
  have hlen : l.length = numeig := by rw [hl]; exact finish_length K w hn _ _ _
  refine ⟨hlen, by rw [hl]; exact finish_sorted hK.sort w _ _ _ _, ?_⟩
  intro p hp
  have hn0 : 0 < numeig := by
    rw [← hlen]; exact List.length_pos_of_mem hp
  obtain ⟨r, hf⟩ := eigsh_final hK.qr hA hn0 hn hmn h0 ht
  rw [hl] at hp
  generalize (eigshState K T eps A init w tol (maxiter - 1) : LOuter 𝕜 n m) = o at *
  have hsmall := hf.small
  have hfact := hf.fact
  rw [← hk] at hsmall hfact
  rcases hfact.comp.finish_mask (hK.eig _ (hfact.comp.cut_herm hA)) hp with hz | ⟨u, v, hu, -, hx, hv, hp2, hv1, hvA⟩
  · exact .inl hz
  · have hres : ‖A v - p.1 • v‖ ≤ ‖r‖ := by
      have := hfact.residual hu
      have hpos : 0 < ‖comb (mask k o.V) u‖ := norm_pos_iff.mpr hx
      rw [hv, map_smul, smul_comm, ← smul_sub, norm_smul]
      have e : ‖((1 / ‖comb (mask k o.V) u‖ : ℝ) : 𝕜)‖ = 1 / ‖comb (mask k o.V) u‖ := by simp
      rw [e, one_div, inv_mul_le_iff₀ hpos]
      exact this
    refine .inr ⟨v, hp2, hv1, hvA, fun hkm hkn => hres.trans (hsmall hkm hkn), fun hkn => ?_⟩
    subst hkn
    rw [hfact.residual_zero, norm_zero] at hres
    exact sub_eq_zero.mp (norm_le_zero_iff.mp hres)

/-- If the iteration finds as many vectors as the dimension, `eigsh` returns the wanted ones among the eigenvalues of the
operator, with their multiplicities, and as many zeros as there are more Krylov vectors than dimensions. -/
theorem C74_exact {K : Kernels 𝕜 m} (hK : K.HermOK) {numeig : Nat} {T : Kernels 𝕜 numeig} {eps : ℝ}
    {A : Vec 𝕜 n →ₗ[𝕜] Vec 𝕜 n} (hA : A.IsSymmetric) {init : Vec 𝕜 n} {w : Which} {tol : ℝ} (h0 : 0 ≤ tol) {maxiter : Nat}
    (hn0 : 0 < numeig) (ht : LNoTie K T eps A init w tol maxiter) {l : List (𝕜 × Option (Vec 𝕜 n))}
    (h : eigsh K T eps A init w tol maxiter = .ok (l, n)) :
    ∃ others : Multiset 𝕜, A.charpoly.roots + Multiset.replicate (m - n) 0 = (↑(l.map Prod.fst) : Multiset 𝕜) + others ∧
      ∀ p ∈ l, ∀ z ∈ others, w.key z ≤ w.key p.1 := by
  obtain ⟨hw, hn, hnn, hmn, hk, hl⟩ := eigsh_ok h
  obtain ⟨r, hf⟩ := eigsh_final hK.qr hA hn0 hn hmn h0 ht
  generalize (eigshState K T eps A init w tol (maxiter - 1) : LOuter 𝕜 n m) = o at *
  have hfact := hf.fact
  rw [← hk] at hfact
  have hcomp := hfact.comp
  obtain ⟨others, h1, h2⟩ := finish_roots hK.sort (hK.eig _ (hcomp.cut_herm hA)) w numeig o.V
  refine ⟨others, ?_, by rw [hl]; exact h2⟩
  rw [hl, ← h1, hcomp.charpoly_cut, Polynomial.roots_mul (mul_ne_zero (LinearMap.charpoly_monic A).ne_zero
    (pow_ne_zero _ Polynomial.X_ne_zero)), Polynomial.roots_X_pow, Multiset.nsmul_singleton]

/-- The zeros that do not belong to the operator come last for a positive definite operator and `which = 'LA'` or `'LM'`: the
first `min numeig numits` pairs that are returned are Ritz pairs. -/
theorem C74_positive {K : Kernels 𝕜 m} (hK : K.HermOK) {numeig : Nat} {T : Kernels 𝕜 numeig} {eps : ℝ}
    {A : Vec 𝕜 n →ₗ[𝕜] Vec 𝕜 n} (hA : A.IsSymmetric) (hpos : ∀ v : Vec 𝕜 n, v ≠ 0 → 0 < RCLike.re (inner 𝕜 v (A v)))
    {init : Vec 𝕜 n} {w : Which} (hw : w ≠ .SA) {tol : ℝ} (h0 : 0 ≤ tol) {maxiter : Nat}
    (ht : LNoTie K T eps A init w tol maxiter) {l : List (𝕜 × Option (Vec 𝕜 n))} {k : Nat}
    (h : eigsh K T eps A init w tol maxiter = .ok (l, k)) (i : Nat) (hi : i < numeig) (hik : i < k) :
    ∃ z v, l[i]? = some (z, some v) ∧ 0 < RCLike.re z ∧ ‖v‖ = 1 ∧ inner 𝕜 v (A v) = z := by
  have hall := (C74_pairs_partial hK hA h0 ht h).2.2
  obtain ⟨hw', hn, hnn, hmn, hk, hl⟩ := eigsh_ok h
  obtain ⟨r, hf⟩ := eigsh_final hK.qr hA (by omega) hn hmn h0 ht
  have hget := finish_getElem K w hn (eigshState K T eps A init w tol (maxiter - 1) : LOuter 𝕜 n m).V
    (tri (eigshState K T eps A init w tol (maxiter - 1) : LOuter 𝕜 n m).al
      (eigshState K T eps A init w tol (maxiter - 1) : LOuter 𝕜 n m).be) k i hi
  rw [← hl] at hget
  generalize (eigshState K T eps A init w tol (maxiter - 1) : LOuter 𝕜 n m) = o at *
  have hcomp := hf.fact.comp
  rw [← hk] at hcomp
  have hE := hK.eig _ (hcomp.cut_herm hA)
  have hval : ∀ j, (K.eig (cut k (tri o.al o.be))).1 j ≠ 0 → 0 < RCLike.re ((K.eig (cut k (tri o.al o.be))).1 j) := by
    intro j hj
    obtain ⟨hx, hv⟩ := hcomp.re_value (hE.ne j) (hE.vec j) hj
    have := hpos _ hx
    rw [hv] at this
    exact (pos_iff_pos_of_mul_pos this).2 (by have := norm_pos_iff.mpr hx; positivity)
  have hc := count_zero hcomp.le hE (hcomp.definite_inj fun v hv e => by have := hpos v hv; rw [e] at this; simp at this)
  have hne := zeros_last hK.sort w hcomp.le hc (fun j hj => by
    rcases hw' with e | e | e
    · exact absurd e hw
    · subst e; simp only [Which.key, map_zero]; exact hval j hj
    · subst e; simp only [Which.key, norm_zero]; exact norm_pos_iff.mpr hj) ⟨i, by omega⟩ hik
  have hz := hval _ hne
  generalize hp : ((K.eig (cut k (tri o.al o.be))).1 (order K w (K.eig (cut k (tri o.al o.be))).1 ⟨i, by omega⟩),
    getVector o.V fun a => (K.eig (cut k (tri o.al o.be))).2 a
      (order K w (K.eig (cut k (tri o.al o.be))).1 ⟨i, by omega⟩)) = p at hget
  have hp1 := congrArg Prod.fst hp
  simp only at hp1
  rw [hp1] at hne hz
  rcases hall p (List.mem_of_getElem? hget) with ⟨e, -⟩ | ⟨v, h1, h2, h3, -⟩
  · exact absurd e hne
  · exact ⟨p.1, v, by rw [hget, ← h1], hz, h2, h3⟩

/-- For a positive definite operator and `which = 'SA'`, the default, or a negative definite one and `which = 'LA'`, whenever
the iteration ends with less than `num_krylov_vecs` vectors the first values that are returned are zeros, which are no
eigenvalues. -/
theorem C74_smallest_false {K : Kernels 𝕜 m} (hK : K.HermOK) {numeig : Nat} {T : Kernels 𝕜 numeig} {eps : ℝ}
    {A : Vec 𝕜 n →ₗ[𝕜] Vec 𝕜 n} (hA : A.IsSymmetric) {w : Which}
    (hdef : (w = .SA ∧ ∀ v : Vec 𝕜 n, v ≠ 0 → 0 < RCLike.re (inner 𝕜 v (A v))) ∨
      (w = .LA ∧ ∀ v : Vec 𝕜 n, v ≠ 0 → RCLike.re (inner 𝕜 v (A v)) < 0))
    {init : Vec 𝕜 n} {tol : ℝ} (h0 : 0 ≤ tol) {maxiter : Nat} (ht : LNoTie K T eps A init w tol maxiter)
    {l : List (𝕜 × Option (Vec 𝕜 n))} {k : Nat} (h : eigsh K T eps A init w tol maxiter = .ok (l, k)) (i : Nat)
    (hi : i < numeig) (hik : i + k < m) :
    (∃ v, l[i]? = some (0, v)) ∧ ∀ v, v ≠ 0 → A v ≠ (0 : 𝕜) • v := by
  have hne : ∀ v : Vec 𝕜 n, v ≠ 0 → inner 𝕜 v (A v) ≠ 0 := by
    intro v hv e
    rcases hdef with ⟨-, hd⟩ | ⟨-, hd⟩ <;> · have := hd v hv; rw [e] at this; simp at this
  refine ⟨?_, fun v hv e => hne v hv (by rw [e]; simp)⟩
  obtain ⟨hw', hn, hnn, hmn, hk, hl⟩ := eigsh_ok h
  obtain ⟨r, hf⟩ := eigsh_final hK.qr hA (by omega) hn hmn h0 ht
  rw [hl, finish_getElem K w hn _ _ _ _ hi]
  generalize (eigshState K T eps A init w tol (maxiter - 1) : LOuter 𝕜 n m) = o at *
  have hcomp := hf.fact.comp
  rw [← hk] at hcomp
  have hE := hK.eig _ (hcomp.cut_herm hA)
  have hc := count_zero hcomp.le hE (hcomp.definite_inj hne)
  have hz := zeros_first hK.sort w hc (fun j hj => by
    obtain ⟨hx, hv⟩ := hcomp.re_value (hE.ne j) (hE.vec j) hj
    have hx' : 0 < ‖comb (mask k o.V) fun a => (K.eig (cut k (tri o.al o.be))).2 a j‖ ^ 2 := by
      have := norm_pos_iff.mpr hx; positivity
    rcases hdef with ⟨e, hd⟩ | ⟨e, hd⟩
    · have := hd _ hx
      rw [hv] at this
      subst e
      simp only [Which.key, map_zero, neg_zero]
      exact neg_lt_zero.mpr ((pos_iff_pos_of_mul_pos this).2 hx')
    · have := hd _ hx
      rw [hv] at this
      subst e
      simp only [Which.key, map_zero]
      exact (neg_iff_pos_of_mul_neg this).2 hx') ⟨i, by omega⟩ (by show i < m - k; omega)
  exact ⟨_, by rw [hz]⟩

/-- With more Krylov vectors than the sum of the dimension and the number of eigenvalues, which is what the default
`num_krylov_vecs = 50` gives for small operators, all that is returned for a positive definite operator and the default
`which = 'SA'` are zeros with vectors of NaNs. -/
theorem C74_default_false {K : Kernels 𝕜 m} (hK : K.HermOK) {numeig : Nat} {T : Kernels 𝕜 numeig} {eps : ℝ}
    {A : Vec 𝕜 n →ₗ[𝕜] Vec 𝕜 n} (hA : A.IsSymmetric) (hpos : ∀ v : Vec 𝕜 n, v ≠ 0 → 0 < RCLike.re (inner 𝕜 v (A v)))
    {init : Vec 𝕜 n} {tol : ℝ} (h0 : 0 ≤ tol) {maxiter : Nat} (ht : LNoTie K T eps A init .SA tol maxiter)
    (hn0 : 0 < numeig) (hnn : numeig ≤ n) (hm : n + numeig ≤ m) :
    ∃ k ≤ n, eigsh K T eps A init .SA tol maxiter = .ok (List.replicate numeig (0, none), k) := by
  obtain ⟨⟨l, k⟩, hr⟩ : ∃ x, eigsh K T eps A init .SA tol maxiter = .ok x := by
    unfold eigsh
    rw [if_neg (by simp), if_neg (by omega), if_neg (by omega), if_neg (by omega)]
    exact ⟨_, rfl⟩
  obtain ⟨hw', hn, -, hmn, hk, hl⟩ := eigsh_ok hr
  have hlen := (C74_pairs_partial hK hA h0 ht hr).1
  obtain ⟨r, hf⟩ := eigsh_final hK.qr hA hn0 hn hmn h0 ht
  have hst := eigshState_first hA h0 (show 0 < m by omega) (by omega) ht
  have hkn : k ≤ n := by rw [hk]; exact hf.fact.ortho.le_dim hf.fact.le
  have hclean : ∀ a : Fin m, k ≤ a.val →
      (eigshState K T eps A init .SA tol (maxiter - 1) : LOuter 𝕜 n m).V a = 0 := by
    intro a ha
    rw [hst]
    rw [hk, hst] at ha
    refine (lanczosFact_clean A tol init).last (fun hlt => ?_) a ha
    have := (hf.full (by rw [hst]; rfl) (by rw [hst]; exact hlt)).1
    omega
  refine ⟨k, hkn, ?_⟩
  rw [hr]
  congr 2
  refine List.ext_getElem (by rw [hlen, List.length_replicate]) fun i h1 h2 => ?_
  rw [List.getElem_replicate]
  rw [hlen] at h1
  obtain ⟨⟨v, hv⟩, -⟩ := C74_smallest_false hK hA (.inl ⟨rfl, hpos⟩) h0 ht hr i h1 (by omega)
  have hget := finish_getElem K .SA hn (eigshState K T eps A init .SA tol (maxiter - 1) : LOuter 𝕜 n m).V
    (tri (eigshState K T eps A init .SA tol (maxiter - 1) : LOuter 𝕜 n m).al
      (eigshState K T eps A init .SA tol (maxiter - 1) : LOuter 𝕜 n m).be) k i h1
  rw [← hl, hv] at hget
  generalize (eigshState K T eps A init .SA tol (maxiter - 1) : LOuter 𝕜 n m) = o at *
  have hcomp := hf.fact.comp
  rw [← hk] at hcomp
  have hE := hK.eig _ (hcomp.cut_herm hA)
  have hmask : mask k o.V = o.V := by
    funext a
    by_cases ha : a.val < k
    · exact mask_lt ha
    · rw [mask_ge (by omega), hclean a (by omega)]
  rw [hmask] at hcomp
  injection hget with hget
  injection hget with e1 e2
  have hu := hE.vec (order K .SA (K.eig (cut k (tri o.al o.be))).1 ⟨i, by omega⟩)
  rw [← e1] at hu
  have hnone : v = none := by
    rw [e2]
    apply getVector_none
    by_contra hx
    have := hcomp.inner_self hu
    rw [zero_mul] at this
    have h3 := hpos _ hx
    rw [this] at h3
    simp at h3
  rw [List.getElem?_eq_getElem (by rw [hlen]; exact h1)] at hv
  injection hv with hv
  rw [hv, hnone]

end

end TN.Krylov
