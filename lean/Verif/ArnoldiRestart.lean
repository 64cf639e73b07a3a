import Verif.ArnoldiInv

/-!
# The restarts of the implicitly restarted Arnoldi method keep the Arnoldi relation
-/

set_option linter.unusedSectionVars false

namespace TN.Krylov

noncomputable section

open Classical Matrix

variable {𝕜 : Type} [RCLike 𝕜] {n m : Nat}

/-- What is assumed of `jax.numpy.linalg.qr`: it is a QR decomposition, and that of a Hessenberg matrix has a
Hessenberg `Q`, as the Householder reflections that compute it have. -/
structure Kernels.QROK (K : Kernels 𝕜 m) : Prop where
  mul : ∀ M, (K.qr M).1 * (K.qr M).2 = M
  unitary : ∀ M, (K.qr M).1ᴴ * (K.qr M).1 = 1
  upper : ∀ M (a b : Fin m), b < a → (K.qr M).2 a b = 0
  hess : ∀ M, Hess M → Hess (K.qr M).1

/-- The relation that the shifted QR steps keep: the residual may enter in several columns. -/
structure Rel (A : Vec 𝕜 n →ₗ[𝕜] Vec 𝕜 n) (V : Fin m → Vec 𝕜 n) (H : Mat 𝕜 m) (q : Fin m → 𝕜) (f : Vec 𝕜 n) : Prop where
  ortho : Ortho V m
  perp : ∀ a : Fin m, inner 𝕜 (V a) f = 0
  rel : ∀ j : Fin m, A (V j) = (∑ l, H l j • V l) + q j • f
  hess : Hess H

theorem Fact.toRel {A : Vec 𝕜 n →ₗ[𝕜] Vec 𝕜 n} {V : Fin m → Vec 𝕜 n} {H : Mat 𝕜 m} {r : Vec 𝕜 n} (h : Fact A V H m r) :
    Rel A V H (fun j => if j.val + 1 = m then 1 else 0) r := by
  refine ⟨h.ortho, fun a => h.perp a a.isLt, fun j => ?_, h.hess⟩
  rw [h.rel j j.isLt]
  congr 1
  split_ifs <;> simp

theorem Hess.sub_smul {H : Mat 𝕜 m} (h : Hess H) (μ : 𝕜) : Hess (H - μ • 1) := by
  intro a b hab
  have : a ≠ b := fun e => by rw [e] at hab; omega
  rw [Matrix.sub_apply, Matrix.smul_apply, Matrix.one_apply_ne this, h a b hab]
  simp

theorem upper_mul_hess {R Q : Mat 𝕜 m} (hR : ∀ a b : Fin m, b < a → R a b = 0) (hQ : Hess Q) : Hess (R * Q) := by
  intro a b hab
  rw [Matrix.mul_apply]
  refine Finset.sum_eq_zero fun c _ => ?_
  by_cases hc : c < a
  · rw [hR a c hc, zero_mul]
  · rw [hQ c b (by have : a.val ≤ c.val := not_lt.mp hc; omega), mul_zero]

/-- A shifted QR step turns a relation into another one. -/
theorem Rel.step {K : Kernels 𝕜 m} (hK : K.QROK) {A : Vec 𝕜 n →ₗ[𝕜] Vec 𝕜 n} {V : Fin m → Vec 𝕜 n} {H : Mat 𝕜 m}
    {q : Fin m → 𝕜} {f : Vec 𝕜 n} (h : Rel A V H q f) (μ : 𝕜) :
    Rel A (qrBody K (V, H, q) μ).1 (qrBody K (V, H, q) μ).2.1 (qrBody K (V, H, q) μ).2.2 f ∧
      ∀ s : Nat, (∀ j : Fin m, j.val + 1 + s < m → q j = 0) →
        ∀ j : Fin m, j.val + 1 + (s + 1) < m → (qrBody K (V, H, q) μ).2.2 j = 0 := by
  have hQR := hK.mul (H - μ • 1)
  have hU := hK.unitary (H - μ • 1)
  have hup := hK.upper (H - μ • 1)
  have hhQ := hK.hess _ (h.hess.sub_smul μ)
  unfold qrBody
  simp only
  generalize (K.qr (H - μ • 1)).1 = Q at *
  generalize (K.qr (H - μ • 1)).2 = R at *
  have hHQ : H * Q = Q * (R * Q + μ • 1) := by
    rw [mul_add, ← mul_assoc, hQR, Matrix.sub_mul, Matrix.smul_mul, Matrix.mul_smul, one_mul, mul_one]; abel
  have hUe : ∀ a b : Fin m, ∑ c, (starRingEnd 𝕜) (Q c a) * Q c b = if a = b then 1 else 0 := by
    intro a b
    have := congrFun (congrFun hU a) b
    rw [Matrix.mul_apply, Matrix.one_apply] at this
    exact this
  refine ⟨⟨?_, ?_, ?_, ?_⟩, ?_⟩
  · intro a b _ _
    rw [sum_inner]
    have : ∀ c : Fin m, inner 𝕜 (Q c a • V c) (∑ d, Q d b • V d) = (starRingEnd 𝕜) (Q c a) * Q c b := by
      intro c
      rw [inner_smul_left, h.ortho.inner_sum (fun a ha => absurd a.isLt (by omega)) c.isLt]
    rw [Finset.sum_congr rfl fun c _ => this c, hUe]
  · intro a
    rw [sum_inner]
    exact Finset.sum_eq_zero fun c _ => by rw [inner_smul_left, h.perp, mul_zero]
  · intro a
    rw [map_sum]
    have e1 : ∀ b : Fin m, A (Q b a • V b) = (∑ l, (H l b * Q b a) • V l) + (q b * Q b a) • f := by
      intro b
      rw [map_smul, h.rel b, smul_add, Finset.smul_sum, smul_smul, mul_comm (Q b a)]
      congr 1
      exact Finset.sum_congr rfl fun l _ => by rw [smul_smul, mul_comm]
    rw [Finset.sum_congr rfl fun b _ => e1 b, Finset.sum_add_distrib, Finset.sum_comm, ← Finset.sum_smul]
    congr 1
    have e2 : ∀ l : Fin m, ∑ b, (H l b * Q b a) • V l = ∑ c, (Q l c * (R * Q + μ • 1) c a) • V l := by
      intro l
      rw [← Finset.sum_smul, ← Finset.sum_smul, ← Matrix.mul_apply, ← Matrix.mul_apply, hHQ]
    rw [Finset.sum_congr rfl fun l _ => e2 l, Finset.sum_comm]
    refine Finset.sum_congr rfl fun c _ => ?_
    rw [Finset.smul_sum]
    exact Finset.sum_congr rfl fun l _ => by rw [smul_smul, mul_comm]
  · intro a b hab
    have : a ≠ b := fun e => by rw [e] at hab; omega
    rw [Matrix.add_apply, Matrix.smul_apply, Matrix.one_apply_ne this, upper_mul_hess hup hhQ a b hab]
    simp
  · intro s hs j hj
    show ∑ b, q b * Q b j = 0
    refine Finset.sum_eq_zero fun b _ => ?_
    by_cases hb : b.val + 1 + s < m
    · rw [hs b hb, zero_mul]
    · rw [hhQ b j (by omega), mul_zero]

theorem Rel.foldl {K : Kernels 𝕜 m} (hK : K.QROK) {A : Vec 𝕜 n →ₗ[𝕜] Vec 𝕜 n} {f : Vec 𝕜 n} : ∀ (sh : List 𝕜)
    (x : (Fin m → Vec 𝕜 n) × Mat 𝕜 m × (Fin m → 𝕜)) (s : Nat), Rel A x.1 x.2.1 x.2.2 f →
    (∀ j : Fin m, j.val + 1 + s < m → x.2.2 j = 0) →
    Rel A (sh.foldl (qrBody K) x).1 (sh.foldl (qrBody K) x).2.1 (sh.foldl (qrBody K) x).2.2 f ∧
      ∀ j : Fin m, j.val + 1 + (s + sh.length) < m → (sh.foldl (qrBody K) x).2.2 j = 0
  | [], x, s, h, hq => ⟨h, hq⟩
  | μ :: sh, x, s, h, hq => by
    obtain ⟨h1, h2⟩ := Rel.step hK h μ
    obtain ⟨h3, h4⟩ := Rel.foldl hK sh (qrBody K x μ) (s + 1) h1 (h2 s hq)
    exact ⟨h3, fun j hj => h4 j (by rw [List.length_cons] at hj; omega)⟩

/-- The factorisation cut down to its first `k` vectors. -/
theorem Rel.cut {A : Vec 𝕜 n →ₗ[𝕜] Vec 𝕜 n} {V : Fin m → Vec 𝕜 n} {H : Mat 𝕜 m} {q : Fin m → 𝕜} {f : Vec 𝕜 n}
    (h : Rel A V H q f) {k : Nat} (hk : k < m) (hk0 : 0 < k) (hq : ∀ j : Fin m, j.val + 1 < k → q j = 0) :
    Fact A (fun l => if k ≤ l.val then 0 else V l) (fun a b => if k ≤ a.val ∨ k ≤ b.val then 0 else H a b) k
      (H ⟨k, hk⟩ ⟨k - 1, by omega⟩ • V ⟨k, hk⟩ + q ⟨k - 1, by omega⟩ • f) := by
  have hV : ∀ a : Fin m, a.val < k → (if k ≤ a.val then 0 else V a) = V a := fun a ha => if_neg (by omega)
  refine ⟨by omega, ?_, fun a ha => if_pos ha, ?_, ?_, ?_⟩
  · intro a b ha hb
    simp only [hV a ha, hV b hb]
    exact h.ortho a b a.isLt b.isLt
  · intro a ha
    simp only [hV a ha]
    rw [inner_add_right, inner_smul_right, inner_smul_right, h.perp, h.ortho a _ a.isLt hk,
      if_neg (fun e => by rw [e] at ha; exact absurd ha (lt_irrefl _))]
    simp
  · intro j hj
    simp only [hV j hj]
    rw [h.rel j]
    have hs : ∑ l, H l j • V l = (∑ l, (if k ≤ l.val ∨ k ≤ j.val then 0 else H l j) • (if k ≤ l.val then 0 else V l)) +
        H ⟨k, hk⟩ j • V ⟨k, hk⟩ := by
      have : ∀ l : Fin m, H l j • V l = ((if k ≤ l.val ∨ k ≤ j.val then 0 else H l j) • (if k ≤ l.val then 0 else V l)) +
          if l = ⟨k, hk⟩ then H ⟨k, hk⟩ j • V ⟨k, hk⟩ else 0 := by
        intro l
        by_cases hl : l.val < k
        · rw [if_neg (by omega), if_neg (by omega), if_neg (fun e => by rw [e] at hl; exact absurd hl (lt_irrefl _)), add_zero]
        · rw [if_pos (by omega), if_pos (by omega)]
          by_cases e : l = ⟨k, hk⟩
          · rw [if_pos e, e]; simp
          · have : l.val ≠ k := fun h => e (Fin.ext h)
            rw [if_neg e, h.hess l j (by omega)]; simp
      rw [Finset.sum_congr rfl fun l _ => this l, Finset.sum_add_distrib, Finset.sum_ite_eq' Finset.univ]
      simp
    rw [hs, add_assoc]
    congr 1
    by_cases hjk : j.val + 1 = k
    · have e : j = ⟨k - 1, by omega⟩ := Fin.ext (by show j.val = k - 1; omega)
      rw [if_pos hjk, e]
    · rw [if_neg hjk, hq j (by omega), h.hess _ j (by show j.val + 1 < k; omega)]; simp
  · intro a b hab
    show (if _ then 0 else H a b) = 0
    rw [h.hess a b hab, ite_self]

/-- What is known of the state of the outer loop: there is an Arnoldi factorisation with the residual `r`. -/
structure Inv (A : Vec 𝕜 n →ₗ[𝕜] Vec 𝕜 n) (tol : ℝ) (numeig : Nat) (o : Outer 𝕜 n m) (r : Vec 𝕜 n) : Prop where
  fact : Fact A o.V o.H o.numits r
  norm : ‖r‖ = o.norm
  ar : o.converged = false → o.arConverged = decide (o.norm < tol)
  full : o.converged = false → tol < o.norm → o.numits = m ∧ o.f = r
  conv : o.converged = true → o.numits = numeig

theorem Done.inv {A : Vec 𝕜 n →ₗ[𝕜] Vec 𝕜 n} {tol : ℝ} {c : Carry 𝕜 n m} {r : Vec 𝕜 n} (h : Done A tol c r)
    (numeig : Nat) : Inv A tol numeig (c.toOuter tol) r :=
  ⟨h.fact, h.norm, fun _ => rfl, fun _ => h.full, fun h => Bool.noConfusion h⟩

theorem shifts_length (K : Kernels 𝕜 m) (w : Which) {numeig : Nat} (h : numeig < m) (vals : Fin m → 𝕜) :
    (shifts K w numeig vals).length = m - numeig := by
  rw [shifts, List.length_drop, List.length_ofFn, if_neg (by omega)]
  omega

theorem shiftedQR_f (K : Kernels 𝕜 m) (V : Fin m → Vec 𝕜 n) (H : Mat 𝕜 m) (f : Vec 𝕜 n) (sh : List 𝕜) {k : Nat}
    (hk : k < m) : (shiftedQR K V H f sh k).2.2 = (shiftedQR K V H f sh k).2.1 ⟨k, hk⟩ ⟨k - 1, by omega⟩ •
      (shiftedQR K V H f sh k).1 ⟨k, hk⟩ +
      (sh.foldl (qrBody K) (V, H, fun j => if j.val + 1 = m then 1 else 0)).2.2 ⟨k - 1, by omega⟩ • f := by
  unfold shiftedQR readEntry readRow
  simp only [dif_pos (show 0 < m by omega), min_eq_left (show k ≤ m - 1 by omega),
    min_eq_left (show k - 1 ≤ m - 1 by omega)]

/-- A restart keeps the Arnoldi relation, unless the last residual was exactly as long as the tolerance. -/
theorem Inv.restart {K : Kernels 𝕜 m} (hK : K.QROK) {A : Vec 𝕜 n →ₗ[𝕜] Vec 𝕜 n} {eps tol : ℝ} (h0 : 0 ≤ tol)
    {w : Which} {numeig : Nat} (hn0 : 0 < numeig) (hn : numeig < m) {o : Outer 𝕜 n m} {r : Vec 𝕜 n}
    (h : Inv A tol numeig o r) (hc : o.converged = false) (ha : o.arConverged = false) (hne : o.norm ≠ tol) :
    ∃ r', Inv A tol numeig (outerBody K A eps tol w numeig o) r' := by
  have hlt : tol < o.norm := by
    have := h.ar hc
    rw [ha] at this
    have h1 : ¬ o.norm < tol := of_decide_eq_false this.symm
    exact lt_of_le_of_ne (not_lt.mp h1) (Ne.symm hne)
  obtain ⟨hm, hf⟩ := h.full hc hlt
  have hfact : Fact A o.V o.H m o.f := by
    have := h.fact
    rw [hm] at this
    rw [hf]; exact this
  obtain ⟨hr, hq⟩ := Rel.foldl hK (shifts K w numeig (K.eig o.H).1)
    (o.V, o.H, fun j => if j.val + 1 = m then 1 else 0) 0 hfact.toRel
    (fun j hj => if_neg (by omega))
  rw [shifts_length K w hn] at hq
  have hcut := hr.cut hn hn0 (fun j hj => hq j (by omega))
  have hfk := shiftedQR_f K o.V o.H o.f (shifts K w numeig (K.eig o.H).1) hn
  unfold outerBody
  simp only
  split_ifs with hcv
  · refine ⟨_, ⟨?_, rfl, fun h => Bool.noConfusion h, fun h => Bool.noConfusion h, fun _ => rfl⟩⟩
    rw [hfk]
    exact hcut
  · obtain ⟨r', hd, -⟩ := arnoldiFact_done h0 hcut hn
    refine ⟨r', ?_⟩
    rw [hfk]
    exact hd.inv numeig

/-- The outer loop keeps the Arnoldi relation. -/
theorem Inv.loop {K : Kernels 𝕜 m} (hK : K.QROK) {A : Vec 𝕜 n →ₗ[𝕜] Vec 𝕜 n} {eps tol : ℝ} (h0 : 0 ≤ tol)
    {w : Which} {numeig : Nat} (hn0 : 0 < numeig) (hn : numeig < m) : ∀ (rest : Nat) (o : Outer 𝕜 n m) (r : Vec 𝕜 n),
    Inv A tol numeig o r →
    (∀ i < rest, (outerLoop K A eps tol w numeig i o).converged = false →
      (outerLoop K A eps tol w numeig i o).norm ≠ tol) →
    ∃ r', Inv A tol numeig (outerLoop K A eps tol w numeig rest o) r'
  | 0, o, r, h, _ => ⟨r, h⟩
  | rest + 1, o, r, h, hne => by
    rw [outerLoop]
    by_cases hs : o.converged ∨ o.arConverged
    · rw [if_pos hs]; exact ⟨r, h⟩
    · rw [if_neg hs]
      obtain ⟨hc, ha⟩ := not_or.mp hs
      have hc : o.converged = false := Bool.eq_false_iff.mpr hc
      have ha : o.arConverged = false := Bool.eq_false_iff.mpr ha
      obtain ⟨r', hr'⟩ := h.restart hK (eps := eps) (w := w) h0 hn0 hn hc ha (hne 0 (by omega) hc)
      refine Inv.loop hK h0 hn0 hn rest _ r' hr' fun i hi => ?_
      have := hne (i + 1) (by omega)
      rw [outerLoop, if_neg hs] at this
      exact this

end

end TN.Krylov
