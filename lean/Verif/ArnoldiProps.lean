import Verif.ArnoldiRitz

/-!
# What `eigs` of the jax backend returns
-/

set_option linter.unusedSectionVars false

namespace TN.Krylov

noncomputable section

open Classical Matrix

variable {𝕜 : Type} [RCLike 𝕜] {n m : Nat}

/-- The kernels do what their documentation says. -/
structure Kernels.OK (K : Kernels ℂ m) : Prop where
  qr : K.QROK
  eig : ∀ M, K.EigOK M
  sort : K.SortOK

/-! ### Some facts on lists in an order -/

/-- A property that holds on an initial segment of `c` indices. -/
theorem initial_segment (P : Fin m → Prop) (hP : ∀ i j : Fin m, i ≤ j → P j → P i) {c : Nat}
    (hc : (Finset.univ.filter P).card = c) (j : Fin m) (hj : j.val < c) : P j := by
  by_contra hn
  have hsub : Finset.univ.filter P ⊆ Finset.univ.filter fun i : Fin m => i.val < j.val := by
    intro i hi
    rw [Finset.mem_filter] at hi ⊢
    refine ⟨hi.1, ?_⟩
    by_contra hij
    exact hn (hP j i (by show j.val ≤ i.val; omega) hi.2)
  have := Finset.card_le_card hsub
  rw [hc, Fin.card_filter_val_lt] at this
  omega

theorem card_order {K : Kernels 𝕜 m} (hS : K.SortOK) (w : Which) (vals : Fin m → 𝕜) (P : 𝕜 → Prop) :
    (Finset.univ.filter fun j => P (vals (order K w vals j))).card = (Finset.univ.filter fun j => P (vals j)).card := by
  have hb : Function.Bijective (order K w vals) := hS.bij _
  refine Finset.card_bijective _ hb fun j => ?_
  simp

theorem order_anti {K : Kernels 𝕜 m} (hS : K.SortOK) (w : Which) (vals : Fin m → 𝕜) {i j : Fin m} (hij : i ≤ j) :
    w.key (vals (order K w vals j)) ≤ w.key (vals (order K w vals i)) := hS.anti (fun j => w.key (vals j)) i j hij

/-! ### The end of the method -/

theorem finish_length (K : Kernels 𝕜 m) (w : Which) {numeig : Nat} (hn : numeig ≤ m) (V : Fin m → Vec 𝕜 n) (H : Mat 𝕜 m)
    (k : Nat) : (finish K w numeig V H k).length = numeig := by
  simp [finish, hn]

theorem finish_getElem (K : Kernels 𝕜 m) (w : Which) {numeig : Nat} (hn : numeig ≤ m) (V : Fin m → Vec 𝕜 n) (H : Mat 𝕜 m)
    (k i : Nat) (hi : i < numeig) : (finish K w numeig V H k)[i]? =
      some ((K.eig (cut k H)).1 (order K w (K.eig (cut k H)).1 ⟨i, by omega⟩),
        getVector V fun a => (K.eig (cut k H)).2 a (order K w (K.eig (cut k H)).1 ⟨i, by omega⟩)) := by
  simp only [finish]
  rw [List.getElem?_take_of_lt hi, List.getElem?_eq_getElem (by simp; omega)]
  simp

theorem mem_finish {K : Kernels 𝕜 m} {w : Which} {numeig : Nat} {V : Fin m → Vec 𝕜 n} {H : Mat 𝕜 m} {k : Nat}
    {p : 𝕜 × Option (Vec 𝕜 n)} (hp : p ∈ finish K w numeig V H k) :
    ∃ j, p = ((K.eig (cut k H)).1 j, getVector V fun a => (K.eig (cut k H)).2 a j) := by
  have := List.mem_of_mem_take hp
  rw [List.mem_ofFn] at this
  obtain ⟨j, hj⟩ := this
  exact ⟨_, hj.symm⟩

theorem getVector_none {V : Fin m → Vec 𝕜 n} {u : Fin m → 𝕜} (h : comb V u = 0) : getVector V u = none := by
  have h' : ∑ l, u l • V l = 0 := h
  unfold getVector
  rw [h']; simp

theorem getVector_some {V : Fin m → Vec 𝕜 n} {u : Fin m → 𝕜} (h : comb V u ≠ 0) :
    getVector V u = some (((1 / ‖comb V u‖ : ℝ) : 𝕜) • comb V u) := by
  have h' : ‖∑ l, u l • V l‖ ≠ 0 := norm_ne_zero_iff.mpr h
  unfold getVector
  simp only [if_neg h']
  rfl

theorem norm_unit {x : Vec 𝕜 n} (h : x ≠ 0) : ‖((1 / ‖x‖ : ℝ) : 𝕜) • x‖ = 1 := by
  rw [norm_smul]; simp [h]

/-- An eigenvector of the cut matrix for a nonzero eigenvalue, or one that gives a vector. -/
theorem Comp.eig_zero {A : Vec 𝕜 n →ₗ[𝕜] Vec 𝕜 n} {V : Fin m → Vec 𝕜 n} {H : Mat 𝕜 m} {k : Nat} (h : Comp A V H k)
    {u : Fin m → 𝕜} {z : 𝕜} (hu0 : u ≠ 0) (hu : cut k H *ᵥ u = z • u) (hx : comb V u = 0) : z = 0 := by
  have hz := (h.comb_eq_zero u).1 hx
  by_contra hne
  apply hu0
  have h0 : cut k H *ᵥ u = 0 := by
    funext a
    show ∑ b, cut k H a b * u b = 0
    refine Finset.sum_eq_zero fun b _ => ?_
    by_cases hb : b.val < k
    · rw [hz b hb, mul_zero]
    · rw [cut_col (by omega), zero_mul]
  rw [h0] at hu
  exact (smul_eq_zero.mp hu.symm).resolve_left hne

/-- The pairs that are returned: a spurious zero with a vector of NaNs, or a Ritz pair. -/
theorem Comp.finish {A : Vec 𝕜 n →ₗ[𝕜] Vec 𝕜 n} {V : Fin m → Vec 𝕜 n} {H : Mat 𝕜 m} {k : Nat} (h : Comp A V H k)
    {K : Kernels 𝕜 m} (hE : K.EigOK (cut k H)) {w : Which} {numeig : Nat} {p : 𝕜 × Option (Vec 𝕜 n)}
    (hp : p ∈ finish K w numeig V H k) :
    (p = (0, none) ∧ k < m) ∨ ∃ u v, cut k H *ᵥ u = p.1 • u ∧ comb V u ≠ 0 ∧ v = ((1 / ‖comb V u‖ : ℝ) : 𝕜) • comb V u ∧
      p.2 = some v ∧ ‖v‖ = 1 ∧ inner 𝕜 v (A v) = p.1 := by
  obtain ⟨j, rfl⟩ := mem_finish hp
  have hu := hE.vec j
  have hu0 := hE.ne j
  generalize (K.eig (cut k H)).1 j = z at *
  generalize (fun a => (K.eig (cut k H)).2 a j) = u at *
  by_cases hx : comb V u = 0
  · left
    refine ⟨by rw [h.eig_zero hu0 hu hx, getVector_none hx], ?_⟩
    by_contra hk
    have hk : k = m := by have := h.le; omega
    exact hu0 (funext fun a => (h.comb_eq_zero u).1 hx a (by omega))
  · right
    refine ⟨u, _, hu, hx, rfl, getVector_some hx, norm_unit hx, ?_⟩
    have hne : (‖comb V u‖ : 𝕜) ≠ 0 := by exact_mod_cast norm_ne_zero_iff.mpr hx
    rw [map_smul, inner_smul_left, inner_smul_right, h.inner_self hu, inner_self_eq_norm_sq_to_K, RCLike.conj_ofReal]
    simp only [one_div, RCLike.ofReal_inv]
    field_simp

/-! ### The states of the outer loop -/

/-- The state of the method after at most `i` restarts. -/
def eigsState (K : Kernels 𝕜 m) (eps : ℝ) (A : Vec 𝕜 n → Vec 𝕜 n) (init : Vec 𝕜 n) (numeig : Nat) (w : Which) (tol : ℝ)
    (i : Nat) : Outer 𝕜 n m :=
  outerLoop K A eps tol w numeig i ((arnoldiFact A tol init (fun _ => 0) 0 0 : Carry 𝕜 n m).toOuter tol)

/-- Before the last restart, no factorisation ends with a residual that is exactly as long as the tolerance. -/
def NoTie (K : Kernels 𝕜 m) (eps : ℝ) (A : Vec 𝕜 n → Vec 𝕜 n) (init : Vec 𝕜 n) (numeig : Nat) (w : Which) (tol : ℝ)
    (maxiter : Nat) : Prop :=
  ∀ i < maxiter - 1, (eigsState K eps A init numeig w tol i : Outer 𝕜 n m).converged = false →
    (eigsState K eps A init numeig w tol i : Outer 𝕜 n m).norm ≠ tol

theorem fact_zero (A : Vec 𝕜 n →ₗ[𝕜] Vec 𝕜 n) (r : Vec 𝕜 n) : Fact A (fun _ : Fin m => 0) 0 0 r :=
  ⟨Nat.zero_le _, fun a b ha => absurd ha (by omega), fun _ _ => rfl, fun a ha => absurd ha (by omega),
    fun a ha => absurd ha (by omega), fun _ _ _ => rfl⟩

/-- What is known at the end. -/
structure Final (A : Vec 𝕜 n →ₗ[𝕜] Vec 𝕜 n) (tol : ℝ) (numeig : Nat) (o : Outer 𝕜 n m) : Prop where
  comp : Comp A o.V o.H o.numits
  small : o.numits < m → o.numits ≠ numeig → ∃ r, Fact A o.V o.H o.numits r ∧ ‖r‖ ≤ tol

theorem Inv.final {A : Vec 𝕜 n →ₗ[𝕜] Vec 𝕜 n} {tol : ℝ} {numeig : Nat} {o : Outer 𝕜 n m} {r : Vec 𝕜 n}
    (h : Inv A tol numeig o r) : Final A tol numeig o := by
  refine ⟨h.fact.comp, fun hlt hne => ⟨r, h.fact, ?_⟩⟩
  have hc : o.converged = false := Bool.eq_false_iff.mpr fun hc => hne (h.conv hc)
  by_contra hr
  rw [h.norm] at hr
  have := (h.full hc (not_le.mp hr)).1
  omega

theorem Comp.step {K : Kernels 𝕜 m} (hK : K.QROK) {A : Vec 𝕜 n →ₗ[𝕜] Vec 𝕜 n} {V : Fin m → Vec 𝕜 n} {H : Mat 𝕜 m}
    {q : Fin m → 𝕜} (h : Comp A V H m) (μ : 𝕜) : Comp A (qrBody K (V, H, q) μ).1 (qrBody K (V, H, q) μ).2.1 m := by
  have hQR := hK.mul (H - μ • 1)
  have hU := hK.unitary (H - μ • 1)
  unfold qrBody
  simp only
  generalize (K.qr (H - μ • 1)).1 = Q at *
  generalize (K.qr (H - μ • 1)).2 = R at *
  have hHQ : Qᴴ * H * Q = R * Q + μ • 1 := by
    have : H * Q = Q * (R * Q + μ • 1) := by
      rw [mul_add, ← mul_assoc, hQR, Matrix.sub_mul, Matrix.smul_mul, Matrix.mul_smul, one_mul, mul_one]; abel
    rw [mul_assoc, this, ← mul_assoc, hU, one_mul]
  have hUe : ∀ a b : Fin m, ∑ c, (starRingEnd 𝕜) (Q c a) * Q c b = if a = b then 1 else 0 := by
    intro a b
    have := congrFun (congrFun hU a) b
    rw [Matrix.mul_apply, Matrix.one_apply] at this
    exact this
  refine ⟨le_refl _, ?_, fun a ha => absurd a.isLt (by omega), ?_⟩
  · intro a b _ _
    rw [sum_inner]
    have : ∀ c : Fin m, inner 𝕜 (Q c a • V c) (∑ d, Q d b • V d) = (starRingEnd 𝕜) (Q c a) * Q c b := by
      intro c
      rw [inner_smul_left, h.ortho.inner_sum (fun a ha => absurd a.isLt (by omega)) c.isLt]
    rw [Finset.sum_congr rfl fun c _ => this c, hUe]
  · intro a b _ _
    rw [← hHQ, sum_inner, mul_assoc, Matrix.mul_apply]
    refine Finset.sum_congr rfl fun c _ => ?_
    rw [inner_smul_left, map_sum, inner_sum, Matrix.mul_apply, Matrix.conjTranspose_apply]
    congr 1
    refine Finset.sum_congr rfl fun d _ => ?_
    rw [map_smul, inner_smul_right, h.comp c d c.isLt d.isLt, mul_comm]

theorem Comp.foldl {K : Kernels 𝕜 m} (hK : K.QROK) {A : Vec 𝕜 n →ₗ[𝕜] Vec 𝕜 n} : ∀ (sh : List 𝕜)
    (x : (Fin m → Vec 𝕜 n) × Mat 𝕜 m × (Fin m → 𝕜)), Comp A x.1 x.2.1 m →
    Comp A (sh.foldl (qrBody K) x).1 (sh.foldl (qrBody K) x).2.1 m
  | [], _, h => h
  | μ :: sh, x, h => Comp.foldl hK sh (qrBody K x μ) (Comp.step hK (q := x.2.2) h μ)

/-- If all the eigenvalues of the factorisation are wanted, a restart only rotates it. -/
theorem Comp.restart {K : Kernels 𝕜 m} (hK : K.QROK) {A : Vec 𝕜 n →ₗ[𝕜] Vec 𝕜 n} {eps tol : ℝ} {w : Which}
    {o : Outer 𝕜 n m} (h : Comp A o.V o.H m) :
    Comp A (outerBody K A eps tol w m o).V (outerBody K A eps tol w m o).H m ∧
      (outerBody K A eps tol w m o).numits = m := by
  have hf := Comp.foldl hK (shifts K w m (K.eig o.H).1) (o.V, o.H, fun j => if j.val + 1 = m then 1 else 0) h
  have hV : (fun l : Fin m => if m ≤ l.val then 0 else
      (shiftedQR K o.V o.H o.f (shifts K w m (K.eig o.H).1) m).1 l) =
      (shiftedQR K o.V o.H o.f (shifts K w m (K.eig o.H).1) m).1 := by
    funext l; exact if_neg (by omega)
  have hH : (fun a b : Fin m => if m ≤ a.val ∨ m ≤ b.val then 0 else
      (shiftedQR K o.V o.H o.f (shifts K w m (K.eig o.H).1) m).2.1 a b) =
      (shiftedQR K o.V o.H o.f (shifts K w m (K.eig o.H).1) m).2.1 := by
    funext a b; exact if_neg (by omega)
  unfold outerBody
  simp only [hV, hH]
  split_ifs with hc
  · exact ⟨hf, rfl⟩
  · generalize (shiftedQR K o.V o.H o.f (shifts K w m (K.eig o.H).1) m).2.2 = f
    have e : (arnoldiFact A tol f (shiftedQR K o.V o.H o.f (shifts K w m (K.eig o.H).1) m).1
        (shiftedQR K o.V o.H o.f (shifts K w m (K.eig o.H).1) m).2.1 m : Carry 𝕜 n m) =
        ⟨(shiftedQR K o.V o.H o.f (shifts K w m (K.eig o.H).1) m).1,
          (shiftedQR K o.V o.H o.f (shifts K w m (K.eig o.H).1) m).2.1, normalize tol f, ‖f‖, m⟩ := by
      unfold arnoldiFact
      have e1 : ∀ (V : Fin m → Vec 𝕜 n) x, setRow V m x = V := fun V x => by
        funext l; exact setRow_other (by omega)
      have e2 : ∀ (H : Mat 𝕜 m) x, (if 0 < m then setEntry H m (m - 1) x else H) = H := fun H x => by
        split_ifs
        · funext a b; exact if_neg (by omega)
        · rfl
      simp only [e1, e2]
      cases m with
      | zero => rfl
      | succ m => rw [arnoldiLoop, if_neg (fun h => absurd h.1 (lt_irrefl _))]
    rw [e]
    exact ⟨hf, rfl⟩

theorem Comp.loop {K : Kernels 𝕜 m} (hK : K.QROK) {A : Vec 𝕜 n →ₗ[𝕜] Vec 𝕜 n} {eps tol : ℝ} {w : Which} :
    ∀ (rest : Nat) (o : Outer 𝕜 n m), Comp A o.V o.H m → o.numits = m →
    Comp A (outerLoop K A eps tol w m rest o).V (outerLoop K A eps tol w m rest o).H m ∧
      (outerLoop K A eps tol w m rest o).numits = m
  | 0, o, h, hn => ⟨h, hn⟩
  | rest + 1, o, h, hn => by
    rw [outerLoop]
    split_ifs
    · exact ⟨h, hn⟩
    · obtain ⟨h1, h2⟩ := h.restart hK (eps := eps) (tol := tol) (w := w)
      exact Comp.loop hK rest _ h1 h2

/-- The state at the end of the method. -/
theorem eigs_final {K : Kernels 𝕜 m} (hK : K.QROK) {eps : ℝ} {A : Vec 𝕜 n →ₗ[𝕜] Vec 𝕜 n} {init : Vec 𝕜 n} {numeig : Nat}
    (hn0 : 0 < numeig) (hn : numeig ≤ m) {w : Which} {tol : ℝ} (h0 : 0 ≤ tol) {maxiter : Nat}
    (ht : NoTie (m := m) K eps A init numeig w tol maxiter) :
    Final A tol numeig (eigsState K eps A init numeig w tol (maxiter - 1) : Outer 𝕜 n m) := by
  obtain ⟨r, hd, -⟩ := arnoldiFact_done (m := m) h0 (fact_zero A init) (by omega)
  by_cases hlt : numeig < m
  · obtain ⟨r', h⟩ := (hd.inv numeig).loop hK (eps := eps) (w := w) h0 hn0 hlt (maxiter - 1) _ r ht
    exact h.final
  · have e : numeig = m := by omega
    subst e
    have hi := hd.inv numeig
    unfold NoTie at ht
    unfold eigsState at ht ⊢
    generalize (arnoldiFact A tol init (fun _ => 0) 0 0 : Carry 𝕜 n numeig).toOuter tol = o at *
    rcases Nat.eq_zero_or_pos (maxiter - 1) with hz | hz
    · rw [hz]; exact hi.final
    · by_cases hs : o.converged ∨ o.arConverged
      · obtain ⟨k, hk⟩ : ∃ k, maxiter - 1 = k + 1 := ⟨maxiter - 1 - 1, by omega⟩
        rw [hk, outerLoop, if_pos hs]; exact hi.final
      · obtain ⟨hc, ha⟩ := not_or.mp hs
        have hc : o.converged = false := Bool.eq_false_iff.mpr hc
        have ha : o.arConverged = false := Bool.eq_false_iff.mpr ha
        have hne := ht 0 hz hc
        have hlt' : tol < o.norm := by
          have := hi.ar hc
          rw [ha] at this
          exact lt_of_le_of_ne (not_lt.mp (of_decide_eq_false this.symm)) (Ne.symm hne)
        obtain ⟨hm, -⟩ := hi.full hc hlt'
        have hcomp := hi.fact.comp
        rw [hm] at hcomp
        obtain ⟨h1, h2⟩ := Comp.loop hK (eps := eps) (tol := tol) (w := w) (maxiter - 1) o hcomp hm
        refine ⟨by rw [h2]; exact h1, fun h => absurd h (by rw [h2]; exact lt_irrefl _)⟩

end

end TN.Krylov
