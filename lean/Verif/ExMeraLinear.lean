import Verif.ExMeraUpdate
import Mathlib.Analysis.Calculus.Deriv.Star
import Mathlib.Analysis.Complex.RealDeriv

/-!
# C91: the environments are the derivatives of the energy, and what the updates minimise
-/

set_option linter.unusedSectionVars false

namespace TN.Mera

open TN Finset

/-- Entries of a tensor. -/
abbrev Ent := List Nat → ℂ

/-- All directional derivatives exist and depend on the direction in a real linear way. -/
def Dif (w : Ent) (F : Ent → ℂ) : Prop := ∃ L : Ent →ₗ[ℝ] ℂ, ∀ d : Ent, HasDerivAt (fun s : ℝ => F (w + s • d)) (L d) 0

theorem Dif.const {w : Ent} (c : ℂ) : Dif w fun _ => c := ⟨0, fun _ => hasDerivAt_const _ _⟩

theorem Dif.entry {w : Ent} (i : List Nat) : Dif w fun g => g i := by
  refine ⟨LinearMap.proj i, fun d => ?_⟩
  have h : HasDerivAt (fun s : ℝ => w i + (s : ℂ) * d i) (d i) 0 := by
    have := ((Complex.ofRealCLM.hasDerivAt (x := 0)).mul_const (d i)).const_add (w i)
    simpa using this
  simpa using h

theorem Dif.mul {w : Ent} {F G : Ent → ℂ} (hF : Dif w F) (hG : Dif w G) : Dif w fun g => F g * G g := by
  obtain ⟨L, hL⟩ := hF
  obtain ⟨M, hM⟩ := hG
  refine ⟨(LinearMap.mulRight ℝ (G w)).comp L + (LinearMap.mulLeft ℝ (F w)).comp M, fun d => ?_⟩
  have := (hL d).fun_mul (hM d)
  refine this.congr_deriv ?_
  simp

theorem Dif.add {w : Ent} {F G : Ent → ℂ} (hF : Dif w F) (hG : Dif w G) : Dif w fun g => F g + G g := by
  obtain ⟨L, hL⟩ := hF
  obtain ⟨M, hM⟩ := hG
  exact ⟨L + M, fun d => (hL d).add (hM d)⟩

theorem Dif.star {w : Ent} {F : Ent → ℂ} (hF : Dif w F) : Dif w fun g => star (F g) := by
  obtain ⟨L, hL⟩ := hF
  refine ⟨(Complex.conjAe.toLinearMap).comp L, fun d => ?_⟩
  exact (hL d).star

theorem Dif.sum {w : Ent} {ι : Type} {F : ι → Ent → ℂ} (s : Finset ι) (h : ∀ k, Dif w (F k)) : Dif w fun g => ∑ k ∈ s, F k g := by
  classical
  induction s using Finset.induction_on with
  | empty => simpa using Dif.const 0
  | insert a s ha ih =>
    simp only [sum_insert ha]
    exact (h a).add ih

theorem Dif.div {w : Ent} {F : Ent → ℂ} (hF : Dif w F) (c : ℂ) : Dif w fun g => F g / c := by
  simp only [div_eq_mul_inv]
  exact hF.mul (Dif.const _)

/-- The energy as a function of entries on which the two tensors depend. -/
theorem energy_dif {a b t e : Nat} {op rho : NDArray ℂ} {w : Ent} {I D : Ent → NDArray ℂ} (hf : ∀ g, Fits a b t e op rho (I g) (D g))
    (hI : ∀ i, Dif w fun g => (I g).get i) (hD : ∀ i, Dif w fun g => (D g).get i) : Dif w fun g => energy op rho (I g) (D g) := by
  have hl : ∀ A p0 p1 p2 p3 B r0 r1 r2, Dif w fun g => layer a b (I g) (D g) A p0 p1 p2 p3 B r0 r1 r2 := by
    intro A p0 p1 p2 p3 B r0 r1 r2
    simp only [layer]
    iterate 4 refine Dif.sum _ fun _ => ?_
    exact ((((hI _).mul (hI _)).mul (hI _)).mul (hD _)).mul (hD _)
  have hb : ∀ A p0 p1 p2 p3 B A' q0 q1 q2 q3 B', Dif w fun g => below a b t rho (I g) (D g) A p0 p1 p2 p3 B A' q0 q1 q2 q3 B' := by
    intro A p0 p1 p2 p3 B A' q0 q1 q2 q3 B'
    simp only [below]
    iterate 6 refine Dif.sum _ fun _ => ?_
    exact ((hl _ _ _ _ _ _ _ _ _).mul (Dif.const _)).mul (hl _ _ _ _ _ _ _ _ _).star
  have hr : ∀ d i0 i1 i2 o0 o1 o2, Dif w fun g => reduced a b t e rho (I g) (D g) d i0 i1 i2 o0 o1 o2 := by
    intro d i0 i1 i2 o0 o1 o2
    cases d <;> simp only [reduced] <;>
    · iterate 3 refine Dif.sum _ fun _ => ?_
      exact hb _ _ _ _ _ _ _ _ _ _ _ _
  simp only [fun g => C88_energy (hf g)]
  iterate 6 refine Dif.sum _ fun _ => ?_
  exact (Dif.const _).mul (((hr _ _ _ _ _ _ _).add (hr _ _ _ _ _ _ _)).div _)

/-- The point on the way from `w` in the direction `d`. -/
noncomputable def along (w d : NDArray ℂ) (s : ℝ) : NDArray ℂ := ⟨w.shape, fun i => w.get i + s * d.get i⟩

theorem grad_along {s : List Nat} {E : NDArray ℂ → ℂ} {w : NDArray ℂ} (hw : w.shape = s) (hE : Dif w.get fun g => E ⟨s, g⟩)
    (hloc : ∀ g g' : Ent, (∀ i, InB s i → g i = g' i) → E ⟨s, g⟩ = E ⟨s, g'⟩) (d : NDArray ℂ) :
    HasDerivAt (fun x : ℝ => (E (along w d x)).re) (pairing s (entryGrad E w) d).re 0 := by
  obtain ⟨L, hL⟩ := hE
  have hre : ∀ d : Ent, HasDerivAt (fun x : ℝ => (E ⟨s, w.get + x • d⟩).re) (L d).re 0 :=
    fun d => (Complex.reCLM.hasFDerivAt.comp_hasDerivAt (0 : ℝ) (hL d))
  have hloc' : ∀ d d' : Ent, (∀ i, InB s i → d i = d' i) → L d = L d' := by
    intro d d' h
    refine (hL d).unique ?_
    have : (fun x : ℝ => E ⟨s, w.get + x • d⟩) = fun x : ℝ => E ⟨s, w.get + x • d'⟩ :=
      funext fun x => hloc _ _ fun i hi => by simp [h i hi]
    rw [this]
    exact hL d'
  have he : ∀ i, (entryGrad E w).get i = ((L (Pi.single i 1)).re : ℂ) - Complex.I * ((L (Pi.single i Complex.I)).re : ℂ) := by
    intro i
    have h1 : ∀ z : ℂ, (fun x : ℝ => (E (setEntry w i (w.get i + x * z))).re) = fun x : ℝ => (E ⟨s, w.get + x • (Pi.single i z : Ent)⟩).re := by
      intro z
      funext x
      refine congrArg Complex.re (congrArg E ?_)
      rw [setEntry, hw]
      congr 1
      funext j
      by_cases hj : j = i
      · subst hj; simp
      · simp [hj]
    have h2 := h1 1
    simp only [mul_one] at h2
    simp only [entryGrad, h2, h1]
    rw [(hre _).deriv, (hre _).deriv]
  have hd : (fun x : ℝ => (E (along w d x)).re) = fun x : ℝ => (E ⟨s, w.get + x • d.get⟩).re := by
    funext x
    refine congrArg Complex.re (congrArg E ?_)
    rw [along, hw]
    congr 1
  rw [hd]
  have hsum : ∀ (l : List Nat) (f : List Nat → Ent), L (sumIdx l f) = sumIdx l fun i => L (f i) := by
    intro l f
    rw [← sum_range_unravel, ← sum_range_unravel, map_sum]
  have hap : ∀ (l : List Nat) (f : List Nat → Ent) (j : List Nat), sumIdx l f j = sumIdx l fun i => f i j := by
    intro l f j
    rw [← sum_range_unravel, ← sum_range_unravel, Finset.sum_apply]
  have h3 : L d.get = sumIdx s fun i => L (Pi.single i (d.get i)) := by
    rw [← hsum]
    refine hloc' _ _ fun j hj => ?_
    rw [hap, sumIdx_single hj fun i _ hne => by simp [Ne.symm hne]]
    simp
  have h4 : ∀ i z, L (Pi.single i z) = z.re * L (Pi.single i 1) + z.im * L (Pi.single i Complex.I) := by
    intro i z
    have : (Pi.single i z : Ent) = z.re • (Pi.single i 1 : Ent) + z.im • (Pi.single i Complex.I : Ent) := by
      funext j
      by_cases hj : j = i
      · subst hj
        simp
      · simp [hj]
    rw [this, map_add, map_smul, map_smul]
    simp
  have hres : ∀ (l : List Nat) (f : List Nat → ℂ), (sumIdx l f).re = sumIdx l fun i => (f i).re := by
    intro l f
    rw [← sum_range_unravel, ← sum_range_unravel, Complex.re_sum]
  have h5 : (pairing s (entryGrad E w) d).re = (L d.get).re := by
    rw [h3, pairing, hres, hres]
    refine sumIdx_congr fun i _ => ?_
    rw [he, h4 i (d.get i)]
    simp
    ring
  rw [h5]
  exact hre d.get

/-- The energy depends only on the entries within the shape. -/
theorem energy_local {a b t e : Nat} {op rho iso dis iso' dis' : NDArray ℂ} (f : Fits a b t e op rho iso dis) (f' : Fits a b t e op rho iso' dis')
    (hi : ∀ i, InB [a, b, t] i → iso.get i = iso'.get i) (hd : ∀ i, InB [e, e, b, a] i → dis.get i = dis'.get i) :
    energy op rho iso dis = energy op rho iso' dis' := by
  have hl : ∀ {A p0 p1 p2 p3 B r0 r1 r2}, A < a → p0 < e → p1 < e → p2 < e → p3 < e → B < b → r0 < t → r1 < t → r2 < t →
      layer a b iso dis A p0 p1 p2 p3 B r0 r1 r2 = layer a b iso' dis' A p0 p1 p2 p3 B r0 r1 r2 := by
    intro A p0 p1 p2 p3 B r0 r1 r2 hA h0 h1 h2 h3 hB k0 k1 k2
    refine sum_congr rfl fun x hx => sum_congr rfl fun y hy => sum_congr rfl fun u hu => sum_congr rfl fun v hv => ?_
    rw [mem_range] at hx hy hu hv
    rw [hi _ (show InB [a, b, t] [A, x, r0] by simp [hA, hx, k0]), hi _ (show InB [a, b, t] [y, u, r1] by simp [hy, hu, k1]),
      hi _ (show InB [a, b, t] [v, B, r2] by simp [hv, hB, k2]), hd _ (show InB [e, e, b, a] [p0, p1, x, y] by simp [h0, h1, hx, hy]),
      hd _ (show InB [e, e, b, a] [p2, p3, u, v] by simp [h2, h3, hu, hv])]
  have hb : ∀ {A p0 p1 p2 p3 B A' q0 q1 q2 q3 B'}, A < a → p0 < e → p1 < e → p2 < e → p3 < e → B < b →
      A' < a → q0 < e → q1 < e → q2 < e → q3 < e → B' < b →
      below a b t rho iso dis A p0 p1 p2 p3 B A' q0 q1 q2 q3 B' = below a b t rho iso' dis' A p0 p1 p2 p3 B A' q0 q1 q2 q3 B' := by
    intro A p0 p1 p2 p3 B A' q0 q1 q2 q3 B' hA h0 h1 h2 h3 hB hA' g0 g1 g2 g3 hB'
    refine sum_congr rfl fun r0 k0 => sum_congr rfl fun r1 k1 => sum_congr rfl fun r2 k2 => sum_congr rfl fun s0 l0 => sum_congr rfl fun s1 l1 => sum_congr rfl fun s2 l2 => ?_
    rw [mem_range] at k0 k1 k2 l0 l1 l2
    rw [hl hA h0 h1 h2 h3 hB k0 k1 k2, hl hA' g0 g1 g2 g3 hB' l0 l1 l2]
  rw [C88_energy f, C88_energy f']
  refine sum_congr rfl fun o0 k0 => sum_congr rfl fun o1 k1 => sum_congr rfl fun o2 k2 => sum_congr rfl fun i0 l0 => sum_congr rfl fun i1 l1 => sum_congr rfl fun i2 l2 => ?_
  rw [mem_range] at k0 k1 k2 l0 l1 l2
  have h1 : reduced a b t e rho iso dis .left i0 i1 i2 o0 o1 o2 = reduced a b t e rho iso' dis' .left i0 i1 i2 o0 o1 o2 := by
    refine sum_congr rfl fun A hA => sum_congr rfl fun z hz => sum_congr rfl fun B hB => ?_
    rw [mem_range] at hA hz hB
    exact hb hA l0 l1 l2 hz hB hA k0 k1 k2 hz hB
  have h2 : reduced a b t e rho iso dis .right i0 i1 i2 o0 o1 o2 = reduced a b t e rho iso' dis' .right i0 i1 i2 o0 o1 o2 := by
    refine sum_congr rfl fun A hA => sum_congr rfl fun z hz => sum_congr rfl fun B hB => ?_
    rw [mem_range] at hA hz hB
    exact hb hA hz l0 l1 l2 hB hA hz k0 k1 k2 hB
  rw [h1, h2]

/-- **C91.**  `env_iso` is the derivative of the energy with respect to the isometry: in every direction the derivative of the real part of the energy is the
real part of the sum of the products of the entries. -/
theorem C91_env_iso {a b t e : Nat} {op rho iso dis : NDArray ℂ} (f : Fits a b t e op rho iso dis) (d : NDArray ℂ) :
    HasDerivAt (fun x : ℝ => (energy op rho (along iso d x) dis).re) (pairing [a, b, t] (envIso op rho iso dis) d).re 0 := by
  refine grad_along (E := fun w => energy op rho w dis) f.iso ?_ (fun g g' h => ?_) d
  · exact energy_dif (a := a) (b := b) (t := t) (e := e) (I := fun g => ⟨[a, b, t], g⟩) (D := fun _ => dis) (fun g => ⟨f.op, f.rho, rfl, f.dis⟩)
      (fun i => Dif.entry i) fun i => Dif.const _
  · exact energy_local (a := a) (b := b) (t := t) (e := e) ⟨f.op, f.rho, rfl, f.dis⟩ ⟨f.op, f.rho, rfl, f.dis⟩ h fun _ _ => rfl

/-- **C91.**  The same for `env_dis`. -/
theorem C91_env_dis {a b t e : Nat} {op rho iso dis : NDArray ℂ} (f : Fits a b t e op rho iso dis) (d : NDArray ℂ) :
    HasDerivAt (fun x : ℝ => (energy op rho iso (along dis d x)).re) (pairing [e, e, b, a] (envDis op rho iso dis) d).re 0 := by
  refine grad_along (E := fun w => energy op rho iso w) f.dis ?_ (fun g g' h => ?_) d
  · exact energy_dif (a := a) (b := b) (t := t) (e := e) (I := fun _ => iso) (D := fun g => ⟨[e, e, b, a], g⟩) (fun g => ⟨f.op, f.rho, f.iso, rfl⟩)
      (fun i => Dif.const _) fun i => Dif.entry i
  · exact energy_local (a := a) (b := b) (t := t) (e := e) ⟨f.op, f.rho, f.iso, rfl⟩ ⟨f.op, f.rho, f.iso, rfl⟩ (fun _ _ => rfl) h

/-- A tensor times a number. -/
def scaleT (z : ℂ) (w : NDArray ℂ) : NDArray ℂ := ⟨w.shape, fun i => z * w.get i⟩

/-- **C91.**  A phase of the isometry or of the disentangler does not change the energy. -/
theorem C91_phase {a b t e : Nat} {op rho iso dis : NDArray ℂ} (f : Fits a b t e op rho iso dis) {y z : ℂ} (hy : y * star y = 1) (hz : z * star z = 1) :
    energy op rho (scaleT y iso) (scaleT z dis) = energy op rho iso dis := by
  have hl : ∀ A p0 p1 p2 p3 B r0 r1 r2, layer a b (scaleT y iso) (scaleT z dis) A p0 p1 p2 p3 B r0 r1 r2 =
      y ^ 3 * z ^ 2 * layer a b iso dis A p0 p1 p2 p3 B r0 r1 r2 := by
    intro A p0 p1 p2 p3 B r0 r1 r2
    simp only [layer, mul_sum, scaleT]
    exact sum_congr rfl fun _ _ => sum_congr rfl fun _ _ => sum_congr rfl fun _ _ => sum_congr rfl fun _ _ => by ring
  have hw : (y ^ 3 * z ^ 2) * star (y ^ 3 * z ^ 2) = 1 := by
    have : (y ^ 3 * z ^ 2) * star (y ^ 3 * z ^ 2) = (y * star y) ^ 3 * (z * star z) ^ 2 := by
      rw [star_mul', star_pow, star_pow]; ring
    rw [this, hy, hz]; norm_num
  obtain ⟨c, hc⟩ : ∃ c, c = y ^ 3 * z ^ 2 := ⟨_, rfl⟩
  rw [← hc] at hw
  simp only [← hc] at hl
  have hb : ∀ A p0 p1 p2 p3 B A' q0 q1 q2 q3 B', below a b t rho (scaleT y iso) (scaleT z dis) A p0 p1 p2 p3 B A' q0 q1 q2 q3 B' =
      below a b t rho iso dis A p0 p1 p2 p3 B A' q0 q1 q2 q3 B' := by
    intro A p0 p1 p2 p3 B A' q0 q1 q2 q3 B'
    simp only [below, hl]
    refine sum_congr rfl fun _ _ => sum_congr rfl fun _ _ => sum_congr rfl fun _ _ => sum_congr rfl fun _ _ => sum_congr rfl fun _ _ => sum_congr rfl fun _ _ => ?_
    rw [star_mul']
    linear_combination (layer a b iso dis A p0 p1 p2 p3 B _ _ _ * rho.get _ * star (layer a b iso dis A' q0 q1 q2 q3 B' _ _ _)) * hw
  rw [C88_energy (iso := scaleT y iso) (dis := scaleT z dis) ⟨f.op, f.rho, f.iso, f.dis⟩, C88_energy f]
  simp only [reduced, hb]

/-- The linearised energy: the tangent at `w`. -/
noncomputable def linearised (E : NDArray ℂ → ℂ) (w v : NDArray ℂ) : ℝ :=
  (E w).re + deriv (fun x : ℝ => (E (along w ⟨w.shape, fun i => v.get i - w.get i⟩ x)).re) 0

theorem pairing_sub {s : List Nat} (env v w : NDArray ℂ) : pairing s env ⟨w.shape, fun i => v.get i - w.get i⟩ = pairing s env v - pairing s env w := by
  simp only [pairing, ← sum_range_unravel, ← sum_sub_distrib, mul_sub]

theorem pairing_scale {s : List Nat} (env w : NDArray ℂ) (z : ℂ) : pairing s env (scaleT z w) = z * pairing s env w := by
  simp only [pairing, sumIdx_mul_left, scaleT]
  exact sumIdx_congr fun _ _ => by ring

/-- **C91.**  `update_iso` solves the linearised problem: the negative of what it returns is an isometry whose linearised energy is the smallest of all
isometries, and the sign does not change the energy. -/
theorem C91_iso_linear {a b t e : Nat} {kernel : SvdKernel} (hk : KernelOK kernel) {op rho iso dis : NDArray ℂ} (f : Fits a b t e op rho iso dis)
    (hd : t ≤ a * b) : ∃ w, updateIso kernel op rho iso dis = .ok w ∧ IsIso a b t w ∧ IsIso a b t (scaleT (-1) w) ∧
      energy op rho (scaleT (-1) w) dis = energy op rho w dis ∧
      ∀ v, IsIso a b t v → linearised (fun w => energy op rho w dis) iso (scaleT (-1) w) ≤ linearised (fun w => energy op rho w dis) iso v := by
  obtain ⟨w, h1, h2, h3, h4⟩ := C91_update_iso (op := op) (rho := rho) (iso := iso) (dis := dis) hk f hd
  have hneg : ∀ v, IsIso a b t v → IsIso a b t (scaleT (-1) v) := fun v hv r hr s hs => by simpa [scaleT] using hv r hr s hs
  have hl : ∀ v, linearised (fun w => energy op rho w dis) iso v = (energy op rho iso dis).re +
      ((pairing [a, b, t] (envIso op rho iso dis) v).re - (pairing [a, b, t] (envIso op rho iso dis) iso).re) := by
    intro v
    rw [linearised, (C91_env_iso f _).deriv, pairing_sub, Complex.sub_re]
  refine ⟨w, h1, h3, hneg w h3, ?_, fun v hv => ?_⟩
  · have := C91_phase (y := -1) (z := 1) (iso := w) (dis := dis) (a := a) (b := b) (t := t) (e := e) ⟨f.op, f.rho, h2, f.dis⟩ (by simp) (by simp)
    rw [← this]
    congr 1
    simp [scaleT]
  · have h5 := h4 _ (hneg v hv)
    rw [pairing_scale] at h5
    rw [hl, hl, pairing_scale]
    simp only [neg_mul, one_mul, Complex.neg_re] at h5 ⊢
    linarith

/-- **C91.**  The same for `update_dis`. -/
theorem C91_dis_linear {a b t e : Nat} {kernel : SvdKernel} (hk : KernelOK kernel) {op rho iso dis : NDArray ℂ} (f : Fits a b t e op rho iso dis)
    (hd : b * a ≤ e * e) : ∃ w, updateDis kernel op rho iso dis = .ok w ∧ IsUni a b e w ∧ IsUni a b e (scaleT (-1) w) ∧
      energy op rho iso (scaleT (-1) w) = energy op rho iso w ∧
      ∀ v, IsUni a b e v → linearised (fun w => energy op rho iso w) dis (scaleT (-1) w) ≤ linearised (fun w => energy op rho iso w) dis v := by
  obtain ⟨w, h1, h2, h3, h4⟩ := C91_update_dis (op := op) (rho := rho) (iso := iso) (dis := dis) hk f hd
  have hneg : ∀ v, IsUni a b e v → IsUni a b e (scaleT (-1) v) := fun v hv x hx y hy x' hx' y' hy' => by
    simpa [scaleT] using hv x hx y hy x' hx' y' hy'
  have hl : ∀ v, linearised (fun w => energy op rho iso w) dis v = (energy op rho iso dis).re +
      ((pairing [e, e, b, a] (envDis op rho iso dis) v).re - (pairing [e, e, b, a] (envDis op rho iso dis) dis).re) := by
    intro v
    rw [linearised, (C91_env_dis f _).deriv, pairing_sub, Complex.sub_re]
  refine ⟨w, h1, h3, hneg w h3, ?_, fun v hv => ?_⟩
  · have := C91_phase (y := 1) (z := -1) (iso := iso) (dis := w) (a := a) (b := b) (t := t) (e := e) ⟨f.op, f.rho, f.iso, h2⟩ (by simp) (by simp)
    rw [← this]
    congr 1
    simp [scaleT]
  · have h5 := h4 _ (hneg v hv)
    rw [pairing_scale] at h5
    rw [hl, hl, pairing_scale]
    simp only [neg_mul, one_mul, Complex.neg_re] at h5 ⊢
    linarith

end TN.Mera
