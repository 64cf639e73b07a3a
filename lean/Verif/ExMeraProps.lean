import Verif.ExMera

/-!
# C88: the energy of a layer of MERA
-/

set_option linter.unusedSectionVars false

namespace TN.Mera

open TN Finset

/-- **C88.**  `binary_mera_energy` is the mean of the expectation values of the hamiltonian at the two positions below the
layer. -/
theorem C88_energy {a b t e : Nat} {op rho iso dis : NDArray ℂ} (f : Fits a b t e op rho iso dis) :
    energy op rho iso dis = ∑ o0 ∈ range e, ∑ o1 ∈ range e, ∑ o2 ∈ range e, ∑ i0 ∈ range e, ∑ i1 ∈ range e, ∑ i2 ∈ range e,
      op.get [o0, o1, o2, i0, i1, i2] *
        ((reduced a b t e rho iso dis .left i0 i1 i2 o0 o1 o2 + reduced a b t e rho iso dis .right i0 i1 i2 o0 o1 o2) / 2) := by
  rw [energy, value_left f, value_right f]
  simp only [← sum_add_distrib]
  iterate 6
    rw [mul_sum]
    refine sum_congr rfl fun _ _ => ?_
  ring

/-! ### Isometries -/

/-- The isometry condition of `iso`. -/
def IsIso (a b t : Nat) (iso : NDArray ℂ) : Prop := ∀ r < t, ∀ s < t,
  ∑ A ∈ range a, ∑ x ∈ range b, iso.get [A, x, r] * star (iso.get [A, x, s]) = if r = s then 1 else 0

/-- The isometry condition of `dis`. -/
def IsUni (a b e : Nat) (dis : NDArray ℂ) : Prop := ∀ x < b, ∀ y < a, ∀ x' < b, ∀ y' < a,
  ∑ p ∈ range e, ∑ q ∈ range e, dis.get [p, q, x, y] * star (dis.get [p, q, x', y']) = if x = x' ∧ y = y' then 1 else 0

/-- An isometry keeps inner products. -/
theorem iso_inner {a b e : Nat} {dis : NDArray ℂ} (hu : IsUni a b e dis) (f g : Nat → Nat → ℂ) :
    ∑ p ∈ range e, ∑ q ∈ range e, (∑ x ∈ range b, ∑ y ∈ range a, f x y * dis.get [p, q, x, y]) *
      star (∑ x ∈ range b, ∑ y ∈ range a, g x y * dis.get [p, q, x, y]) =
    ∑ x ∈ range b, ∑ y ∈ range a, f x y * star (g x y) := by
  have h1 : ∀ p q, (∑ x ∈ range b, ∑ y ∈ range a, f x y * dis.get [p, q, x, y]) *
      star (∑ x ∈ range b, ∑ y ∈ range a, g x y * dis.get [p, q, x, y]) =
      ∑ k ∈ (range b ×ˢ range a) ×ˢ (range b ×ˢ range a), f k.1.1 k.1.2 * star (g k.2.1 k.2.2) *
        (dis.get [p, q, k.1.1, k.1.2] * star (dis.get [p, q, k.2.1, k.2.2])) := by
    intro p q
    rw [← sum_product', ← sum_product' (f := fun x y => g x y * dis.get [p, q, x, y]), star_sum, sum_mul_sum, ← sum_product']
    refine sum_congr rfl fun k _ => ?_
    rw [star_mul']; ring
  simp only [h1]
  rw [← sum_product', sum_comm]
  have h2 : ∀ k ∈ (range b ×ˢ range a) ×ˢ (range b ×ˢ range a),
      ∑ x ∈ range e ×ˢ range e, f k.1.1 k.1.2 * star (g k.2.1 k.2.2) * (dis.get [x.1, x.2, k.1.1, k.1.2] * star (dis.get [x.1, x.2, k.2.1, k.2.2])) =
      if k.1 = k.2 then f k.1.1 k.1.2 * star (g k.2.1 k.2.2) else 0 := by
    rintro ⟨⟨x, y⟩, ⟨x', y'⟩⟩ hk
    simp only [mem_product, mem_range] at hk
    rw [← mul_sum, sum_product' (f := fun p q => dis.get [p, q, x, y] * star (dis.get [p, q, x', y'])),
      hu x hk.1.1 y hk.1.2 x' hk.2.1 y' hk.2.2]
    simp only [Prod.mk.injEq]
    split_ifs <;> simp
  rw [sum_congr rfl h2, sum_product' (f := fun k l : Nat × Nat => if k = l then f k.1 k.2 * star (g l.1 l.2) else 0),
    ← sum_product' (f := fun x y => f x y * star (g x y))]
  refine sum_congr rfl fun k hk => ?_
  rw [sum_ite_eq, if_pos hk]

theorem sum_three {a b : Nat} (f g h : Nat → Nat → ℂ) :
    ∑ A ∈ range a, ∑ B ∈ range b, ∑ x ∈ range b, ∑ y ∈ range a, ∑ u ∈ range b, ∑ v ∈ range a, f A x * g y u * h v B =
      (∑ A ∈ range a, ∑ x ∈ range b, f A x) * (∑ y ∈ range a, ∑ u ∈ range b, g y u) * ∑ v ∈ range a, ∑ B ∈ range b, h v B := by
  rw [sum_comm (f := fun v B => h v B)]
  simp only [← mul_sum, ← sum_mul]

/-- The layer is an isometry. -/
theorem layer_iso {a b t e : Nat} {iso dis : NDArray ℂ} (hi : IsIso a b t iso) (hu : IsUni a b e dis) {r0 r1 r2 s0 s1 s2 : Nat}
    (h0 : r0 < t) (h1 : r1 < t) (h2 : r2 < t) (k0 : s0 < t) (k1 : s1 < t) (k2 : s2 < t) :
    ∑ A ∈ range a, ∑ B ∈ range b, ∑ p2 ∈ range e, ∑ p3 ∈ range e, ∑ p0 ∈ range e, ∑ p1 ∈ range e,
      layer a b iso dis A p0 p1 p2 p3 B r0 r1 r2 * star (layer a b iso dis A p0 p1 p2 p3 B s0 s1 s2) =
    if [r0, r1, r2] = [s0, s1, s2] then 1 else 0 := by
  have hl : ∀ A p0 p1 p2 p3 B r0 r1 r2, layer a b iso dis A p0 p1 p2 p3 B r0 r1 r2 =
      ∑ x ∈ range b, ∑ y ∈ range a, (∑ u ∈ range b, ∑ v ∈ range a, (iso.get [A, x, r0] * iso.get [y, u, r1] * iso.get [v, B, r2]) *
        dis.get [p2, p3, u, v]) * dis.get [p0, p1, x, y] := by
    intro A p0 p1 p2 p3 B r0 r1 r2
    rw [layer]
    iterate 2 refine sum_congr rfl fun _ _ => ?_
    rw [sum_mul]
    refine sum_congr rfl fun _ _ => ?_
    rw [sum_mul]
    refine sum_congr rfl fun _ _ => ?_
    ring
  have step : ∀ A B, ∑ p2 ∈ range e, ∑ p3 ∈ range e, ∑ p0 ∈ range e, ∑ p1 ∈ range e,
      layer a b iso dis A p0 p1 p2 p3 B r0 r1 r2 * star (layer a b iso dis A p0 p1 p2 p3 B s0 s1 s2) =
      ∑ x ∈ range b, ∑ y ∈ range a, ∑ u ∈ range b, ∑ v ∈ range a,
        (iso.get [A, x, r0] * star (iso.get [A, x, s0])) * (iso.get [y, u, r1] * star (iso.get [y, u, s1])) *
          (iso.get [v, B, r2] * star (iso.get [v, B, s2])) := by
    intro A B
    have e1 : ∀ p2 p3, ∑ p0 ∈ range e, ∑ p1 ∈ range e,
        layer a b iso dis A p0 p1 p2 p3 B r0 r1 r2 * star (layer a b iso dis A p0 p1 p2 p3 B s0 s1 s2) =
        ∑ x ∈ range b, ∑ y ∈ range a, (∑ u ∈ range b, ∑ v ∈ range a, (iso.get [A, x, r0] * iso.get [y, u, r1] * iso.get [v, B, r2]) *
          dis.get [p2, p3, u, v]) * star (∑ u ∈ range b, ∑ v ∈ range a, (iso.get [A, x, s0] * iso.get [y, u, s1] * iso.get [v, B, s2]) *
          dis.get [p2, p3, u, v]) := by
      intro p2 p3
      simp only [hl]
      exact iso_inner hu _ _
    simp only [e1]
    rw [← sum_product', sum_congr rfl fun k _ => (sum_product' (s := range b) (t := range a) (f := fun x y =>
      (∑ u ∈ range b, ∑ v ∈ range a, (iso.get [A, x, r0] * iso.get [y, u, r1] * iso.get [v, B, r2]) *
          dis.get [k.1, k.2, u, v]) * star (∑ u ∈ range b, ∑ v ∈ range a, (iso.get [A, x, s0] * iso.get [y, u, s1] * iso.get [v, B, s2]) *
          dis.get [k.1, k.2, u, v]))).symm, sum_comm]
    rw [← sum_product' (s := range b) (t := range a)]
    refine sum_congr rfl fun k _ => ?_
    rw [sum_product' (s := range e) (t := range e) (f := fun p2 p3 =>
      (∑ u ∈ range b, ∑ v ∈ range a, (iso.get [A, k.1, r0] * iso.get [k.2, u, r1] * iso.get [v, B, r2]) *
          dis.get [p2, p3, u, v]) * star (∑ u ∈ range b, ∑ v ∈ range a, (iso.get [A, k.1, s0] * iso.get [k.2, u, s1] * iso.get [v, B, s2]) *
          dis.get [p2, p3, u, v])), iso_inner hu]
    iterate 2 refine sum_congr rfl fun _ _ => ?_
    simp only [star_mul']
    ring
  simp only [step]
  rw [sum_three (fun A x => iso.get [A, x, r0] * star (iso.get [A, x, s0])) (fun y u => iso.get [y, u, r1] * star (iso.get [y, u, s1]))
    (fun v B => iso.get [v, B, r2] * star (iso.get [v, B, s2])), hi r0 h0 s0 k0, hi r1 h1 s1 k1, hi r2 h2 s2 k2]
  simp only [List.cons.injEq, and_true]
  clear step hl
  by_cases q0 : r0 = s0 <;> by_cases q1 : r1 = s1 <;> by_cases q2 : r2 = s2 <;> simp [q0, q1, q2]

/-- The trace of a state of three sites. -/
noncomputable def trace3 (t : Nat) (f : Nat → Nat → Nat → Nat → Nat → Nat → ℂ) : ℂ :=
  ∑ r0 ∈ range t, ∑ r1 ∈ range t, ∑ r2 ∈ range t, f r0 r1 r2 r0 r1 r2

theorem below_trace {a b t e : Nat} {rho iso dis : NDArray ℂ} (hi : IsIso a b t iso) (hu : IsUni a b e dis) :
    ∑ A ∈ range a, ∑ B ∈ range b, ∑ p2 ∈ range e, ∑ p3 ∈ range e, ∑ p0 ∈ range e, ∑ p1 ∈ range e,
      below a b t rho iso dis A p0 p1 p2 p3 B A p0 p1 p2 p3 B = trace3 t fun r0 r1 r2 s0 s1 s2 => rho.get [r0, r1, r2, s0, s1, s2] := by
  have h := sumIdx_comm [a, b, e, e, e, e] [t, t, t, t, t, t] (fun c r =>
    layer a b iso dis (c.getD 0 0) (c.getD 4 0) (c.getD 5 0) (c.getD 2 0) (c.getD 3 0) (c.getD 1 0) (r.getD 0 0) (r.getD 1 0) (r.getD 2 0) *
      rho.get [r.getD 0 0, r.getD 1 0, r.getD 2 0, r.getD 3 0, r.getD 4 0, r.getD 5 0] *
      star (layer a b iso dis (c.getD 0 0) (c.getD 4 0) (c.getD 5 0) (c.getD 2 0) (c.getD 3 0) (c.getD 1 0) (r.getD 3 0) (r.getD 4 0) (r.getD 5 0)))
  refine Eq.trans (show _ = _ from rfl) (h.trans ?_)
  have h2 : ∀ r0 < t, ∀ r1 < t, ∀ r2 < t, ∀ s0 < t, ∀ s1 < t, ∀ s2 < t,
      ∑ A ∈ range a, ∑ B ∈ range b, ∑ p2 ∈ range e, ∑ p3 ∈ range e, ∑ p0 ∈ range e, ∑ p1 ∈ range e,
      layer a b iso dis A p0 p1 p2 p3 B r0 r1 r2 * rho.get [r0, r1, r2, s0, s1, s2] * star (layer a b iso dis A p0 p1 p2 p3 B s0 s1 s2) =
      if [r0, r1, r2] = [s0, s1, s2] then rho.get [r0, r1, r2, s0, s1, s2] else 0 := by
    intro r0 h0 r1 h1 r2 h2 s0 k0 s1 k1 s2 k2
    have := layer_iso hi hu h0 h1 h2 k0 k1 k2
    rw [show (if [r0, r1, r2] = [s0, s1, s2] then rho.get [r0, r1, r2, s0, s1, s2] else 0) = rho.get [r0, r1, r2, s0, s1, s2] *
      (if [r0, r1, r2] = [s0, s1, s2] then 1 else 0) by split_ifs <;> simp, ← this]
    iterate 6
      rw [mul_sum]
      refine sum_congr rfl fun _ _ => ?_
    ring
  rw [trace3]
  refine sum_congr rfl fun r0 h0 => sum_congr rfl fun r1 h1 => sum_congr rfl fun r2 h2' => ?_
  rw [mem_range] at h0 h1 h2'
  have h3 : ∀ s0 ∈ range t, ∀ s1 ∈ range t, ∀ s2 ∈ range t, _ := fun s0 k0 s1 k1 s2 k2 =>
    h2 r0 h0 r1 h1 r2 h2' s0 (mem_range.1 k0) s1 (mem_range.1 k1) s2 (mem_range.1 k2)
  refine (show _ = ∑ s0 ∈ range t, ∑ s1 ∈ range t, ∑ s2 ∈ range t, (∑ A ∈ range a, ∑ B ∈ range b, ∑ p2 ∈ range e, ∑ p3 ∈ range e, ∑ p0 ∈ range e, ∑ p1 ∈ range e,
      layer a b iso dis A p0 p1 p2 p3 B r0 r1 r2 * rho.get [r0, r1, r2, s0, s1, s2] * star (layer a b iso dis A p0 p1 p2 p3 B s0 s1 s2)) from rfl).trans ?_
  rw [sum_congr rfl fun s0 k0 => sum_congr rfl fun s1 k1 => sum_congr rfl fun s2 k2 => h3 s0 k0 s1 k1 s2 k2]
  simp only [List.cons.injEq, and_true, ite_and]
  rw [sum_eq_single r0 (fun s _ hs => by simp [Ne.symm hs]) (fun h => absurd (mem_range.2 h0) h),
    sum_eq_single r1 (fun s _ hs => by simp [Ne.symm hs]) (fun h => absurd (mem_range.2 h1) h),
    sum_eq_single r2 (fun s _ hs => by simp [Ne.symm hs]) (fun h => absurd (mem_range.2 h2') h)]
  simp

theorem sum_left {a b e : Nat} (F : Nat → Nat → Nat → Nat → Nat → Nat → ℂ) :
    ∑ i0 ∈ range e, ∑ i1 ∈ range e, ∑ i2 ∈ range e, ∑ A ∈ range a, ∑ z ∈ range e, ∑ B ∈ range b, F A i0 i1 i2 z B =
    ∑ A ∈ range a, ∑ B ∈ range b, ∑ p2 ∈ range e, ∑ p3 ∈ range e, ∑ p0 ∈ range e, ∑ p1 ∈ range e, F A p0 p1 p2 p3 B := by
  have := sumOver_perm (dim := fun l : Nat => if l = 0 then a else if l = 5 then b else e) (C := [1, 2, 3, 0, 4, 5]) (D := [0, 5, 3, 4, 1, 2])
    (by decide) (fun τ => F (τ 0) (τ 1) (τ 2) (τ 3) (τ 4) (τ 5)) (fun _ => 0)
  simpa [sumOver, Function.update] using this

theorem sum_right {a b e : Nat} (F : Nat → Nat → Nat → Nat → Nat → Nat → ℂ) :
    ∑ i0 ∈ range e, ∑ i1 ∈ range e, ∑ i2 ∈ range e, ∑ A ∈ range a, ∑ z ∈ range e, ∑ B ∈ range b, F A z i0 i1 i2 B =
    ∑ A ∈ range a, ∑ B ∈ range b, ∑ p2 ∈ range e, ∑ p3 ∈ range e, ∑ p0 ∈ range e, ∑ p1 ∈ range e, F A p0 p1 p2 p3 B := by
  have := sumOver_perm (dim := fun l : Nat => if l = 0 then a else if l = 5 then b else e) (C := [2, 3, 4, 0, 1, 5]) (D := [0, 5, 3, 4, 1, 2])
    (by decide) (fun τ => F (τ 0) (τ 1) (τ 2) (τ 3) (τ 4) (τ 5)) (fun _ => 0)
  simpa [sumOver, Function.update] using this

/-- The reduced states have the trace of the state above. -/
theorem reduced_trace {a b t e : Nat} {rho iso dis : NDArray ℂ} (hi : IsIso a b t iso) (hu : IsUni a b e dis) (d : Dirn) :
    trace3 e (reduced a b t e rho iso dis d) = trace3 t fun r0 r1 r2 s0 s1 s2 => rho.get [r0, r1, r2, s0, s1, s2] := by
  rw [← below_trace hi hu, trace3]
  cases d
  · exact sum_left fun A p0 p1 p2 p3 B => below a b t rho iso dis A p0 p1 p2 p3 B A p0 p1 p2 p3 B
  · exact sum_right fun A p0 p1 p2 p3 B => below a b t rho iso dis A p0 p1 p2 p3 B A p0 p1 p2 p3 B

end TN.Mera
