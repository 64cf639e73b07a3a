import Verif.ExMeraProps
import Mathlib.Analysis.Calculus.Deriv.Add
import Mathlib.Analysis.Calculus.Deriv.Mul

/-!
# C88: the super-operators of the example
-/

set_option linter.unusedSectionVars false

namespace TN.Mera

open TN Finset

/-- The mean of the two reduced states below the layer, the first three arguments are the kets. -/
noncomputable def mean (a b t e : Nat) (rho iso dis : NDArray ℂ) (i0 i1 i2 o0 o1 o2 : Nat) : ℂ :=
  (reduced a b t e rho iso dis .left i0 i1 i2 o0 o1 o2 + reduced a b t e rho iso dis .right i0 i1 i2 o0 o1 o2) / 2

theorem mean_trace {a b t e : Nat} {rho iso dis : NDArray ℂ} (hi : IsIso a b t iso) (hu : IsUni a b e dis) :
    trace3 e (mean a b t e rho iso dis) = trace3 t fun r0 r1 r2 s0 s1 s2 => rho.get [r0, r1, r2, s0, s1, s2] := by
  have h1 := reduced_trace (rho := rho) hi hu .left
  have h2 := reduced_trace (rho := rho) hi hu .right
  have : trace3 e (mean a b t e rho iso dis) = (trace3 e (reduced a b t e rho iso dis .left) + trace3 e (reduced a b t e rho iso dis .right)) / 2 := by
    simp only [trace3, mean, ← sum_add_distrib, div_eq_mul_inv, sum_mul]
  rw [this, h1, h2]
  ring

/-- **C88.**  If the tensors are isometric, the energy of the identity is the trace of the state, so that the layer keeps norms. -/
theorem C88_identity {a b t e : Nat} {op rho iso dis : NDArray ℂ} (f : Fits a b t e op rho iso dis) (hi : IsIso a b t iso) (hu : IsUni a b e dis)
    (hop : ∀ o0 < e, ∀ o1 < e, ∀ o2 < e, ∀ i0 < e, ∀ i1 < e, ∀ i2 < e, op.get [o0, o1, o2, i0, i1, i2] = if [o0, o1, o2] = [i0, i1, i2] then 1 else 0) :
    energy op rho iso dis = trace3 t fun r0 r1 r2 s0 s1 s2 => rho.get [r0, r1, r2, s0, s1, s2] := by
  rw [C88_energy f, ← mean_trace hi hu (e := e), trace3]
  refine sum_congr rfl fun r0 h0 => sum_congr rfl fun r1 h1 => sum_congr rfl fun r2 h2 => ?_
  rw [sum_congr rfl fun s0 k0 => sum_congr rfl fun s1 k1 => sum_congr rfl fun s2 k2 => by
    rw [hop r0 (mem_range.1 h0) r1 (mem_range.1 h1) r2 (mem_range.1 h2) s0 (mem_range.1 k0) s1 (mem_range.1 k1) s2 (mem_range.1 k2)]]
  simp only [List.cons.injEq, and_true]
  rw [sum_eq_single r0 (fun s _ hs => by simp [Ne.symm hs]) (fun h => absurd h0 h),
    sum_eq_single r1 (fun s _ hs => by simp [Ne.symm hs]) (fun h => absurd h1 h),
    sum_eq_single r2 (fun s _ hs => by simp [Ne.symm hs]) (fun h => absurd h2 h)]
  simp [mean]

/-! ### Derivatives -/

theorem sumIdx_single {s i : List Nat} (hi : InB s i) {f : List Nat → ℂ} (h : ∀ j, InB s j → j ≠ i → f j = 0) : sumIdx s f = f i := by
  induction s generalizing i f with
  | nil => rw [inB_nil_iff] at hi; subst hi; rfl
  | cons d s ih =>
    obtain ⟨k, is, rfl, hk, his⟩ := inB_cons_iff.1 hi
    rw [sumIdx, sum_eq_single k]
    · exact ih his fun j hj hne => h (k :: j) (inB_cons_iff.2 ⟨k, j, rfl, hk, hj⟩) (by simpa using hne)
    · intro l hl hne
      rw [mem_range] at hl
      rw [sumIdx_congr (g := fun _ => 0) fun j hj => h (l :: j) (inB_cons_iff.2 ⟨l, j, rfl, hl, hj⟩) (by simp [hne])]
      have := sumIdx_mul_left s (0 : ℂ) (fun _ => 0)
      simpa using this.symm
    · intro hn; exact absurd (mem_range.2 hk) hn

/-- The derivative of a linear function by an entry is the coefficient. -/
theorem deriv_linear {s i : List Nat} (hi : InB s i) (g w : List Nat → ℂ) (z0 : ℂ) :
    deriv (fun z => sumIdx s fun j => Function.update g i z j * w j) z0 = w i := by
  have h1 : ∀ z, (sumIdx s fun j => Function.update g i z j * w j) = (sumIdx s fun j => Function.update g i 0 j * w j) + z * w i := by
    intro z
    have h2 : (sumIdx s fun j => (if j = i then z * w j else 0)) = z * w i := by
      rw [sumIdx_single hi fun j _ hne => by rw [if_neg hne], if_pos rfl]
    rw [← h2]
    have h3 : ∀ (s : List Nat) (f g : List Nat → ℂ), sumIdx s f + sumIdx s g = sumIdx s fun j => f j + g j := by
      intro s
      induction s with
      | nil => intro f g; rfl
      | cons d s ih => intro f g; simp only [sumIdx, ← sum_add_distrib, ih]
    rw [h3]
    refine sumIdx_congr fun j _ => ?_
    by_cases hj : j = i
    · subst hj; simp
    · simp [hj]
  rw [funext h1, deriv_const_add, deriv_mul_const_field, deriv_id'', one_mul]

theorem energy_sumIdx {a b t e : Nat} {op rho iso dis : NDArray ℂ} (f : Fits a b t e op rho iso dis) :
    energy op rho iso dis = sumIdx [e, e, e, e, e, e] fun j => op.get j *
      mean a b t e rho iso dis (j.getD 3 0) (j.getD 4 0) (j.getD 5 0) (j.getD 0 0) (j.getD 1 0) (j.getD 2 0) :=
  (C88_energy f).trans rfl

/-- **C88.**  `descend` does not depend on the hamiltonian and returns the transpose of the mean of the two reduced states below the layer:
its first three axes are the bras. -/
theorem C88_descend_partial {a b t e : Nat} {op rho iso dis : NDArray ℂ} (f : Fits a b t e op rho iso dis) {o0 o1 o2 i0 i1 i2 : Nat}
    (h : InB [e, e, e, e, e, e] [o0, o1, o2, i0, i1, i2]) :
    (descend op rho iso dis).get [o0, o1, o2, i0, i1, i2] = mean a b t e rho iso dis i0 i1 i2 o0 o1 o2 := by
  have h1 : ∀ z, energy (setEntry op [o0, o1, o2, i0, i1, i2] z) rho iso dis = sumIdx [e, e, e, e, e, e] fun j =>
      Function.update op.get [o0, o1, o2, i0, i1, i2] z j * 
      mean a b t e rho iso dis (j.getD 3 0) (j.getD 4 0) (j.getD 5 0) (j.getD 0 0) (j.getD 1 0) (j.getD 2 0) :=
    fun z => energy_sumIdx (op := setEntry op _ z) ⟨f.op, f.rho, f.iso, f.dis⟩
  show deriv (fun z => energy (setEntry op [o0, o1, o2, i0, i1, i2] z) rho iso dis) _ = _
  rw [funext h1, deriv_linear h op.get (fun j => mean a b t e rho iso dis (j.getD 3 0) (j.getD 4 0) (j.getD 5 0) (j.getD 0 0) (j.getD 1 0) (j.getD 2 0))]
  rfl

/-- **C88.**  For isometric tensors `descend` keeps the trace. -/
theorem C88_descend_trace {a b t e : Nat} {op rho iso dis : NDArray ℂ} (f : Fits a b t e op rho iso dis) (hi : IsIso a b t iso)
    (hu : IsUni a b e dis) : (trace3 e fun r0 r1 r2 s0 s1 s2 => (descend op rho iso dis).get [r0, r1, r2, s0, s1, s2]) =
      trace3 t fun r0 r1 r2 s0 s1 s2 => rho.get [r0, r1, r2, s0, s1, s2] := by
  rw [← mean_trace hi hu, trace3, trace3]
  refine sum_congr rfl fun r0 h0 => sum_congr rfl fun r1 h1 => sum_congr rfl fun r2 h2 => ?_
  rw [mem_range] at h0 h1 h2
  refine C88_descend_partial f ?_
  simp [h0, h1, h2]

/-! ### The ascending super-operator -/

theorem sumIdx_add (s : List Nat) (f g : List Nat → ℂ) : sumIdx s f + sumIdx s g = sumIdx s fun j => f j + g j := by
  induction s generalizing f g with
  | nil => rfl
  | cons d s ih => simp only [sumIdx, ← sum_add_distrib, ih]

/-- What the state above contributes to the reduced state. -/
noncomputable def weight (a b e : Nat) (iso dis : NDArray ℂ) : Dirn → Nat → Nat → Nat → Nat → Nat → Nat → List Nat → ℂ
  | .left, i0, i1, i2, o0, o1, o2, k => sumIdx [a, e, b] fun c =>
      layer a b iso dis (c.getD 0 0) i0 i1 i2 (c.getD 1 0) (c.getD 2 0) (k.getD 0 0) (k.getD 1 0) (k.getD 2 0) *
      star (layer a b iso dis (c.getD 0 0) o0 o1 o2 (c.getD 1 0) (c.getD 2 0) (k.getD 3 0) (k.getD 4 0) (k.getD 5 0))
  | .right, i0, i1, i2, o0, o1, o2, k => sumIdx [a, e, b] fun c =>
      layer a b iso dis (c.getD 0 0) (c.getD 1 0) i0 i1 i2 (c.getD 2 0) (k.getD 0 0) (k.getD 1 0) (k.getD 2 0) *
      star (layer a b iso dis (c.getD 0 0) (c.getD 1 0) o0 o1 o2 (c.getD 2 0) (k.getD 3 0) (k.getD 4 0) (k.getD 5 0))

theorem get_six {t : Nat} {k : List Nat} (hk : InB [t, t, t, t, t, t] k) :
    [k.getD 0 0, k.getD 1 0, k.getD 2 0, k.getD 3 0, k.getD 4 0, k.getD 5 0] = k := by
  have := hk.length
  simp only [List.length_cons, List.length_nil] at this
  rcases k with _ | ⟨k0, _ | ⟨k1, _ | ⟨k2, _ | ⟨k3, _ | ⟨k4, _ | ⟨k5, _ | ⟨k6, k⟩⟩⟩⟩⟩⟩⟩ <;> simp at this ⊢

theorem reduced_weight {a b t e : Nat} {rho iso dis : NDArray ℂ} (d : Dirn) (i0 i1 i2 o0 o1 o2 : Nat) :
    reduced a b t e rho iso dis d i0 i1 i2 o0 o1 o2 = sumIdx [t, t, t, t, t, t] fun k => rho.get k * weight a b e iso dis d i0 i1 i2 o0 o1 o2 k := by
  cases d
  · have h := sumIdx_comm [a, e, b] [t, t, t, t, t, t] (fun c k =>
      layer a b iso dis (c.getD 0 0) i0 i1 i2 (c.getD 1 0) (c.getD 2 0) (k.getD 0 0) (k.getD 1 0) (k.getD 2 0) *
      rho.get [k.getD 0 0, k.getD 1 0, k.getD 2 0, k.getD 3 0, k.getD 4 0, k.getD 5 0] *
      star (layer a b iso dis (c.getD 0 0) o0 o1 o2 (c.getD 1 0) (c.getD 2 0) (k.getD 3 0) (k.getD 4 0) (k.getD 5 0)))
    refine Eq.trans (show _ = _ from rfl) (h.trans ?_)
    refine sumIdx_congr fun k hk => ?_
    rw [weight, sumIdx_mul_left]
    refine sumIdx_congr fun c _ => ?_
    rw [get_six hk]; ring
  · have h := sumIdx_comm [a, e, b] [t, t, t, t, t, t] (fun c k =>
      layer a b iso dis (c.getD 0 0) (c.getD 1 0) i0 i1 i2 (c.getD 2 0) (k.getD 0 0) (k.getD 1 0) (k.getD 2 0) *
      rho.get [k.getD 0 0, k.getD 1 0, k.getD 2 0, k.getD 3 0, k.getD 4 0, k.getD 5 0] *
      star (layer a b iso dis (c.getD 0 0) (c.getD 1 0) o0 o1 o2 (c.getD 2 0) (k.getD 3 0) (k.getD 4 0) (k.getD 5 0)))
    refine Eq.trans (show _ = _ from rfl) (h.trans ?_)
    refine sumIdx_congr fun k hk => ?_
    rw [weight, sumIdx_mul_left]
    refine sumIdx_congr fun c _ => ?_
    rw [get_six hk]; ring

/-- The energy is linear in the state. -/
theorem energy_state {a b t e : Nat} {op iso dis : NDArray ℂ} : ∃ w : List Nat → ℂ, ∀ rho : NDArray ℂ, Fits a b t e op rho iso dis →
    energy op rho iso dis = sumIdx [t, t, t, t, t, t] fun k => rho.get k * w k := by
  refine ⟨fun k => sumIdx [e, e, e, e, e, e] fun j => op.get j *
    ((weight a b e iso dis .left (j.getD 3 0) (j.getD 4 0) (j.getD 5 0) (j.getD 0 0) (j.getD 1 0) (j.getD 2 0) k +
      weight a b e iso dis .right (j.getD 3 0) (j.getD 4 0) (j.getD 5 0) (j.getD 0 0) (j.getD 1 0) (j.getD 2 0) k) / 2), fun rho f => ?_⟩
  rw [energy_sumIdx f]
  simp only [mean, reduced_weight, sumIdx_add, div_eq_mul_inv, sumIdx_mul_left, sumIdx_mul_right]
  rw [sumIdx_comm]
  refine sumIdx_congr fun k _ => sumIdx_congr fun j _ => ?_
  ring

/-- **C88.**  `ascend` does not depend on the state, and for every state the energy is the sum of the products of the entries of the
ascended operator and of the state. -/
theorem C88_ascend {a b t e : Nat} {op rho iso dis : NDArray ℂ} (f : Fits a b t e op rho iso dis) (rho' : NDArray ℂ)
    (h' : rho'.shape = [t, t, t, t, t, t]) :
    energy op rho' iso dis = sumIdx [t, t, t, t, t, t] fun k => (ascend op rho iso dis).get k * rho'.get k := by
  obtain ⟨w, hw⟩ := energy_state (a := a) (b := b) (t := t) (e := e) (op := op) (iso := iso) (dis := dis)
  rw [hw rho' ⟨f.op, h', f.iso, f.dis⟩]
  refine sumIdx_congr fun k hk => ?_
  have h1 : ∀ z, energy op (setEntry rho k z) iso dis = sumIdx [t, t, t, t, t, t] fun j => Function.update rho.get k z j * w j :=
    fun z => hw (setEntry rho k z) ⟨f.op, f.rho, f.iso, f.dis⟩
  have h2 : (ascend op rho iso dis).get k = w k := by
    show deriv (fun z => energy op (setEntry rho k z) iso dis) _ = _
    rw [funext h1, deriv_linear hk]
  rw [h2, mul_comm]

/-- **C88.**  The same for `descend`: the energy of every hamiltonian is the sum of the products of its entries and those of the
descended state. -/
theorem C88_descend_pairing {a b t e : Nat} {op rho iso dis : NDArray ℂ} (f : Fits a b t e op rho iso dis) (op' : NDArray ℂ)
    (h' : op'.shape = [e, e, e, e, e, e]) :
    energy op' rho iso dis = sumIdx [e, e, e, e, e, e] fun k => op'.get k * (descend op rho iso dis).get k := by
  rw [energy_sumIdx (a := a) (b := b) (t := t) (e := e) ⟨h', f.rho, f.iso, f.dis⟩]
  refine sumIdx_congr fun k hk => ?_
  rw [← get_six hk, C88_descend_partial f (by rw [get_six hk]; exact hk)]
  rfl

/-- **C88.**  For isometric tensors `ascend` takes the identity to the identity. -/
theorem C88_ascend_identity {a b t e : Nat} {op rho iso dis : NDArray ℂ} (f : Fits a b t e op rho iso dis) (hi : IsIso a b t iso)
    (hu : IsUni a b e dis)
    (hop : ∀ o0 < e, ∀ o1 < e, ∀ o2 < e, ∀ i0 < e, ∀ i1 < e, ∀ i2 < e, op.get [o0, o1, o2, i0, i1, i2] = if [o0, o1, o2] = [i0, i1, i2] then 1 else 0)
    {r0 r1 r2 s0 s1 s2 : Nat} (h : InB [t, t, t, t, t, t] [r0, r1, r2, s0, s1, s2]) :
    (ascend op rho iso dis).get [r0, r1, r2, s0, s1, s2] = if [r0, r1, r2] = [s0, s1, s2] then 1 else 0 := by
  obtain ⟨u, hu'⟩ : ∃ u : NDArray ℂ, u = ⟨[t, t, t, t, t, t], fun k => if k = [r0, r1, r2, s0, s1, s2] then 1 else 0⟩ := ⟨_, rfl⟩
  have h1 := C88_ascend f u (by rw [hu'])
  rw [sumIdx_single h fun j _ hne => by rw [hu']; simp [hne], C88_identity (a := a) (b := b) (t := t) (e := e) ⟨f.op, by rw [hu'], f.iso, f.dis⟩ hi hu hop] at h1
  have h2 : u.get [r0, r1, r2, s0, s1, s2] = 1 := by rw [hu']; simp
  rw [h2, mul_one] at h1
  rw [← h1, trace3, hu']
  simp only [InB, List.forall₂_cons] at h
  simp only [List.cons.injEq, and_true]
  have q := h
  by_cases hd : r0 = s0 ∧ r1 = s1 ∧ r2 = s2
  · obtain ⟨rfl, rfl, rfl⟩ := hd
    rw [sum_eq_single r0 (fun s _ hs => by simp [hs]) (fun hn => absurd (mem_range.2 h.1) hn),
      sum_eq_single r1 (fun s _ hs => by simp [hs]) (fun hn => absurd (mem_range.2 h.2.1) hn),
      sum_eq_single r2 (fun s _ hs => by simp [hs]) (fun hn => absurd (mem_range.2 h.2.2.1) hn)]
    simp
  · rw [if_neg hd]
    refine sum_eq_zero fun x _ => sum_eq_zero fun y _ => sum_eq_zero fun z _ => ?_
    rw [if_neg]
    rintro ⟨rfl, rfl, rfl, h3, h4, h5⟩
    exact hd ⟨h3, h4, h5⟩

end TN.Mera
