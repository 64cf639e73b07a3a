import Verif.ExTrotter
import Mathlib.Data.Complex.BigOperators

/-!
# Exact wave functions: the evolution as a whole
-/

set_option linter.unusedSectionVars false

namespace TN.Wave

open TN TN.NDArray Finset

/-- One step of the evolution, with the normalisation of the Euclidean case. -/
noncomputable def estep (dt : ℝ) (euclidean : Bool) (H : List (NDArray ℂ)) (psi : NDArray ℂ) : NDArray ℂ :=
  if euclidean then normalize (tstep (stepSpec dt euclidean) H psi) else tstep (stepSpec dt euclidean) H psi

theorem normalize_same {a b : NDArray ℂ} (h : a.Same b) : (normalize a).Same (normalize b) := by
  refine ⟨h.1, fun i hi => ?_⟩
  have h1 : (sumIdx a.shape fun j => Complex.normSq (a.get j)) = sumIdx b.shape fun j => Complex.normSq (b.get j) := by
    rw [← h.1]
    exact sumIdx_congr fun j hj => by rw [h.2 j hj]
  simp only [normalize]
  rw [h1, h.2 i hi]

theorem evolveLoop_ok {d : List Nat} {H : List (NDArray ℂ)} {dt : ℝ} {eu : Bool} {layers : List (List (Option (NDArray ℂ)))}
    (hl : ∀ psi psi' : NDArray ℂ, psi.shape = d → psi.Same psi' → ∃ out, applyCircuit psi layers = .ok out ∧
        out.Same (tstep (stepSpec dt eu) H psi') ∧ out.shape = d) (k : Nat) :
    ∀ {i : Nat} {s : Evo} {phi : NDArray ℂ}, s.1.shape = d → s.1.Same phi →
      ∃ r added, evolveLoop layers dt eu k i s = .ok r ∧ r.1.shape = d ∧ r.1.Same ((estep dt eu H)^[k] phi) ∧
        r.2.1 = s.2.1 + k * dt ∧ r.2.2 = s.2.2 ++ added ∧ added.length = k ∧
        ∀ j < k, ∃ p, added[j]? = some (p, s.2.1 + (j + 1 : ℕ) * dt, i + j) ∧ p.Same ((estep dt eu H)^[j + 1] phi) := by
  induction k with
  | zero =>
    intro i s phi h1 h2
    exact ⟨s, [], rfl, h1, h2, by simp, by simp, rfl, fun j hj => by omega⟩
  | succ k ih =>
    intro i s phi h1 h2
    obtain ⟨out, o1, o2, o3⟩ := hl s.1 phi h1 h2
    obtain ⟨psi, hpsi⟩ : ∃ p, p = if eu then normalize out else out := ⟨_, rfl⟩
    have p1 : psi.shape = d := by rw [hpsi]; split_ifs <;> exact o3
    have p2 : psi.Same (estep dt eu H phi) := by
      rw [hpsi, estep]
      split_ifs with he
      · exact normalize_same o2
      · exact o2
    obtain ⟨r, added, r1, r2, r3, r4, r5, r6, r7⟩ := ih (i := i + 1) (s := (psi, s.2.1 + dt, s.2.2 ++ [(psi, s.2.1 + dt, i)])) p1 p2
    refine ⟨r, (psi, s.2.1 + dt, i) :: added, ?_, r2, ?_, ?_, by rw [r5]; simp, by simp [r6], fun j hj => ?_⟩
    · rw [evolveLoop, o1]
      show evolveLoop _ _ _ _ _ _ = _
      simp only [← hpsi]
      exact r1
    · rw [Function.iterate_succ_apply]; exact r3
    · rw [r4]; push_cast; ring
    · cases j with
      | zero => exact ⟨psi, by simp, by simpa using p2⟩
      | succ j =>
        obtain ⟨p, q1, q2⟩ := r7 j (by omega)
        refine ⟨p, ?_, by rw [Function.iterate_succ_apply]; exact q2⟩
        rw [List.getElem?_cons_succ, q1]
        simp only [Option.some.injEq, Prod.mk.injEq, true_and]
        refine ⟨?_, by omega⟩
        push_cast; ring

/-- **C86.**  `evolve_trotter` repeats the step, adds up the time, and calls `callback` after each step with the state, the
time and the number of the step. -/
theorem C86_evolve {psi : NDArray ℂ} {H : List (NDArray ℂ)} (hc : Chain psi.shape H) (hne : H ≠ []) (dt : ℝ) (num : Nat)
    (euclidean : Bool) :
    ∃ r, evolveTrotter psi H dt num euclidean = .ok r ∧ r.1.Same ((estep dt euclidean H)^[num] psi) ∧ r.1.shape = psi.shape ∧
      r.2.1 = num * dt ∧ r.2.2.length = num ∧
      ∀ i < num, ∃ p, r.2.2[i]? = some (p, (i + 1 : ℕ) * dt, i) ∧ p.Same ((estep dt euclidean H)^[i + 1] psi) := by
  obtain ⟨layers, h1, h2⟩ := C86_trotter_step hc hne dt euclidean
  obtain ⟨r, added, r1, r2, r3, r4, r5, r6, r7⟩ := evolveLoop_ok h2 num (i := 0) (s := (psi, 0, [])) rfl (Same.refl psi)
  refine ⟨r, ?_, r3, r2, by simpa using r4, by rw [r5]; simpa using r6, fun i hi => ?_⟩
  · rw [evolveTrotter, NDArray.ndim, h1]
    exact r1
  · obtain ⟨p, q1, q2⟩ := r7 i hi
    refine ⟨p, ?_, q2⟩
    rw [r5, List.nil_append, q1]
    simp

/-- The exchange of two sites of dimension two, and three such sites. -/
def swapTerm : NDArray ℂ := ⟨[2, 2, 2, 2], fun i => if i.getD 0 0 = i.getD 3 0 ∧ i.getD 1 0 = i.getD 2 0 then 1 else 0⟩

@[inherit_doc swapTerm]
noncomputable def spin3 : NDArray ℂ := ⟨[2, 2, 2], fun i => if i = [0, 0, 1] then 1 else if i = [1, 0, 0] then Complex.I else 0⟩

theorem swap_chain : Chain spin3.shape [swapTerm, swapTerm] := by
  refine ⟨rfl, fun n hn => ?_⟩
  have : n = 0 ∨ n = 1 := by simp at hn; omega
  rcases this with rfl | rfl <;> rfl

/-- Two steps: the bond 0, then the bond 1, twice. -/
example : ∃ r, evolveTrotter spin3 [swapTerm, swapTerm] 0.25 2 false = .ok r ∧ r.2.1 = 0.5 ∧
    r.1.Same (let g := tgate (Complex.I * (0.25 : ℝ)) swapTerm
      act g [1, 2] (act g [0, 1] (act g [1, 2] (act g [0, 1] spin3)))) := by
  obtain ⟨r, h1, h2, -, h3, -⟩ := C86_evolve swap_chain (by simp) 0.25 2 false
  refine ⟨r, h1, by rw [h3]; norm_num, ?_⟩
  have e : ∀ x, estep 0.25 false [swapTerm, swapTerm] x =
      act (tgate (Complex.I * (0.25 : ℝ)) swapTerm) [1, 2] (act (tgate (Complex.I * (0.25 : ℝ)) swapTerm) [0, 1] x) := by
    intro x
    rw [estep, if_neg (by simp), tstep]
    rfl
  rw [Function.iterate_succ_apply, Function.iterate_succ_apply, Function.iterate_zero, id, e, e] at h2
  exact h2

/-- **C86.**  The number of terms must be one less than the number of sites, each with four axes. -/
theorem C86_terms {psi : NDArray ℂ} {H : List (NDArray ℂ)} {dt : ℝ} {num : Nat} {euclidean : Bool}
    (h : H.length + 1 ≠ psi.ndim ∨ ∃ h ∈ H, h.ndim ≠ 4) : ∃ e, evolveTrotter psi H dt num euclidean = .error e := by
  have hp : ∀ c, (∃ h ∈ H, h.ndim ≠ 4) → ∃ e, prepareAll c H = .error e := by
    intro c hh
    clear h
    induction H with
    | nil => simp at hh
    | cons g H ih =>
      rw [prepareAll]
      rcases hg : prepareOne c g with e | g'
      · exact ⟨e, rfl⟩
      · obtain ⟨x, hx, hx4⟩ := hh
        rcases List.mem_cons.1 hx with rfl | hx
        · rw [prepareOne, if_pos hx4] at hg; cases hg
        · obtain ⟨e, he⟩ := ih ⟨x, hx, hx4⟩
          exact ⟨e, by show (prepareAll c H >>= _) = _; rw [he]; rfl⟩
  have : ∃ e, prepareGates H dt psi.ndim euclidean = .error e := by
    rw [prepareGates]
    split_ifs with h1 h2
    · exact ⟨_, rfl⟩
    · exact ⟨_, rfl⟩
    · obtain ⟨e, he⟩ := hp (stepOf dt euclidean) (h.resolve_left h1)
      exact ⟨e, by rw [he]; rfl⟩
  obtain ⟨e, he⟩ := this
  exact ⟨e, by rw [evolveTrotter, he]; rfl⟩

example : ∃ e, evolveTrotter spin3 [swapTerm] 0.25 2 false = .error e := C86_terms (.inl (by simp [spin3, NDArray.ndim]))

/-! ### Batches -/

section
variable {layers : List (List (Option (NDArray ℂ)))} {dt : ℝ} {eu : Bool}

/-- Time, numbers of steps and calls are only added up. -/
theorem evolveLoop_shift (k : Nat) : ∀ (i i' : Nat) (psi : NDArray ℂ) (t t' : ℝ) (calls calls' : List (NDArray ℂ × ℝ × Nat)),
    (∃ e, evolveLoop layers dt eu k i (psi, t, calls) = .error e ∧ evolveLoop layers dt eu k i' (psi, t', calls') = .error e) ∨
    ∃ (p : NDArray ℂ) (s : ℝ) (l : List (NDArray ℂ × ℝ × Nat)),
      evolveLoop layers dt eu k i (psi, t, calls) = .ok (p, t + s, calls ++ l.map fun c => (c.1, t + c.2.1, i + c.2.2)) ∧
      evolveLoop layers dt eu k i' (psi, t', calls') = .ok (p, t' + s, calls' ++ l.map fun c => (c.1, t' + c.2.1, i' + c.2.2)) ∧
      l.map (fun c => c.2.2) = List.range k ∧ (0 < k → l.getLast? = some (p, s, k - 1)) := by
  induction k with
  | zero =>
    intro i i' psi t t' calls calls'
    exact .inr ⟨psi, 0, [], by simp [evolveLoop], by simp [evolveLoop], rfl, fun h => by omega⟩
  | succ k ih =>
    intro i i' psi t t' calls calls'
    rw [evolveLoop, evolveLoop]
    simp only
    rcases ha : applyCircuit psi layers with e | q
    · exact .inl ⟨e, rfl, rfl⟩
    obtain ⟨q', hq'⟩ : ∃ p, p = if eu then normalize q else q := ⟨_, rfl⟩
    simp only [bind, Except.bind]
    rw [← hq']
    rcases ih (i + 1) (i' + 1) q' (t + dt) (t' + dt) (calls ++ [(q', t + dt, i)]) (calls' ++ [(q', t' + dt, i')]) with
      ⟨e, h1, h2⟩ | ⟨p, s, l, h1, h2, h3, h4⟩
    · exact .inl ⟨e, h1, h2⟩
    · refine .inr ⟨p, dt + s, (q', dt, 0) :: l.map fun c => (c.1, dt + c.2.1, c.2.2 + 1), ?_, ?_, ?_, fun _ => ?_⟩
      · rw [h1]
        simp only [List.map_cons, List.map_map, List.append_assoc, List.cons_append, List.nil_append, add_zero, add_assoc,
          Except.ok.injEq, Prod.mk.injEq, true_and, List.append_cancel_left_eq, List.cons.injEq]
        refine List.map_congr_left fun c _ => ?_
        simp only [Function.comp_apply, Prod.mk.injEq, true_and]
        omega
      · rw [h2]
        simp only [List.map_cons, List.map_map, List.append_assoc, List.cons_append, List.nil_append, add_zero, add_assoc,
          Except.ok.injEq, Prod.mk.injEq, true_and, List.append_cancel_left_eq, List.cons.injEq]
        refine List.map_congr_left fun c _ => ?_
        simp only [Function.comp_apply, Prod.mk.injEq, true_and]
        omega
      · rw [List.map_cons, List.map_map, List.range_succ_eq_map, ← h3, List.map_map]
        rfl
      · cases k with
        | zero =>
          have hl : l = [] := by simpa using h3
          subst hl
          rw [evolveLoop] at h1
          simp only [Except.ok.injEq, Prod.mk.injEq] at h1
          have : s = 0 := by linarith [h1.2.1]
          simp [this, h1.1]
        | succ k =>
          rw [List.getLast?_cons, List.getLast?_map, h4 (by omega)]
          simp

theorem evolveLoop_add (a b : Nat) (i : Nat) (s : Evo) :
    evolveLoop layers dt eu (a + b) i s = evolveLoop layers dt eu a i s >>= evolveLoop layers dt eu b (i + a) := by
  induction a generalizing i s with
  | zero => rw [Nat.zero_add]; rfl
  | succ a ih =>
    rw [Nat.succ_add, evolveLoop, evolveLoop]
    rcases applyCircuit s.1 layers with e | q
    · rfl
    · have : i + (a + 1) = i + 1 + a := by omega
      rw [this]
      exact ih _ _

theorem block_filter {batch : Nat} (hb : 0 < batch) {l : List (NDArray ℂ × ℝ × Nat)} (h1 : l.map (fun c => c.2.2) = List.range batch)
    {p : NDArray ℂ} {s : ℝ} (h2 : l.getLast? = some (p, s, batch - 1)) (t : ℝ) (i : Nat) :
    (l.map fun c => (c.1, t + c.2.1, i * batch + c.2.2)).filter (fun c => (c.2.2 + 1) % batch = 0) =
      [(p, t + s, (i + 1) * batch - 1)] := by
  obtain ⟨l', rfl⟩ := List.getLast?_eq_some_iff.1 h2
  have h3 : l'.map (fun c => c.2.2) = List.range (batch - 1) := by
    have : List.range batch = List.range (batch - 1) ++ [batch - 1] := by
      conv_lhs => rw [show batch = batch - 1 + 1 by omega, List.range_succ]
    rw [this, List.map_append] at h1
    exact List.append_inj_left' h1 rfl
  have h4 : (l'.map fun c => (c.1, t + c.2.1, i * batch + c.2.2)).filter (fun c => (c.2.2 + 1) % batch = 0) = [] := by
    rw [List.filter_eq_nil_iff]
    intro c hc
    obtain ⟨x, hx, rfl⟩ := List.mem_map.1 hc
    have : x.2.2 ∈ List.range (batch - 1) := h3 ▸ List.mem_map_of_mem (f := fun c : NDArray ℂ × ℝ × Nat => c.2.2) hx
    rw [List.mem_range] at this
    simp only [decide_eq_true_eq]
    rw [add_assoc, Nat.mul_add_mod_self_right, Nat.mod_eq_of_lt (by omega)]
    omega
  rw [List.map_append, List.filter_append, h4, List.nil_append]
  have h5 : i * batch + (batch - 1) = (i + 1) * batch - 1 := by rw [add_mul]; omega
  have h6 : ((i + 1) * batch - 1 + 1) % batch = 0 := by
    have : 0 < (i + 1) * batch := by positivity
    rw [Nat.sub_add_cancel this, Nat.mul_mod_left]
  simp [h5, h6]

theorem batchLoop_eq {batch : Nat} (hb : 0 < batch) (k : Nat) : ∀ (i : Nat) (psi : NDArray ℂ) (t : ℝ)
    (calls calls' : List (NDArray ℂ × ℝ × Nat)),
    (∃ e, evolveLoop layers dt eu (k * batch) (i * batch) (psi, t, calls) = .error e ∧
      batchLoop layers dt eu batch k i (psi, t, calls') = .error e) ∨
    ∃ (p : NDArray ℂ) (t' : ℝ) (l : List (NDArray ℂ × ℝ × Nat)),
      evolveLoop layers dt eu (k * batch) (i * batch) (psi, t, calls) = .ok (p, t', calls ++ l) ∧
      batchLoop layers dt eu batch k i (psi, t, calls') = .ok (p, t', calls' ++ l.filter fun c => (c.2.2 + 1) % batch = 0) := by
  induction k with
  | zero =>
    intro i psi t calls calls'
    exact .inr ⟨psi, t, [], by simp [evolveLoop], by simp [batchLoop]⟩
  | succ k ih =>
    intro i psi t calls calls'
    have hk : (k + 1) * batch = batch + k * batch := by ring
    have hi : i * batch + batch = (i + 1) * batch := by ring
    rw [hk, evolveLoop_add, batchLoop, hi]
    rcases evolveLoop_shift (layers := layers) (dt := dt) (eu := eu) batch (i * batch) 0 psi t 0 calls [] with
      ⟨e, h1, h2⟩ | ⟨p, s, l, h1, h2, h3, h4⟩
    · exact .inl ⟨e, by rw [h1]; rfl, by simp only; rw [h2]; rfl⟩
    · have hbl := block_filter hb h3 (h4 hb) t i
      rw [h1]
      simp only
      rw [h2]
      simp only [bind, Except.bind, zero_add]
      rcases ih (i + 1) p (t + s) (calls ++ l.map fun c => (c.1, t + c.2.1, i * batch + c.2.2))
        (calls' ++ [(p, t + s, (i + 1) * batch - 1)]) with ⟨e, g1, g2⟩ | ⟨p', t', l', g1, g2⟩
      · exact .inl ⟨e, g1, g2⟩
      · refine .inr ⟨p', t', (l.map fun c => (c.1, t + c.2.1, i * batch + c.2.2)) ++ l', ?_, ?_⟩
        · rw [g1, List.append_assoc]
        · rw [g2, List.filter_append, hbl, List.append_assoc]

/-- **C86.**  `evolve_trotter_defun` gives the same state, time and errors as `evolve_trotter` for every batch size; `callback` is
called after each whole batch only, with the same arguments. -/
theorem C86_defun (psi : NDArray ℂ) (H : List (NDArray ℂ)) (dt : ℝ) (num : Nat) (eu : Bool) {batch : Nat} (hb : 0 < batch) :
    evolveDefun psi H dt num eu batch =
      (evolveTrotter psi H dt num eu).map fun r => (r.1, r.2.1, r.2.2.filter fun c => (c.2.2 + 1) % batch = 0) := by
  rw [evolveDefun, evolveTrotter]
  rcases prepareGates H dt psi.ndim eu with e | layers
  · rfl
  simp only [bind, Except.bind]
  have hnum : num / batch * batch + num % batch = num := by rw [mul_comm]; exact Nat.div_add_mod num batch
  conv_rhs => rw [← hnum, evolveLoop_add]
  have h0 : 0 = 0 * batch := by ring
  rcases batchLoop_eq (layers := layers) (dt := dt) (eu := eu) hb (num / batch) 0 psi 0 [] [] with ⟨e, h1, h2⟩ | ⟨p, t, l, h1, h2⟩
  · rw [h2]
    rw [zero_mul] at h1
    rw [h1]
    rfl
  · rw [h2]
    rw [zero_mul] at h1
    rw [h1]
    simp only [bind, Except.bind, List.nil_append]
    by_cases hr : 0 < num % batch
    · rw [if_pos hr]
      rcases evolveLoop_shift (layers := layers) (dt := dt) (eu := eu) (num % batch) (0 + num / batch * batch) 0 p t 0 l [] with
        ⟨e, g1, g2⟩ | ⟨p', s', l', g1, g2, g3, g4⟩
      · rw [g1, g2]; rfl
      · rw [g1, g2]
        simp only [Except.map, zero_add, List.filter_append, Except.ok.injEq, Prod.mk.injEq, true_and]
        have : (l'.map fun c => (c.1, t + c.2.1, num / batch * batch + c.2.2)).filter (fun c => (c.2.2 + 1) % batch = 0) = [] := by
          rw [List.filter_eq_nil_iff]
          intro c hc
          obtain ⟨x, hx, rfl⟩ := List.mem_map.1 hc
          have : x.2.2 ∈ List.range (num % batch) := g3 ▸ List.mem_map_of_mem (f := fun c : NDArray ℂ × ℝ × Nat => c.2.2) hx
          rw [List.mem_range] at this
          have hlt := Nat.mod_lt num hb
          simp only [decide_eq_true_eq]
          rw [add_assoc, Nat.mul_add_mod_self_right, Nat.mod_eq_of_lt (by omega)]
          omega
        rw [this, List.append_nil]
    · rw [if_neg hr]
      have : num % batch = 0 := by omega
      rw [this]
      rfl

/-- Five steps in batches of two: `callback` is called after the steps 1 and 3, not at the end. -/
example : ∃ r, evolveDefun spin3 [swapTerm, swapTerm] 0.25 5 false 2 = .ok r ∧ r.2.1 = 5 * 0.25 ∧ r.2.2.map (fun c => c.2.2) = [1, 3] ∧
    r.1.Same ((estep 0.25 false [swapTerm, swapTerm])^[5] spin3) := by
  obtain ⟨r, h1, h2, -, h3, h4, h5⟩ := C86_evolve swap_chain (by simp) 0.25 5 false
  have := C86_defun spin3 [swapTerm, swapTerm] 0.25 5 false (batch := 2) (by norm_num)
  rw [h1] at this
  refine ⟨_, this, h3, ?_, h2⟩
  have h6 : r.2.2.map (fun c => c.2.2) = [0, 1, 2, 3, 4] := by
    apply List.ext_getElem?
    intro i
    by_cases hi : i < 5
    · obtain ⟨p, p1, -⟩ := h5 i hi
      rw [List.getElem?_map, p1]
      interval_cases i <;> rfl
    · rw [List.getElem?_eq_none (by simp [h4]; omega), List.getElem?_eq_none (by simp; omega)]
  simp only
  have h7 : (r.2.2.filter fun c => decide ((c.2.2 + 1) % 2 = 0)).map (fun c => c.2.2) =
      (r.2.2.map fun c => c.2.2).filter fun i => decide ((i + 1) % 2 = 0) := by
    rw [List.filter_map]
    rfl
  rw [h7, h6]
  rfl

end

end TN.Wave
