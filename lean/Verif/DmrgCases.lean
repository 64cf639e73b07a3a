import Verif.DmrgChain

/-!
# DMRG: cases that meet the hypotheses of the theorems
-/

set_option linter.unusedSectionVars false

namespace TN.Dmrg

open TN NDArray Finset Ncon Mps Mpo

/-- A site in the state `|0⟩ + |1⟩`. -/
def plusSite : NDArray ℂ := ⟨[1, 2, 1], fun _ => 1⟩

/-- Three such sites. -/
def plus3 : List (NDArray ℂ) := [plusSite, plusSite, plusSite]

theorem plus3_bonds : Bonds plus3 1 [2, 2, 2] 1 :=
  ⟨2, 1, [2, 2], rfl, rfl, 2, 1, [2], rfl, rfl, 2, 1, [], rfl, rfl, rfl, rfl⟩

theorem plus3_nonzero : Nonzero plus3 1 [2, 2, 2] 1 :=
  ⟨0, one_pos, [0, 0, 0], .cons (by decide) (.cons (by decide) (.cons (by decide) .nil)), 0, one_pos, by
    simp [plus3, amp, plusSite]⟩

/-- A DMRG object for three spins with the centre in the middle. -/
theorem three_ok : ∃ mps Ws d, Mps.init exactKern.toEnv plus3 (some 1) true = .ok mps ∧
    finiteXXZ [1, 2] [3, 4] [5, 6, 7] = .ok Ws ∧ finite mps Ws = .ok d ∧ SimOK d [2, 2, 2] ∧ d.mps = mps ∧
    d.mpo = Ws ∧ mps.center = some 1 ∧ mps.tensors.length = 3 ∧ Hermitian Ws [2, 2, 2] := by
  obtain ⟨mps, m1, m2, _⟩ := C38_init (exactEnv_qr (K := ℂ) Ncon.soId) (exactEnv_svd Ncon.soId) plus3_bonds
    plus3_nonzero (by simp [plus3]) (center := some 1) (by simp [plus3])
  obtain ⟨Ws, w1, w2, w3, _⟩ := xxz_hermitian (K := ℂ) (Jz := [1, 2]) (Jxy := [3, 4]) (Bz := [5, 6, 7]) (by simp)
    (by simp) (by simp) (by intro n; match n with | 0 => simp | 1 => simp | n + 2 => simp)
    (by intro n; match n with | 0 => simp | 1 => simp | n + 2 => simp)
    (by intro n; match n with | 0 => simp | 1 => simp | 2 => simp | n + 3 => simp)
  have hl : mps.tensors.length = 3 := m2.bonds.length.symm
  obtain ⟨d, d1, d2, d3, d4⟩ := C58_init m2.bonds w2 m2.center (by simp [hl]) m2.canonical
    (normSq_nonzero (by rw [m2.norm]; exact one_ne_zero))
  exact ⟨mps, Ws, d, m1, w1, d1, d2, d3, d4, m2.center, hl, w3⟩

/-- `C58_init`, `C58_energy` and `C58_one_site`. -/
example : ∃ d : Sim ℂ, SimOK d [2, 2, 2] ∧ (∃ d' v, computeEnergy exactKern d = .ok (d', v)) ∧
    ∃ (d' : Sim ℂ) (e : ℝ), runOneSite exactKern someLopts 7 0 d = .ok (d', (e : ℂ)) ∧
      e ≤ energy d.mps.tensors d.mpo [2, 2, 2] := by
  obtain ⟨mps, Ws, d, _, _, _, h4, _, rfl, _, _, h9⟩ := three_ok
  obtain ⟨d', v, e1, _⟩ := C58_energy exactKern (exactEnv_qr Ncon.soId) (exactEnv_svd Ncon.soId) h4
  obtain ⟨d2, e, r1, _, _, _, _, r6, r7⟩ := C58_one_site exactKern (exactEnv_qr Ncon.soId) (exactEnv_svd Ncon.soId)
    Lanczos.someEigh_ok someLopts_ok h4 h9 7 0
  exact ⟨d, h4, ⟨d', v, e1⟩, d2, e, r1, by rw [r6]; exact r7⟩

/-- `C58_init_length` and `C58_init_center`. -/
example : finite ⟨plus3, some 0⟩ [ones (K := ℂ) [1, 1, 2, 2]] = .error .valueError ∧
    finite ⟨plus3, none⟩ (List.replicate 3 (ones (K := ℂ) [1, 1, 2, 2])) = .error .valueError :=
  ⟨C58_init_length (by simp [plus3]) (by simp) (by simp [plus3]), C58_init_center (by simp [plus3]) (by simp) rfl⟩

/-- `C60_envs`, `C60_position_partial` and `C60_position_false`: with the environments the move succeeds, without
them it does not. -/
example : ∃ d d1 d2 d3 : Sim ℂ, position exactKern d 2 = .error .keyError ∧ computeLeft exactKern d = .ok d1 ∧
    computeRight exactKern d1 = .ok d2 ∧ position exactKern d2 2 = .ok d3 ∧ Inv d3 d.mpo [2, 2, 2] 2 := by
  obtain ⟨mps, Ws, d, _, _, h3, h4, h5, h6, h7, h8, _⟩ := three_ok
  obtain ⟨d1, d2, e1, e2, e3, e4⟩ := C60_envs exactKern h4 (c := 1) (by rw [h5]; exact h7)
  obtain ⟨d3, p1, p2, _⟩ := C60_position_partial exactKern (exactEnv_qr Ncon.soId) (exactEnv_svd Ncon.soId) e4
    (by rw [e3]; exact h4.nonzero) (s := 2) (by rw [e3, h5, h8]; decide)
  refine ⟨d, d1, d2, d3, ?_, e1, e2, p1, p2⟩
  exact C60_position_false exactKern (exactEnv_qr Ncon.soId) (by rw [← h5]; exact h4.bonds)
    (by rw [← h5]; exact h4.nonzero) h7 h3 (s := 2) (by decide) (by decide) (by omega)

end TN.Dmrg
