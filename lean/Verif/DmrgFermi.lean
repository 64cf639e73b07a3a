import Verif.DmrgChain
import Verif.MpoFermi

/-!
# DMRG for free fermions on a grid (C58)
-/

set_option linter.unusedSectionVars false

namespace TN.Dmrg

open TN Finset TN.Mps TN.Mpo

variable {K : Type} [RCLike K]

theorem set_set_eq {n x y : Nat} {os is : List Nat} (h : is[n]? = some x) (h' : os = is.set n y) :
    os[n]? = some y ∧ is = os.set n x ∧ os.take n = is.take n := by
  subst h'
  have hn : n < is.length := by
    by_contra hn
    rw [List.getElem?_eq_none (by omega)] at h
    cases h
  refine ⟨by simp [hn], ?_, by rw [List.take_set, List.set_eq_of_length_le (by simp)]⟩
  rw [List.set_set]
  rw [List.getElem?_eq_getElem hn] at h
  cases h
  simp

theorem star_annihilate (n : Nat) (os is : List Nat) : star (annihilate (K := K) n os is) = create n is os := by
  unfold annihilate create
  by_cases h : is[n]? = some 1 ∧ os = is.set n 0
  · obtain ⟨h1, h2, h3⟩ := set_set_eq h.1 h.2
    rw [if_pos h, if_pos ⟨h1, h2⟩, h3]
    simp
  · rw [if_neg h, if_neg, star_zero]
    rintro ⟨h1, h2⟩
    obtain ⟨h1, h2, _⟩ := set_set_eq h1 h2
    exact h ⟨h1, h2⟩

theorem star_create (n : Nat) (os is : List Nat) : star (create (K := K) n os is) = annihilate n is os := by
  rw [← star_annihilate, star_star]

theorem star_hop (N m n : Nat) (os is : List Nat) : star (hop (K := K) N m n os is) = hop N n m is os := by
  unfold hop
  rw [← sum_range_unravel, star_sum, ← sum_range_unravel]
  refine Finset.sum_congr rfl fun k _ => ?_
  rw [star_mul, star_create, star_annihilate]

theorem star_bond (N m n : Nat) (os is : List Nat) : star (bond (K := K) N m n os is) = bond N m n is os := by
  unfold bond
  rw [star_add, star_hop, star_hop, add_comm]

theorem star_fermions {t1 t2 v : K} (h1 : star t1 = t1) (h2 : star t2 = t2) (hv : star v = v) (N1 N2 : Nat)
    (os is : List Nat) : star (fermions2D t1 t2 v N1 N2 os is) = fermions2D t1 t2 v N1 N2 is os := by
  unfold fermions2D
  simp only [star_add, star_mul', star_sum, star_bond, star_hop, h1, h2, hv]

theorem fermions_hermitian {t1 t2 v : K} (h1 : star t1 = t1) (h2 : star t2 = t2) (hv : star v = v) {N1 N2 : Nat}
    (hN : 2 ≤ N1 * N2) : ∃ Ws, freeFermion2D t1 t2 v N1 N2 = .ok Ws ∧ OpBonds Ws 1 (List.replicate (N1 * N2) 2) 1 ∧
      Hermitian Ws (List.replicate (N1 * N2) 2) ∧
      ∀ os is, InB (List.replicate (N1 * N2) 2) os → InB (List.replicate (N1 * N2) 2) is →
        mpoElem Ws 0 os is 0 = fermions2D t1 t2 v N1 N2 os is := by
  obtain ⟨Ws, w1, w2, w3⟩ := C66_fermions t1 t2 v hN
  have h4 : ∀ os is, InB (List.replicate (N1 * N2) 2) os → InB (List.replicate (N1 * N2) 2) is →
        mpoElem Ws 0 os is 0 = fermions2D t1 t2 v N1 N2 os is :=
    fun os is ho hi => w3 os is (spins_of_inB ho) (spins_of_inB hi)
  refine ⟨Ws, w1, ?_, fun os is ho hi => ?_, h4⟩
  · obtain ⟨N, hN'⟩ : ∃ N, N1 * N2 = N + 2 := ⟨N1 * N2 - 2, by omega⟩
    unfold freeFermion2D at w1
    rw [finiteMPO_ok rfl rfl] at w1
    cases w1
    rw [hN', List.replicate_succ]
    exact ⟨2, 2 * N1 + 2, _, rfl, rfl, opBonds_chain (ffBulk_shape N1 N2 t1 t2 v) rfl N 1⟩
  · rw [h4 os is ho hi, h4 is os hi ho]
    exact star_fermions h1 h2 hv N1 N2 _ _

/-- **C58**, free fermions on a grid: for real parameters, any nonzero MPS of occupation numbers and any number of
sweeps, the chain of calls `FiniteMPS`, `FiniteFreeFermion2D`, `FiniteDMRG`, `run_one_site` succeeds, and the result
is the expectation value of the Hamiltonian in the final state of norm one, not larger than that in the initial
state. -/
theorem C58_fermions (E : Kern K) (hQ : QrOK E.toEnv) (hS : SvdOK E.toEnv) (hE : Lanczos.EighOK E.eigh) {o : Lopts}
    (ho : o.OK) {t1 t2 v : K} (h1 : star t1 = t1) (h2 : star t2 = t2) (hv : star v = v) {N1 N2 : Nat}
    (hN : 2 ≤ N1 * N2) {ts : List (NDArray K)} (hb : Bonds ts 1 (List.replicate (N1 * N2) 2) 1)
    (hz : Nonzero ts 1 (List.replicate (N1 * N2) 2) 1) {center : Option Int}
    (hc : ∀ c, center = some c → 0 ≤ c ∧ c < ts.length) (n : Int) (precision : ℝ) :
    ∃ mps Ws d d' e, Mps.init E.toEnv ts center true = .ok mps ∧ freeFermion2D t1 t2 v N1 N2 = .ok Ws ∧
      finite mps Ws = .ok d ∧ runOneSite E o n precision d = .ok (d', ((e : ℝ) : K)) ∧
      normSq d'.mps.tensors 1 (List.replicate (N1 * N2) 2) 1 = 1 ∧
      ((e : ℝ) : K) = expectation (fermions2D t1 t2 v N1 N2) d'.mps.tensors (List.replicate (N1 * N2) 2) ∧
      e * normSq ts 1 (List.replicate (N1 * N2) 2) 1 ≤
        RCLike.re (expectation (fermions2D t1 t2 v N1 N2) ts (List.replicate (N1 * N2) 2)) := by
  obtain ⟨Ws, w1, w2, w3, w4⟩ := fermions_hermitian h1 h2 hv hN
  have hne : ts ≠ [] := by
    intro h0
    have := hb.length
    rw [h0, List.length_replicate, List.length_nil] at this
    omega
  obtain ⟨mps, d, d', e, g1, g2⟩ := pipeline E hQ hS hE ho w2 w3 w4 hb hz hne hc n precision
  exact ⟨mps, Ws, d, d', e, g1, w1, g2⟩

/-- Two sites in one column. -/
example : ∃ mps Ws d d' e, Mps.init exactKern.toEnv (bell ℂ) (some 1) true = .ok mps ∧
    freeFermion2D 1 1 1 2 1 = .ok Ws ∧ finite mps Ws = .ok d ∧
    runOneSite exactKern someLopts 4 (1 / 1000) d = .ok (d', ((e : ℝ) : ℂ)) ∧
    ((e : ℝ) : ℂ) = expectation (fermions2D 1 1 1 2 1) d'.mps.tensors [2, 2] := by
  obtain ⟨mps, Ws, d, d', e, h1, h2, h3, h4, _, h6, _⟩ := C58_fermions exactKern (exactEnv_qr Ncon.soId)
    (exactEnv_svd Ncon.soId) Lanczos.someEigh_ok someLopts_ok (t1 := 1) (t2 := 1) (v := 1) (by simp) (by simp) (by simp)
    (N1 := 2) (N2 := 1) (by omega)
    (ts := bell ℂ) bell_bonds bell_nonzero (center := some 1) (by simp [bell]) 4 (1 / 1000)
  exact ⟨mps, Ws, d, d', e, h1, h2, h3, h4, h6⟩

end TN.Dmrg
