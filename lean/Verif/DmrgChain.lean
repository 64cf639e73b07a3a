import Verif.DmrgProps

/-!
# DMRG for the Hamiltonians of `mpo.py` (C58)
-/

set_option linter.unusedSectionVars false

namespace TN.Dmrg

open TN NDArray Finset Ncon Mps Mpo

variable {K : Type} [RCLike K]

theorem agree_symm {S os is : List Nat} (h : os.length = is.length) : agree (K := K) S os is = agree S is os := by
  unfold agree
  rw [h]
  congr 1
  apply propext
  constructor <;> intro hk k h1 h2 <;> exact (hk k h1 h2).symm

theorem star_agree (S os is : List Nat) : star (agree (K := K) S os is) = agree S os is := by
  unfold agree
  split_ifs <;> simp

theorem star_oneSite {M M' : Nat → Nat → K} (hM : ∀ i j, star (M i j) = M' j i) (n : Nat) {os is : List Nat}
    (h : os.length = is.length) : star (oneSite M n os is) = oneSite M' n is os := by
  unfold oneSite
  rw [star_mul', hM, star_agree, agree_symm h]

theorem star_twoSite {M M' N N' : Nat → Nat → K} (hM : ∀ i j, star (M i j) = M' j i) (hN : ∀ i j, star (N i j) = N' j i)
    (n : Nat) {os is : List Nat} (h : os.length = is.length) : star (twoSite M N n os is) = twoSite M' N' n is os := by
  unfold twoSite
  rw [star_mul', star_mul', hM, hN, star_agree, agree_symm h]

theorem star_sigmaX (i j : Nat) : star (sigmaX (K := K) i j) = sigmaX j i := by
  unfold sigmaX
  by_cases h : i = 0 ∧ j = 1 ∨ i = 1 ∧ j = 0
  · rw [if_pos h, if_pos (by tauto)]; simp
  · rw [if_neg h, if_neg (by tauto)]; simp

theorem star_sigmaZ (i j : Nat) : star (sigmaZ (K := K) i j) = sigmaZ j i := by
  unfold sigmaZ
  split_ifs <;> first | (exfalso; omega) | simp

theorem star_Sz (i j : Nat) : star (Sz (K := K) i j) = Sz j i := by
  unfold Sz
  split_ifs <;> first | (exfalso; omega) | simp

theorem star_Sp (i j : Nat) : star (Sp (K := K) i j) = Sm j i := by
  unfold Sp Sm
  split_ifs <;> first | (exfalso; omega) | simp

theorem star_Sm (i j : Nat) : star (Sm (K := K) i j) = Sp j i := by
  unfold Sp Sm
  split_ifs <;> first | (exfalso; omega) | simp

/-- All numbers in the list are real. -/
def Real (x : List K) : Prop := ∀ n, star (x.getD n 0) = x.getD n 0

theorem star_tfi {Jx Bz : List K} (hJ : Real Jx) (hB : Real Bz) {os is : List Nat} (h : os.length = is.length) :
    star (tfi Jx Bz os is) = tfi Jx Bz is os := by
  unfold tfi
  rw [star_add, star_sum, star_sum]
  congr 1
  · refine Finset.sum_congr rfl fun n _ => ?_
    rw [star_mul', hB, star_oneSite star_sigmaZ n h]
  · refine Finset.sum_congr rfl fun n _ => ?_
    rw [star_mul', hJ, star_twoSite star_sigmaX star_sigmaX n h]

theorem star_xxz {Jz Jxy Bz : List K} (hJ : Real Jz) (hJ' : Real Jxy) (hB : Real Bz) {os is : List Nat}
    (h : os.length = is.length) : star (xxz Jz Jxy Bz os is) = xxz Jz Jxy Bz is os := by
  unfold xxz
  rw [star_add, star_sum, star_sum]
  congr 1
  · refine Finset.sum_congr rfl fun n _ => ?_
    rw [star_mul', hB, star_oneSite star_Sz n h]
  · refine Finset.sum_congr rfl fun n _ => ?_
    rw [star_add, star_mul', star_mul', hJ, hJ', star_twoSite star_Sz star_Sz n h, star_div₀, star_add,
      star_twoSite star_Sm star_Sp n h, star_twoSite star_Sp star_Sm n h]
    have : star (2 : K) = 2 := by simp
    rw [this]
    ring

theorem spins_of_inB {N : Nat} {is : List Nat} (h : InB (List.replicate N 2) is) : Spins N is := by
  induction N generalizing is with
  | zero => cases h; exact ⟨rfl, by simp⟩
  | succ N ih =>
    rw [List.replicate_succ] at h
    cases h with
    | cons h1 h2 =>
      obtain ⟨e1, e2⟩ := ih h2
      refine ⟨by simp [e1], fun o ho => ?_⟩
      rcases List.mem_cons.1 ho with rfl | ho
      · exact h1
      · exact e2 o ho

theorem opBonds_chain {c : Nat} {W : Nat → NDArray K} {Z : NDArray K} (hW : ∀ n, (W n).shape = [c, c, 2, 2])
    (hZ : Z.shape = [c, 1, 2, 2]) : ∀ k s, OpBonds ((List.range' s k).map W ++ [Z]) c (List.replicate (k + 1) 2) 1 := by
  intro k
  induction k with
  | zero => intro s; exact opBonds_one hZ
  | succ k ih =>
    intro s
    rw [List.range'_succ, List.map_cons, List.cons_append, List.replicate_succ]
    exact ⟨2, c, _, rfl, hW s, ih (s + 1)⟩

theorem tfi_hermitian {Jx Bz : List K} (hN : 2 ≤ Bz.length) (hJ : Bz.length - 1 ≤ Jx.length) (rJ : Real Jx)
    (rB : Real Bz) : ∃ Ws, finiteTFI Jx Bz = .ok Ws ∧ OpBonds Ws 1 (List.replicate Bz.length 2) 1 ∧
      Hermitian Ws (List.replicate Bz.length 2) ∧
      ∀ os is, InB (List.replicate Bz.length 2) os → InB (List.replicate Bz.length 2) is →
        mpoElem Ws 0 os is 0 = tfi Jx Bz os is := by
  obtain ⟨Ws, h1, h2, h3⟩ := C41_tfi hN hJ
  have h4 : ∀ os is, InB (List.replicate Bz.length 2) os → InB (List.replicate Bz.length 2) is →
        mpoElem Ws 0 os is 0 = tfi Jx Bz os is := fun os is ho hi => h3 os is (spins_of_inB ho) (spins_of_inB hi)
  refine ⟨Ws, h1, ?_, fun os is ho hi => ?_, h4⟩
  · obtain ⟨N, hN⟩ : ∃ N, Bz.length = N + 2 := ⟨Bz.length - 2, by omega⟩
    have hbulk : (List.range' 1 (Bz.length - 1 - 1)).mapM (fun n => do
        let B ← item Bz n
        let J ← item Jx n
        pure (tfiBulk J B) : Nat → Py (NDArray K)) =
        .ok ((List.range' 1 N).map fun n => tfiBulk (Jx.getD n 0) (Bz.getD n 0)) := by
      rw [hN]
      refine Mpo.mapM_ok fun n hn => ?_
      rw [List.mem_range'_1] at hn
      simp only [item_ok (show n < Bz.length by omega), item_ok (show n < Jx.length by omega), bind, Except.bind]
      rfl
    unfold finiteTFI at h1
    simp only [item_ok (show 0 < Bz.length by omega), item_ok (show 0 < Jx.length by omega), bind, Except.bind] at h1
    simp only [bind, Except.bind] at hbulk
    rw [hbulk] at h1
    simp only [lastItem_ok (show 0 < Bz.length by omega), hN] at h1
    rw [finiteMPO_ok rfl rfl] at h1
    cases h1
    rw [hN, List.replicate_succ]
    exact ⟨2, 3, _, rfl, rfl, opBonds_chain (c := 3) (fun _ => rfl) rfl N 1⟩
  · rw [h4 os is ho hi, h4 is os hi ho]
    exact star_tfi rJ rB (by rw [ho.length, hi.length])

theorem xxz_hermitian {Jz Jxy Bz : List K} (hN : 2 ≤ Bz.length) (hJ : Bz.length - 1 ≤ Jz.length)
    (hJ' : Bz.length - 1 ≤ Jxy.length) (rJ : Real Jz) (rJ' : Real Jxy) (rB : Real Bz) :
    ∃ Ws, finiteXXZ Jz Jxy Bz = .ok Ws ∧ OpBonds Ws 1 (List.replicate Bz.length 2) 1 ∧
      Hermitian Ws (List.replicate Bz.length 2) ∧
      ∀ os is, InB (List.replicate Bz.length 2) os → InB (List.replicate Bz.length 2) is →
        mpoElem Ws 0 os is 0 = xxz Jz Jxy Bz os is := by
  obtain ⟨Ws, h1, h2, h3⟩ := C41_xxz hN hJ hJ'
  have h4 : ∀ os is, InB (List.replicate Bz.length 2) os → InB (List.replicate Bz.length 2) is →
        mpoElem Ws 0 os is 0 = xxz Jz Jxy Bz os is := fun os is ho hi => h3 os is (spins_of_inB ho) (spins_of_inB hi)
  refine ⟨Ws, h1, ?_, fun os is ho hi => ?_, h4⟩
  · obtain ⟨N, hN⟩ : ∃ N, Bz.length = N + 2 := ⟨Bz.length - 2, by omega⟩
    have hbulk : (List.range' 1 (Bz.length - 1 - 1)).mapM (fun n => do
        let B ← item Bz n
        let Jp ← item Jxy n
        let J ← item Jz n
        pure (xxzBulk J Jp B) : Nat → Py (NDArray K)) =
        .ok ((List.range' 1 N).map fun n => xxzBulk (Jz.getD n 0) (Jxy.getD n 0) (Bz.getD n 0)) := by
      rw [hN]
      refine Mpo.mapM_ok fun n hn => ?_
      rw [List.mem_range'_1] at hn
      simp only [item_ok (show n < Bz.length by omega), item_ok (show n < Jz.length by omega),
        item_ok (show n < Jxy.length by omega), bind, Except.bind]
      rfl
    unfold finiteXXZ at h1
    simp only [item_ok (show 0 < Bz.length by omega), item_ok (show 0 < Jz.length by omega),
      item_ok (show 0 < Jxy.length by omega), bind, Except.bind] at h1
    simp only [bind, Except.bind] at hbulk
    rw [hbulk] at h1
    simp only [lastItem_ok (show 0 < Bz.length by omega), hN] at h1
    rw [finiteMPO_ok rfl rfl] at h1
    cases h1
    rw [hN, List.replicate_succ]
    exact ⟨2, 5, _, rfl, rfl, opBonds_chain (c := 5) (fun _ => rfl) rfl N 1⟩
  · rw [h4 os is ho hi, h4 is os hi ho]
    exact star_xxz rJ rJ' rB (by rw [ho.length, hi.length])

/-! ### From the tensors to the energy -/

/-- The expectation value, not divided by the norm, of an operator given by its matrix elements. -/
noncomputable def expectation (H : List Nat → List Nat → K) (ts : List (NDArray K)) (ds : List Nat) : K :=
  sumIdx ds fun os => sumIdx ds fun is => star (amp ts 0 os 0) * H os is * amp ts 0 is 0

theorem sand_of {Ws ts : List (NDArray K)} {ds : List Nat} {H : List Nat → List Nat → K}
    (h : ∀ os is, InB ds os → InB ds is → mpoElem Ws 0 os is 0 = H os is) : sand ts Ws ts ds = expectation H ts ds := by
  unfold sand expectation
  refine sumIdx_congr fun os ho => sumIdx_congr fun is hi => ?_
  rw [h os is ho hi]

/-- Build the state, build the DMRG object and run it. -/
theorem pipeline (E : Kern K) (hQ : QrOK E.toEnv) (hS : SvdOK E.toEnv) (hE : Lanczos.EighOK E.eigh) {o : Lopts}
    (ho : o.OK) {Ws : List (NDArray K)} {ds : List Nat} (hW : OpBonds Ws 1 ds 1) (hH : Hermitian Ws ds)
    {H : List Nat → List Nat → K} (hel : ∀ os is, InB ds os → InB ds is → mpoElem Ws 0 os is 0 = H os is)
    {ts : List (NDArray K)} (hb : Bonds ts 1 ds 1) (hz : Nonzero ts 1 ds 1) (hne : ts ≠ []) {center : Option Int}
    (hc : ∀ c, center = some c → 0 ≤ c ∧ c < ts.length) (n : Int) (precision : ℝ) :
    ∃ mps d d' e, Mps.init E.toEnv ts center true = .ok mps ∧ finite mps Ws = .ok d ∧
      runOneSite E o n precision d = .ok (d', ((e : ℝ) : K)) ∧ normSq d'.mps.tensors 1 ds 1 = 1 ∧
      ((e : ℝ) : K) = expectation H d'.mps.tensors ds ∧ e * normSq ts 1 ds 1 ≤ RCLike.re (expectation H ts ds) := by
  obtain ⟨mps, m1, m2, s, s1, s2⟩ := C38_init hQ hS hb hz hne hc
  have hz' : Nonzero mps.tensors 1 ds 1 := normSq_nonzero (by rw [m2.norm]; exact one_ne_zero)
  have hlen : mps.tensors.length = ts.length := by rw [← m2.bonds.length, hb.length]
  have hlt : (center.getD 0).toNat < mps.tensors.length := by
    have := List.length_pos_iff.2 hne
    cases center with
    | none => simp; omega
    | some c => have := hc c rfl; simp; omega
  obtain ⟨d, d1, d2, d3, d4⟩ := C58_init m2.bonds hW m2.center hlt m2.canonical hz'
  obtain ⟨d', e, r1, r2, r3, r4, r5, r6, r7⟩ := C58_one_site E hQ hS hE ho d2 (by rw [d4]; exact hH) n precision
  rw [d4] at r6 r7
  have hen : ((e : ℝ) : K) = expectation H d'.mps.tensors ds := by
    rw [r6, energy_ofReal hH, r5, RCLike.ofReal_one, div_one, sand_of hel]
  refine ⟨mps, d, d', e, m1, d1, r1, r5, hen, ?_⟩
  have h1 : energy d.mps.tensors Ws ds = energy ts Ws ds := by
    have : ((energy ts Ws ds : ℝ) : K) = ((energy d.mps.tensors Ws ds : ℝ) : K) := by
      rw [energy_ofReal hH, energy_ofReal hH, d3, energy_congr s1 (fun is his => s2 0 one_pos is his 0)]
    exact_mod_cast this.symm
  have h2 : 0 < normSq ts 1 ds 1 := by
    rw [normSq_amp (s : K) (fun is his => s2 0 one_pos is his 0), m2.norm, mul_one, RCLike.norm_ofReal]
    positivity
  rw [h1, ← r6] at r7
  rw [← sand_of hel]
  unfold energy at r7
  rwa [le_div_iff₀ h2] at r7

/-- **C58**, transverse field Ising chain: for real couplings, any nonzero MPS of spins and any number of sweeps, the
chain of calls `FiniteMPS`, `FiniteTFI`, `FiniteDMRG`, `run_one_site` succeeds, and the result is the expectation
value of the Hamiltonian in the final state of norm one, not larger than that in the initial state. -/
theorem C58_tfi (E : Kern K) (hQ : QrOK E.toEnv) (hS : SvdOK E.toEnv) (hE : Lanczos.EighOK E.eigh) {o : Lopts}
    (ho : o.OK) {Jx Bz : List K} (hN : 2 ≤ Bz.length) (hJ : Bz.length - 1 ≤ Jx.length) (rJ : Real Jx) (rB : Real Bz)
    {ts : List (NDArray K)} (hb : Bonds ts 1 (List.replicate Bz.length 2) 1)
    (hz : Nonzero ts 1 (List.replicate Bz.length 2) 1) {center : Option Int}
    (hc : ∀ c, center = some c → 0 ≤ c ∧ c < ts.length) (n : Int) (precision : ℝ) :
    ∃ mps Ws d d' e, Mps.init E.toEnv ts center true = .ok mps ∧ finiteTFI Jx Bz = .ok Ws ∧ finite mps Ws = .ok d ∧
      runOneSite E o n precision d = .ok (d', ((e : ℝ) : K)) ∧
      normSq d'.mps.tensors 1 (List.replicate Bz.length 2) 1 = 1 ∧
      ((e : ℝ) : K) = expectation (tfi Jx Bz) d'.mps.tensors (List.replicate Bz.length 2) ∧
      e * normSq ts 1 (List.replicate Bz.length 2) 1 ≤
        RCLike.re (expectation (tfi Jx Bz) ts (List.replicate Bz.length 2)) := by
  obtain ⟨Ws, w1, w2, w3, w4⟩ := tfi_hermitian hN hJ rJ rB
  have hne : ts ≠ [] := by
    intro h0
    have := hb.length
    rw [h0, List.length_replicate, List.length_nil] at this
    omega
  obtain ⟨mps, d, d', e, h1, h2⟩ := pipeline E hQ hS hE ho w2 w3 w4 hb hz hne hc n precision
  exact ⟨mps, Ws, d, d', e, h1, w1, h2⟩

/-- **C58**, XXZ chain. -/
theorem C58_xxz (E : Kern K) (hQ : QrOK E.toEnv) (hS : SvdOK E.toEnv) (hE : Lanczos.EighOK E.eigh) {o : Lopts}
    (ho : o.OK) {Jz Jxy Bz : List K} (hN : 2 ≤ Bz.length) (hJ : Bz.length - 1 ≤ Jz.length)
    (hJ' : Bz.length - 1 ≤ Jxy.length) (rJ : Real Jz) (rJ' : Real Jxy) (rB : Real Bz)
    {ts : List (NDArray K)} (hb : Bonds ts 1 (List.replicate Bz.length 2) 1)
    (hz : Nonzero ts 1 (List.replicate Bz.length 2) 1) {center : Option Int}
    (hc : ∀ c, center = some c → 0 ≤ c ∧ c < ts.length) (n : Int) (precision : ℝ) :
    ∃ mps Ws d d' e, Mps.init E.toEnv ts center true = .ok mps ∧ finiteXXZ Jz Jxy Bz = .ok Ws ∧
      finite mps Ws = .ok d ∧ runOneSite E o n precision d = .ok (d', ((e : ℝ) : K)) ∧
      normSq d'.mps.tensors 1 (List.replicate Bz.length 2) 1 = 1 ∧
      ((e : ℝ) : K) = expectation (xxz Jz Jxy Bz) d'.mps.tensors (List.replicate Bz.length 2) ∧
      e * normSq ts 1 (List.replicate Bz.length 2) 1 ≤
        RCLike.re (expectation (xxz Jz Jxy Bz) ts (List.replicate Bz.length 2)) := by
  obtain ⟨Ws, w1, w2, w3, w4⟩ := xxz_hermitian hN hJ hJ' rJ rJ' rB
  have hne : ts ≠ [] := by
    intro h0
    have := hb.length
    rw [h0, List.length_replicate, List.length_nil] at this
    omega
  obtain ⟨mps, d, d', e, h1, h2⟩ := pipeline E hQ hS hE ho w2 w3 w4 hb hz hne hc n precision
  exact ⟨mps, Ws, d, d', e, h1, w1, h2⟩

/-! ### A case -/

/-- Exact kernels. -/
noncomputable def exactKern : Kern ℂ := ⟨exactEnv ℂ Ncon.soId, Lanczos.someEigh⟩

/-- The default options of a run. -/
noncomputable def someLopts : Lopts := ⟨10, 1 / 100000, 1 / 1000000, 10⟩

theorem someLopts_ok : someLopts.OK := by
  refine ⟨by simp [someLopts], by norm_num [someLopts], by norm_num [someLopts], by simp [someLopts]⟩

/-- The Bell state has the expectation value `2` for the coupling `σˣσˣ` with the field `(1, 1)`, so a run ends with
an energy of at most one in a normalised state. -/
theorem bell_tfi : expectation (tfi [1] [1, 1]) (bell ℂ) [2, 2] = 2 := by
  have h : ∀ os is : List Nat, tfi (K := ℂ) [1] [1, 1] os is =
      oneSite sigmaZ 0 os is + oneSite sigmaZ 1 os is + twoSite sigmaX sigmaX 0 os is := by
    intro os is
    simp [tfi, Finset.sum_range_succ]
  simp only [expectation, sumIdx, h, Finset.sum_range_succ, Finset.sum_range_zero, zero_add, bell_amp, Nat.zero_lt_two,
    Nat.one_lt_two]
  simp [oneSite, twoSite, agree, sigmaZ, sigmaX]
  rw [if_pos (by intro k hk h0 h1; omega), if_pos (by intro k hk h0 h1; omega)]
  norm_num

theorem bell_normSq : normSq (bell ℂ) 1 [2, 2] 1 = 2 := by
  simp only [normSq, sumIdx, Finset.sum_range_succ, Finset.sum_range_zero, zero_add, bell_amp, Nat.zero_lt_two,
    Nat.one_lt_two]
  norm_num

example : ∃ mps Ws d d' e, Mps.init exactKern.toEnv (bell ℂ) (some 1) true = .ok mps ∧
    finiteTFI [1] [1, 1] = .ok Ws ∧ finite mps Ws = .ok d ∧
    runOneSite exactKern someLopts 4 (1 / 1000) d = .ok (d', ((e : ℝ) : ℂ)) ∧ e ≤ 1 := by
  obtain ⟨mps, Ws, d, d', e, h1, h2, h3, h4, _, _, h7⟩ := C58_tfi exactKern (exactEnv_qr Ncon.soId)
    (exactEnv_svd Ncon.soId) Lanczos.someEigh_ok someLopts_ok (Jx := [1]) (Bz := [1, 1]) (by simp) (by simp)
    (by intro n; match n with | 0 => simp | n + 1 => simp)
    (by intro n; match n with | 0 => simp | 1 => simp | n + 2 => simp)
    (ts := bell ℂ) bell_bonds bell_nonzero (center := some 1) (by simp [bell]) 4 (1 / 1000)
  refine ⟨mps, Ws, d, d', e, h1, h2, h3, h4, ?_⟩
  have h8 : e * normSq (bell ℂ) 1 [2, 2] 1 ≤ RCLike.re (expectation (tfi [1] [1, 1]) (bell ℂ) [2, 2]) := h7
  rw [bell_tfi, bell_normSq] at h8
  norm_num at h8
  linarith

end TN.Dmrg
