import Verif.Mpo
import Mathlib.Tactic.IntervalCases

/-!
# Matrix product Hamiltonians: the properties (C41)
-/

set_option linter.unusedSectionVars false

namespace TN.Mpo

open TN Finset

variable {K : Type} [Field K]

theorem item_ok {x : List K} {n : Nat} (h : n < x.length) : item x n = .ok (x.getD n 0) := by
  simp [item, List.getElem?_eq_getElem h]

theorem lastItem_ok {x : List K} (h : 0 < x.length) : lastItem x = .ok (x.getD (x.length - 1) 0) := by
  unfold lastItem
  rw [List.getLast?_eq_getElem?, List.getElem?_eq_getElem (by omega), List.getD_eq_getElem _ _ (by omega)]

theorem item_err {x : List K} {n : Nat} (h : x.length ≤ n) : item x n = .error .indexError := by
  simp [item, List.getElem?_eq_none h]

theorem mapM_ok {α β : Type} {f : α → Py β} {g : α → β} {l : List α} (h : ∀ x ∈ l, f x = .ok (g x)) :
    l.mapM f = .ok (l.map g) := by
  induction l with
  | nil => rfl
  | cons x l ih =>
    rw [List.mapM_cons, h x (by simp), ih fun y hy => h y (by simp [hy])]
    rfl

/-- The tensors in the bulk with the last one make a tail. -/
theorem isTail_of {c : Nat} {B : Nat → Nat → Nat → K} {L : Nat → Nat → Nat → Nat → K} {R : Nat → Nat → Nat → K}
    {W : Nat → NDArray K} {Z : NDArray K} (hW : ∀ n, IsBulk (W n) c R) (hS : ∀ n, IsStart (W n) (c + 1) c (B n) (L n)) :
    ∀ (k s : Nat), IsLast Z c (B (s + k)) R → IsTail c B L R s ((List.range' s k).map W ++ [Z]) := by
  intro k
  induction k with
  | zero => intro s hZ; exact .last hZ
  | succ k ih =>
    intro s hZ
    rw [List.range'_succ, List.map_cons, List.cons_append]
    refine .bulk (hW s) (hS s) (ih (s + 1) ?_)
    have : s + 1 + k = s + (k + 1) := by omega
    rw [this]
    exact hZ

theorem finiteMPO_ok {A Z : NDArray K} {ts : List (NDArray K)} (hA : A.shape.getD 0 0 = 1)
    (hZ : Z.shape.getD 1 0 = 1) : finiteMPO (A :: ts ++ [Z]) = .ok (A :: ts ++ [Z]) := by
  unfold finiteMPO
  simp only [List.cons_append, List.getLast?_cons, List.getLast?_append]
  rw [if_neg]
  simp only [hA, ne_eq, not_true_eq_false, false_or, not_not]
  exact hZ

/-! ### The transverse field Ising model -/

theorem tfi_bulk (J B : K) : IsBulk (tfiBulk J B) 1 (fun _ => sigmaX) := by
  refine ⟨rfl, fun b hb o ho i hi => ?_, fun k hk b hb o ho i hi => ?_⟩
  · interval_cases b <;> interval_cases o <;> interval_cases i <;>
      simp [tfiBulk, fill, block, List.lookup]
  · interval_cases k
    interval_cases b <;> interval_cases o <;> interval_cases i <;>
      simp [tfiBulk, fill, block, List.lookup, sigmaX]

theorem tfi_start (J B : K) :
    IsStart (tfiBulk J B) (1 + 1) 1 (fun o i => B * sigmaZ o i) (fun _ o i => J * sigmaX o i) := by
  refine ⟨rfl, fun o ho i hi => ⟨?_, fun k hk => ?_, ?_⟩⟩
  · interval_cases o <;> interval_cases i <;> simp [tfiBulk, fill, block, List.lookup]
  · interval_cases k
    interval_cases o <;> interval_cases i <;> simp [tfiBulk, fill, block, List.lookup]
  · interval_cases o <;> interval_cases i <;> simp [tfiBulk, fill, block, List.lookup]

theorem tfi_first (J B : K) :
    IsStart (tfiFirst J B) 0 1 (fun o i => B * sigmaZ o i) (fun _ o i => J * sigmaX o i) := by
  refine ⟨rfl, fun o ho i hi => ⟨?_, fun k hk => ?_, ?_⟩⟩
  · interval_cases o <;> interval_cases i <;> simp [tfiFirst, fill, block, List.lookup]
  · interval_cases k
    interval_cases o <;> interval_cases i <;> simp [tfiFirst, fill, block, List.lookup]
  · interval_cases o <;> interval_cases i <;> simp [tfiFirst, fill, block, List.lookup]

theorem tfi_last (B : K) : IsLast (tfiLast B) 1 (fun o i => B * sigmaZ o i) (fun _ => sigmaX) := by
  refine ⟨rfl, fun o ho i hi => ?_, fun k hk o ho i hi => ?_, fun o ho i hi => ?_⟩
  · interval_cases o <;> interval_cases i <;> simp [tfiLast, fill, block, List.lookup]
  · interval_cases k
    interval_cases o <;> interval_cases i <;> simp [tfiLast, fill, block, List.lookup, sigmaX]
  · interval_cases o <;> interval_cases i <;> simp [tfiLast, fill, block, List.lookup]

theorem oneSite_smul (x : K) (M : Nat → Nat → K) (n : Nat) (os is : List Nat) :
    oneSite (fun o i => x * M o i) n os is = x * oneSite M n os is := by
  unfold oneSite
  ring

theorem twoSite_smul (x : K) (M M' : Nat → Nat → K) (n : Nat) (os is : List Nat) :
    twoSite (fun o i => x * M o i) M' n os is = x * twoSite M M' n os is := by
  unfold twoSite
  ring

/-- **C41**, transverse field Ising model: for every chain of at least two sites, the constructor succeeds
and the tensors multiply out to the Hamiltonian. -/
theorem C41_tfi {Jx Bz : List K} (hN : 2 ≤ Bz.length) (hJ : Bz.length - 1 ≤ Jx.length) :
    ∃ ts, finiteTFI Jx Bz = .ok ts ∧ ts.length = Bz.length ∧
      ∀ os is, Spins Bz.length os → Spins Bz.length is → mpoElem ts 0 os is 0 = tfi Jx Bz os is := by
  obtain ⟨N, hN⟩ : ∃ N, Bz.length = N + 2 := ⟨Bz.length - 2, by omega⟩
  have hbulk : (List.range' 1 (Bz.length - 1 - 1)).mapM (fun n => do
      let B ← item Bz n
      let J ← item Jx n
      pure (tfiBulk J B) : Nat → Py (NDArray K)) =
      .ok ((List.range' 1 N).map fun n => tfiBulk (Jx.getD n 0) (Bz.getD n 0)) := by
    rw [hN]
    refine mapM_ok fun n hn => ?_
    rw [List.mem_range'_1] at hn
    simp only [item_ok (show n < Bz.length by omega), item_ok (show n < Jx.length by omega), bind, Except.bind]
    rfl
  refine ⟨tfiFirst (Jx.getD 0 0) (Bz.getD 0 0) ::
    (List.range' 1 N).map (fun n => tfiBulk (Jx.getD n 0) (Bz.getD n 0)) ++ [tfiLast (Bz.getD (N + 1) 0)],
    ?_, by simp [hN], ?_⟩
  · unfold finiteTFI
    simp only [item_ok (show 0 < Bz.length by omega), item_ok (show 0 < Jx.length by omega), bind, Except.bind]
    simp only [bind, Except.bind] at hbulk
    rw [hbulk]
    simp only [lastItem_ok (show 0 < Bz.length by omega), hN]
    exact finiteMPO_ok rfl rfl
  · intro os is ho hi
    have ht := isTail_of (c := 1) (R := fun _ => sigmaX) (B := fun n o i => Bz.getD n 0 * sigmaZ o i)
      (L := fun n _ o i => Jx.getD n 0 * sigmaX o i) (W := fun n => tfiBulk (Jx.getD n 0) (Bz.getD n 0))
      (Z := tfiLast (Bz.getD (N + 1) 0)) (fun n => tfi_bulk _ _) (fun n => tfi_start _ _) N 1
      (by rw [Nat.add_comm 1 N]; exact tfi_last _)
    have hl : ((List.range' 1 N).map (fun n => tfiBulk (Jx.getD n 0) (Bz.getD n 0)) ++
        [tfiLast (Bz.getD (N + 1) 0)]).length + 1 = Bz.length := by simp [hN]
    rw [List.cons_append, chain_elem (tfi_first _ _) ht (by rw [hl]; exact ho) (by rw [hl]; exact hi), hl]
    simp only [chain, tfi, Nat.zero_add, Finset.sum_range_one, oneSite_smul, twoSite_smul]

/-- Couplings that are too short are reported. -/
theorem C41_tfi_short {Jx Bz : List K} (hJ : Jx = []) : finiteTFI Jx Bz = .error .indexError := by
  subst hJ
  unfold finiteTFI
  rcases h : item Bz 0 with e | b
  · have : e = .indexError := by
      unfold item at h
      split at h <;> cases h
      rfl
    subst this
    rfl
  · rfl

/-- **C41** fails for one site: the constructor accepts a field of length one and returns two tensors, an
operator on two sites. -/
theorem C41_one_site_false (J B : K) : ∃ ts, finiteTFI [J] [B] = .ok ts ∧ ts.length ≠ [B].length :=
  ⟨[tfiFirst J B, tfiLast B], rfl, by simp⟩

/-! ### The XXZ model -/

/-- The operators on the left site of the couplings. -/
def xxzL (Jz Jxy : K) : Nat → Nat → Nat → K
  | 0, o, i => Jxy / 2 * Sm o i
  | 1, o, i => Jxy / 2 * Sp o i
  | _, o, i => Jz * Sz o i

/-- The operators on the right site of the couplings. -/
def xxzR : Nat → Nat → Nat → K
  | 0 => Sp
  | 1 => Sm
  | _ => Sz

theorem xxz_bulk (Jz Jxy B : K) : IsBulk (xxzBulk Jz Jxy B) 3 xxzR := by
  refine ⟨rfl, fun b hb o ho i hi => ?_, fun k hk b hb o ho i hi => ?_⟩
  · interval_cases b <;> interval_cases o <;> interval_cases i <;>
      simp [xxzBulk, fill, List.lookup]
  · interval_cases k <;> interval_cases b <;> interval_cases o <;> interval_cases i <;>
      simp [xxzBulk, fill, List.lookup, xxzR, Sp, Sm, Sz]

theorem xxz_start (Jz Jxy B : K) :
    IsStart (xxzBulk Jz Jxy B) (3 + 1) 3 (fun o i => B * Sz o i) (xxzL Jz Jxy) := by
  refine ⟨rfl, fun o ho i hi => ⟨?_, fun k hk => ?_, ?_⟩⟩
  · interval_cases o <;> interval_cases i <;> simp [xxzBulk, fill, List.lookup, Sz, mul_comm]
  · interval_cases k <;> interval_cases o <;> interval_cases i <;>
      simp [xxzBulk, fill, List.lookup, xxzL, Sp, Sm, Sz]
  · interval_cases o <;> interval_cases i <;> simp [xxzBulk, fill, List.lookup]

theorem xxz_first (Jz Jxy B : K) :
    IsStart (xxzFirst Jz Jxy B) 0 3 (fun o i => B * Sz o i) (xxzL Jz Jxy) := by
  refine ⟨rfl, fun o ho i hi => ⟨?_, fun k hk => ?_, ?_⟩⟩
  · interval_cases o <;> interval_cases i <;> simp [xxzFirst, fill, List.lookup, Sz, mul_comm]
  · interval_cases k <;> interval_cases o <;> interval_cases i <;>
      simp [xxzFirst, fill, List.lookup, xxzL, Sp, Sm, Sz]
  · interval_cases o <;> interval_cases i <;> simp [xxzFirst, fill, List.lookup]

theorem xxz_last (B : K) : IsLast (xxzLast B) 3 (fun o i => B * Sz o i) xxzR := by
  refine ⟨rfl, fun o ho i hi => ?_, fun k hk o ho i hi => ?_, fun o ho i hi => ?_⟩
  · interval_cases o <;> interval_cases i <;> simp [xxzLast, fill, List.lookup]
  · interval_cases k <;> interval_cases o <;> interval_cases i <;>
      simp [xxzLast, fill, List.lookup, xxzR, Sp, Sm, Sz]
  · interval_cases o <;> interval_cases i <;> simp [xxzLast, fill, List.lookup, Sz, mul_comm]

/-- **C41**, XXZ model: for every chain of at least two sites, the constructor succeeds and the tensors
multiply out to the Hamiltonian. -/
theorem C41_xxz {Jz Jxy Bz : List K} (hN : 2 ≤ Bz.length) (hJ : Bz.length - 1 ≤ Jz.length)
    (hJ' : Bz.length - 1 ≤ Jxy.length) :
    ∃ ts, finiteXXZ Jz Jxy Bz = .ok ts ∧ ts.length = Bz.length ∧
      ∀ os is, Spins Bz.length os → Spins Bz.length is → mpoElem ts 0 os is 0 = xxz Jz Jxy Bz os is := by
  obtain ⟨N, hN⟩ : ∃ N, Bz.length = N + 2 := ⟨Bz.length - 2, by omega⟩
  have hbulk : (List.range' 1 (Bz.length - 1 - 1)).mapM (fun n => do
      let B ← item Bz n
      let Jp ← item Jxy n
      let J ← item Jz n
      pure (xxzBulk J Jp B) : Nat → Py (NDArray K)) =
      .ok ((List.range' 1 N).map fun n => xxzBulk (Jz.getD n 0) (Jxy.getD n 0) (Bz.getD n 0)) := by
    rw [hN]
    refine mapM_ok fun n hn => ?_
    rw [List.mem_range'_1] at hn
    simp only [item_ok (show n < Bz.length by omega), item_ok (show n < Jz.length by omega),
      item_ok (show n < Jxy.length by omega), bind, Except.bind]
    rfl
  refine ⟨xxzFirst (Jz.getD 0 0) (Jxy.getD 0 0) (Bz.getD 0 0) ::
    (List.range' 1 N).map (fun n => xxzBulk (Jz.getD n 0) (Jxy.getD n 0) (Bz.getD n 0)) ++
      [xxzLast (Bz.getD (N + 1) 0)], ?_, by simp [hN], ?_⟩
  · unfold finiteXXZ
    simp only [item_ok (show 0 < Bz.length by omega), item_ok (show 0 < Jz.length by omega),
      item_ok (show 0 < Jxy.length by omega), bind, Except.bind]
    simp only [bind, Except.bind] at hbulk
    rw [hbulk]
    simp only [lastItem_ok (show 0 < Bz.length by omega), hN]
    exact finiteMPO_ok rfl rfl
  · intro os is ho hi
    have ht := isTail_of (c := 3) (R := xxzR) (B := fun n o i => Bz.getD n 0 * Sz o i)
      (L := fun n => xxzL (Jz.getD n 0) (Jxy.getD n 0))
      (W := fun n => xxzBulk (Jz.getD n 0) (Jxy.getD n 0) (Bz.getD n 0))
      (Z := xxzLast (Bz.getD (N + 1) 0)) (fun n => xxz_bulk _ _ _) (fun n => xxz_start _ _ _) N 1
      (by rw [Nat.add_comm 1 N]; exact xxz_last _)
    have hl : ((List.range' 1 N).map (fun n => xxzBulk (Jz.getD n 0) (Jxy.getD n 0) (Bz.getD n 0)) ++
        [xxzLast (Bz.getD (N + 1) 0)]).length + 1 = Bz.length := by simp [hN]
    rw [List.cons_append, chain_elem (xxz_first _ _ _) ht (by rw [hl]; exact ho) (by rw [hl]; exact hi), hl]
    simp only [chain, xxz, Nat.zero_add, oneSite_smul]
    congr 1
    refine Finset.sum_congr rfl fun n _ => ?_
    simp only [Finset.sum_range_succ, Finset.sum_range_zero, zero_add]
    have e0 : twoSite (xxzL (Jz.getD n 0) (Jxy.getD n 0) 0) (xxzR 0) n os is =
        Jxy.getD n 0 / 2 * twoSite Sm Sp n os is := twoSite_smul _ _ _ _ _ _
    have e1 : twoSite (xxzL (Jz.getD n 0) (Jxy.getD n 0) 1) (xxzR 1) n os is =
        Jxy.getD n 0 / 2 * twoSite Sp Sm n os is := twoSite_smul _ _ _ _ _ _
    have e2 : twoSite (xxzL (Jz.getD n 0) (Jxy.getD n 0) 2) (xxzR 2) n os is =
        Jz.getD n 0 * twoSite Sz Sz n os is := twoSite_smul _ _ _ _ _ _
    rw [e0, e1, e2]
    ring

/-- `Sˣ`. -/
noncomputable def Sx (i j : Nat) : ℂ := if (i = 0 ∧ j = 1) ∨ (i = 1 ∧ j = 0) then 1 / 2 else 0

/-- `Sʸ`, in the basis (down, up). -/
noncomputable def Sy (i j : Nat) : ℂ :=
  if i = 0 ∧ j = 1 then Complex.I / 2 else if i = 1 ∧ j = 0 then -Complex.I / 2 else 0

theorem flip_flop (n : Nat) (os is : List Nat) :
    (twoSite (K := ℂ) Sm Sp n os is + twoSite Sp Sm n os is) / 2 = twoSite Sx Sx n os is + twoSite Sy Sy n os is := by
  have hI : Complex.I * Complex.I = -1 := Complex.I_mul_I
  have key : ∀ o i o' i' : Nat, ((Sm o i : ℂ) * Sp o' i' + Sp o i * Sm o' i') / 2 =
      Sx o i * Sx o' i' + Sy o i * Sy o' i' := by
    intro o i o' i'
    by_cases h1 : o = 0 ∧ i = 1
    · obtain ⟨rfl, rfl⟩ := h1
      by_cases h2 : o' = 0 ∧ i' = 1
      · obtain ⟨rfl, rfl⟩ := h2
        simp [Sm, Sp, Sx, Sy]
        linear_combination (-(1 / 4) : ℂ) * hI
      · by_cases h3 : o' = 1 ∧ i' = 0
        · obtain ⟨rfl, rfl⟩ := h3
          simp [Sm, Sp, Sx, Sy]
          linear_combination ((1 / 4) : ℂ) * hI
        · simp [Sm, Sp, Sx, Sy, h2, h3]
    · by_cases h1' : o = 1 ∧ i = 0
      · obtain ⟨rfl, rfl⟩ := h1'
        by_cases h2 : o' = 0 ∧ i' = 1
        · obtain ⟨rfl, rfl⟩ := h2
          simp [Sm, Sp, Sx, Sy]
          linear_combination ((1 / 4) : ℂ) * hI
        · by_cases h3 : o' = 1 ∧ i' = 0
          · obtain ⟨rfl, rfl⟩ := h3
            simp [Sm, Sp, Sx, Sy]
            linear_combination (-(1 / 4) : ℂ) * hI
          · simp [Sm, Sp, Sx, Sy, h2, h3]
      · simp [Sm, Sp, Sx, Sy, h1, h1']
  unfold twoSite
  have := key (os.getD n 0) (is.getD n 0) (os.getD (n + 1) 0) (is.getD (n + 1) 0)
  linear_combination agree [n, n + 1] os is * this

/-- **C41**, XXZ model in the form of its documentation:
`∑ Bₙ Sᶻₙ + ∑ Jzₙ Sᶻₙ Sᶻₙ₊₁ + ∑ Jxyₙ (Sˣₙ Sˣₙ₊₁ + Sʸₙ Sʸₙ₊₁)`. -/
theorem C41_heisenberg {Jz Jxy Bz : List ℂ} (hN : 2 ≤ Bz.length) (hJ : Bz.length - 1 ≤ Jz.length)
    (hJ' : Bz.length - 1 ≤ Jxy.length) :
    ∃ ts, finiteXXZ Jz Jxy Bz = .ok ts ∧ ∀ os is, Spins Bz.length os → Spins Bz.length is →
      mpoElem ts 0 os is 0 = (∑ n ∈ range Bz.length, Bz.getD n 0 * oneSite Sz n os is) +
        ∑ n ∈ range (Bz.length - 1), (Jz.getD n 0 * twoSite Sz Sz n os is +
          Jxy.getD n 0 * (twoSite Sx Sx n os is + twoSite Sy Sy n os is)) := by
  obtain ⟨ts, h1, _, h3⟩ := C41_xxz hN hJ hJ'
  refine ⟨ts, h1, fun os is ho hi => ?_⟩
  rw [h3 os is ho hi]
  simp only [xxz, flip_flop]

/-- A chain of three sites: the couplings flip neighbouring spins, the fields count them. -/
example : ∃ ts, finiteTFI ([3, 5] : List ℚ) [1, 1, 2] = .ok ts ∧ mpoElem ts 0 [1, 1, 0] [0, 0, 0] 0 = 3 ∧
    mpoElem ts 0 [1, 0, 1] [1, 0, 1] 0 = 2 ∧ mpoElem ts 0 [1, 1, 1] [0, 0, 0] 0 = 0 := by
  obtain ⟨ts, h1, _, h3⟩ := C41_tfi (Jx := ([3, 5] : List ℚ)) (Bz := [1, 1, 2]) (by decide) (by decide)
  refine ⟨ts, h1, ?_, ?_, ?_⟩ <;>
  · rw [h3 _ _ ⟨rfl, by decide⟩ ⟨rfl, by decide⟩]
    decide +kernel

example : ∃ ts, finiteXXZ ([4, 8] : List ℚ) [6, 10] [1, 1, 2] = .ok ts ∧ mpoElem ts 0 [1, 0, 0] [0, 1, 0] 0 = 3 ∧
    mpoElem ts 0 [0, 1, 1] [0, 1, 1] 0 = 2 := by
  obtain ⟨ts, h1, _, h3⟩ := C41_xxz (Jz := ([4, 8] : List ℚ)) (Jxy := [6, 10]) (Bz := [1, 1, 2]) (by decide)
    (by decide) (by decide)
  refine ⟨ts, h1, ?_, ?_⟩ <;>
  · rw [h3 _ _ ⟨rfl, by decide⟩ ⟨rfl, by decide⟩]
    decide +kernel

end TN.Mpo
