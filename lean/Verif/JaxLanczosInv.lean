import Verif.JaxLanczos
import Verif.JaxEigshProps

/-!
# The Lanczos relation is kept by `eigsh_lanczos` of the jax backend, with and without reorthogonalisation
-/

set_option linter.unusedSectionVars false

namespace TN.Krylov

noncomputable section

open Classical Matrix

variable {𝕜 : Type} [RCLike 𝕜] {n m : Nat}

/-- The span of `init`, `A init`, ..., `A ^ (k - 1) init`. -/
def krylov (A : Vec 𝕜 n →ₗ[𝕜] Vec 𝕜 n) (init : Vec 𝕜 n) (k : Nat) : Submodule 𝕜 (Vec 𝕜 n) :=
  Submodule.span 𝕜 (Set.range fun j : Fin k => (A ^ j.val) init)

theorem krylov_succ (A : Vec 𝕜 n →ₗ[𝕜] Vec 𝕜 n) (init : Vec 𝕜 n) (k : Nat) :
    krylov A init (k + 1) = krylov A init k ⊔ Submodule.span 𝕜 {(A ^ k) init} := by
  unfold krylov
  rw [← Submodule.span_union]
  congr 1
  ext x
  simp only [Set.mem_range, Set.union_singleton, Set.mem_insert_iff]
  constructor
  · rintro ⟨j, rfl⟩
    by_cases h : j.val = k
    · exact .inl (by rw [h])
    · exact .inr ⟨⟨j.val, by omega⟩, rfl⟩
  · rintro (rfl | ⟨j, rfl⟩)
    · exact ⟨⟨k, by omega⟩, rfl⟩
    · exact ⟨⟨j.val, by omega⟩, rfl⟩

theorem krylov_map {A : Vec 𝕜 n →ₗ[𝕜] Vec 𝕜 n} {init : Vec 𝕜 n} {k : Nat} {x : Vec 𝕜 n} (hx : x ∈ krylov A init k) :
    A x ∈ krylov A init (k + 1) := by
  have : krylov A init k ≤ (krylov A init (k + 1)).comap A := by
    refine Submodule.span_le.mpr ?_
    rintro _ ⟨j, rfl⟩
    refine Submodule.subset_span ⟨⟨j.val + 1, by omega⟩, ?_⟩
    show (A ^ (j.val + 1)) init = A ((A ^ j.val) init)
    rw [pow_succ']; rfl
  exact this hx

/-- A unit vector in the direction of the residual extends the factorisation. -/
theorem Fact.next {A : Vec 𝕜 n →ₗ[𝕜] Vec 𝕜 n} {V : Fin m → Vec 𝕜 n} {al : Fin m → 𝕜} {be be' : Fin (m - 1) → 𝕜} {k : Nat}
    {f : Vec 𝕜 n} (hf : Fact A V (tri al be) k f) (hk : k < m) (hn : f ≠ 0) (hbe : ∀ b : Fin (m - 1), b.val + 1 ≠ k → be' b = be b)
    (hbe' : ∀ b : Fin (m - 1), b.val + 1 = k → be' b = (‖f‖ : 𝕜)) :
    Pre A (setRow V k (((1 / ‖f‖ : ℝ) : 𝕜) • f)) (tri al be') k := by
  obtain ⟨hle, ho, hz, hperp, hrel, hh⟩ := hf
  have htri : ∀ l j : Fin m, l.val < k → j.val < k → tri al be' l j = tri al be l j := by
    intro l j hl hj
    unfold tri
    by_cases h1 : l.val = j.val
    · rw [if_pos h1, if_pos h1]
    · rw [if_neg h1, if_neg h1]
      by_cases h2 : l.val = j.val + 1
      · rw [dif_pos h2, dif_pos h2, hbe _ (by show j.val + 1 ≠ k; omega)]
      · rw [dif_neg h2, dif_neg h2]
        by_cases h3 : j.val = l.val + 1
        · rw [dif_pos h3, dif_pos h3, hbe _ (by show l.val + 1 ≠ k; omega)]
        · rw [dif_neg h3, dif_neg h3]
  have hsum : ∀ j : Fin m, j.val < k → ∑ l, tri al be' l j • V l = ∑ l, tri al be l j • V l := by
    intro j hj
    refine Finset.sum_congr rfl fun l _ => ?_
    by_cases hl : l.val < k
    · rw [htri l j hl hj]
    · rw [hz l (by omega), smul_zero, smul_zero]
  refine ⟨hk, ho.setRow (norm_unit hn) fun a ha => by rw [inner_smul_right, hperp a ha, mul_zero], fun a ha => ?_,
    fun j hj => ?_, tri_hess _ _⟩
  · rw [setRow_other (by omega)]; exact hz a (by omega)
  · rw [setRow_other (by omega), hrel j hj, sum_setRow (fun a ha => hz a (by omega)), hsum j hj, dif_pos hk]
    congr 1
    by_cases hji : j.val + 1 = k
    · have e : tri al be' ⟨k, hk⟩ j = (‖f‖ : 𝕜) := by
        unfold tri
        rw [if_neg (by show ¬ k = j.val; omega), dif_pos (by show k = j.val + 1; omega), hbe' _ hji]
      have hf0 : (‖f‖ : 𝕜) ≠ 0 := by exact_mod_cast norm_ne_zero_iff.mpr hn
      rw [if_pos hji, e, smul_smul]
      simp [hf0]
    · rw [if_neg hji, tri_hess _ _ _ _ (by show j.val + 1 < k; omega), zero_smul]

/-- The overlaps of the next vector are a column of the tridiagonal matrix. -/
theorem Pre.overlaps {A : Vec 𝕜 n →ₗ[𝕜] Vec 𝕜 n} (hA : A.IsSymmetric) {V : Fin m → Vec 𝕜 n} {al : Fin m → 𝕜}
    {be : Fin (m - 1) → 𝕜} {i : Nat} (hg : Pre A V (tri al be) i) (l j : Fin m) (hj : j.val = i) (hl : l.val < i) :
    inner 𝕜 (V l) (A (V j)) = tri al be l j := by
  rw [← hA, hg.rel l hl, ← inner_conj_symm,
    hg.ortho.inner_sum (fun a ha => hg.zero a ha) (a := j) (by omega)]
  by_cases h : j.val = l.val + 1
  · rw [tri_sub _ _ h, tri_sup _ _ h]
  · rw [tri_far _ _ (by omega) h (by omega), tri_far _ _ (by omega) (by omega) h, map_zero]

/-- The next residual. -/
theorem Pre.extend {A : Vec 𝕜 n →ₗ[𝕜] Vec 𝕜 n} (hA : A.IsSymmetric) {V : Fin m → Vec 𝕜 n} {al : Fin m → 𝕜}
    {be : Fin (m - 1) → 𝕜} {i : Nat} (hg : Pre A V (tri al be) i) (j : Fin m) (hj : j.val = i) :
    Fact A V (tri (setAt al i (inner 𝕜 (V j) (A (V j)))) be) (i + 1) (gsPass V (A (V j))).1 := by
  have hov := hg.overlaps hA
  obtain ⟨hlt, ho, hz, hrel, hh⟩ := hg
  have hz' : ∀ a : Fin m, i + 1 ≤ a.val → V a = 0 := fun a ha => hz a ha
  have htri : ∀ l j' : Fin m, l.val < i + 1 →
      (j'.val < i → tri (setAt al i (inner 𝕜 (V j) (A (V j)))) be l j' = tri al be l j') ∧
      (j'.val = i → tri (setAt al i (inner 𝕜 (V j) (A (V j)))) be l j' = (gsPass V (A (V j))).2 l) := by
    intro l j' hl
    constructor
    · intro hj'
      unfold tri
      by_cases h1 : l.val = j'.val
      · rw [if_pos h1, if_pos h1, setAt, if_neg (by omega)]
      · rw [if_neg h1, if_neg h1]
    · intro hj'
      have ej : j' = j := Fin.ext (by omega)
      subst ej
      by_cases h1 : l.val = i
      · have e : l = j' := Fin.ext (by omega)
        rw [tri_diag _ _ (by omega), setAt, if_pos h1, e]; rfl
      · show _ = inner 𝕜 (V l) (A (V j'))
        rw [hov l j' hj (by omega)]
        unfold tri
        rw [if_neg (by omega), if_neg (by omega)]
  refine ⟨by omega, ho, hz', fun a _ => gsPass_perp ho hz' _ a, fun j' hj' => ?_, tri_hess _ _⟩
  have hsum : ∀ (x : Fin m → 𝕜), (∀ l : Fin m, l.val < i + 1 → tri (setAt al i (inner 𝕜 (V j) (A (V j)))) be l j' = x l) →
      ∑ l, tri (setAt al i (inner 𝕜 (V j) (A (V j)))) be l j' • V l = ∑ l, x l • V l := by
    intro x hx
    refine Finset.sum_congr rfl fun l _ => ?_
    by_cases hl : l.val < i + 1
    · rw [hx l hl]
    · rw [hz' l (by omega), smul_zero, smul_zero]
  by_cases hji : j'.val = i
  · have ej : j' = j := Fin.ext (by omega)
    rw [if_pos (by omega), hsum _ fun l hl => (htri l j' hl).2 hji, ej]
    unfold gsPass; simp
  · rw [if_neg (by omega), add_zero, hrel j' (by omega)]
    exact (hsum _ fun l hl => (htri l j' hl).1 (by omega)).symm

/-- For a Hermitian operator only the last two overlaps are there. -/
theorem Pre.three_term {A : Vec 𝕜 n →ₗ[𝕜] Vec 𝕜 n} (hA : A.IsSymmetric) {V : Fin m → Vec 𝕜 n} {al : Fin m → 𝕜}
    {be : Fin (m - 1) → 𝕜} {i : Nat} (hg : Pre A V (tri al be) i) (j : Fin m) (hj : j.val = i) {β : 𝕜} {y : Vec 𝕜 n}
    (hβ : ∀ b : Fin (m - 1), b.val + 1 = i → (starRingEnd 𝕜) (be b) = β)
    (hy : ∀ a : Fin m, a.val + 1 = i → V a = y) (hy0 : i = 0 → y = 0) :
    (gsPass V (A (V j))).1 = A (V j) - inner 𝕜 (V j) (A (V j)) • V j - β • y := by
  have hov := hg.overlaps hA
  rw [gsPass, sub_sub]
  have hlast : ∀ l : Fin m, l ≠ j → l.val + 1 ≠ i → inner 𝕜 (V l) (A (V j)) • V l = 0 := by
    intro l hl1 hl2
    have hne : l.val ≠ j.val := fun e => hl1 (Fin.ext e)
    by_cases hl : l.val < i
    · rw [hov l j hj hl, tri_far _ _ hne (by omega) (by omega), zero_smul]
    · rw [hg.zero l (by omega), smul_zero]
  rcases Nat.eq_zero_or_pos i with h0 | h0
  · rw [hy0 h0, smul_zero, add_zero, Finset.sum_eq_single j (fun l _ hl => hlast l hl (by omega))
      (fun h => absurd (Finset.mem_univ _) h)]
  · have hlt := hg.lt
    set p : Fin m := ⟨i - 1, by omega⟩ with hp
    have hpj : j ≠ p := fun e => by have := congrArg Fin.val e; simp only [hp] at this; omega
    rw [Finset.sum_eq_add j p hpj (fun l _ hl => hlast l hl.1 fun e => hl.2 (Fin.ext (by simp only [hp]; omega)))
      (fun h => absurd (Finset.mem_univ _) h) (fun h => absurd (Finset.mem_univ _) h),
      hov p j hj (by simp only [hp]; omega), tri_sup _ _ (by simp only [hp]; omega), hβ _ (by simp only [hp]; omega),
      hy p (by simp only [hp]; omega)]

/-- The entries of `betas` in the matrix. -/
def JCarry.off (s : JCarry 𝕜 n m) : Fin (m - 1) → 𝕜 := fun b => ((s.be ⟨b.val + 2, by omega⟩ : ℝ) : 𝕜)

/-- What is known of the state after `k` iterations; `r` is the residual. -/
structure JInv (A : Vec 𝕜 n →ₗ[𝕜] Vec 𝕜 n) (reortho : Bool) (init : Vec 𝕜 n) (s : JCarry 𝕜 n m) (k : Nat) (r : Vec 𝕜 n) :
    Prop where
  i : s.i = k + 1
  row : s.kv ⟨0, by omega⟩ = 0
  fact : Fact A (mask k s.rows) s.mat k r
  cur : ∀ a : Fin (m + 2), a.val = k + 1 → (if reortho then (gsPass (mask k s.rows) (s.kv a)).1 else s.kv a) = r
  alz : ∀ a : Fin m, k ≤ a.val → s.al a = 0
  bez : ∀ b : Fin (m + 1), k < b.val → s.be b = 0
  pos : ∀ b : Fin (m + 1), b.val ≤ k → 0 < s.be b
  span : Submodule.span 𝕜 (Set.range (mask k s.rows)) = krylov A init k
  dir : ∃ c : 𝕜, c ≠ 0 ∧ r - c • (A ^ k) init ∈ krylov A init k

theorem gs_rows {s : JCarry 𝕜 n m} {k : Nat} (hk : k ≤ m) (h0 : s.kv ⟨0, by omega⟩ = 0) (x : Vec 𝕜 n) :
    (gsPass (before (k + 1) s.kv) x).1 = (gsPass (mask k s.rows) x).1 := by
  unfold gsPass
  simp only
  congr 1
  rw [Fin.sum_univ_succ, Fin.sum_univ_castSucc]
  have e0 : before (k + 1) s.kv 0 = 0 := by
    unfold before
    rw [if_pos (by simp)]
    exact h0
  have e1 : before (k + 1) s.kv (Fin.last m).succ = 0 := if_neg (by simp; omega)
  rw [e0, e1, smul_zero, zero_add, add_zero]
  refine Finset.sum_congr rfl fun a _ => ?_
  have : before (k + 1) s.kv a.castSucc.succ = mask k s.rows a := by
    unfold before mask JCarry.rows
    simp only [Fin.val_succ, Fin.val_castSucc]
    by_cases h : a.val < k
    · rw [if_pos (by omega), if_pos h]; rfl
    · rw [if_neg (by omega), if_neg h]
  rw [this]

theorem gramSchmidt_rows {s : JCarry 𝕜 n m} {k : Nat} (hk : k ≤ m) (h0 : s.kv ⟨0, by omega⟩ = 0)
    (ho : Ortho (mask k s.rows) k) (x : Vec 𝕜 n) :
    (gramSchmidt (before (k + 1) s.kv) x).1 = (gsPass (mask k s.rows) x).1 := by
  have e : (gramSchmidt (before (k + 1) s.kv) x).1 = (gramSchmidt (mask k s.rows) x).1 := by
    unfold gramSchmidt
    simp only
    rw [gs_rows hk h0, gs_rows hk h0]
  rw [e, gramSchmidt_eq ho fun a ha => mask_ge ha]

theorem JInv.init (A : Vec 𝕜 n →ₗ[𝕜] Vec 𝕜 n) (reortho : Bool) (init : Vec 𝕜 n) :
    JInv A reortho init (jlInit init : JCarry 𝕜 n m) 0 init := by
  have hm : mask 0 (jlInit init : JCarry 𝕜 n m).rows = fun _ => 0 := funext fun a => mask_ge (Nat.zero_le _)
  have hkv : (jlInit init : JCarry 𝕜 n m).kv = setRow (fun _ => 0) 1 init := rfl
  refine ⟨rfl, by rw [hkv]; exact setRow_other (by simp), ?_, fun a ha => ?_, fun a _ => rfl, fun b hb => ?_, fun b hb => ?_, ?_, 1, one_ne_zero,
    by simp⟩
  · rw [hm]
    exact ⟨Nat.zero_le _, fun a b ha => absurd ha (by omega), fun a _ => rfl, fun a ha => absurd ha (by omega),
      fun a ha => absurd ha (by omega), tri_hess _ _⟩
  · have : (jlInit init : JCarry 𝕜 n m).kv a = init := by rw [hkv]; exact setRow_self ha
    rw [this, hm]
    cases reortho <;> simp [gsPass]
  · exact if_neg (by omega)
  · show 0 < setAt (fun _ => (0 : ℝ)) 0 1 b
    rw [setAt, if_pos (by omega)]; exact one_pos
  · rw [hm]
    unfold krylov
    have e1 : Set.range (fun j : Fin 0 => (A ^ j.val) init) = ∅ := Set.range_eq_empty _
    rw [e1, Submodule.span_empty, Submodule.span_eq_bot]
    rintro _ ⟨a, rfl⟩
    rfl

/-- The vector that is normalised is the residual. -/
theorem JInv.current {A : Vec 𝕜 n →ₗ[𝕜] Vec 𝕜 n} {reortho : Bool} {init : Vec 𝕜 n} {s : JCarry 𝕜 n m} {k : Nat} {r : Vec 𝕜 n}
    (h : JInv A reortho init s k r) :
    (if reortho then (gramSchmidt (before s.i s.kv) (readRow s.kv s.i)).1 else readRow s.kv s.i) = r := by
  have hle := h.fact.le
  have hread : readRow s.kv s.i = s.kv ⟨k + 1, by omega⟩ := by
    unfold readRow
    rw [dif_pos (by omega), h.i]
    exact congrArg s.kv (Fin.ext (show min (k + 1) (m + 2 - 1) = k + 1 by omega))
  have hc := h.cur ⟨k + 1, by omega⟩ rfl
  rw [hread, h.i]
  cases reortho
  · exact hc
  · refine Eq.trans ?_ hc
    exact gramSchmidt_rows hle h.row h.fact.ortho _

/-- A zero residual ends in NaN. -/
theorem JInv.nan {A : Vec 𝕜 n →ₗ[𝕜] Vec 𝕜 n} {reortho : Bool} {init : Vec 𝕜 n} {s : JCarry 𝕜 n m} {k : Nat}
    (h : JInv A reortho init s k 0) : jlBody reortho A s = none := by
  unfold jlBody
  simp only
  rw [h.current, norm_zero, if_pos rfl]

/-- One iteration. -/
theorem JInv.body {A : Vec 𝕜 n →ₗ[𝕜] Vec 𝕜 n} (hA : A.IsSymmetric) {reortho : Bool} {init : Vec 𝕜 n} {s : JCarry 𝕜 n m} {k : Nat}
    {r : Vec 𝕜 n} (h : JInv A reortho init s k r) (hk : k < m) (hr : r ≠ 0) :
    ∃ s' : JCarry 𝕜 n m, jlBody reortho A s = some s' ∧
      mask (k + 1) s'.rows = setRow (mask k s.rows) k (((1 / ‖r‖ : ℝ) : 𝕜) • r) ∧
      s'.al = setAt s.al k (inner 𝕜 (((1 / ‖r‖ : ℝ) : 𝕜) • r) (A (((1 / ‖r‖ : ℝ) : 𝕜) • r))) ∧
      s'.be = setAt s.be (k + 1) ‖r‖ ∧
      JInv A reortho init s' (k + 1)
        (gsPass (setRow (mask k s.rows) k (((1 / ‖r‖ : ℝ) : 𝕜) • r)) (A (((1 / ‖r‖ : ℝ) : 𝕜) • r))).1 := by
  set w := ((1 / ‖r‖ : ℝ) : 𝕜) • r with hw
  have hnr : ‖r‖ ≠ 0 := norm_ne_zero_iff.mpr hr
  have hprev : readRow s.kv (s.i - 1) = s.kv ⟨k, by omega⟩ := by
    unfold readRow
    rw [dif_pos (by omega), h.i]
    exact congrArg s.kv (Fin.ext (show min (k + 1 - 1) (m + 2 - 1) = k by omega))
  have hbody : jlBody reortho A s = some
      { kv := setRow (setRow s.kv (k + 1) w) (k + 2) (if reortho then A w else A w - inner 𝕜 w (A w) • w - (‖r‖ : 𝕜) • s.kv ⟨k, by omega⟩),
        al := setAt s.al k (inner 𝕜 w (A w)), be := setAt s.be (k + 1) ‖r‖, i := k + 2 } := by
    unfold jlBody
    simp only
    rw [h.current, if_neg hnr, hprev, ← hw, h.i]
    rfl
  refine ⟨_, hbody, ?_⟩
  generalize hs' : (JCarry.mk (setRow (setRow s.kv (k + 1) w) (k + 2)
      (if reortho then A w else A w - inner 𝕜 w (A w) • w - (‖r‖ : 𝕜) • s.kv ⟨k, by omega⟩))
    (setAt s.al k (inner 𝕜 w (A w))) (setAt s.be (k + 1) ‖r‖) (k + 2) : JCarry 𝕜 n m) = s'
  have hkv : s'.kv = setRow (setRow s.kv (k + 1) w) (k + 2)
      (if reortho then A w else A w - inner 𝕜 w (A w) • w - (‖r‖ : 𝕜) • s.kv ⟨k, by omega⟩) := by rw [← hs']
  have hal : s'.al = setAt s.al k (inner 𝕜 w (A w)) := by rw [← hs']
  have hbe : s'.be = setAt s.be (k + 1) ‖r‖ := by rw [← hs']
  have hi : s'.i = k + 2 := by rw [← hs']
  clear hs' hbody
  have hrows : mask (k + 1) s'.rows = setRow (mask k s.rows) k w := by
    funext a
    by_cases ha : a.val < k + 1
    · rw [mask_lt ha]
      show s'.kv _ = _
      rw [hkv, setRow_other (by show a.val + 1 ≠ k + 2; omega)]
      by_cases e : a.val = k
      · rw [setRow_self (by show a.val + 1 = k + 1; omega), setRow_self e]
      · rw [setRow_other (by show a.val + 1 ≠ k + 1; omega), setRow_other e, mask_lt (by omega)]; rfl
    · rw [mask_ge (by omega), setRow_other (by omega), mask_ge (by omega)]
  refine ⟨hrows, hal, hbe, ?_⟩
  have hoff : s'.off = fun b => if b.val + 1 = k then (‖r‖ : 𝕜) else s.off b := by
    funext b
    unfold JCarry.off
    rw [hbe]
    by_cases e : b.val + 1 = k
    · rw [if_pos e, setAt, if_pos (by show b.val + 2 = k + 1; omega)]
    · rw [if_neg e, setAt, if_neg (by show ¬ b.val + 2 = k + 1; omega)]
  have hpre : Pre A (setRow (mask k s.rows) k w) (tri s.al s'.off) k := by
    refine Fact.next (be := s.off) h.fact hk hr (fun b hb => ?_) fun b hb => ?_
    · rw [hoff]; exact if_neg hb
    · rw [hoff]; exact if_pos hb
  have hwj : setRow (mask k s.rows) k w ⟨k, hk⟩ = w := setRow_self rfl
  have hext := hpre.extend hA ⟨k, hk⟩ rfl
  have hthree := hpre.three_term hA ⟨k, hk⟩ rfl (β := (‖r‖ : 𝕜)) (y := s.kv ⟨k, by omega⟩)
    (fun b hb => by rw [hoff]; simp only [if_pos hb]; exact RCLike.conj_ofReal _)
    (fun a ha => by
      rw [setRow_other (by omega), mask_lt (by omega)]
      exact congrArg s.kv (Fin.ext ha)) (fun h0 => by subst h0; exact h.row)
  rw [hwj] at hext hthree
  have hfact : Fact A (mask (k + 1) s'.rows) s'.mat (k + 1) (gsPass (setRow (mask k s.rows) k w) (A w)).1 := by
    rw [hrows]
    have : s'.mat = tri (setAt s.al k (inner 𝕜 w (A w))) s'.off := by rw [← hal]; rfl
    rw [this]; exact hext
  have hspan : Submodule.span 𝕜 (Set.range (mask (k + 1) s'.rows)) = krylov A init (k + 1) := by
    have e1 : Submodule.span 𝕜 (Set.range (mask (k + 1) s'.rows)) = krylov A init k ⊔ Submodule.span 𝕜 {r} := by
      rw [hrows, ← h.span]
      refine le_antisymm (Submodule.span_le.mpr ?_) (sup_le (Submodule.span_le.mpr ?_) ?_)
      · rintro _ ⟨a, rfl⟩
        by_cases e : a.val = k
        · rw [setRow_self e]
          exact Submodule.mem_sup_right (Submodule.smul_mem _ _ (Submodule.mem_span_singleton_self r))
        · rw [setRow_other e]
          exact Submodule.mem_sup_left (Submodule.subset_span ⟨a, rfl⟩)
      · rintro _ ⟨a, rfl⟩
        by_cases e : a.val = k
        · rw [mask_ge (by omega)]; exact Submodule.zero_mem _
        · exact Submodule.subset_span ⟨a, setRow_other e⟩
      · rw [Submodule.span_singleton_le_iff_mem]
        have : r = (‖r‖ : 𝕜) • w := by
          rw [hw, smul_smul]
          have hr0 : (‖r‖ : 𝕜) ≠ 0 := by exact_mod_cast hnr
          simp [hr0]
        rw [this]
        exact Submodule.smul_mem _ _ (Submodule.subset_span ⟨⟨k, hk⟩, hwj⟩)
    obtain ⟨c, hc, hd⟩ := h.dir
    rw [e1, krylov_succ]
    refine le_antisymm (sup_le le_sup_left ?_) (sup_le le_sup_left ?_)
    · rw [Submodule.span_singleton_le_iff_mem]
      have : r = (r - c • (A ^ k) init) + c • (A ^ k) init := by abel
      rw [this]
      exact Submodule.add_mem_sup hd (Submodule.smul_mem _ _ (Submodule.mem_span_singleton_self _))
    · rw [Submodule.span_singleton_le_iff_mem]
      have : (A ^ k) init = c⁻¹ • (-(r - c • (A ^ k) init)) + c⁻¹ • r := by
        rw [← smul_add]
        have : -(r - c • (A ^ k) init) + r = c • (A ^ k) init := by abel
        rw [this, smul_smul, inv_mul_cancel₀ hc, one_smul]
      rw [this]
      exact Submodule.add_mem_sup (Submodule.smul_mem _ _ (Submodule.neg_mem _ hd))
        (Submodule.smul_mem _ _ (Submodule.mem_span_singleton_self _))
  refine ⟨hi, ?_, hfact, fun a ha => ?_, fun a ha => ?_, fun b hb => ?_, fun b hb => ?_, hspan, ?_⟩
  · rw [hkv, setRow_other (by simp), setRow_other (by simp)]; exact h.row
  · have e : s'.kv a = if reortho then A w else A w - inner 𝕜 w (A w) • w - (‖r‖ : 𝕜) • s.kv ⟨k, by omega⟩ := by
      rw [hkv]; exact setRow_self ha
    rw [e]
    cases reortho
    · simp only [Bool.false_eq_true, if_false]
      exact hthree.symm
    · simp only [if_true]
      rw [hrows]
  · rw [hal, setAt, if_neg (by omega)]; exact h.alz a (by omega)
  · rw [hbe, setAt, if_neg (by omega)]; exact h.bez b (by omega)
  · rw [hbe, setAt]
    split_ifs with e
    · exact norm_pos_iff.mpr hr
    · exact h.pos b (by omega)
  · obtain ⟨c, hc, hd⟩ := h.dir
    have hr0 : (‖r‖ : 𝕜) ≠ 0 := by exact_mod_cast hnr
    refine ⟨((1 / ‖r‖ : ℝ) : 𝕜) * c, mul_ne_zero (by simp [hr0]) hc, ?_⟩
    have e : (gsPass (setRow (mask k s.rows) k w) (A w)).1 - (((1 / ‖r‖ : ℝ) : 𝕜) * c) • (A ^ (k + 1)) init =
        ((1 / ‖r‖ : ℝ) : 𝕜) • A (r - c • (A ^ k) init) -
          ∑ l, inner 𝕜 (setRow (mask k s.rows) k w l) (A w) • setRow (mask k s.rows) k w l := by
      have e2 : (A ^ (k + 1)) init = A ((A ^ k) init) := by rw [pow_succ']; rfl
      have e3 : A w = ((1 / ‖r‖ : ℝ) : 𝕜) • A r := by rw [hw, map_smul]
      have e4 : A (r - c • (A ^ k) init) = A r - c • A ((A ^ k) init) := by rw [map_sub, map_smul]
      rw [e2, e4, smul_sub, smul_smul]
      unfold gsPass
      simp only
      rw [← e3]
      abel
    rw [e]
    refine Submodule.sub_mem _ (Submodule.smul_mem _ _ (krylov_map hd)) (Submodule.sum_mem _ fun l _ => ?_)
    rw [← hspan, hrows]
    exact Submodule.smul_mem _ _ (Submodule.subset_span ⟨l, rfl⟩)

end

end TN.Krylov
