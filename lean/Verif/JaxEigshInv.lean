import Verif.JaxEigsh
import Verif.ArnoldiProps
import Mathlib.Analysis.InnerProductSpace.Symmetric

/-!
# The Lanczos relation is kept by `_lanczos_fact` and by the restarts of `eigsh`
-/

set_option linter.unusedSectionVars false

namespace TN.Krylov

noncomputable section

open Classical Matrix

variable {𝕜 : Type} [RCLike 𝕜] {n m : Nat}

/-- The first `k` rows, the other ones set to zero. -/
def mask (k : Nat) (V : Fin m → Vec 𝕜 n) : Fin m → Vec 𝕜 n := fun l => if l.val < k then V l else 0

theorem mask_lt {k : Nat} {V : Fin m → Vec 𝕜 n} {a : Fin m} (h : a.val < k) : mask k V a = V a := if_pos h

theorem mask_ge {k : Nat} {V : Fin m → Vec 𝕜 n} {a : Fin m} (h : k ≤ a.val) : mask k V a = 0 := if_neg (by omega)

theorem upTo_eq_mask (i : Nat) (V : Fin m → Vec 𝕜 n) : upTo i V = mask (i + 1) V := by
  funext a
  unfold upTo mask
  by_cases h : a.val ≤ i
  · rw [if_pos h, if_pos (by omega)]
  · rw [if_neg h, if_neg (by omega)]

theorem mask_setRow (k : Nat) (V : Fin m → Vec 𝕜 n) (x : Vec 𝕜 n) :
    mask (k + 1) (setRow V k x) = setRow (mask k V) k x := by
  funext a
  by_cases h : a.val = k
  · rw [mask_lt (by omega), setRow_self h, setRow_self h]
  · rw [setRow_other h]
    by_cases h' : a.val < k
    · rw [mask_lt h', mask_lt (by omega), setRow_other h]
    · rw [mask_ge (by omega), mask_ge (by omega)]

theorem mask_setRow_ge {k i : Nat} (h : k ≤ i) (V : Fin m → Vec 𝕜 n) (x : Vec 𝕜 n) : mask k (setRow V i x) = mask k V := by
  funext a
  by_cases h' : a.val < k
  · rw [mask_lt h', mask_lt h', setRow_other (by omega)]
  · rw [mask_ge (by omega), mask_ge (by omega)]

theorem mask_full (V : Fin m → Vec 𝕜 n) : mask m V = V := funext fun a => mask_lt a.isLt

theorem tri_diag (al : Fin m → 𝕜) (be : Fin (m - 1) → 𝕜) {a b : Fin m} (h : a.val = b.val) : tri al be a b = al a :=
  if_pos h

theorem tri_sub (al : Fin m → 𝕜) (be : Fin (m - 1) → 𝕜) {a b : Fin m} (h : a.val = b.val + 1) :
    tri al be a b = be ⟨b.val, by omega⟩ := by
  unfold tri
  rw [if_neg (by omega), dif_pos h]

theorem tri_sup (al : Fin m → 𝕜) (be : Fin (m - 1) → 𝕜) {a b : Fin m} (h : b.val = a.val + 1) :
    tri al be a b = (starRingEnd 𝕜) (be ⟨a.val, by omega⟩) := by
  unfold tri
  rw [if_neg (by omega), dif_neg (by omega), dif_pos h]

theorem tri_far (al : Fin m → 𝕜) (be : Fin (m - 1) → 𝕜) {a b : Fin m} (h : a.val ≠ b.val) (h1 : a.val ≠ b.val + 1)
    (h2 : b.val ≠ a.val + 1) : tri al be a b = 0 := by
  unfold tri
  rw [if_neg h, dif_neg h1, dif_neg h2]

theorem tri_hess (al : Fin m → 𝕜) (be : Fin (m - 1) → 𝕜) : Hess (tri al be) := by
  intro a b hab
  unfold tri
  rw [if_neg (by omega), dif_neg (by omega), dif_neg (by omega)]

/-- A factorisation depends on the entries of the matrix within its length only. -/
theorem Fact.congr {A : Vec 𝕜 n →ₗ[𝕜] Vec 𝕜 n} {V : Fin m → Vec 𝕜 n} {H H' : Mat 𝕜 m} {k : Nat} {r : Vec 𝕜 n}
    (h : Fact A V H k r) (hH : ∀ a b : Fin m, a.val < k → b.val < k → H' a b = H a b) (hh : Hess H') : Fact A V H' k r := by
  refine ⟨h.le, h.ortho, h.zero, h.perp, fun j hj => ?_, hh⟩
  rw [h.rel j hj]
  congr 1
  refine Finset.sum_congr rfl fun l _ => ?_
  by_cases hl : l.val < k
  · rw [hH l j hl hj]
  · rw [h.zero l (by omega), smul_zero, smul_zero]

/-- What the loop of `_lanczos_fact` leaves behind. -/
structure LDone (A : Vec 𝕜 n →ₗ[𝕜] Vec 𝕜 n) (tol : ℝ) (c : LCarry 𝕜 n m) (r : Vec 𝕜 n) : Prop where
  fact : Fact A (mask c.i c.V) (tri c.al c.be) c.i r
  norm : ‖r‖ = c.norm
  full : tol < c.norm → c.i = m ∧ (c.norm : 𝕜) • c.vec = r

/-- A state of the loop of `_lanczos_fact` that will go on. -/
structure LGoing (A : Vec 𝕜 n →ₗ[𝕜] Vec 𝕜 n) (tol : ℝ) (c : LCarry 𝕜 n m) : Prop where
  pre : Pre A (mask (c.i + 1) c.V) (tri c.al c.be) c.i
  vec : ∀ a : Fin m, a.val = c.i → c.V a = c.vec
  norm : tol < c.norm

/-- The overlaps of the next vector are a column of the tridiagonal matrix. -/
theorem LGoing.overlaps {A : Vec 𝕜 n →ₗ[𝕜] Vec 𝕜 n} (hA : A.IsSymmetric) {tol : ℝ} {c : LCarry 𝕜 n m}
    (hg : LGoing A tol c) (l j : Fin m) (hj : j.val = c.i) (hl : l.val < c.i) :
    inner 𝕜 (mask (c.i + 1) c.V l) (A c.vec) = tri c.al c.be l j := by
  have hvec : mask (c.i + 1) c.V j = c.vec := by rw [mask_lt (by omega), hg.vec j hj]
  rw [← hA, hg.pre.rel l hl, ← hvec, ← inner_conj_symm,
    hg.pre.ortho.inner_sum (fun a ha => mask_ge ha) (a := j) (by omega)]
  by_cases h : j.val = l.val + 1
  · rw [tri_sub _ _ h, tri_sup _ _ h]
  · rw [tri_far _ _ (by omega) h (by omega), tri_far _ _ (by omega) (by omega) h, map_zero]

/-- One iteration from a factorisation of length `i` goes on or is done. -/
theorem LGoing.body {A : Vec 𝕜 n →ₗ[𝕜] Vec 𝕜 n} (hA : A.IsSymmetric) {tol : ℝ} (h0 : 0 ≤ tol) {c : LCarry 𝕜 n m}
    (hg : LGoing A tol c) :
    (LGoing A tol (lanczosBody A tol c) ∨ ∃ r, LDone A tol (lanczosBody A tol c) r) ∧
      (lanczosBody A tol c).i = c.i + 1 := by
  have hov := hg.overlaps hA
  obtain ⟨⟨hlt, ho, hz, hrel, hh⟩, hvec, hnorm⟩ := hg
  have hz' : ∀ a : Fin m, c.i + 1 ≤ a.val → mask (c.i + 1) c.V a = 0 := fun a ha => mask_ge ha
  have hgs : gramSchmidt (upTo c.i c.V) (A c.vec) = gsPass (mask (c.i + 1) c.V) (A c.vec) := by
    rw [upTo_eq_mask, gramSchmidt_eq ho hz']
  have hperp := gsPass_perp ho hz' (A c.vec)
  have hdec : A c.vec = (∑ l, (gsPass (mask (c.i + 1) c.V) (A c.vec)).2 l • mask (c.i + 1) c.V l) +
      (gsPass (mask (c.i + 1) c.V) (A c.vec)).1 := by
    unfold gsPass; simp
  have hov' : ∀ (l j : Fin m), j.val = c.i → l.val < c.i →
      (gsPass (mask (c.i + 1) c.V) (A c.vec)).2 l = tri c.al c.be l j := hov
  unfold lanczosBody
  rw [hgs]
  generalize gsPass (mask (c.i + 1) c.V) (A c.vec) = g at *
  have hread : readAt g.2 c.i = g.2 ⟨c.i, hlt⟩ := by
    unfold readAt
    rw [dif_pos (by omega)]
    exact congrArg g.2 (Fin.ext (show min c.i (m - 1) = c.i by omega))
  have htri : ∀ (be : Fin (m - 1) → 𝕜), (∀ b, b.val ≠ c.i → be b = c.be b) → ∀ l j : Fin m, l.val < c.i + 1 →
      (j.val < c.i → tri (setAt c.al c.i (readAt g.2 c.i)) be l j = tri c.al c.be l j) ∧
      (j.val = c.i → tri (setAt c.al c.i (readAt g.2 c.i)) be l j = g.2 l) := by
    intro be hbe l j hl
    constructor
    · intro hj
      unfold tri
      by_cases h1 : l.val = j.val
      · rw [if_pos h1, if_pos h1, setAt, if_neg (by omega)]
      · rw [if_neg h1, if_neg h1]
        by_cases h2 : l.val = j.val + 1
        · rw [dif_pos h2, dif_pos h2, hbe _ (by show j.val ≠ c.i; omega)]
        · rw [dif_neg h2, dif_neg h2]
          by_cases h3 : j.val = l.val + 1
          · rw [dif_pos h3, dif_pos h3, hbe _ (by show l.val ≠ c.i; omega)]
          · rw [dif_neg h3, dif_neg h3]
    · intro hj
      by_cases h1 : l.val = c.i
      · unfold tri
        have e : l = ⟨c.i, hlt⟩ := Fin.ext h1
        rw [if_pos (by omega), setAt, if_pos h1, hread, e]
      · rw [hov' l j hj (by omega)]
        by_cases h3 : j.val = l.val + 1
        · rw [tri_sup _ _ h3, tri_sup _ _ h3, hbe _ (by show l.val ≠ c.i; omega)]
        · rw [tri_far _ _ (by omega) (by omega) h3, tri_far _ _ (by omega) (by omega) h3]
  have hrelc : ∀ (be : Fin (m - 1) → 𝕜), (∀ b, b.val ≠ c.i → be b = c.be b) → ∀ j : Fin m, j.val < c.i + 1 →
      A (mask (c.i + 1) c.V j) = (∑ l, tri (setAt c.al c.i (readAt g.2 c.i)) be l j • mask (c.i + 1) c.V l) +
        if j.val + 1 = c.i + 1 then g.1 else 0 := by
    intro be hbe j hj
    have hsum : ∀ (x : Fin m → 𝕜), (∀ l : Fin m, l.val < c.i + 1 → tri (setAt c.al c.i (readAt g.2 c.i)) be l j = x l) →
        ∑ l, tri (setAt c.al c.i (readAt g.2 c.i)) be l j • mask (c.i + 1) c.V l = ∑ l, x l • mask (c.i + 1) c.V l := by
      intro x hx
      refine Finset.sum_congr rfl fun l _ => ?_
      by_cases hl : l.val < c.i + 1
      · rw [hx l hl]
      · rw [hz' l (by omega), smul_zero, smul_zero]
    by_cases hji : j.val = c.i
    · rw [if_pos (by omega), mask_lt hj, hvec j hji, hsum g.2 fun l hl => (htri be hbe l j hl).2 hji]
      exact hdec
    · rw [if_neg (by omega), add_zero, hrel j (by omega)]
      exact (hsum _ fun l hl => (htri be hbe l j hl).1 (by omega)).symm
  by_cases him : c.i + 1 < m
  · rw [if_pos him]
    refine ⟨?_, rfl⟩
    have hbe : ∀ b : Fin (m - 1), b.val ≠ c.i → setAt c.be c.i (‖g.1‖ : 𝕜) b = c.be b := fun b hb => if_neg hb
    have hr := hrelc _ hbe
    have hsR : ∀ j : Fin m, j.val < c.i + 1 → setRow (mask (c.i + 1) c.V) (c.i + 1) (normalize tol g.1) j =
        mask (c.i + 1) c.V j := fun j hj => setRow_other (by omega)
    by_cases hn : tol < ‖g.1‖
    · left
      suffices hp : Pre A (mask (c.i + 1 + 1) (setRow c.V (c.i + 1) (normalize tol g.1)))
          (tri (setAt c.al c.i (readAt g.2 c.i)) (setAt c.be c.i (‖g.1‖ : 𝕜))) (c.i + 1) from
        ⟨hp, fun a ha => setRow_self ha, hn⟩
      rw [mask_setRow]
      refine ⟨him, ho.setRow (norm_normalize h0 hn) fun a _ => inner_normalize (hperp a), fun a ha => ?_, fun j hj => ?_,
        tri_hess _ _⟩
      · rw [setRow_other (by omega)]; exact hz' a (by omega)
      · rw [hsR j hj, hr j hj, sum_setRow (fun a ha => hz' a (by omega)), dif_pos him]
        congr 1
        by_cases hji : j.val = c.i
        · have e : tri (setAt c.al c.i (readAt g.2 c.i)) (setAt c.be c.i (‖g.1‖ : 𝕜)) ⟨c.i + 1, him⟩ j = (‖g.1‖ : 𝕜) := by
            unfold tri
            rw [if_neg (by show ¬ c.i + 1 = j.val; omega), dif_pos (by show c.i + 1 = j.val + 1; omega), setAt,
              if_pos (by show j.val = c.i; omega)]
          rw [if_pos (by omega), e, smul_normalize h0 hn]
        · rw [if_neg (by omega), tri_hess _ _ _ _ (by show j.val + 1 < c.i + 1; omega), zero_smul]
    · right
      suffices hp : Fact A (mask (c.i + 1) (setRow c.V (c.i + 1) (normalize tol g.1)))
          (tri (setAt c.al c.i (readAt g.2 c.i)) (setAt c.be c.i (‖g.1‖ : 𝕜))) (c.i + 1) g.1 from
        ⟨g.1, hp, rfl, fun h => absurd h hn⟩
      rw [mask_setRow_ge (le_refl _)]
      exact ⟨by omega, ho, hz', fun a _ => hperp a, hr, tri_hess _ _⟩
  · rw [if_neg him]
    refine ⟨.inr ⟨g.1, ⟨⟨by show c.i + 1 ≤ m; omega, ho, hz', fun a _ => hperp a, hrelc c.be (fun _ _ => rfl), tri_hess _ _⟩,
      rfl, fun h => ⟨by show c.i + 1 = m; omega, ?_⟩⟩⟩, rfl⟩
    exact smul_normalize h0 h

theorem lanczosLoop_done {A : Vec 𝕜 n →ₗ[𝕜] Vec 𝕜 n} {tol : ℝ} {c : LCarry 𝕜 n m} {r : Vec 𝕜 n} (h : LDone A tol c r)
    (fuel : Nat) : lanczosLoop A tol fuel c = c := by
  cases fuel with
  | zero => rfl
  | succ k =>
    rw [lanczosLoop, if_neg]
    rintro ⟨h1, h2⟩
    have := (h.full h2).1
    omega

theorem lanczosLoop_going {A : Vec 𝕜 n →ₗ[𝕜] Vec 𝕜 n} (hA : A.IsSymmetric) {tol : ℝ} (h0 : 0 ≤ tol) :
    ∀ (fuel : Nat) {c : LCarry 𝕜 n m}, LGoing A tol c → m ≤ c.i + fuel →
      ∃ r, LDone A tol (lanczosLoop A tol fuel c) r ∧ c.i < (lanczosLoop A tol fuel c).i
  | 0, c, h, hm => absurd h.pre.lt (by omega)
  | fuel + 1, c, h, hm => by
    rw [lanczosLoop, if_pos ⟨h.pre.lt, h.norm⟩]
    obtain ⟨hb, hi⟩ := h.body hA h0
    rcases hb with hb | ⟨r, hb⟩
    · obtain ⟨r, hr, hl⟩ := lanczosLoop_going hA h0 fuel hb (by omega)
      exact ⟨r, hr, by omega⟩
    · rw [lanczosLoop_done hb]
      exact ⟨r, hb, by omega⟩

/-- `_lanczos_fact` extends a factorisation to a longer one, unless the residual is too small to begin with. -/
theorem lanczosFact_done {A : Vec 𝕜 n →ₗ[𝕜] Vec 𝕜 n} (hA : A.IsSymmetric) {tol : ℝ} (h0 : 0 ≤ tol)
    {V : Fin m → Vec 𝕜 n} {al : Fin m → 𝕜} {be : Fin (m - 1) → 𝕜} {k : Nat} {f : Vec 𝕜 n}
    (hf : Fact A (mask k V) (tri al be) k f) (hk : k < m) :
    ∃ r, LDone A tol (lanczosFact A tol f V al be k) r ∧ k ≤ (lanczosFact A tol f V al be k).i := by
  obtain ⟨hle, ho, hz, hperp, hrel, hh⟩ := hf
  have hbe : ∀ b : Fin (m - 1), b.val + 1 ≠ k → (if 0 < k then setAt be (k - 1) (‖f‖ : 𝕜) else be) b = be b := by
    intro b hb
    split_ifs
    · exact if_neg (by omega)
    · rfl
  have hbe' : ∀ b : Fin (m - 1), b.val + 1 = k → (if 0 < k then setAt be (k - 1) (‖f‖ : 𝕜) else be) b = (‖f‖ : 𝕜) := by
    intro b hb
    rw [if_pos (by omega)]; exact if_pos (by omega)
  unfold lanczosFact
  generalize (if 0 < k then setAt be (k - 1) (‖f‖ : 𝕜) else be) = be' at *
  have htri : ∀ l j : Fin m, l.val < k → j.val < k → tri al be' l j = tri al be l j := by
    intro l j hl hj
    unfold tri
    by_cases h1 : l.val = j.val
    · rw [if_pos h1, if_pos h1]
    · rw [if_neg h1, if_neg h1]
      by_cases h2 : l.val = j.val + 1
      · rw [dif_pos h2, dif_pos h2, hbe _ (by show j.val + 1 ≠ k; omega)]
      · rw [dif_neg h2, dif_neg h2]
        by_cases h3 : j.val = l.val + 1
        · rw [dif_pos h3, dif_pos h3, hbe _ (by show l.val + 1 ≠ k; omega)]
        · rw [dif_neg h3, dif_neg h3]
  have hsum : ∀ j : Fin m, j.val < k → ∑ l, tri al be' l j • mask k V l = ∑ l, tri al be l j • mask k V l := by
    intro j hj
    refine Finset.sum_congr rfl fun l _ => ?_
    by_cases hl : l.val < k
    · rw [htri l j hl hj]
    · rw [mask_ge (by omega), smul_zero, smul_zero]
  by_cases hn : tol < ‖f‖
  · have hg : LGoing A tol (⟨setRow V k (normalize tol f), al, be', normalize tol f, ‖f‖, k⟩ : LCarry 𝕜 n m) := by
      suffices hp : Pre A (mask (k + 1) (setRow V k (normalize tol f))) (tri al be') k from
        ⟨hp, fun a ha => setRow_self ha, hn⟩
      rw [mask_setRow]
      refine ⟨hk, ho.setRow (norm_normalize h0 hn) fun a ha => inner_normalize (hperp a ha), fun a ha => ?_,
        fun j hj => ?_, tri_hess _ _⟩
      · rw [setRow_other (by omega)]; exact hz a (by omega)
      · rw [setRow_other (by omega), hrel j hj, sum_setRow (fun a ha => hz a (by omega)), hsum j hj, dif_pos hk]
        congr 1
        by_cases hji : j.val + 1 = k
        · have e : tri al be' ⟨k, hk⟩ j = (‖f‖ : 𝕜) := by
            unfold tri
            rw [if_neg (by show ¬ k = j.val; omega), dif_pos (by show k = j.val + 1; omega), hbe' _ hji]
          rw [if_pos hji, e, smul_normalize h0 hn]
        · rw [if_neg hji, tri_hess _ _ _ _ (by show j.val + 1 < k; omega), zero_smul]
    obtain ⟨r, hr, hl⟩ := lanczosLoop_going hA h0 m hg (by omega)
    exact ⟨r, hr, le_of_lt hl⟩
  · have hd : LDone A tol (⟨setRow V k (normalize tol f), al, be', normalize tol f, ‖f‖, k⟩ : LCarry 𝕜 n m) f := by
      suffices hp : Fact A (mask k (setRow V k (normalize tol f))) (tri al be') k f from ⟨hp, rfl, fun h => absurd h hn⟩
      rw [mask_setRow_ge (le_refl _)]
      exact ⟨hle, ho, hz, hperp, fun j hj => by rw [hrel j hj, hsum j hj], tri_hess _ _⟩
    show ∃ r, LDone A tol (lanczosLoop A tol m _) r ∧ k ≤ (lanczosLoop A tol m _).i
    rw [lanczosLoop_done hd]
    exact ⟨f, hd, le_refl _⟩

/-- What is known of the state of the outer loop. -/
structure LInv (A : Vec 𝕜 n →ₗ[𝕜] Vec 𝕜 n) {numeig : Nat} (T : Kernels 𝕜 numeig) (eps tol : ℝ) (o : LOuter 𝕜 n m)
    (r : Vec 𝕜 n) : Prop where
  fact : Fact A (mask o.numits o.V) (tri o.al o.be) o.numits r
  norm : ‖r‖ = o.norm
  ar : o.converged = false → o.arConverged = decide (o.norm < tol)
  full : o.converged = false → tol < o.norm → o.numits = m ∧ o.f = r
  conv : o.converged = true → o.numits = numeig ∧ eighConverged T eps tol o.norm (leading numeig (tri o.al o.be))

theorem LDone.inv {A : Vec 𝕜 n →ₗ[𝕜] Vec 𝕜 n} {tol : ℝ} {c : LCarry 𝕜 n m} {r : Vec 𝕜 n} (h : LDone A tol c r)
    {numeig : Nat} (T : Kernels 𝕜 numeig) (eps : ℝ) : LInv A T eps tol (c.toOuter tol) r :=
  ⟨h.fact, h.norm, fun _ => rfl, fun _ => h.full, fun h => Bool.noConfusion h⟩

/-- A Hermitian Hessenberg matrix is given by its diagonal and its subdiagonal. -/
theorem tri_of_hess {H : Mat 𝕜 m} (hh : Hess H) (hs : ∀ a b, (starRingEnd 𝕜) (H b a) = H a b) {k : Nat} {a b : Fin m}
    (ha : a.val < k) (hb : b.val < k) :
    tri (fun a => if k ≤ a.val then 0 else H a a)
      (fun b => if k ≤ b.val + 1 then 0 else H ⟨b.val + 1, by omega⟩ ⟨b.val, by omega⟩) a b = H a b := by
  by_cases h1 : a.val = b.val
  · have e : a = b := Fin.ext h1
    rw [tri_diag _ _ h1]
    exact (if_neg (by omega)).trans (by rw [e])
  · by_cases h2 : a.val = b.val + 1
    · rw [tri_sub _ _ h2]
      refine (if_neg (by show ¬ k ≤ b.val + 1; omega)).trans ?_
      exact congrArg (fun x => H x b) (Fin.ext h2.symm)
    · by_cases h3 : b.val = a.val + 1
      · rw [tri_sup _ _ h3, ← hs a b]
        refine congrArg (starRingEnd 𝕜) ((if_neg (by show ¬ k ≤ a.val + 1; omega)).trans ?_)
        exact congrArg (fun x => H x a) (Fin.ext h3.symm)
      · rw [tri_far _ _ h1 h2 h3]
        rcases Nat.lt_or_ge a.val b.val with h4 | h4
        · rw [← hs a b, hh b a (by omega), map_zero]
        · rw [hh a b (by omega)]

theorem Comp.herm {A : Vec 𝕜 n →ₗ[𝕜] Vec 𝕜 n} (hA : A.IsSymmetric) {V : Fin m → Vec 𝕜 n} {H : Mat 𝕜 m} {k : Nat}
    (h : Comp A V H k) {a b : Fin m} (ha : a.val < k) (hb : b.val < k) : (starRingEnd 𝕜) (H b a) = H a b := by
  rw [← h.comp b a hb ha, ← h.comp a b ha hb, inner_conj_symm, hA]

/-- The factorisation after the shifted QR steps, cut down to `numeig` vectors. -/
theorem LInv.cut {K : Kernels 𝕜 m} (hK : K.QROK) {A : Vec 𝕜 n →ₗ[𝕜] Vec 𝕜 n} (hA : A.IsSymmetric)
    {eps tol : ℝ} {w : Which} {numeig : Nat} {T : Kernels 𝕜 numeig} (hn0 : 0 < numeig) (hn : numeig < m) {o : LOuter 𝕜 n m}
    {r : Vec 𝕜 n} (h : LInv A T eps tol o r) (hc : o.converged = false) (hlt : tol < o.norm) {s : (Fin m → Vec 𝕜 n) × Mat 𝕜 m × Vec 𝕜 n}
    (hs : s = shiftedQR K o.V (tri o.al o.be) o.f (shifts K w numeig (K.eig (tri o.al o.be)).1) numeig) :
    Fact A (mask numeig s.1) (tri (fun a => if numeig ≤ a.val then 0 else s.2.1 a a)
      (fun b => if numeig ≤ b.val + 1 then 0 else s.2.1 ⟨b.val + 1, by omega⟩ ⟨b.val, by omega⟩)) numeig s.2.2 ∧
      ∀ a b : Fin m, a.val < numeig → b.val < numeig → s.2.1 a b =
        tri (fun a => if numeig ≤ a.val then 0 else s.2.1 a a)
      (fun b => if numeig ≤ b.val + 1 then 0 else s.2.1 ⟨b.val + 1, by omega⟩ ⟨b.val, by omega⟩) a b := by
  obtain ⟨hm, hf⟩ := h.full hc hlt
  have hfact : Fact A o.V (tri o.al o.be) m o.f := by
    have := h.fact
    rw [hm, mask_full] at this
    rw [hf]; exact this
  obtain ⟨hr, hq⟩ := Rel.foldl hK (shifts K w numeig (K.eig (tri o.al o.be)).1)
    (o.V, tri o.al o.be, fun j => if j.val + 1 = m then 1 else 0) 0 hfact.toRel (fun j hj => if_neg (by omega))
  have hcomp := Comp.foldl hK (shifts K w numeig (K.eig (tri o.al o.be)).1)
    (o.V, tri o.al o.be, fun j => if j.val + 1 = m then 1 else 0) hfact.comp
  rw [shifts_length K w hn] at hq
  have hcut := hr.cut hn hn0 (fun j hj => hq j (by omega))
  have hfk := shiftedQR_f K o.V (tri o.al o.be) o.f (shifts K w numeig (K.eig (tri o.al o.be)).1) hn
  have hH : s.2.1 = ((shifts K w numeig (K.eig (tri o.al o.be)).1).foldl (qrBody K)
    (o.V, tri o.al o.be, fun j => if j.val + 1 = m then 1 else 0)).2.1 := by rw [hs]; rfl
  have hV : s.1 = ((shifts K w numeig (K.eig (tri o.al o.be)).1).foldl (qrBody K)
    (o.V, tri o.al o.be, fun j => if j.val + 1 = m then 1 else 0)).1 := by rw [hs]; rfl
  have htri : ∀ a b : Fin m, a.val < numeig → b.val < numeig → _ = _ := fun a b ha hb =>
    tri_of_hess (H := s.2.1) (k := numeig) (by rw [hH]; exact hr.hess)
      (fun a b => by rw [hH]; exact hcomp.herm hA a.isLt b.isLt) ha hb
  refine ⟨?_, fun a b ha hb => (htri a b ha hb).symm⟩
  have hmask : mask numeig s.1 = fun l => if numeig ≤ l.val then 0 else s.1 l := by
    funext l
    by_cases hl : l.val < numeig
    · rw [mask_lt hl, if_neg (by omega)]
    · rw [mask_ge (by omega), if_pos (by omega)]
  subst hs
  rw [hmask, hfk]
  refine Fact.congr (H := fun a b => if numeig ≤ a.val ∨ numeig ≤ b.val then 0 else (shiftedQR K o.V (tri o.al o.be) o.f
    (shifts K w numeig (K.eig (tri o.al o.be)).1) numeig).2.1 a b) hcut (fun a b ha hb => ?_) (tri_hess _ _)
  rw [if_neg (by omega)]
  exact htri a b ha hb

/-- A restart keeps the Lanczos relation. -/
theorem LInv.restart {K : Kernels 𝕜 m} (hK : K.QROK) {numeig : Nat} {T : Kernels 𝕜 numeig} {A : Vec 𝕜 n →ₗ[𝕜] Vec 𝕜 n}
    (hA : A.IsSymmetric) {eps tol : ℝ} (h0 : 0 ≤ tol) {w : Which} (hn0 : 0 < numeig) (hn : numeig < m)
    {o : LOuter 𝕜 n m} {r : Vec 𝕜 n} (h : LInv A T eps tol o r) (hc : o.converged = false) (hlt : tol < o.norm) :
    ∃ r', LInv A T eps tol (louterBody K T A eps tol w o) r' := by
  obtain ⟨hcut, hlead⟩ := h.cut hK hA hn0 hn hc hlt (w := w) rfl
  unfold louterBody
  simp only
  split_ifs with hcv
  · refine ⟨_, ⟨hcut, rfl, fun h => Bool.noConfusion h, fun h => Bool.noConfusion h, fun _ => ⟨rfl, ?_⟩⟩⟩
    have e : ∀ (H H' : Mat 𝕜 m), (∀ a b : Fin m, a.val < numeig → b.val < numeig → H a b = H' a b) →
        leading numeig H = leading numeig H' := by
      intro H H' hHH
      funext a b
      unfold leading readEntry
      rw [dif_pos (by omega), dif_pos (by omega)]
      refine hHH _ _ ?_ ?_
      · show min a.val (m - 1) < numeig; omega
      · show min b.val (m - 1) < numeig; omega
    rw [e _ _ hlead] at hcv
    exact hcv
  · obtain ⟨r', hd, -⟩ := lanczosFact_done hA h0 hcut hn
    exact ⟨r', hd.inv T eps⟩

theorem LInv.lt {A : Vec 𝕜 n →ₗ[𝕜] Vec 𝕜 n} {numeig : Nat} {T : Kernels 𝕜 numeig} {eps tol : ℝ} {o : LOuter 𝕜 n m}
    {r : Vec 𝕜 n} (h : LInv A T eps tol o r) (hs : ¬ (o.converged = true ∨ o.arConverged = true)) (hne : o.norm ≠ tol) :
    o.converged = false ∧ tol < o.norm := by
  obtain ⟨hc, ha⟩ := not_or.mp hs
  have hc : o.converged = false := Bool.eq_false_iff.mpr hc
  have ha : o.arConverged = false := Bool.eq_false_iff.mpr ha
  have := h.ar hc
  rw [ha] at this
  exact ⟨hc, lt_of_le_of_ne (not_lt.mp (of_decide_eq_false this.symm)) (Ne.symm hne)⟩

/-- The outer loop keeps the Lanczos relation. -/
theorem LInv.loop {K : Kernels 𝕜 m} (hK : K.QROK) {numeig : Nat} {T : Kernels 𝕜 numeig} {A : Vec 𝕜 n →ₗ[𝕜] Vec 𝕜 n}
    (hA : A.IsSymmetric) {eps tol : ℝ} (h0 : 0 ≤ tol) {w : Which} (hn0 : 0 < numeig) (hn : numeig < m) :
    ∀ (rest : Nat) (o : LOuter 𝕜 n m) (r : Vec 𝕜 n), LInv A T eps tol o r →
    (∀ i < rest, (louterLoop K T A eps tol w i o).converged = false → (louterLoop K T A eps tol w i o).norm ≠ tol) →
    ∃ r', LInv A T eps tol (louterLoop K T A eps tol w rest o) r'
  | 0, o, r, h, _ => ⟨r, h⟩
  | rest + 1, o, r, h, hne => by
    rw [louterLoop]
    by_cases hs : o.converged ∨ o.arConverged
    · rw [if_pos hs]; exact ⟨r, h⟩
    · rw [if_neg hs]
      have hc : o.converged = false := Bool.eq_false_iff.mpr (not_or.mp hs).1
      obtain ⟨-, hlt⟩ := h.lt hs (hne 0 (by omega) hc)
      obtain ⟨r', hr'⟩ := h.restart hK (T := T) hA (eps := eps) (w := w) h0 hn0 hn hc hlt
      refine LInv.loop hK hA h0 hn0 hn rest _ r' hr' fun i hi => ?_
      have := hne (i + 1) (by omega)
      rw [louterLoop, if_neg hs] at this
      exact this

end

end TN.Krylov
