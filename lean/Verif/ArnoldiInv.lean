import Verif.Arnoldi

/-!
# The Arnoldi relation is kept by `_arnoldi_fact`, by the shifted QR steps and by the restarts
-/

set_option linter.unusedSectionVars false

namespace TN.Krylov

noncomputable section

open Classical

variable {𝕜 : Type} [RCLike 𝕜] {n m : Nat}

/-- Zero below the first subdiagonal. -/
def Hess (H : Mat 𝕜 m) : Prop := ∀ a b : Fin m, b.val + 1 < a.val → H a b = 0

/-- The first `k` rows are orthonormal. -/
def Ortho (V : Fin m → Vec 𝕜 n) (k : Nat) : Prop :=
  ∀ a b : Fin m, a.val < k → b.val < k → inner 𝕜 (V a) (V b) = if a = b then 1 else 0

/-- `V`, `H` is an Arnoldi factorisation of length `k` with residual `r`. -/
structure Fact (A : Vec 𝕜 n →ₗ[𝕜] Vec 𝕜 n) (V : Fin m → Vec 𝕜 n) (H : Mat 𝕜 m) (k : Nat) (r : Vec 𝕜 n) : Prop where
  le : k ≤ m
  ortho : Ortho V k
  zero : ∀ a : Fin m, k ≤ a.val → V a = 0
  perp : ∀ a : Fin m, a.val < k → inner 𝕜 (V a) r = 0
  rel : ∀ j : Fin m, j.val < k → A (V j) = (∑ l, H l j • V l) + if j.val + 1 = k then r else 0
  hess : Hess H

/-- `V`, `H` is an Arnoldi factorisation of length `i` whose residual is a multiple of row `i`. -/
structure Pre (A : Vec 𝕜 n →ₗ[𝕜] Vec 𝕜 n) (V : Fin m → Vec 𝕜 n) (H : Mat 𝕜 m) (i : Nat) : Prop where
  lt : i < m
  ortho : Ortho V (i + 1)
  zero : ∀ a : Fin m, i < a.val → V a = 0
  rel : ∀ j : Fin m, j.val < i → A (V j) = ∑ l, H l j • V l
  hess : Hess H

theorem norm_normalize {tol : ℝ} {x : Vec 𝕜 n} (h0 : 0 ≤ tol) (h : tol < ‖x‖) : ‖normalize tol x‖ = 1 := by
  have hx : ‖x‖ ≠ 0 := by linarith
  rw [normalize, if_pos h, norm_smul]
  simp [hx]

theorem smul_normalize {tol : ℝ} {x : Vec 𝕜 n} (h0 : 0 ≤ tol) (h : tol < ‖x‖) :
    ((‖x‖ : ℝ) : 𝕜) • normalize tol x = x := by
  have hx : ‖x‖ ≠ 0 := by linarith
  rw [normalize, if_pos h, smul_smul, ← RCLike.ofReal_mul]
  simp [hx]

theorem inner_normalize {tol : ℝ} {x y : Vec 𝕜 n} (h : inner 𝕜 y x = 0) : inner 𝕜 y (normalize tol x) = 0 := by
  unfold normalize
  split_ifs
  · rw [inner_smul_right, h, mul_zero]
  · exact inner_zero_right _

theorem Ortho.inner_sum {V : Fin m → Vec 𝕜 n} {k : Nat} (h : Ortho V k) (hz : ∀ a : Fin m, k ≤ a.val → V a = 0)
    {a : Fin m} (ha : a.val < k) (c : Fin m → 𝕜) : inner 𝕜 (V a) (∑ l, c l • V l) = c a := by
  rw [_root_.inner_sum, Finset.sum_eq_single a]
  · rw [inner_smul_right, h a a ha ha, if_pos rfl, mul_one]
  · intro b _ hb
    rw [inner_smul_right]
    by_cases hbk : b.val < k
    · rw [h a b ha hbk, if_neg (Ne.symm hb), mul_zero]
    · rw [hz b (by omega), inner_zero_right, mul_zero]
  · simp

/-- One Gram–Schmidt pass leaves nothing in the direction of the vectors. -/
theorem gsPass_perp {V : Fin m → Vec 𝕜 n} {k : Nat} (h : Ortho V k) (hz : ∀ a : Fin m, k ≤ a.val → V a = 0)
    (w : Vec 𝕜 n) (a : Fin m) : inner 𝕜 (V a) (gsPass V w).1 = 0 := by
  by_cases ha : a.val < k
  · rw [gsPass, inner_sub_right, h.inner_sum hz ha, sub_self]
  · rw [hz a (by omega), inner_zero_left]

theorem gramSchmidt_eq {V : Fin m → Vec 𝕜 n} {k : Nat} (h : Ortho V k) (hz : ∀ a : Fin m, k ≤ a.val → V a = 0)
    (w : Vec 𝕜 n) : gramSchmidt V w = gsPass V w := by
  have hp := gsPass_perp h hz w
  have h2 : gsPass V (gsPass V w).1 = ((gsPass V w).1, fun _ => 0) := by
    conv_lhs => unfold gsPass
    refine Prod.ext ?_ ?_
    · show (gsPass V w).1 - ∑ l, inner 𝕜 (V l) (gsPass V w).1 • V l = (gsPass V w).1
      simp [hp]
    · show (fun l => inner 𝕜 (V l) (gsPass V w).1) = fun _ => 0
      funext l; exact hp l
  unfold gramSchmidt
  simp only [h2]
  refine Prod.ext rfl ?_
  funext l
  simp

theorem upTo_eq {V : Fin m → Vec 𝕜 n} {i : Nat} (hz : ∀ a : Fin m, i < a.val → V a = 0) : upTo i V = V := by
  funext a
  unfold upTo
  split_ifs with h
  · rfl
  · exact (hz a (by omega)).symm

/-- What the loop of `_arnoldi_fact` leaves behind. -/
structure Done (A : Vec 𝕜 n →ₗ[𝕜] Vec 𝕜 n) (tol : ℝ) (c : Carry 𝕜 n m) (r : Vec 𝕜 n) : Prop where
  fact : Fact A c.V c.H c.i r
  norm : ‖r‖ = c.norm
  full : tol < c.norm → c.i = m ∧ c.f = r


/-- A state of the loop of `_arnoldi_fact` that will go on. -/
structure Going (A : Vec 𝕜 n →ₗ[𝕜] Vec 𝕜 n) (tol : ℝ) (c : Carry 𝕜 n m) : Prop where
  pre : Pre A c.V c.H c.i
  vec : ∀ a : Fin m, a.val = c.i → c.V a = c.vec
  norm : tol < c.norm

theorem setRow_other {V : Fin m → Vec 𝕜 n} {i : Nat} {x : Vec 𝕜 n} {a : Fin m} (h : a.val ≠ i) : setRow V i x a = V a :=
  if_neg h

theorem setRow_self {V : Fin m → Vec 𝕜 n} {i : Nat} {x : Vec 𝕜 n} {a : Fin m} (h : a.val = i) : setRow V i x a = x :=
  if_pos h

/-- Adding a unit vector that is orthogonal to the first rows. -/
theorem Ortho.setRow {V : Fin m → Vec 𝕜 n} {k : Nat} (h : Ortho V k) {x : Vec 𝕜 n} (hx : ‖x‖ = 1)
    (hp : ∀ a : Fin m, a.val < k → inner 𝕜 (V a) x = 0) : Ortho (setRow V k x) (k + 1) := by
  have hxx : inner 𝕜 x x = (1 : 𝕜) := by rw [inner_self_eq_norm_sq_to_K, hx]; simp
  intro a b ha hb
  by_cases hak : a.val = k <;> by_cases hbk : b.val = k
  · have : a = b := Fin.ext (by omega)
    rw [setRow_self hak, setRow_self hbk, hxx, if_pos this]
  · have : a ≠ b := fun e => hbk (e ▸ hak)
    rw [setRow_self hak, setRow_other hbk, if_neg this, ← inner_conj_symm, hp b (by omega), map_zero]
  · have : a ≠ b := fun e => hak (e ▸ hbk)
    rw [setRow_other hak, setRow_self hbk, if_neg this, hp a (by omega)]
  · rw [setRow_other hak, setRow_other hbk, h a b (by omega) (by omega)]

/-- A sum over the rows, one of which has been set. -/
theorem sum_setRow {V : Fin m → Vec 𝕜 n} {k : Nat} {x : Vec 𝕜 n} (hk : ∀ a : Fin m, a.val = k → V a = 0)
    (c : Fin m → 𝕜) : ∑ l, c l • setRow V k x l = (∑ l, c l • V l) + if h : k < m then c ⟨k, h⟩ • x else 0 := by
  by_cases h : k < m
  · rw [dif_pos h]
    have h1 : ∀ l : Fin m, c l • setRow V k x l = c l • V l + if l = ⟨k, h⟩ then c ⟨k, h⟩ • x else 0 := by
      intro l
      by_cases hl : l.val = k
      · have e : l = ⟨k, h⟩ := Fin.ext hl
        rw [setRow_self hl, hk l hl, if_pos e, smul_zero, zero_add, e]
      · rw [setRow_other hl, if_neg (fun e => hl (by rw [e])), add_zero]
    rw [Finset.sum_congr rfl fun l _ => h1 l, Finset.sum_add_distrib, Finset.sum_ite_eq' Finset.univ]
    simp
  · rw [dif_neg h, add_zero]
    exact Finset.sum_congr rfl fun l _ => by rw [setRow_other (by omega)]

/-- One iteration from a factorisation of length `i` goes on or is done. -/
theorem Going.body {A : Vec 𝕜 n →ₗ[𝕜] Vec 𝕜 n} {tol : ℝ} (h0 : 0 ≤ tol) {c : Carry 𝕜 n m} (hg : Going A tol c) :
    (Going A tol (arnoldiBody A tol c) ∨ ∃ r, Done A tol (arnoldiBody A tol c) r) ∧
      (arnoldiBody A tol c).i = c.i + 1 := by
  obtain ⟨⟨hlt, ho, hz, hrel, hh⟩, hvec, hnorm⟩ := hg
  have hz' : ∀ a : Fin m, c.i + 1 ≤ a.val → c.V a = 0 := fun a ha => hz a (by omega)
  have hgs : gramSchmidt (upTo c.i c.V) (A c.vec) = gsPass c.V (A c.vec) := by
    rw [upTo_eq hz, gramSchmidt_eq ho hz']
  have hperp := gsPass_perp ho hz' (A c.vec)
  have hdec : A c.vec = (∑ l, (gsPass c.V (A c.vec)).2 l • c.V l) + (gsPass c.V (A c.vec)).1 := by
    unfold gsPass; simp
  have hov : ∀ l : Fin m, c.i < l.val → (gsPass c.V (A c.vec)).2 l = 0 := by
    intro l hl; show inner 𝕜 (c.V l) _ = 0
    rw [hz l hl, inner_zero_left]
  have hvi : c.V ⟨c.i, hlt⟩ = c.vec := hvec _ rfl
  unfold arnoldiBody
  rw [hgs]
  generalize gsPass c.V (A c.vec) = g at *
  have hcol : ∀ (l j : Fin m), j.val ≠ c.i → setCol c.H c.i g.2 l j = c.H l j := fun l j hj => if_neg hj
  have hcoli : ∀ (l j : Fin m), j.val = c.i → setCol c.H c.i g.2 l j = g.2 l := fun l j hj => if_pos hj
  have hhc : Hess (setCol c.H c.i g.2) := by
    intro a b hab
    by_cases hb : b.val = c.i
    · rw [hcoli a b hb]; exact hov a (by omega)
    · rw [hcol a b hb]; exact hh a b hab
  have hrelc : ∀ j : Fin m, j.val < c.i + 1 →
      A (c.V j) = (∑ l, setCol c.H c.i g.2 l j • c.V l) + if j.val + 1 = c.i + 1 then g.1 else 0 := by
    intro j hj
    by_cases hji : j.val = c.i
    · rw [if_pos (by omega), hvec j hji, Finset.sum_congr rfl fun l _ => by rw [hcoli l j hji]]
      exact hdec
    · rw [if_neg (by omega), add_zero, hrel j (by omega)]
      exact Finset.sum_congr rfl fun l _ => by rw [hcol l j hji]
  by_cases him : c.i + 1 < m
  · rw [if_pos him]
    refine ⟨?_, rfl⟩
    have hent : ∀ l j : Fin m, ¬ (l.val = c.i + 1 ∧ j.val = c.i) →
        setEntry (setCol c.H c.i g.2) (c.i + 1) c.i (‖g.1‖ : 𝕜) l j = setCol c.H c.i g.2 l j := fun l j h => if_neg h
    have hhe : Hess (setEntry (setCol c.H c.i g.2) (c.i + 1) c.i (‖g.1‖ : 𝕜)) := by
      intro a b hab
      rw [hent a b (by omega)]; exact hhc a b hab
    have hsum : ∀ j : Fin m, ∑ l, setEntry (setCol c.H c.i g.2) (c.i + 1) c.i (‖g.1‖ : 𝕜) l j • c.V l =
        ∑ l, setCol c.H c.i g.2 l j • c.V l := by
      intro j
      refine Finset.sum_congr rfl fun l _ => ?_
      by_cases hl : l.val = c.i + 1
      · rw [hz l (by omega), smul_zero, smul_zero]
      · rw [hent l j (by omega)]
    have hsR : ∀ j : Fin m, j.val < c.i + 1 → setRow c.V (c.i + 1) (normalize tol g.1) j = c.V j :=
      fun j hj => setRow_other (by omega)
    by_cases hn : tol < ‖g.1‖
    · left
      suffices hp : Pre A (setRow c.V (c.i + 1) (normalize tol g.1))
          (setEntry (setCol c.H c.i g.2) (c.i + 1) c.i (‖g.1‖ : 𝕜)) (c.i + 1) from ⟨hp, fun a ha => setRow_self ha, hn⟩
      refine ⟨him, ho.setRow (norm_normalize h0 hn) fun a _ => inner_normalize (hperp a), fun a ha => ?_, fun j hj => ?_,
        hhe⟩
      · rw [setRow_other (by omega)]; exact hz a (by omega)
      · rw [hsR j hj, hrelc j hj, sum_setRow (fun a ha => hz a (by omega)), hsum, dif_pos him]
        congr 1
        by_cases hji : j.val = c.i
        · rw [if_pos (by omega), setEntry, if_pos ⟨rfl, hji⟩, smul_normalize h0 hn]
        · rw [if_neg (by omega), hent _ _ (by omega), hcol _ _ hji, hh _ _ (by show j.val + 1 < c.i + 1; omega), zero_smul]
    · right
      have hw : normalize tol g.1 = 0 := if_neg hn
      suffices hp : Fact A (setRow c.V (c.i + 1) (normalize tol g.1))
          (setEntry (setCol c.H c.i g.2) (c.i + 1) c.i (‖g.1‖ : 𝕜)) (c.i + 1) g.1 from
        ⟨g.1, hp, rfl, fun h => absurd h hn⟩
      refine ⟨by omega, ?_, ?_, ?_, ?_, hhe⟩
      · intro a b ha hb
        rw [hsR a ha, hsR b hb]; exact ho a b ha hb
      · intro a ha
        by_cases hai : a.val = c.i + 1
        · rw [setRow_self hai, hw]
        · rw [setRow_other hai]; exact hz a (by omega)
      · intro a ha
        rw [hsR a ha]; exact hperp a
      · intro j hj
        rw [hsR j hj, hrelc j hj, sum_setRow (fun a ha => hz a (by omega)), hsum, hw]
        simp
  · rw [if_neg him]
    refine ⟨.inr ⟨g.1, ⟨⟨by show c.i + 1 ≤ m; omega, ho, hz', fun a _ => hperp a, hrelc, hhc⟩, rfl, fun h => ⟨by show c.i + 1 = m; omega, ?_⟩⟩⟩, rfl⟩
    exact smul_normalize h0 h

theorem arnoldiLoop_done {A : Vec 𝕜 n →ₗ[𝕜] Vec 𝕜 n} {tol : ℝ} {c : Carry 𝕜 n m} {r : Vec 𝕜 n} (h : Done A tol c r)
    (fuel : Nat) : arnoldiLoop A tol fuel c = c := by
  cases fuel with
  | zero => rfl
  | succ k =>
    rw [arnoldiLoop, if_neg]
    rintro ⟨h1, h2⟩
    have := (h.full h2).1
    omega

theorem arnoldiLoop_going {A : Vec 𝕜 n →ₗ[𝕜] Vec 𝕜 n} {tol : ℝ} (h0 : 0 ≤ tol) : ∀ (fuel : Nat) {c : Carry 𝕜 n m},
    Going A tol c → m ≤ c.i + fuel → ∃ r, Done A tol (arnoldiLoop A tol fuel c) r ∧ c.i < (arnoldiLoop A tol fuel c).i
  | 0, c, h, hm => absurd h.pre.lt (by omega)
  | fuel + 1, c, h, hm => by
    rw [arnoldiLoop, if_pos ⟨h.pre.lt, h.norm⟩]
    obtain ⟨hb, hi⟩ := h.body h0
    rcases hb with hb | ⟨r, hb⟩
    · obtain ⟨r, hr, hl⟩ := arnoldiLoop_going h0 fuel hb (by omega)
      exact ⟨r, hr, by omega⟩
    · rw [arnoldiLoop_done hb]
      exact ⟨r, hb, by omega⟩

/-- `_arnoldi_fact` extends a factorisation to a longer one, unless the residual is too small to begin with. -/
theorem arnoldiFact_done {A : Vec 𝕜 n →ₗ[𝕜] Vec 𝕜 n} {tol : ℝ} (h0 : 0 ≤ tol) {V : Fin m → Vec 𝕜 n} {H : Mat 𝕜 m}
    {k : Nat} {f : Vec 𝕜 n} (hf : Fact A V H k f) (hk : k < m) :
    ∃ r, Done A tol (arnoldiFact A tol f V H k) r ∧ k ≤ (arnoldiFact A tol f V H k).i ∧
      (tol < ‖f‖ → k < (arnoldiFact A tol f V H k).i) := by
  obtain ⟨hle, ho, hz, hperp, hrel, hh⟩ := hf
  have hent : ∀ l j : Fin m, ¬ (l.val = k ∧ j.val + 1 = k) →
      (if 0 < k then setEntry H k (k - 1) (‖f‖ : 𝕜) else H) l j = H l j := by
    intro l j h
    split_ifs with hk0
    · exact if_neg (by omega)
    · rfl
  have hent' : ∀ l j : Fin m, l.val = k → j.val + 1 = k →
      (if 0 < k then setEntry H k (k - 1) (‖f‖ : 𝕜) else H) l j = (‖f‖ : 𝕜) := by
    intro l j h h'
    rw [if_pos (by omega)]; exact if_pos (by omega)
  have hhe : Hess (if 0 < k then setEntry H k (k - 1) (‖f‖ : 𝕜) else H) := by
    intro a b hab
    rw [hent a b (by omega)]; exact hh a b hab
  unfold arnoldiFact
  generalize (if 0 < k then setEntry H k (k - 1) (‖f‖ : 𝕜) else H) = H' at *
  have hsum : ∀ j : Fin m, ∑ l, H' l j • V l = ∑ l, H l j • V l := by
    intro j
    refine Finset.sum_congr rfl fun l _ => ?_
    by_cases hl : l.val = k
    · rw [hz l (by omega), smul_zero, smul_zero]
    · rw [hent l j (by omega)]
  have hsR : ∀ j : Fin m, j.val < k → setRow V k (normalize tol f) j = V j := fun j hj => setRow_other (by omega)
  by_cases hn : tol < ‖f‖
  · have hg : Going A tol (⟨setRow V k (normalize tol f), H', normalize tol f, ‖f‖, k⟩ : Carry 𝕜 n m) := by
      suffices hp : Pre A (setRow V k (normalize tol f)) H' k from ⟨hp, fun a ha => setRow_self ha, hn⟩
      refine ⟨hk, ho.setRow (norm_normalize h0 hn) fun a ha => inner_normalize (hperp a ha), fun a ha => ?_,
        fun j hj => ?_, hhe⟩
      · rw [setRow_other (by omega)]; exact hz a (by omega)
      · rw [hsR j hj, hrel j hj, sum_setRow (fun a ha => hz a (by omega)), hsum, dif_pos hk]
        congr 1
        by_cases hji : j.val + 1 = k
        · rw [if_pos hji, hent' _ _ rfl hji, smul_normalize h0 hn]
        · rw [if_neg hji, hent _ _ (by omega), hh _ _ (by show j.val + 1 < k; omega), zero_smul]
    obtain ⟨r, hr, hl⟩ := arnoldiLoop_going h0 m hg (by omega)
    exact ⟨r, hr, le_of_lt hl, fun _ => hl⟩
  · have hw : normalize tol f = 0 := if_neg hn
    have hd : Done A tol (⟨setRow V k (normalize tol f), H', normalize tol f, ‖f‖, k⟩ : Carry 𝕜 n m) f := by
      suffices hp : Fact A (setRow V k (normalize tol f)) H' k f from ⟨hp, rfl, fun h => absurd h hn⟩
      refine ⟨hle, ?_, ?_, ?_, ?_, hhe⟩
      · intro a b ha hb
        rw [hsR a ha, hsR b hb]; exact ho a b ha hb
      · intro a ha
        by_cases hai : a.val = k
        · rw [setRow_self hai, hw]
        · rw [setRow_other hai]; exact hz a (by omega)
      · intro a ha
        rw [hsR a ha]; exact hperp a ha
      · intro j hj
        rw [hsR j hj, hrel j hj, sum_setRow (fun a ha => hz a (by omega)), hsum, hw]
        simp
    show ∃ r, Done A tol (arnoldiLoop A tol m _) r ∧ k ≤ (arnoldiLoop A tol m _).i ∧
      (tol < ‖f‖ → k < (arnoldiLoop A tol m _).i)
    rw [arnoldiLoop_done hd]
    exact ⟨f, hd, le_refl _, fun h => absurd h hn⟩

end

end TN.Krylov
