import Verif.Nd
import Mathlib.Algebra.Order.Field.Basic
import Mathlib.Algebra.Order.BigOperators.Group.List
import Mathlib.Data.List.Sort
import Mathlib.Tactic.Linarith
import Mathlib.Tactic.Ring
import Mathlib.Tactic.Positivity
import Mathlib.Algebra.Order.Field.Rat
import Mathlib.Analysis.SpecialFunctions.Sqrt

/-!
# The truncation of singular values by the symmetric backend (backends/symmetric/decompositions.py:62-136)
-/

set_option linter.unusedSectionVars false

namespace TN.Trunc

section
variable {K : Type} [Field K] [LinearOrder K] [IsStrictOrderedRing K]

/-! ## Model -/

/-- `np.ravel(extended_singvals)` (decompositions.py:73-83): the blocks, filled up with zeros, are the
columns of a matrix. -/
def extended (blocks : List (List K)) : List K :=
  (List.range ((blocks.map List.length).foldr max 0)).flatMap (fun i => blocks.map (fun s => s.getD i 0))

/-- `np.cumsum(np.square(v))` -/
def cumsq : K → List K → List K
  | _, [] => []
  | acc, x :: l => (acc + x ^ 2) :: cumsq (acc + x ^ 2) l

/-- `l[:k]` for an integer `k`. -/
def sliceTo {α : Type} (l : List α) (k : Int) : List α :=
  if 0 ≤ k then l.take k.toNat else l.take (l.length - (-k).toNat)

/-- `[s[0] for s in singvals]` -/
def heads : List (List K) → Py (List K)
  | [] => .ok []
  | [] :: _ => .error .indexError
  | (x :: _) :: bs => do
    let r ← heads bs
    .ok (x :: r)

/-- `max_truncation_error`, multiplied by the largest first value if `relative` (decompositions.py:88-90). -/
def scaled (blocks : List (List K)) (err : K) (relative : Bool) : Py K :=
  if relative ∧ blocks.length > 0 then do
    let h ← heads blocks
    .ok (err * h.foldr max 0)
  else .ok err

/-- The bound of the error discards positions (decompositions.py:86-100): the discarded and the remaining
positions of the sorted values. -/
def maskStage (sqrt : K → K) (blocks : List (List K)) (maxErr : Option K) (relative : Bool) (inds : List Nat) :
    Py (List Nat × List Nat) :=
  match maxErr with
  | none => .ok ([], inds)
  | some err => do
    let err ← scaled blocks err relative
    let cs := cumsq 0 (inds.map (fun k => (extended blocks).getD k 0))
    .ok (((inds.zip cs).filter (fun p => ¬ err < sqrt p.2)).map Prod.fst,
      ((inds.zip cs).filter (fun p => err < sqrt p.2)).map Prod.fst)

/-- The number of values discards positions (decompositions.py:101-112).  For 0 the slice `inds[:-0]` is empty
and `inds[-0:]` is everything. -/
def limitStage (maxS : Option Nat) (disc inds : List Nat) : List Nat × List Nat :=
  match maxS with
  | none => (disc, inds)
  | some m =>
    if m < inds.length then
      if m = 0 then (disc, inds)
      else (disc ++ inds.take (inds.length - m), inds.drop (inds.length - m))
    else (disc, inds)

/-- `max_singular_values` is ignored if it is not smaller than the number of values (decompositions.py:66-68). -/
def effective (maxS : Option Nat) (orig : Nat) : Option Nat :=
  match maxS with
  | some m => if m ≥ orig then none else some m
  | none => none

/-- The truncation of the blocks of singular values (decompositions.py:62-136): the kept and the
discarded values of every block.  `argsort` is `np.argsort(..., kind='stable')`, `sqrt` is `np.sqrt`. -/
def truncate (argsort : List K → List Nat) (sqrt : K → K) (blocks : List (List K)) (maxS : Option Nat)
    (maxErr : Option K) (relative : Bool) : Py (List (List K) × List (List K)) := do
  let maxS := effective maxS (blocks.map List.length).sum
  if maxErr = none ∧ maxS = none then .ok (blocks, [])
  else
    let ext := extended blocks
    let r ← maskStage sqrt blocks maxErr relative (argsort ext)
    let r := limitStage maxS r.1 r.2
    let nb := blocks.length
    let column := fun (l : List Nat) (n : Nat) => ((l.filter (fun k => k % nb = n)).map (fun k => ext.getD k 0)).reverse
    let kept := (List.range nb).map (column r.2)
    .ok (kept, (List.range nb).map (fun n => sliceTo (column r.1 n)
      (((blocks.getD n []).length : Int) - ((kept.getD n []).length : Int))))

/-! ## Specification -/

/-- `argsort` returns a permutation that sorts. -/
def SortOK (argsort : List K → List Nat) : Prop :=
  ∀ l, (argsort l).Perm (List.range l.length) ∧ ((argsort l).map (fun i => l.getD i 0)).Pairwise (· ≤ ·)

/-- The sum of squares. -/
def sumsq (l : List K) : K := (l.map (· ^ 2)).sum

/-- The blocks of singular values: none is empty, the values decrease and are not negative. -/
def Spectra (blocks : List (List K)) : Prop :=
  ∀ s ∈ blocks, s ≠ [] ∧ s.Pairwise (· ≥ ·) ∧ ∀ x ∈ s, 0 ≤ x

/-! ## The mask of the error bound -/

theorem sumsq_nonneg (l : List K) : 0 ≤ sumsq l := by
  apply List.sum_nonneg
  intro x hx
  obtain ⟨y, _, rfl⟩ := List.mem_map.1 hx
  positivity

theorem cumsq_length (acc : K) (l : List K) : (cumsq acc l).length = l.length := by
  induction l generalizing acc with
  | nil => rfl
  | cons x l ih => rw [cumsq, List.length_cons, ih, List.length_cons]

theorem cumsq_ge {acc : K} {l : List K} : ∀ c ∈ cumsq acc l, acc ≤ c := by
  induction l generalizing acc with
  | nil => simp [cumsq]
  | cons x l ih =>
    intro c hc
    rw [cumsq, List.mem_cons] at hc
    have hx : 0 ≤ x ^ 2 := by positivity
    rcases hc with rfl | hc
    · linarith
    · have := ih c hc; linarith

/-- The discarded positions are a prefix, the longest one within the bound. -/
theorem mask_spec {sqrt : K → K} (hm : ∀ x y, 0 ≤ x → x ≤ y → sqrt x ≤ sqrt y) (err : K) (P : List Nat) (f : Nat → K)
    {acc : K} (hacc : 0 ≤ acc) :
    ∃ D ≤ P.length,
      ((P.zip (cumsq acc (P.map f))).filter (fun p => ¬ err < sqrt p.2)).map Prod.fst = P.take D ∧
      ((P.zip (cumsq acc (P.map f))).filter (fun p => err < sqrt p.2)).map Prod.fst = P.drop D ∧
      (D ≠ 0 → sqrt (acc + sumsq ((P.take D).map f)) ≤ err) ∧
      (D < P.length → err < sqrt (acc + sumsq ((P.take (D + 1)).map f))) := by
  induction P generalizing acc with
  | nil => exact ⟨0, by simp, by simp, by simp, by simp, by simp⟩
  | cons p P ih =>
    have hx : 0 ≤ f p ^ 2 := by positivity
    by_cases h : err < sqrt (acc + f p ^ 2)
    · have hall : ∀ c ∈ (p, acc + f p ^ 2) :: (P.zip (cumsq (acc + f p ^ 2) (P.map f))), err < sqrt c.2 := by
        intro c hc
        rw [List.mem_cons] at hc
        rcases hc with rfl | hc
        · exact h
        · have := cumsq_ge _ (List.of_mem_zip hc).2
          exact lt_of_lt_of_le h (hm _ _ (by linarith) this)
      have hz : (p :: P).zip (cumsq acc ((p :: P).map f)) =
          (p, acc + f p ^ 2) :: (P.zip (cumsq (acc + f p ^ 2) (P.map f))) := rfl
      refine ⟨0, by simp, ?_, ?_, by simp, ?_⟩
      · rw [hz, List.filter_eq_nil_iff.2]
        · simp
        · intro c hc; simpa using hall c hc
      · rw [hz, List.filter_eq_self.2]
        · rw [List.map_cons, List.map_fst_zip (by rw [cumsq_length, List.length_map])]
          rfl
        · intro c hc; simpa using hall c hc
      · intro _
        simpa [sumsq] using h
    · obtain ⟨D, d1, d2, d3, d4, d5⟩ := ih (acc := acc + f p ^ 2) (by linarith)
      have hz : (p :: P).zip (cumsq acc ((p :: P).map f)) =
          (p, acc + f p ^ 2) :: (P.zip (cumsq (acc + f p ^ 2) (P.map f))) := rfl
      refine ⟨D + 1, by simpa using d1, ?_, ?_, ?_, ?_⟩
      · rw [hz, List.filter_cons_of_pos (by simpa using h), List.map_cons, d2, List.take_succ_cons]
      · rw [hz, List.filter_cons_of_neg (by simpa using h), d3, List.drop_succ_cons]
      · intro _
        rw [List.take_succ_cons, List.map_cons, sumsq, List.map_cons, List.sum_cons, ← add_assoc]
        by_cases h0 : D = 0
        · subst h0
          simpa using h
        · exact d4 h0
      · intro hlt
        rw [List.take_succ_cons, List.map_cons, sumsq, List.map_cons, List.sum_cons, ← add_assoc]
        exact d5 (by simpa using hlt)

/-! ## The columns of the padded matrix -/

theorem mul_add_mod_lt {D nb x : Nat} (hx : x < nb) : (D * nb + x) % nb = x := by
  rw [Nat.add_comm, Nat.add_mul_mod_self_right, Nat.mod_eq_of_lt hx]

/-- The number of rows of the padded matrix. -/
def rows (blocks : List (List K)) : Nat := (blocks.map List.length).foldr max 0

theorem length_le_rows (blocks : List (List K)) : ∀ s ∈ blocks, s.length ≤ rows blocks := by
  induction blocks with
  | nil => simp
  | cons b bs ih =>
    intro s hs
    rw [rows, List.map_cons, List.foldr_cons]
    rcases List.mem_cons.1 hs with rfl | hs
    · exact le_max_left _ _
    · exact le_trans (ih s hs) (le_max_right _ _)

theorem flatMap_getD {α : Type} (d : α) (nb : Nat) (g : Nat → List α) (hg : ∀ i, (g i).length = nb) (D k : Nat) (hk : k < D * nb) :
    ((List.range D).flatMap g).getD k d = (g (k / nb)).getD (k % nb) d := by
  induction D with
  | zero => simp at hk
  | succ D ih =>
    have hl : ((List.range D).flatMap g).length = D * nb := by
      rw [List.length_flatMap]
      simp [hg]
    have hnb : 0 < nb := by
      rcases Nat.eq_zero_or_pos nb with h | h
      · subst h; simp at hk
      · exact h
    rw [List.range_succ, List.flatMap_append, List.flatMap_cons, List.flatMap_nil, List.append_nil]
    by_cases h : k < D * nb
    · rw [List.getD_append _ _ _ _ (by rw [hl]; exact h), ih h]
    · have h1 : k / nb = D := by
        apply Nat.div_eq_of_lt_le
        · omega
        · exact hk
      have h2 : k - D * nb = k % nb := by
        have := Nat.div_add_mod k nb
        rw [h1, Nat.mul_comm] at this
        omega
      rw [List.getD_append_right _ _ _ _ (by rw [hl]; omega), hl, h1, h2]

theorem extended_length (blocks : List (List K)) : (extended blocks).length = rows blocks * blocks.length := by
  rw [extended, List.length_flatMap]
  simp [rows]

theorem extended_getD (blocks : List (List K)) {k : Nat} (hk : k < rows blocks * blocks.length) :
    (extended blocks).getD k 0 = (blocks.getD (k % blocks.length) []).getD (k / blocks.length) 0 := by
  have hnb : 0 < blocks.length := by
    rcases Nat.eq_zero_or_pos blocks.length with h | h
    · rw [h] at hk; simp at hk
    · exact h
  have hm := Nat.mod_lt k hnb
  rw [extended, show (blocks.map List.length).foldr max 0 = rows blocks from rfl, flatMap_getD 0 blocks.length _ (by simp) _ _ hk, List.getD_eq_getElem _ _ (by simpa using hm),
    List.getD_eq_getElem _ _ hm, List.getElem_map]

theorem filter_range_mod (nb n D : Nat) (hn : n < nb) :
    (List.range (D * nb)).filter (fun k => k % nb = n) = (List.range D).map (fun i => i * nb + n) := by
  induction D with
  | zero => simp
  | succ D ih =>
    rw [Nat.succ_mul, List.range_add, List.filter_append, ih, List.range_succ, List.map_append]
    congr 1
    rw [List.filter_map]
    have : (List.range nb).filter ((fun k => decide (k % nb = n)) ∘ fun x => D * nb + x) = [n] := by
      have h1 : (List.range nb).filter ((fun k => decide (k % nb = n)) ∘ fun x => D * nb + x) =
          (List.range nb).filter (fun x => x == n) := by
        apply List.filter_congr
        intro x hx
        have hx := List.mem_range.1 hx
        simp only [Function.comp_apply]
        rw [mul_add_mod_lt hx, beq_eq_decide]
      rw [h1, List.filter_beq, List.count_eq_one_of_mem List.nodup_range (List.mem_range.2 hn)]
      rfl
    rw [this]
    rfl

/-- A block filled up with zeros. -/
def padded (D : Nat) (s : List K) : List K := s ++ List.replicate (D - s.length) 0

theorem padded_eq (D : Nat) (s : List K) (h : s.length ≤ D) : (List.range D).map (fun i => s.getD i 0) = padded D s := by
  apply List.ext_getElem
  · simp [padded]; omega
  · intro i h1 h2
    have h1 : i < D := by simpa using h1
    rw [List.getElem_map, List.getElem_range]
    by_cases hi : i < s.length
    · simp only [padded, List.getElem_append_left hi]
      rw [List.getD_eq_getElem _ _ hi]
    · simp only [padded]
      rw [List.getElem_append_right (by omega), List.getElem_replicate, List.getD_eq_default _ _ (by omega)]

theorem padded_sorted (D : Nat) {s : List K} (hs : s.Pairwise (· ≥ ·)) (h0 : ∀ x ∈ s, 0 ≤ x) :
    (padded D s).Pairwise (· ≥ ·) := by
  rw [padded, List.pairwise_append]
  refine ⟨hs, List.pairwise_replicate.2 (Or.inr (le_refl _)), ?_⟩
  intro a ha b hb
  rw [(List.mem_replicate.1 hb).2]
  exact h0 a ha

/-- The values at the positions of column `n`, in reverse order. -/
def column (ext : List K) (nb : Nat) (l : List Nat) (n : Nat) : List K :=
  ((l.filter (fun k => k % nb = n)).map (fun k => ext.getD k 0)).reverse

/-- Sorted and read backwards, every column is its padded block. -/
theorem column_full {blocks : List (List K)} (hb : Spectra blocks) {P : List Nat}
    (hp : P.Perm (List.range (extended blocks).length)) (hs : (P.map (fun i => (extended blocks).getD i 0)).Pairwise (· ≤ ·))
    {n : Nat} (hn : n < blocks.length) :
    column (extended blocks) blocks.length P n = padded (rows blocks) (blocks.getD n []) := by
  have hmem : blocks.getD n [] ∈ blocks := by
    rw [List.getD_eq_getElem _ _ hn]
    exact List.getElem_mem hn
  obtain ⟨-, hd, h0⟩ := hb _ hmem
  apply List.Perm.eq_of_pairwise' (r := (· ≥ ·))
  · rw [column, List.pairwise_reverse]
    exact List.Pairwise.sublist ((List.filter_sublist).map _) hs
  · exact padded_sorted _ hd h0
  · refine (List.reverse_perm _).trans ?_
    refine ((hp.filter _).map _).trans ?_
    rw [extended_length, filter_range_mod _ _ _ hn, List.map_map, ← padded_eq _ _ (length_le_rows _ _ hmem)]
    apply List.Perm.of_eq
    apply List.map_congr_left
    intro i hi
    have hi := List.mem_range.1 hi
    have hlt : i * blocks.length + n < rows blocks * blocks.length := by
      calc i * blocks.length + n < i * blocks.length + blocks.length := by omega
        _ = (i + 1) * blocks.length := by rw [Nat.succ_mul]
        _ ≤ _ := Nat.mul_le_mul_right _ hi
    rw [Function.comp_apply, extended_getD _ hlt, mul_add_mod_lt hn, Nat.mul_comm, Nat.mul_add_div (by omega),
      Nat.div_eq_of_lt hn, Nat.add_zero]

theorem column_append (ext : List K) (nb : Nat) (l r : List Nat) (n : Nat) :
    column ext nb (l ++ r) n = column ext nb r n ++ column ext nb l n := by
  rw [column, List.filter_append, List.map_append, List.reverse_append]
  rfl

theorem sum_single (l : List Nat) (c v : Nat) : (l.map (fun n => if n = c then v else 0)).sum = l.count c * v := by
  induction l with
  | nil => simp
  | cons a l ih =>
    rw [List.map_cons, List.sum_cons, ih, List.count_cons]
    by_cases h : a = c
    · subst h; simp; ring
    · simp [h]

theorem columns_perm (ext : List K) {nb : Nat} (hnb : 0 < nb) (l : List Nat) :
    ((List.range nb).flatMap (column ext nb l)).Perm (l.map (fun k => ext.getD k 0)) := by
  have h : ∀ l : List Nat, ((List.range nb).flatMap (fun n => l.filter (fun k => k % nb = n))).Perm l := by
    intro l
    rw [List.perm_iff_count]
    intro a
    rw [List.count_flatMap]
    have : (List.count a ∘ fun n => l.filter (fun k => k % nb = n)) = fun n => if n = a % nb then l.count a else 0 := by
      funext n
      simp only [Function.comp_apply]
      by_cases h : n = a % nb
      · rw [if_pos h, List.count_filter (by simp [h])]
      · rw [if_neg h, List.count_eq_zero]
        intro hm
        have := (List.mem_filter.1 hm).2
        simp at this
        exact h this.symm
    rw [this, sum_single, List.count_eq_one_of_mem List.nodup_range (List.mem_range.2 (Nat.mod_lt _ hnb))]
    simp
  refine List.Perm.trans ?_ ((h l).map _)
  rw [List.map_flatMap]
  apply List.Perm.flatMap_left
  intro n _
  exact List.reverse_perm _

theorem sumsq_append (l r : List K) : sumsq (l ++ r) = sumsq l + sumsq r := by simp [sumsq]

theorem sumsq_perm {l r : List K} (h : l.Perm r) : sumsq l = sumsq r := (h.map _).sum_eq

theorem sumsq_zeros (n : Nat) : sumsq (List.replicate n (0 : K)) = 0 := by simp [sumsq]

theorem sumsq_cons (x : K) (l : List K) : sumsq (x :: l) = x ^ 2 + sumsq l := by simp [sumsq]

/-- The smallest `k` values have the smallest sum of squares among all choices of at least `k` values. -/
theorem prefix_min {V R : List K} (hV : V.Pairwise (· ≤ ·)) (h0 : ∀ x ∈ V, 0 ≤ x) (hR : List.Sublist R V) {k : Nat}
    (hk : k ≤ R.length) : sumsq (V.take k) ≤ sumsq R := by
  induction hR generalizing k with
  | slnil => simp at hk; subst hk; simp
  | @cons R V v hR ih =>
    obtain ⟨hv, hV⟩ := List.pairwise_cons.1 hV
    have h1 := ih hV (fun x hx => h0 x (List.mem_cons_of_mem _ hx)) hk
    refine le_trans ?_ h1
    cases k with
    | zero => simp
    | succ k =>
      have hkl : k < V.length := lt_of_lt_of_le hk hR.length_le
      rw [List.take_succ_cons, sumsq_cons, List.take_succ_eq_append_getElem hkl, sumsq_append, sumsq_cons, add_comm]
      have hle := hv _ (List.getElem_mem hkl)
      have hv0 := h0 v (List.mem_cons_self)
      have : v ^ 2 ≤ V[k] ^ 2 := by
        rw [pow_two, pow_two]
        exact mul_le_mul hle hle hv0 (le_trans hv0 hle)
      have h2 : sumsq ([] : List K) = 0 := rfl
      rw [h2]
      linarith
  | @cons_cons R V v hR ih =>
    obtain ⟨hv, hV⟩ := List.pairwise_cons.1 hV
    cases k with
    | zero => simpa [sumsq] using sumsq_nonneg (v :: R)
    | succ k =>
      have h1 := ih hV (fun x hx => h0 x (List.mem_cons_of_mem _ hx)) (k := k) (by simpa using hk)
      rw [List.take_succ_cons, sumsq_cons, sumsq_cons]
      linarith

theorem sumsq_flatMap (g h : Nat → List K) (l : List Nat) (hgh : ∀ n ∈ l, sumsq (g n) = sumsq (h n)) :
    sumsq (l.flatMap g) = sumsq (l.flatMap h) := by
  induction l with
  | nil => rfl
  | cons a l ih =>
    rw [List.flatMap_cons, List.flatMap_cons, sumsq_append, sumsq_append, hgh a List.mem_cons_self,
      ih (fun n hn => hgh n (List.mem_cons_of_mem _ hn))]

/-- A cut of the sorted positions that keeps positive values only cuts every block. -/
theorem cut_block {blocks : List (List K)} (hb : Spectra blocks) {P : List Nat}
    (hp : P.Perm (List.range (extended blocks).length)) (hs : (P.map (fun i => (extended blocks).getD i 0)).Pairwise (· ≤ ·))
    {D : Nat} (hpos : ∀ k ∈ P.drop D, 0 < (extended blocks).getD k 0) {n : Nat} (hn : n < blocks.length) :
    ∃ m ≤ (blocks.getD n []).length,
      column (extended blocks) blocks.length (P.drop D) n = (blocks.getD n []).take m ∧
      (column (extended blocks) blocks.length (P.drop D) n).length = m ∧
      column (extended blocks) blocks.length (P.take D) n =
        (blocks.getD n []).drop m ++ List.replicate (rows blocks - (blocks.getD n []).length) 0 := by
  obtain ⟨s, hsd⟩ : ∃ s, s = blocks.getD n [] := ⟨_, rfl⟩
  obtain ⟨kc, hkc⟩ : ∃ x, x = column (extended blocks) blocks.length (P.drop D) n := ⟨_, rfl⟩
  obtain ⟨dc, hdc⟩ : ∃ x, x = column (extended blocks) blocks.length (P.take D) n := ⟨_, rfl⟩
  have hfull : kc ++ dc = s ++ List.replicate (rows blocks - s.length) 0 := by
    rw [hkc, hdc, hsd, ← column_append, List.take_append_drop, column_full hb hp hs hn, padded]
  have hkpos : ∀ x ∈ kc, 0 < x := by
    intro x hx
    rw [hkc, column, List.mem_reverse, List.mem_map] at hx
    obtain ⟨k, hk, rfl⟩ := hx
    exact hpos k (List.mem_of_mem_filter hk)
  have hle : kc.length ≤ s.length := by
    by_contra hcon
    have hlt : s.length < kc.length := by omega
    have h1 : (kc ++ dc)[s.length]? = kc[s.length]? := List.getElem?_append_left hlt
    have hl : s.length < (s ++ List.replicate (rows blocks - s.length) (0 : K)).length := by
      rw [← hfull, List.length_append]; omega
    rw [hfull, List.getElem?_append_right (le_refl _), Nat.sub_self, List.getElem?_eq_getElem hlt] at h1
    have hz : kc[s.length] = 0 := by
      have hl : 0 < (List.replicate (rows blocks - s.length) (0 : K)).length := by
        rw [List.length_append] at hl; omega
      rw [List.getElem?_eq_getElem hl, List.getElem_replicate] at h1
      exact (Option.some.inj h1).symm
    have := hkpos _ (List.getElem_mem hlt)
    rw [hz] at this
    exact lt_irrefl _ this
  rw [← hsd, ← hkc, ← hdc]
  refine ⟨kc.length, hle, ?_, rfl, ?_⟩
  · have := congrArg (List.take kc.length) hfull
    rwa [List.take_left', List.take_append_of_le_length hle] at this
    rfl
  · have := congrArg (List.drop kc.length) hfull
    rwa [List.drop_left', List.drop_append_of_le_length hle] at this
    rfl

theorem flatten_getD (blocks : List (List K)) :
    (List.range blocks.length).flatMap (fun n => blocks.getD n []) = blocks.flatten := by
  rw [List.flatMap_def]
  congr 1
  apply List.ext_getElem
  · simp
  · intro i h1 h2
    rw [List.getElem_map, List.getElem_range, List.getD_eq_getElem _ _ h2]

/-- The sorted values are the values of the blocks and zeros. -/
theorem sorted_values {blocks : List (List K)} (hb : Spectra blocks) {P : List Nat}
    (hp : P.Perm (List.range (extended blocks).length)) (hs : (P.map (fun i => (extended blocks).getD i 0)).Pairwise (· ≤ ·)) :
    ∃ Z, (P.map (fun i => (extended blocks).getD i 0)).Perm (blocks.flatten ++ List.replicate Z 0) := by
  rcases Nat.eq_zero_or_pos blocks.length with h | h
  · have hb0 := List.eq_nil_of_length_eq_zero h
    subst hb0
    have : P = [] := by
      have := hp.length_eq
      rw [List.length_range, extended_length] at this
      exact List.eq_nil_of_length_eq_zero (by simpa using this)
    exact ⟨0, by simp [this]⟩
  · obtain ⟨z, hz⟩ : ∃ z : List K, z = (List.range blocks.length).flatMap
        (fun n => List.replicate (rows blocks - (blocks.getD n []).length) 0) := ⟨_, rfl⟩
    refine ⟨z.length, ?_⟩
    have hzr : z = List.replicate z.length 0 := by
      rw [List.eq_replicate_iff]
      refine ⟨rfl, fun b hb => ?_⟩
      rw [hz, List.mem_flatMap] at hb
      obtain ⟨n, _, hn⟩ := hb
      exact (List.mem_replicate.1 hn).2
    refine (columns_perm (extended blocks) h P).symm.trans ?_
    rw [← hzr, hz, ← flatten_getD]
    refine List.Perm.trans (List.Perm.of_eq ?_) (List.flatMap_append_perm _ _ _).symm
    apply List.flatMap_congr
    intro n hn
    exact column_full hb hp hs (List.mem_range.1 hn)

theorem pos_max {V : List K} (hV : V.Pairwise (· ≤ ·)) {m D : Nat} (hm : m ≤ V.countP (fun x => 0 < x))
    (hD : V.length ≤ D + m) : ∀ x ∈ V.drop D, 0 < x := by
  intro x hx
  by_contra hcon
  rw [not_lt] at hcon
  have hV' := hV
  rw [← List.take_append_drop D V, List.pairwise_append] at hV'
  have h1 : (V.take D).countP (fun x => 0 < x) = 0 := by
    rw [List.countP_eq_zero]
    intro y hy
    have := hV'.2.2 y hy x hx
    simpa using le_trans this hcon
  have h2 : (V.drop D).countP (fun x => 0 < x) < (V.drop D).length := by
    refine lt_of_le_of_ne List.countP_le_length ?_
    intro h
    rw [List.countP_eq_length] at h
    have := h x hx
    simp at this
    exact absurd this (not_lt.2 hcon)
  rw [← List.take_append_drop D V, List.countP_append, h1] at hm
  rw [List.length_drop] at h2
  omega

theorem pos_err {V : List K} (hV : V.Pairwise (· ≤ ·)) (h0 : ∀ x ∈ V, 0 ≤ x) {sqrt : K → K} (hs0 : sqrt 0 = 0) {e : K}
    (he : 0 ≤ e) {D : Nat} (hD : D < V.length → e < sqrt (sumsq (V.take (D + 1)))) : ∀ x ∈ V.drop D, 0 < x := by
  intro x hx
  by_contra hcon
  rw [not_lt] at hcon
  have hlt : D < V.length := by
    by_contra h
    rw [List.drop_eq_nil_of_le (by omega)] at hx
    simp at hx
  have hsplit : V = V.take (D + 1) ++ V.drop (D + 1) := (List.take_append_drop _ _).symm
  have hall : ∀ y ∈ V.take (D + 1), y = 0 := by
    intro y hy
    refine le_antisymm (le_trans ?_ hcon) (h0 y (List.mem_of_mem_take hy))
    have hx' := hx
    rw [List.drop_eq_getElem_cons hlt, List.mem_cons] at hx'
    have hV' := hV
    rw [hsplit, List.pairwise_append] at hV'
    rcases hx' with rfl | hx'
    · rw [List.take_succ_eq_append_getElem hlt] at hy hV'
      rcases List.mem_append.1 hy with hy | hy
      · exact (List.pairwise_append.1 hV'.1).2.2 y hy _ (by simp)
      · rw [List.mem_singleton.1 hy]
    · exact hV'.2.2 y hy x hx'
  have hz : sumsq (V.take (D + 1)) = 0 := by
    rw [List.eq_replicate_iff.2 ⟨rfl, hall⟩, sumsq_zeros]
  have := hD hlt
  rw [hz, hs0] at this
  exact absurd this (not_lt.2 he)

theorem foldr_max_desc {s : List K} (hd : s.Pairwise (· ≥ ·)) (x acc : K) (hx : ∀ y ∈ s, y ≤ x) :
    (x :: s).foldr max acc = max x acc := by
  rw [List.foldr_cons]
  have h : ∀ y ∈ s, y ≤ x := hx
  clear hx
  induction s with
  | nil => rfl
  | cons b s ih =>
    rw [List.foldr_cons]
    have := ih (List.pairwise_cons.1 hd).2 (fun y hy => h y (List.mem_cons_of_mem _ hy))
    rw [max_left_comm, this, ← max_assoc, max_eq_right (h b List.mem_cons_self)]

theorem heads_spec {blocks : List (List K)} (hb : Spectra blocks) :
    ∃ h, heads blocks = .ok h ∧ h.foldr max 0 = blocks.flatten.foldr max 0 := by
  induction blocks with
  | nil => exact ⟨[], rfl, rfl⟩
  | cons s bs ih =>
    obtain ⟨h, h1, h2⟩ := ih (fun t ht => hb t (List.mem_cons_of_mem _ ht))
    obtain ⟨hne, hd, _⟩ := hb s List.mem_cons_self
    cases s with
    | nil => exact absurd rfl hne
    | cons x s =>
      refine ⟨x :: h, ?_, ?_⟩
      · rw [heads, h1]; rfl
      · have hd := List.pairwise_cons.1 hd
        rw [List.flatten_cons, List.foldr_append, foldr_max_desc hd.2 x _ (fun y hy => hd.1 y hy), List.foldr_cons, h2]

/-- The bound of the truncation error: with `relative` it is multiplied by the largest singular value. -/
def errBound (blocks : List (List K)) (e : K) (relative : Bool) : K :=
  if relative ∧ blocks.length > 0 then e * blocks.flatten.foldr max 0 else e

theorem foldr_max_nonneg (l : List K) : 0 ≤ l.foldr max 0 := by
  induction l with
  | nil => exact le_refl _
  | cons x l ih => exact le_max_of_le_right ih

theorem errBound_nonneg (blocks : List (List K)) {e : K} (he : 0 ≤ e) (relative : Bool) : 0 ≤ errBound blocks e relative := by
  rw [errBound]
  split
  · exact mul_nonneg he (foldr_max_nonneg _)
  · exact he

theorem sliceTo_drop (s : List K) (m Z : Nat) (h : m ≤ s.length) :
    sliceTo (s.drop m ++ List.replicate Z 0) ((s.length : Int) - (m : Int)) = s.drop m := by
  have h1 : (0 : Int) ≤ (s.length : Int) - (m : Int) := by omega
  have h2 : ((s.length : Int) - (m : Int)).toNat = (s.drop m).length := by rw [List.length_drop]; omega
  rw [sliceTo, if_pos h1, h2, List.take_left']
  rfl

/-- Every block is cut in two, and no discarded value is larger than a kept one. -/
structure CutOf (blocks kept disc : List (List K)) : Prop where
  cut : ∃ ms : Nat → Nat, kept = (List.range blocks.length).map (fun n => (blocks.getD n []).take (ms n)) ∧
    disc.flatten = (List.range blocks.length).flatMap (fun n => (blocks.getD n []).drop (ms n))
  order : ∀ x ∈ kept.flatten, ∀ y ∈ disc.flatten, y ≤ x

theorem CutOf.perm {blocks kept disc : List (List K)} (h : CutOf blocks kept disc) :
    (kept.flatten ++ disc.flatten).Perm blocks.flatten := by
  obtain ⟨ms, h1, h2⟩ := h.cut
  rw [h1, h2, ← List.flatMap_def, ← flatten_getD blocks]
  refine (List.flatMap_append_perm _ _ _).trans (List.Perm.of_eq ?_)
  apply List.flatMap_congr
  intro n _
  exact List.take_append_drop _ _

theorem cut_spec {blocks : List (List K)} (hb : Spectra blocks) {P : List Nat}
    (hp : P.Perm (List.range (extended blocks).length)) (hs : (P.map (fun i => (extended blocks).getD i 0)).Pairwise (· ≤ ·))
    {D : Nat} (hpos : ∀ k ∈ P.drop D, 0 < (extended blocks).getD k 0) :
    let kept := (List.range blocks.length).map (column (extended blocks) blocks.length (P.drop D))
    let disc := (List.range blocks.length).map (fun n => sliceTo (column (extended blocks) blocks.length (P.take D) n)
      (((blocks.getD n []).length : Int) - ((kept.getD n []).length : Int)))
    CutOf blocks kept disc ∧ kept.flatten.length = P.length - D ∧
      sumsq disc.flatten = sumsq ((P.take D).map (fun i => (extended blocks).getD i 0)) := by
  intro kept disc
  have hex : ∀ n, ∃ m, n < blocks.length → m ≤ (blocks.getD n []).length ∧
      column (extended blocks) blocks.length (P.drop D) n = (blocks.getD n []).take m ∧
      (column (extended blocks) blocks.length (P.drop D) n).length = m ∧
      column (extended blocks) blocks.length (P.take D) n =
        (blocks.getD n []).drop m ++ List.replicate (rows blocks - (blocks.getD n []).length) 0 := by
    intro n
    by_cases hn : n < blocks.length
    · obtain ⟨m, h1, h2⟩ := cut_block hb hp hs hpos hn
      exact ⟨m, fun _ => ⟨h1, h2⟩⟩
    · exact ⟨0, fun h => absurd h hn⟩
  choose ms hms using hex
  have hk : kept = (List.range blocks.length).map (fun n => (blocks.getD n []).take (ms n)) := by
    apply List.map_congr_left
    intro n hn
    exact (hms n (List.mem_range.1 hn)).2.1
  have hdd : disc = (List.range blocks.length).map (fun n => (blocks.getD n []).drop (ms n)) := by
    apply List.map_congr_left
    intro n hn
    have hn := List.mem_range.1 hn
    obtain ⟨h1, h2, h3, h4⟩ := hms n hn
    have hkl : (kept.getD n []).length = ms n := by
      rw [hk, List.getD_eq_getElem _ _ (by simpa using hn), List.getElem_map, List.getElem_range, List.length_take]
      omega
    rw [hkl, h4]
    exact sliceTo_drop _ _ _ h1
  have hd : disc.flatten = (List.range blocks.length).flatMap (fun n => (blocks.getD n []).drop (ms n)) := by
    rw [hdd, List.flatMap_def]
  rcases Nat.eq_zero_or_pos blocks.length with h0 | h0
  · have hP : P = [] := by
      have := hp.length_eq
      rw [List.length_range, extended_length, h0] at this
      exact List.eq_nil_of_length_eq_zero (by simpa using this)
    have hk0 : kept = [] := by rw [hk, h0]; rfl
    have hd0 : disc = [] := by rw [hdd, h0]; rfl
    refine ⟨⟨⟨ms, hk, hd⟩, by rw [hk0]; simp⟩, by rw [hk0, hP]; simp, by rw [hd0, hP]; simp⟩
  have hkp : kept.flatten.Perm ((P.drop D).map (fun i => (extended blocks).getD i 0)) := by
    rw [← List.flatMap_def]
    exact columns_perm _ h0 _
  have hdp := columns_perm (extended blocks) h0 (P.take D)
  have hin : ∀ y ∈ disc.flatten, y ∈ (P.take D).map (fun i => (extended blocks).getD i 0) := by
    intro y hy
    rw [hd, List.mem_flatMap] at hy
    obtain ⟨n, hn, hy⟩ := hy
    rw [← hdp.mem_iff, List.mem_flatMap]
    exact ⟨n, hn, by rw [(hms n (List.mem_range.1 hn)).2.2.2]; exact List.mem_append_left _ hy⟩
  refine ⟨⟨⟨ms, hk, hd⟩, ?_⟩, ?_, ?_⟩
  · intro x hx y hy
    rw [← List.take_append_drop D P, List.map_append, List.pairwise_append] at hs
    exact hs.2.2 y (hin y hy) x (hkp.mem_iff.1 hx)
  · rw [hkp.length_eq, List.length_map, List.length_drop]
  · rw [← sumsq_perm hdp, hd]
    apply sumsq_flatMap
    intro n hn
    rw [(hms n (List.mem_range.1 hn)).2.2.2, sumsq_append, sumsq_zeros, add_zero]

/-- The number of positive singular values. -/
def positives (blocks : List (List K)) : Nat := blocks.flatten.countP (fun x => 0 < x)

/-- When the truncation is safe: at least one value may be kept, the bound of the error is not negative, and
without a bound no more values are asked for than there are positive ones. -/
def Safe (blocks : List (List K)) (maxS : Option Nat) (maxErr : Option K) : Prop :=
  maxS ≠ some 0 ∧ (∀ e, maxErr = some e → 0 ≤ e) ∧
    (maxErr = none → ∀ m, maxS = some m → m ≤ positives blocks ∨ blocks.flatten.length ≤ m)

/-- C30: the truncation of the symmetric backend cuts every block, keeps the largest values of all blocks
together, never more than allowed, and if the error is bounded discards as many as the bound admits. -/
theorem C30_truncation_partial {argsort : List K → List Nat} (ha : SortOK argsort) {sqrt : K → K}
    (hm : ∀ x y, 0 ≤ x → x ≤ y → sqrt x ≤ sqrt y) (hs0 : sqrt 0 = 0) {blocks : List (List K)} (hb : Spectra blocks)
    {maxS : Option Nat} {maxErr : Option K} (relative : Bool) (hsafe : Safe blocks maxS maxErr) :
    ∃ kept disc, truncate argsort sqrt blocks maxS maxErr relative = .ok (kept, disc) ∧ CutOf blocks kept disc ∧
      (∀ m, maxS = some m → kept.flatten.length ≤ m) ∧
      (maxErr = none → maxS = none → kept = blocks) ∧
      (maxErr = none → ∀ m, maxS = some m → kept.flatten.length = min m blocks.flatten.length) ∧
      (∀ e, maxErr = some e →
        ((∀ m, maxS = some m → kept.flatten.length < m) → sqrt (sumsq disc.flatten) ≤ errBound blocks e relative) ∧
        (∀ R : List K, R.Subperm blocks.flatten → sqrt (sumsq R) ≤ errBound blocks e relative →
          R.length ≤ disc.flatten.length)) := by
  obtain ⟨hm0, herr, hmax⟩ := hsafe
  obtain ⟨hp, hs⟩ := ha (extended blocks)
  obtain ⟨P, hP⟩ : ∃ P, P = argsort (extended blocks) := ⟨_, rfl⟩
  rw [← hP] at hp hs
  obtain ⟨Z, hZ⟩ := sorted_values hb hp hs
  have horig : (blocks.map List.length).sum = blocks.flatten.length := by rw [List.length_flatten]
  have hV0 : ∀ x ∈ P.map (fun i => (extended blocks).getD i 0), 0 ≤ x := by
    intro x hx
    rcases List.mem_append.1 (hZ.mem_iff.1 hx) with h | h
    · obtain ⟨s, h1, h2⟩ := List.mem_flatten.1 h
      exact (hb s h1).2.2 x h2
    · rw [(List.mem_replicate.1 h).2]
  have hlenP : P.length = blocks.flatten.length + Z := by
    have := hZ.length_eq
    rwa [List.length_map, List.length_append, List.length_replicate] at this
  -- the effective number of values
  obtain ⟨mx, hmx⟩ : ∃ mx, mx = effective maxS (blocks.map List.length).sum := ⟨_, rfl⟩
  have hmxs : ∀ m, mx = some m → maxS = some m ∧ m < blocks.flatten.length := by
    intro m h
    rw [hmx] at h
    cases maxS with
    | none => simp [effective] at h
    | some m' =>
      rw [effective] at h
      by_cases hc : m' ≥ (blocks.map List.length).sum
      · rw [if_pos hc] at h; simp at h
      · rw [if_neg hc] at h
        rw [horig] at hc
        have := Option.some.inj h
        subst this
        exact ⟨rfl, by omega⟩
  have hmxn : mx = none → ∀ m, maxS = some m → blocks.flatten.length ≤ m := by
    intro h m hm'
    rw [hmx, hm', effective] at h
    by_contra hc
    rw [if_neg (by rw [horig]; omega)] at h
    simp at h
  by_cases hnone : maxErr = none ∧ mx = none
  · refine ⟨blocks, [], ?_, ⟨⟨fun n => (blocks.getD n []).length, ?_, ?_⟩, by simp⟩, ?_, fun _ _ => rfl, ?_, ?_⟩
    · unfold truncate
      simp only [← hmx]
      rw [if_pos hnone]
    · apply List.ext_getElem
      · simp
      · intro i h1 h2
        rw [List.getElem_map, List.getElem_range, List.take_length, List.getD_eq_getElem _ _ h1]
    · simp
    · exact hmxn hnone.2
    · intro _ m hm'
      rw [min_eq_right (hmxn hnone.2 m hm')]
    · intro e he
      rw [hnone.1] at he
      simp at he
  -- the cut
  have hcut : ∀ D, D ≤ P.length → (∀ k ∈ P.drop D, 0 < (extended blocks).getD k 0) → D ≥ Z := by
    intro D hD hpos
    by_contra hc
    have h1 := (cut_spec hb hp hs hpos)
    simp only at h1
    have h2 := h1.1.perm.length_eq
    rw [List.length_append, h1.2.1] at h2
    omega
  have stage1 : ∃ D1 ≤ P.length, maskStage sqrt blocks maxErr relative P = .ok (P.take D1, P.drop D1) ∧
      (maxErr = none → D1 = 0) ∧
      ∀ e, maxErr = some e → sqrt (sumsq ((P.take D1).map (fun i => (extended blocks).getD i 0))) ≤ errBound blocks e relative ∧
        (D1 < P.length → errBound blocks e relative <
          sqrt (sumsq ((P.map (fun i => (extended blocks).getD i 0)).take (D1 + 1)))) := by
    cases hme : maxErr with
    | none => exact ⟨0, by simp, by simp [maskStage], by simp, by simp⟩
    | some e =>
      obtain ⟨D, d1, d2, d3, d4, d5⟩ := mask_spec hm (errBound blocks e relative) P
        (fun i => (extended blocks).getD i 0) (acc := 0) (le_refl _)
      refine ⟨D, d1, ?_, by simp, ?_⟩
      · have hbd : scaled blocks e relative = .ok (errBound blocks e relative) := by
          rw [scaled, errBound]
          by_cases hr : relative ∧ blocks.length > 0
          · obtain ⟨h, h1, h2⟩ := heads_spec hb
            rw [if_pos hr, if_pos hr, h1, ← h2]; rfl
          · rw [if_neg hr, if_neg hr]
        rw [maskStage, hbd]
        simp only [bind, Except.bind]
        rw [d2, d3]
      · intro e' he'
        have := Option.some.inj he'
        subst this
        rw [zero_add] at d4 d5
        refine ⟨?_, fun h => ?_⟩
        · by_cases h0 : D = 0
          · subst h0
            rw [List.take_zero, List.map_nil]
            show sqrt 0 ≤ _
            rw [hs0]
            exact errBound_nonneg blocks (herr _ hme) relative
          · exact d4 h0
        · rw [← List.map_take]
          exact d5 h
  obtain ⟨D1, hD1, hst, hD10, hD1e⟩ := stage1
  have stage2 : ∃ D ≥ D1, D ≤ P.length ∧ limitStage mx (P.take D1) (P.drop D1) = (P.take D, P.drop D) ∧
      (∀ m, mx = some m → P.length - D ≤ m) ∧ (D ≠ D1 → ∃ m, mx = some m ∧ P.length - D = m) := by
    cases hmm : mx with
    | none => exact ⟨D1, le_refl _, hD1, rfl, by simp, fun h => absurd rfl h⟩
    | some m =>
      have hmne : m ≠ 0 := by
        intro h
        subst h
        exact hm0 (hmxs 0 hmm).1
      rw [limitStage]
      by_cases hlt : m < (P.drop D1).length
      · rw [if_pos hlt, if_neg hmne]
        have hl : (P.drop D1).length = P.length - D1 := List.length_drop
        rw [hl] at hlt ⊢
        refine ⟨D1 + (P.length - D1 - m), by omega, by omega, ?_, ?_, ?_⟩
        · rw [List.take_add, List.drop_drop]
        · intro m' hm'
          have := Option.some.inj hm'
          omega
        · intro _
          exact ⟨m, rfl, by omega⟩
      · rw [if_neg hlt]
        rw [List.length_drop] at hlt
        refine ⟨D1, le_refl _, hD1, rfl, ?_, fun h => absurd rfl h⟩
        intro m' hm'
        have := Option.some.inj hm'
        omega
  obtain ⟨D, hDge, hDle, hst2, hDm, hDne⟩ := stage2
  have hpos : ∀ k ∈ P.drop D, 0 < (extended blocks).getD k 0 := by
    have key : ∀ x ∈ (P.map (fun i => (extended blocks).getD i 0)).drop D, 0 < x := by
      cases hme : maxErr with
      | some e =>
        have h1 := pos_err hs hV0 hs0 (errBound_nonneg blocks (herr _ hme) relative) (D := D1)
          (by rw [List.length_map]; exact (hD1e e hme).2)
        intro x hx
        apply h1 x
        have : D = D1 + (D - D1) := by omega
        rw [this, ← List.drop_drop] at hx
        exact List.mem_of_mem_drop hx
      | none =>
        cases hmm : mx with
        | none => exact absurd ⟨hme, hmm⟩ hnone
        | some m =>
          obtain ⟨g1, g2⟩ := hmxs m hmm
          rcases hmax hme m g1 with h | h
          · refine pos_max hs (m := m) ?_ ?_
            · rw [hZ.countP_eq, List.countP_append]
              exact le_trans h (Nat.le_add_right _ _)
            · rw [List.length_map]
              have := hDm m hmm
              omega
          · omega
    intro k hk
    apply key
    rw [← List.map_drop]
    exact List.mem_map_of_mem hk
  obtain ⟨hc, hkl, hsq⟩ := cut_spec hb hp hs hpos
  obtain ⟨kept, hkept⟩ : ∃ kept, kept = (List.range blocks.length).map
      (column (extended blocks) blocks.length (P.drop D)) := ⟨_, rfl⟩
  obtain ⟨disc, hdisc⟩ : ∃ disc, disc = (List.range blocks.length).map
      (fun n => sliceTo (column (extended blocks) blocks.length (P.take D) n)
      (((blocks.getD n []).length : Int) - ((kept.getD n []).length : Int))) := ⟨_, rfl⟩
  rw [← hkept] at hc hkl hsq
  rw [← hdisc] at hc hsq
  have hcl := hc.perm.length_eq
  rw [List.length_append, hkl] at hcl
  refine ⟨kept, disc, ?_, hc, ?_, ?_, ?_, ?_⟩
  · unfold truncate
    simp only [← hmx]
    rw [if_neg hnone, ← hP]
    simp only [bind, Except.bind]
    rw [hst]
    simp only
    rw [hst2]
    simp only
    rw [hdisc, hkept]
    rfl
  · intro m hm'
    rw [hkl]
    cases hmm : mx with
    | none =>
      have := hmxn hmm m hm'
      omega
    | some m' =>
      have h1 := (hmxs m' hmm).1
      rw [hm'] at h1
      have := Option.some.inj h1
      have := hDm m' hmm
      omega
  · intro h1 h2
    exact absurd ⟨h1, by rw [hmx, h2, effective]⟩ hnone
  · intro h1 m h2
    cases hmm : mx with
    | none => exact absurd ⟨h1, hmm⟩ hnone
    | some m' =>
      obtain ⟨g1, g2⟩ := hmxs m' hmm
      rw [h2] at g1
      have h3 := Option.some.inj g1
      subst h3
      rw [hkl, min_eq_left (by omega)]
      have h4 : D ≠ D1 := by
        rw [hD10 h1]
        intro hD0
        have := hDm m hmm
        omega
      obtain ⟨m'', h5, h6⟩ := hDne h4
      rw [hmm] at h5
      have := Option.some.inj h5
      omega
  · intro e he
    refine ⟨?_, ?_⟩
    · intro hlt
      have : D = D1 := by
        by_contra hne
        obtain ⟨m, h1, h2⟩ := hDne hne
        have := hlt m (hmxs m h1).1
        omega
      rw [hsq, this]
      exact (hD1e e he).1
    · intro R hR hle
      by_contra hcon
      have hRZ : (R ++ List.replicate Z (0 : K)).Subperm (P.map (fun i => (extended blocks).getD i 0)) :=
        ((List.subperm_append_right _).2 hR).trans hZ.symm.subperm
      obtain ⟨R', hR1, hR2⟩ := hRZ
      have hl := hR1.length_eq
      rw [List.length_append, List.length_replicate] at hl
      have hl2 := hR2.length_le
      rw [List.length_map] at hl2
      have h1 := prefix_min hs hV0 hR2 (k := D1 + 1) (by omega)
      have h2 := (hD1e e he).2 (by omega)
      have h3 : sumsq R' = sumsq R := by
        rw [sumsq_perm hR1, sumsq_append, sumsq_zeros, add_zero]
      rw [h3] at h1
      have := hm _ _ (sumsq_nonneg _) h1
      exact absurd (lt_of_lt_of_le h2 (le_trans this hle)) (lt_irrefl _)

/-- A stable sort of positions by their values. -/
def stableArgsort (l : List K) : List Nat :=
  (List.range l.length).insertionSort (fun a b => l.getD a 0 ≤ l.getD b 0)

theorem stableArgsort_ok : SortOK (stableArgsort (K := K)) := by
  intro l
  refine ⟨List.perm_insertionSort _ _, ?_⟩
  rw [List.pairwise_map]
  have : Std.Total (fun a b : Nat => l.getD a 0 ≤ l.getD b 0) := ⟨fun a b => le_total _ _⟩
  have : IsTrans Nat (fun a b : Nat => l.getD a 0 ≤ l.getD b 0) := ⟨fun a b c h1 h2 => le_trans h1 h2⟩
  exact List.pairwise_insertionSort (fun a b : Nat => l.getD a 0 ≤ l.getD b 0) (List.range l.length)

end

/-- The hypotheses of `C30_truncation_partial` are met by two blocks of real singular values and both bounds. -/
example : SortOK (stableArgsort (K := ℝ)) ∧ (∀ x y, 0 ≤ x → x ≤ y → Real.sqrt x ≤ Real.sqrt y) ∧ Real.sqrt 0 = 0 ∧
    Spectra ([[3, 1], [2, 2, 0]] : List (List ℝ)) ∧ Safe ([[3, 1], [2, 2, 0]] : List (List ℝ)) (some 3) (some (1 / 2)) ∧
    Safe ([[3, 1], [2, 2, 0]] : List (List ℝ)) (some 3) none := by
  have hp : positives ([[3, 1], [2, 2, 0]] : List (List ℝ)) = 4 := by
    simp [positives]
  refine ⟨stableArgsort_ok, fun x y _ h => Real.sqrt_le_sqrt h, Real.sqrt_zero, ?_, ⟨by simp, ?_, by simp⟩, ⟨by simp, by simp, ?_⟩⟩
  · intro s hs
    simp only [List.mem_cons, List.not_mem_nil, or_false] at hs
    rcases hs with rfl | rfl <;> refine ⟨by simp, ?_, ?_⟩ <;> norm_num
  · intro e he
    have := Option.some.inj he
    rw [← this]; norm_num
  · intro _ m hm
    have := Option.some.inj hm
    left
    rw [hp]; omega

/-- What the truncation of three blocks with three of five values positive does: the second value of the second
block is discarded although it comes from the matrix, and the padding of the third block is kept. -/
theorem C30_padding_false : ∃ blocks : List (List ℚ), Spectra blocks ∧ ∀ sqrt : ℚ → ℚ,
    ∃ kept disc, truncate stableArgsort sqrt blocks (some 4) none false = .ok (kept, disc) ∧
      (kept.getD 2 []).length > (blocks.getD 2 []).length ∧ ¬ CutOf blocks kept disc := by
  refine ⟨[[5, 0], [3, 0], [10]], ?_, fun sqrt => ⟨[[5], [3], [10, 0]], [[0], [0], []], ?_, by decide, ?_⟩⟩
  · unfold Spectra; decide +kernel
  · rfl
  · intro h
    have := h.perm.length_eq
    simp at this

/-- Truncation to no value keeps every value. -/
theorem C30_zero_false : ∃ blocks : List (List ℚ), Spectra blocks ∧ ∀ sqrt : ℚ → ℚ,
    ∃ kept disc, truncate stableArgsort sqrt blocks (some 0) none false = .ok (kept, disc) ∧
      kept = blocks ∧ kept.flatten.length = 2 := by
  refine ⟨[[5], [3]], ?_, fun sqrt => ⟨[[5], [3]], [[], []], ?_, rfl, rfl⟩⟩
  · unfold Spectra; decide +kernel
  · rfl

end TN.Trunc
