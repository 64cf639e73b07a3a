import Verif.KerasMpo
import Mathlib.Data.Nat.ModEq

/-!
# What `DenseEntangler` computes
-/

namespace TN.Keras

open Finset NDArray

variable {R : Type} [CommSemiring R]

/-! ## Gates on the legs of a state -/

/-- A gate on the legs `p` and `q` of a state.  A state gives a number for each choice `c` of an index for every leg. -/
def gate (w : NDArray R) (p q : Nat) (ψ : (Nat → Nat) → R) (c : Nat → Nat) : R :=
  ∑ a ∈ range (w.shape.getD 0 0), ∑ b ∈ range (w.shape.getD 1 0),
    ψ (Function.update (Function.update c p a) q b) * w.get [a, b, c p, c q]

/-- The gates one after another: gate number `i` acts on the legs `i` and `i + 1`, taken modulo the number of legs. -/
def runGates (n : Nat) : Nat → List (NDArray R) → ((Nat → Nat) → R) → (Nat → Nat) → R
  | _, [], ψ => ψ
  | i, w :: ws, ψ => runGates n (i + 1) ws (gate w (i % n) ((i + 1) % n) ψ)

/-! ## One step -/

/-- The first step of the loop in `DenseEntangler.call`. -/
theorem ent_step0 {dim : Leg → Nat} {st : LNode R} {w : NDArray R} {p q : Leg} {Y N : List Leg}
    (hst : st.2 = p :: q :: Y) (hs : Shaped dim st.1 st.2) (hn : st.2.Nodup)
    (hw : w.shape = dim p :: dim q :: N.map dim) (hN : N.Nodup) (hd : ∀ l ∈ N, l ∉ st.2) :
    ∃ t, contractL st (w, p :: q :: N) = .ok (t, Y ++ N) ∧ Shaped dim t (Y ++ N) ∧ (Y ++ N).Nodup ∧
      ∀ (ys ns : List Nat), ys.length = Y.length → ns.length = N.length →
        t.get (ys ++ ns) = ∑ a ∈ range (dim p), ∑ b ∈ range (dim q), st.1.get (a :: b :: ys) * w.get (a :: b :: ns) := by
  have hn' := hn
  rw [hst] at hn' hd
  simp only [List.nodup_cons, List.mem_cons, not_or] at hn'
  obtain ⟨⟨pq, pY⟩, qY, nY⟩ := hn'
  have hYp : ∀ l ∈ Y, l ≠ p ∧ l ≠ q := fun l hl => ⟨fun h => pY (h ▸ hl), fun h => qY (h ▸ hl)⟩
  have hNp : ∀ l ∈ N, l ≠ p ∧ l ≠ q ∧ l ∉ Y := by
    intro l hl
    have := hd l hl
    simp only [List.mem_cons, not_or] at this
    exact this
  obtain ⟨t, t1, t2, t3, t4⟩ := contractL_get (dim := dim) (a := st) (b := (w, p :: q :: N)) (C := [p, q])
    (L := Y ++ N) hs (by simp [Shaped, hw]) hn
    (by
      simp only [List.nodup_cons, List.mem_cons, not_or]
      exact ⟨⟨pq, fun h => (hNp p h).1 rfl⟩, fun h => (hNp q h).2.1 rfl, hN⟩)
    (by
      have h1 : Y.filter (fun l => decide (l ∈ p :: q :: N)) = [] := by
        rw [List.filter_eq_nil_iff]
        intro l hl
        have h3 : l ∉ N := fun h => (hNp l h).2.2 hl
        simp [hYp l hl, h3]
      rw [hst, List.filter_cons, List.filter_cons, h1]
      simp) (by simp)
    (by
      have h1 : Y.filter (fun l => decide (l ∉ [p, q])) = Y := by
        rw [List.filter_eq_self]
        intro l hl
        simp [hYp l hl]
      have h2 : N.filter (fun l => decide (l ∉ [p, q])) = N := by
        rw [List.filter_eq_self]
        intro l hl
        simp [(hNp l hl).1, (hNp l hl).2.1]
      have h3 : (p :: q :: N).filter (fun l => decide (l ∉ [p, q])) = N := by
        rw [List.filter_cons, List.filter_cons, h2]
        simp
      have h4 : (p :: q :: Y).filter (fun l => decide (l ∉ [p, q])) = Y := by
        rw [List.filter_cons, List.filter_cons, h1]
        simp
      rw [hst, h4]
      show _ ++ List.filter _ (p :: q :: N) = _
      rw [h3])
  refine ⟨t, t1, t2, t3, fun ys ns hys hns => ?_⟩
  obtain ⟨σ, s1, s2⟩ := t4 (ys ++ ns) (by simp [hys, hns])
  rw [s2]
  rw [List.map_append] at s1
  obtain ⟨sY, sN⟩ := List.append_inj s1 (by simp [hys])
  simp only [sumOver]
  apply Finset.sum_congr rfl
  intro a _
  apply Finset.sum_congr rfl
  intro b _
  have e1 : Y.map (Function.update (Function.update σ p a) q b) = ys := by
    rw [← sY]
    exact List.map_congr_left fun l hl => update_ne2 (hYp l hl).1 (hYp l hl).2
  have e2 : N.map (Function.update (Function.update σ p a) q b) = ns := by
    rw [← sN]
    exact List.map_congr_left fun l hl => update_ne2 (hNp l hl).1 (hNp l hl).2.1
  simp only [val, hst, List.map_cons, e1, e2, Function.update_self, Function.update_of_ne pq]

/-- A later step of the loop in `DenseEntangler.call`: the edge for the first axis of the gate is the last one of the state,
and the edge for the second axis is the first one. -/
theorem ent_step {dim : Leg → Nat} {st : LNode R} {w : NDArray R} {p q : Leg} {Y N : List Leg}
    (hst : st.2 = q :: Y ++ [p]) (hs : Shaped dim st.1 st.2) (hn : st.2.Nodup)
    (hw : w.shape = dim p :: dim q :: N.map dim) (hN : N.Nodup) (hd : ∀ l ∈ N, l ∉ st.2) :
    ∃ t, contractL st (w, p :: q :: N) = .ok (t, Y ++ N) ∧ Shaped dim t (Y ++ N) ∧ (Y ++ N).Nodup ∧
      ∀ (ys ns : List Nat), ys.length = Y.length → ns.length = N.length →
        t.get (ys ++ ns) = ∑ a ∈ range (dim p), ∑ b ∈ range (dim q),
          st.1.get (b :: ys ++ [a]) * w.get (a :: b :: ns) := by
  have hn' := hn
  rw [hst] at hn' hd
  simp only [List.cons_append, List.nodup_cons, List.nodup_append, List.mem_append, List.mem_singleton, not_or] at hn'
  obtain ⟨⟨qY, qp⟩, nY, _, hYp'⟩ := hn'
  have hYp : ∀ l ∈ Y, l ≠ p ∧ l ≠ q := fun l hl => ⟨hYp' l hl p rfl, fun h => qY (h ▸ hl)⟩
  have hNp : ∀ l ∈ N, l ≠ p ∧ l ≠ q ∧ l ∉ Y := by
    intro l hl
    have := hd l hl
    simp only [List.cons_append, List.mem_cons, List.mem_append, List.not_mem_nil, or_false, not_or] at this
    exact ⟨this.2.2, this.1, this.2.1⟩
  obtain ⟨t, t1, t2, t3, t4⟩ := contractL_get (dim := dim) (a := st) (b := (w, p :: q :: N)) (C := [q, p])
    (L := Y ++ N) hs (by simp [Shaped, hw]) hn
    (by
      simp only [List.nodup_cons, List.mem_cons, not_or]
      exact ⟨⟨Ne.symm qp, fun h => (hNp p h).1 rfl⟩, fun h => (hNp q h).2.1 rfl, hN⟩)
    (by
      have h1 : Y.filter (fun l => decide (l ∈ p :: q :: N)) = [] := by
        rw [List.filter_eq_nil_iff]
        intro l hl
        have h3 : l ∉ N := fun h => (hNp l h).2.2 hl
        simp [hYp l hl, h3]
      rw [hst, List.filter_append, List.filter_cons, h1]
      simp) (by simp)
    (by
      have h1 : Y.filter (fun l => decide (l ∉ [q, p])) = Y := by
        rw [List.filter_eq_self]
        intro l hl
        simp [hYp l hl]
      have h2 : N.filter (fun l => decide (l ∉ [q, p])) = N := by
        rw [List.filter_eq_self]
        intro l hl
        simp [(hNp l hl).1, (hNp l hl).2.1]
      have h3 : (p :: q :: N).filter (fun l => decide (l ∉ [q, p])) = N := by
        rw [List.filter_cons, List.filter_cons, h2]
        simp
      have h4 : (q :: Y ++ [p]).filter (fun l => decide (l ∉ [q, p])) = Y := by
        rw [List.filter_append, List.filter_cons, h1]
        simp
      rw [hst, h4]
      show _ ++ List.filter _ (p :: q :: N) = _
      rw [h3])
  refine ⟨t, t1, t2, t3, fun ys ns hys hns => ?_⟩
  obtain ⟨σ, s1, s2⟩ := t4 (ys ++ ns) (by simp [hys, hns])
  rw [s2]
  rw [List.map_append] at s1
  obtain ⟨sY, sN⟩ := List.append_inj s1 (by simp [hys])
  simp only [sumOver]
  rw [Finset.sum_comm]
  apply Finset.sum_congr rfl
  intro a _
  apply Finset.sum_congr rfl
  intro b _
  have e1 : Y.map (Function.update (Function.update σ q b) p a) = ys := by
    rw [← sY]
    exact List.map_congr_left fun l hl => update_ne2 (hYp l hl).2 (hYp l hl).1
  have e2 : N.map (Function.update (Function.update σ q b) p a) = ns := by
    rw [← sN]
    exact List.map_congr_left fun l hl => update_ne2 (hNp l hl).2.1 (hNp l hl).1
  simp only [val, hst, List.map_append, List.map_cons, List.map_nil, e1, e2, Function.update_self, Function.update_of_ne qp,
    List.cons_append]

/-! ## The edges -/

/-- The edge of the leg `(i + k) % n` before gate `i`, for `k < n`. -/
def curLeg (n i k : Nat) : Leg :=
  if k = 0 then (if i = 0 then ⟨0, 0⟩ else ⟨i, 3⟩) else if i + k < n then ⟨0, i + k⟩ else ⟨i + k - n + 1, 2⟩

theorem curLeg_shift {n i k : Nat} (hk : 0 < k) : curLeg n (i + 1) k = curLeg n i (k + 1) := by
  have h1 : k ≠ 0 := by omega
  have h2 : k + 1 ≠ 0 := by omega
  rw [curLeg, curLeg, if_neg h1, if_neg h2, show i + 1 + k = i + (k + 1) by omega]

theorem mod_inj {n i a b : Nat} (ha : a < n) (hb : b < n) (h : (i + a) % n = (i + b) % n) : a = b := by
  have : a ≡ b [MOD n] := Nat.ModEq.add_left_cancel' i h
  rwa [Nat.ModEq, Nat.mod_eq_of_lt ha, Nat.mod_eq_of_lt hb] at this

theorem curLeg_inj {n i j k : Nat} (h : curLeg n i j = curLeg n i k) : j = k := by
  unfold curLeg at h
  split_ifs at h <;> simp only [Leg.mk.injEq] at h <;> omega

theorem curLeg_node {n i k : Nat} (hk : k < n) : (curLeg n i k).node ≤ i := by
  unfold curLeg
  split_ifs <;> simp
  omega

/-- The list of edges after one more gate. -/
theorem edges_step {n i : Nat} (hn : 2 ≤ n) {E : List Leg} (hE : E.length = n)
    (h : ∀ k < n, E.getD ((i + k) % n) ⟨0, 0⟩ = curLeg n i k) :
    ((E.set (i % n) ⟨i + 1, 2⟩).set ((i + 1) % n) ⟨i + 1, 3⟩).length = n ∧
    ∀ k < n, ((E.set (i % n) ⟨i + 1, 2⟩).set ((i + 1) % n) ⟨i + 1, 3⟩).getD ((i + 1 + k) % n) ⟨0, 0⟩ = curLeg n (i + 1) k := by
  refine ⟨by simp [hE], fun k hk => ?_⟩
  have hp : i % n < n := Nat.mod_lt _ (by omega)
  have hq : (i + 1) % n < n := Nat.mod_lt _ (by omega)
  have hr : (i + 1 + k) % n < n := Nat.mod_lt _ (by omega)
  rw [List.getD_eq_getElem _ _ (by simpa [hE] using hr)]
  rw [List.getElem_set, List.getElem_set]
  rcases Nat.eq_zero_or_pos k with rfl | hk0
  · rw [if_pos (by simp)]
    simp [curLeg]
  · have h1 : (i + 1) % n ≠ (i + 1 + k) % n := by
      intro h
      have := mod_inj (i := i + 1) (a := 0) (b := k) (by omega) hk h
      omega
    rw [if_neg h1]
    by_cases hkn : k = n - 1
    · rw [if_pos (by rw [show i + 1 + k = i + n by omega, Nat.add_mod_right])]
      rw [curLeg, if_neg (by omega), if_neg (by omega)]
      congr 1
      omega
    · have h2 : i % n ≠ (i + 1 + k) % n := by
        intro h
        have := mod_inj (n := n) (i := i) (a := 0) (b := 1 + k) (by omega) (by omega) (by rw [← Nat.add_assoc]; exact h)
        omega
      rw [if_neg h2, curLeg_shift hk0, ← h (k + 1) (by omega), List.getD_eq_getElem _ _ (by rw [hE]; exact Nat.mod_lt _ (by omega))]
      congr 2
      omega

/-- The size of an edge. -/
def entDim (l o n levels : Nat) (e : Leg) : Nat :=
  if e.node = 0 then l else (gateShape l o n levels (e.node - 1)).getD e.axis 0

theorem gateShape_eq {l o n levels i : Nat} (hn : 2 ≤ n) (hi : i < levels * (n - 1)) :
    gateShape l o n levels i = [entDim l o n levels (curLeg n i 0), entDim l o n levels (curLeg n i 1),
      entDim l o n levels ⟨i + 1, 2⟩, entDim l o n levels ⟨i + 1, 3⟩] := by
  have h2 : entDim l o n levels ⟨i + 1, 2⟩ = (gateShape l o n levels i).getD 2 0 := by simp [entDim]
  have h3 : entDim l o n levels ⟨i + 1, 3⟩ = (gateShape l o n levels i).getD 3 0 := by simp [entDim]
  have h0 : entDim l o n levels (curLeg n i 0) = (gateShape l o n levels i).getD 0 0 := by
    rw [curLeg, if_pos rfl]
    rcases Nat.eq_zero_or_pos i with rfl | h
    · simp [entDim, gateShape]
    · have e1 : i ≠ 0 := by omega
      have e2 : i - 1 ≠ levels * (n - 1) - 1 := by omega
      simp [entDim, gateShape, e1, e2]
  have h1 : entDim l o n levels (curLeg n i 1) = (gateShape l o n levels i).getD 1 0 := by
    rw [curLeg, if_neg (by omega)]
    by_cases h : i + 1 < n
    · rw [if_pos h]
      have e1 : i / (n - 1) = 0 := Nat.div_eq_of_lt (by omega)
      simp [entDim, gateShape, e1]
    · rw [if_neg h]
      have hlt : i / (n - 1) < levels := Nat.div_lt_of_lt_mul (by rw [Nat.mul_comm]; exact hi)
      have hpos : 0 < i / (n - 1) := Nat.div_pos (by omega) (by omega)
      have e1 : i / (n - 1) ≠ 0 := by omega
      have e2 : (i + 1 - n) / (n - 1) = i / (n - 1) - 1 := by
        rw [show i + 1 - n = i - (n - 1) by omega, Nat.div_eq_sub_div (b := n - 1) (a := i) (by omega) (by omega),
          Nat.add_sub_cancel]
      have e3 : i / (n - 1) - 1 ≠ levels - 1 := by omega
      simp [entDim, gateShape, e1, e2, e3]
  rw [h0, h1, h2, h3]
  rfl

theorem entDim_end {l o n levels k : Nat} (hn : 2 ≤ n) (hl : 1 ≤ levels) (hk : k < n) :
    entDim l o n levels (curLeg n (levels * (n - 1)) k) = o := by
  have hN : n - 1 ≤ levels * (n - 1) := Nat.le_mul_of_pos_left _ hl
  unfold curLeg
  split_ifs with h1 h2 h3
  · omega
  · have : levels * (n - 1) - 1 = levels * (n - 1) - 1 := rfl
    simp [entDim, gateShape, h2]
  · omega
  · have e : (levels * (n - 1) + k - n) / (n - 1) = levels - 1 := by
      obtain ⟨m, rfl⟩ : ∃ m, n = m + 2 := ⟨n - 2, by omega⟩
      obtain ⟨v, rfl⟩ : ∃ v, levels = v + 1 := ⟨levels - 1, by omega⟩
      rw [show (v + 1) * (m + 2 - 1) + k - (m + 2) = (k - 1) + (m + 1) * v by
        rw [show m + 2 - 1 = m + 1 by omega, Nat.add_mul, Nat.mul_comm v]; omega]
      rw [show m + 2 - 1 = m + 1 by omega, Nat.add_mul_div_left _ _ (by omega), Nat.div_eq_of_lt (by omega)]
      omega
    simp [entDim, gateShape, e]

/-! ## The loop -/

/-- The edges of the state before gate `i`, for `i > 0`. -/
def stLegs (m i : Nat) : List Leg :=
  curLeg (m + 2) i 1 :: (List.range' 2 m).map (curLeg (m + 2) i) ++ [curLeg (m + 2) i 0]

theorem stLegs_next (m i : Nat) :
    (List.range' 2 m).map (curLeg (m + 2) i) ++ [⟨i + 1, 2⟩, ⟨i + 1, 3⟩] = stLegs m (i + 1) := by
  have h1 : (List.range' 2 m).map (curLeg (m + 2) i) = (List.range' 1 m).map (curLeg (m + 2) (i + 1)) := by
    rw [show (2 : Nat) = 1 + 1 from rfl, ← List.map_add_range', List.map_map]
    apply List.map_congr_left
    intro k hk
    rw [List.mem_range'_1] at hk
    rw [curLeg_shift (by omega), Function.comp, Nat.add_comm 1 k]
  have h2 : (List.range' 1 m).map (curLeg (m + 2) (i + 1)) ++ [⟨i + 1, 2⟩] =
      (List.range' 1 (m + 1)).map (curLeg (m + 2) (i + 1)) := by
    rw [List.range'_concat, List.map_append]
    congr 1
    have h3 : ¬ i + 1 + (1 + m) < m + 2 := by omega
    simp [curLeg, h3]
    omega
  rw [stLegs, h1, show ([⟨i + 1, 2⟩, ⟨i + 1, 3⟩] : List Leg) = [⟨i + 1, 2⟩] ++ [⟨i + 1, 3⟩] from rfl, ← List.append_assoc, h2,
    List.range'_succ]
  simp [curLeg]

theorem stLegs_nodup (m i : Nat) : (stLegs m i).Nodup := by
  have : stLegs m i = (List.range' 1 (m + 1) ++ [0]).map (curLeg (m + 2) i) := by
    rw [List.map_append, List.range'_succ]
    rfl
  rw [this]
  refine List.Nodup.map (fun a b h => curLeg_inj h) ?_
  rw [List.nodup_append]
  refine ⟨List.nodup_range', by simp, ?_⟩
  intro a ha b hb
  rw [List.mem_range'_1] at ha
  rw [List.mem_singleton] at hb
  omega

theorem stLegs_node {m i : Nat} {l : Leg} (h : l ∈ stLegs m i) : l.node ≤ i := by
  simp only [stLegs, List.cons_append, List.mem_cons, List.mem_append, List.mem_map, List.mem_range'_1, List.not_mem_nil,
    or_false] at h
  rcases h with rfl | ⟨k, hk, rfl⟩ | rfl <;> exact curLeg_node (by omega)

/-- The index of the state before gate `i`, for `i > 0`, when leg `k` has the index `c k`. -/
def stIdx (n i : Nat) (c : Nat → Nat) : List Nat := (List.range n).map fun k => c ((i + 1 + k) % n)

theorem stIdx_eq (m i : Nat) (c : Nat → Nat) : stIdx (m + 2) i c =
    c ((i + 1) % (m + 2)) :: (List.range' 2 m).map (fun k => c ((i + k) % (m + 2))) ++ [c (i % (m + 2))] := by
  rw [stIdx, List.range_succ, List.map_append, List.range_succ_eq_map, List.range'_eq_map_range, List.map_cons, List.map_map,
    List.map_map]
  congr 1
  · congr 1
    apply List.map_congr_left
    intro k _
    simp only [Function.comp]
    congr 2
    omega
  · simp only [List.map_cons, List.map_nil]
    congr 2
    rw [show i + 1 + (m + 1) = i + (m + 2) by omega, Nat.add_mod_right]

theorem stIdx_next (m i : Nat) (c : Nat → Nat) : stIdx (m + 2) (i + 1) c =
    (List.range' 2 m).map (fun k => c ((i + k) % (m + 2))) ++ [c (i % (m + 2)), c ((i + 1) % (m + 2))] := by
  rw [stIdx, List.range_succ, List.range_succ, List.append_assoc, List.map_append, List.range'_eq_map_range, List.map_map]
  congr 1
  · apply List.map_congr_left
    intro k _
    simp only [Function.comp]
    congr 2
    omega
  · simp only [List.map_cons, List.map_nil, List.singleton_append]
    congr 2
    · rw [show i + 1 + 1 + m = i + (m + 2) by omega, Nat.add_mod_right]
    · rw [show i + 1 + 1 + (m + 1) = i + 1 + (m + 2) by omega, Nat.add_mod_right]

/-- Changing the indices of the two legs of gate `i`. -/
theorem stIdx_update (m i : Nat) (c : Nat → Nat) (a b : Nat) :
    stIdx (m + 2) i (Function.update (Function.update c (i % (m + 2)) a) ((i + 1) % (m + 2)) b) =
      b :: (List.range' 2 m).map (fun k => c ((i + k) % (m + 2))) ++ [a] := by
  have h1 : i % (m + 2) ≠ (i + 1) % (m + 2) := fun h => by
    have := mod_inj (n := m + 2) (i := i) (a := 0) (b := 1) (by omega) (by omega) h
    omega
  rw [stIdx_eq, Function.update_self, Function.update_of_ne h1, Function.update_self]
  congr 2
  apply List.map_congr_left
  intro k hk
  rw [List.mem_range'_1] at hk
  rw [Function.update_of_ne, Function.update_of_ne]
  · intro h
    have := mod_inj (n := m + 2) (i := i) (a := k) (b := 0) (by omega) (by omega) h
    omega
  · intro h
    have := mod_inj (n := m + 2) (i := i) (a := k) (b := 1) (by omega) (by omega) h
    omega

theorem entangleLoop_ok {l o m levels : Nat} : ∀ (ws : List (NDArray R)) (i : Nat) (st : LNode R) (E : List Leg), 0 < i →
    i + ws.length = levels * (m + 1) →
    (∀ k (h : k < ws.length), ws[k].shape = gateShape l o (m + 2) levels (i + k)) →
    st.2 = stLegs m i → Shaped (entDim l o (m + 2) levels) st.1 st.2 → E.length = m + 2 →
    (∀ k < m + 2, E.getD ((i + k) % (m + 2)) ⟨0, 0⟩ = curLeg (m + 2) i k) →
    ∃ t, entangleLoop (m + 2) i ws st E = .ok (t, stLegs m (levels * (m + 1))) ∧
      Shaped (entDim l o (m + 2) levels) t (stLegs m (levels * (m + 1))) ∧
      ∀ c, t.get (stIdx (m + 2) (levels * (m + 1)) c) =
        runGates (m + 2) i ws (fun c => st.1.get (stIdx (m + 2) i c)) c := by
  intro ws
  induction ws with
  | nil =>
    intro i st E hi hl _ hst hs _ _
    have : i = levels * (m + 1) := by simpa using hl
    subst this
    refine ⟨st.1, ?_, hst ▸ hs, fun c => rfl⟩
    rw [entangleLoop, ← hst]
  | cons w ws ih =>
    intro i st E hi hl hw hst hs hE hEk
    have hwi : w.shape = gateShape l o (m + 2) levels i := hw 0 (by simp)
    rw [gateShape_eq (by omega) (by simp only [List.length_cons] at hl; simp; omega)] at hwi
    have hN : ∀ e ∈ ([⟨i + 1, 2⟩, ⟨i + 1, 3⟩] : List Leg), e ∉ st.2 := by
      intro e he h
      have := stLegs_node (hst ▸ h)
      simp only [List.mem_cons, List.not_mem_nil, or_false] at he
      rcases he with rfl | rfl <;> simp at this
    obtain ⟨t, t1, t2, t3, t4⟩ := ent_step (dim := entDim l o (m + 2) levels) (w := w) (p := curLeg (m + 2) i 0)
      (q := curLeg (m + 2) i 1) (Y := (List.range' 2 m).map (curLeg (m + 2) i)) (N := [⟨i + 1, 2⟩, ⟨i + 1, 3⟩]) hst hs
      (hst ▸ stLegs_nodup m i) hwi (by simp) hN
    rw [stLegs_next] at t1 t2
    obtain ⟨e1, e2⟩ := edges_step (by omega) hE hEk
    obtain ⟨u, u1, u2, u3⟩ := ih (i + 1) (t, stLegs m (i + 1)) _ (by omega)
      (by simp only [List.length_cons] at hl; omega)
      (fun k hk => by
        have := hw (k + 1) (by simpa using hk)
        rw [show i + 1 + k = i + (k + 1) by omega]
        simpa using this) rfl t2 e1 e2
    refine ⟨u, ?_, u2, fun c => ?_⟩
    · rw [entangleLoop]
      rw [show E.getD (i % (m + 2)) ⟨0, 0⟩ = curLeg (m + 2) i 0 from hEk 0 (by omega), hEk 1 (by omega), t1]
      exact u1
    · rw [u3, runGates]
      congr 1
      funext c
      rw [stIdx_next, t4 _ _ (by simp) (by simp), gate, hwi]
      simp only [stIdx_update]
      rfl

/-- C76: `DenseEntangler` applies its nodes as gates to the legs of the input, gate `i` to the legs `i` and `i + 1` modulo
the number of legs, and adds the bias.  With `N` gates, axis `k` of the result is the leg `N + 1 + k` modulo the number of
legs.  The weights made by `build` always fit.  For a vector of another length the layer raises `ValueError`. -/
theorem C76_entangler {l o n levels : Nat} (hn : 2 ≤ n) (hl : 1 ≤ levels) {ws : List (NDArray R)}
    (hlen : ws.length = levels * (n - 1)) (hw : ∀ k (h : k < ws.length), ws[k].shape = gateShape l o n levels k)
    {bias : Option (List R)} (hbias : ∀ b, bias = some b → b.length = o ^ n) (x : List R) :
    (x.length ≠ l ^ n → entangleVec n l (o ^ n) ws bias x = .error .valueError) ∧
    (x.length = l ^ n → ∃ y, entangleVec n l (o ^ n) ws bias x = .ok y ∧ y.length = o ^ n ∧
      ∀ c : Nat → Nat, (∀ k < n, c k < o) → ∀ j,
        j = ravel (List.replicate n o) ((List.range n).map fun k => c ((levels * (n - 1) + 1 + k) % n)) →
        y.getD j 0 = runGates n 0 ws (fun c => x.getD (ravel (List.replicate n l) ((List.range n).map c)) 0) c +
          biasAt bias j) := by
  have hp : (List.replicate n l).prod = l ^ n := by simp
  constructor
  · intro hx
    rw [entangleVec, reshapeVec, hp, if_neg (Ne.symm hx)]
    rfl
  intro hx
  obtain ⟨m, rfl⟩ : ∃ m, n = m + 2 := ⟨n - 2, by omega⟩
  simp only [show m + 2 - 1 = m + 1 by omega] at hlen ⊢
  cases ws with
  | nil =>
    have := Nat.mul_pos hl (Nat.succ_pos m)
    rw [List.length_nil] at hlen
    exact absurd hlen this.ne
  | cons w ws =>
  set E := (List.range (m + 2)).map (fun a => (⟨0, a⟩ : Leg)) with hE
  have hE' : E = ⟨0, 0⟩ :: ⟨0, 1⟩ :: (List.range' 2 m).map (curLeg (m + 2) 0) := by
    rw [hE, List.range_eq_range', List.range'_succ, List.range'_succ, List.map_cons, List.map_cons]
    congr 2
    apply List.map_congr_left
    intro k hk
    rw [List.mem_range'_1] at hk
    have h1 : k ≠ 0 := by omega
    have h2 : k < m + 2 := by omega
    simp [curLeg, h1, h2]
  have hEk : ∀ k < m + 2, E.getD ((0 + k) % (m + 2)) ⟨0, 0⟩ = curLeg (m + 2) 0 k := by
    intro k hk
    rw [Nat.zero_add, Nat.mod_eq_of_lt hk, List.getD_eq_getElem _ _ (by simpa [hE] using hk)]
    simp only [hE, List.getElem_map, List.getElem_range, curLeg]
    by_cases h1 : k = 0
    · simp [h1]
    · simp [h1, hk]
  have hwi : w.shape = gateShape l o (m + 2) levels 0 := hw 0 (by simp)
  rw [gateShape_eq (by omega) (by simp only [List.length_cons] at hlen; simp; omega)] at hwi
  obtain ⟨t, t1, t2, t3, t4⟩ := ent_step0 (dim := entDim l o (m + 2) levels) (st := (ofList (List.replicate (m + 2) l) x, E))
    (w := w) (p := ⟨0, 0⟩) (q := ⟨0, 1⟩) (Y := (List.range' 2 m).map (curLeg (m + 2) 0)) (N := [⟨0 + 1, 2⟩, ⟨0 + 1, 3⟩]) hE'
    (by
      show List.replicate (m + 2) l = E.map _
      symm
      rw [List.eq_replicate_iff]
      refine ⟨by simp [hE], ?_⟩
      intro b hb
      simp only [hE, List.map_map, List.mem_map, Function.comp] at hb
      obtain ⟨a, _, rfl⟩ := hb
      simp [entDim])
    (List.Nodup.map (fun a b h => by simpa using h) List.nodup_range)
    (by rw [hwi]; simp [curLeg]) (by simp)
    (by
      intro e he h
      simp only [hE, List.mem_map] at h
      obtain ⟨a, _, rfl⟩ := h
      simp at he)
  rw [stLegs_next] at t1 t2
  obtain ⟨e1, e2⟩ := edges_step (i := 0) (by omega) (by simp [hE]) hEk
  obtain ⟨u, u1, u2, u3⟩ := entangleLoop_ok (l := l) (o := o) (levels := levels) ws 1 (t, stLegs m 1) _ (by omega)
    (by simp only [List.length_cons] at hlen; omega)
    (fun k hk => by
      have := hw (k + 1) (by simpa using hk)
      rw [show 1 + k = k + 1 by omega]
      simpa using this) rfl t2 e1 e2
  have us : u.shape = List.replicate (m + 2) o := by
    rw [u2, List.eq_replicate_iff]
    refine ⟨by simp [stLegs], ?_⟩
    intro b hb
    have hend := fun k (hk : k < m + 2) => entDim_end (l := l) (o := o) (n := m + 2) (levels := levels) (by omega) hl hk
    simp only [show m + 2 - 1 = m + 1 by omega] at hend
    simp only [stLegs, List.map_append, List.map_cons, List.map_nil, List.map_map, List.cons_append, List.mem_cons,
      List.mem_append, List.mem_map, List.mem_range'_1, Function.comp, List.not_mem_nil, or_false] at hb
    rcases hb with rfl | ⟨k, hk, rfl⟩ | rfl
    · exact hend 1 (by omega)
    · exact hend k (by omega)
    · exact hend 0 (by omega)
  have up : u.shape.prod = o ^ (m + 2) := by rw [us]; simp
  obtain ⟨y, y1, y2, y3⟩ := addBias_ok (bias := bias) (r := flat u) (fun b hb => by rw [flat_length, up, hbias b hb])
  refine ⟨y, ?_, by rw [y2, flat_length, up], fun c hc j hj => ?_⟩
  · rw [entangleVec, reshapeVec, hp, if_pos hx.symm]
    show (entangleLoop (m + 2) 0 (w :: ws) (ofList _ x, E) E >>= _) = _
    rw [entangleLoop]
    rw [show E.getD (0 % (m + 2)) ⟨0, 0⟩ = ⟨0, 0⟩ from hEk 0 (by omega),
      show E.getD ((0 + 1) % (m + 2)) ⟨0, 0⟩ = ⟨0, 1⟩ by rw [hEk 1 (by omega)]; simp [curLeg], t1]
    show (entangleLoop (m + 2) (0 + 1) ws (t, stLegs m (0 + 1)) _ >>= _) = _
    rw [u1]
    show (if u.shape.prod ≠ _ then _ else _) = _
    rw [if_neg (by simp [up])]
    exact y1
  · rw [y3]
    congr 1
    have hin : InB u.shape (stIdx (m + 2) (levels * (m + 1)) c) := by
      rw [us]
      refine List.forall₂_iff_get.2 ⟨by simp [stIdx], ?_⟩
      intro k h1 h2
      simp only [stIdx, List.get_eq_getElem, List.getElem_map, List.getElem_replicate]
      exact hc _ (Nat.mod_lt _ (by omega))
    have hg := flat_get u hin
    rw [us] at hg
    rw [hj]
    show (flat u).getD (ravel _ (stIdx (m + 2) (levels * (m + 1)) c)) 0 = _
    rw [hg, u3, runGates]
    congr 1
    funext c
    rw [stIdx_next m 0, t4 _ _ (by simp) (by simp), gate, hwi]
    have hupd : ∀ a b, (List.range (m + 2)).map (Function.update (Function.update c (0 % (m + 2)) a) ((0 + 1) % (m + 2)) b) =
        a :: b :: (List.range' 2 m).map (fun k => c ((0 + k) % (m + 2))) := by
      intro a b
      rw [List.range_eq_range', List.range'_succ, List.range'_succ, List.map_cons, List.map_cons]
      have e1 : (0 + 1) % (m + 2) = 1 := Nat.mod_eq_of_lt (by omega)
      rw [e1, Nat.zero_mod, Function.update_of_ne (by omega), Function.update_self, Function.update_self]
      congr 2
      apply List.map_congr_left
      intro k hk
      rw [List.mem_range'_1] at hk
      rw [Function.update_of_ne (by omega), Function.update_of_ne (by omega), Nat.zero_add, Nat.mod_eq_of_lt (by omega)]
    simp only [hupd]
    simp [curLeg, ofList_get]

/-- C76: with one level, axis `k` of the result of `DenseEntangler` is the leg `k`. -/
theorem C76_entangler_one_level {l o n : Nat} (hn : 2 ≤ n) {ws : List (NDArray R)} (hlen : ws.length = n - 1)
    (hw : ∀ k (h : k < ws.length), ws[k].shape = gateShape l o n 1 k) {bias : Option (List R)}
    (hbias : ∀ b, bias = some b → b.length = o ^ n) {x : List R} (hx : x.length = l ^ n) :
    ∃ y, entangleVec n l (o ^ n) ws bias x = .ok y ∧ y.length = o ^ n ∧
      ∀ c : Nat → Nat, (∀ k < n, c k < o) → y.getD (ravel (List.replicate n o) ((List.range n).map c)) 0 =
        runGates n 0 ws (fun c => x.getD (ravel (List.replicate n l) ((List.range n).map c)) 0) c +
          biasAt bias (ravel (List.replicate n o) ((List.range n).map c)) := by
  obtain ⟨y, y1, y2, y3⟩ := (C76_entangler (levels := 1) hn le_rfl (by omega) hw hbias x).2 hx
  refine ⟨y, y1, y2, fun c hc => y3 c hc _ ?_⟩
  congr 1
  apply List.map_congr_left
  intro k hk
  rw [List.mem_range] at hk
  rw [show 1 * (n - 1) + 1 + k = k + n by omega, Nat.add_mod_right, Nat.mod_eq_of_lt hk]

/-- The gate that does nothing, for two legs of size `d`. -/
def idGate (d : Nat) : NDArray R :=
  ⟨[d, d, d, d], fun i => if i.getD 0 0 = i.getD 2 0 ∧ i.getD 1 0 = i.getD 3 0 then 1 else 0⟩

theorem gate_id {d p q : Nat} {ψ : (Nat → Nat) → R} {c : Nat → Nat} (hp : c p < d) (hq : c q < d) :
    gate (idGate d) p q ψ c = ψ c := by
  rw [gate]
  show ∑ a ∈ range d, ∑ b ∈ range d, ψ (Function.update (Function.update c p a) q b) * (if a = c p ∧ b = c q then 1 else 0) = _
  rw [Finset.sum_eq_single (c p), Finset.sum_eq_single (c q)]
  · simp
  · intro b _ hb
    simp [hb]
  · intro h
    exact absurd (by simpa using hq) h
  · intro a _ ha
    apply Finset.sum_eq_zero
    intro b _
    simp [ha]
  · intro h
    exact absurd (by simpa using hp) h

theorem runGates_id {d n : Nat} (hn : 2 ≤ n) {c : Nat → Nat} (hc : ∀ k < n, c k < d) :
    ∀ (N i : Nat) (ψ : (Nat → Nat) → R) (φ : (Nat → Nat) → R), (∀ c, (∀ k < n, c k < d) → ψ c = φ c) →
      runGates n i (List.replicate N (idGate d)) ψ c = φ c := by
  intro N
  induction N with
  | zero => intro i ψ φ h; exact h c hc
  | succ N ih =>
    intro i ψ φ h
    rw [List.replicate_succ, runGates]
    apply ih
    intro c' hc'
    rw [gate_id (hc' _ (Nat.mod_lt _ (by omega))) (hc' _ (Nat.mod_lt _ (by omega))), h c' hc']

/-- C76: when each gate does nothing and there is no bias, `DenseEntangler` moves the legs: with `N` gates, the index of leg
`N + 1 + k` modulo the number of legs is at axis `k`. -/
theorem C76_entangler_identity {d n levels : Nat} (hn : 2 ≤ n) (hl : 1 ≤ levels) {x : List R} (hx : x.length = d ^ n) :
    ∃ y, entangleVec n d (d ^ n) (List.replicate (levels * (n - 1)) (idGate d)) none x = .ok y ∧ y.length = d ^ n ∧
      ∀ c : Nat → Nat, (∀ k < n, c k < d) →
        y.getD (ravel (List.replicate n d) ((List.range n).map fun k => c ((levels * (n - 1) + 1 + k) % n))) 0 =
          x.getD (ravel (List.replicate n d) ((List.range n).map c)) 0 := by
  obtain ⟨y, y1, y2, y3⟩ := (C76_entangler (l := d) (o := d) hn hl (ws := List.replicate (levels * (n - 1)) (idGate d))
    (by simp) (by
      intro k hk
      simp only [List.getElem_replicate, idGate, gateShape, min_self]
      simp) (bias := none) (by simp) x).2 hx
  refine ⟨y, y1, y2, fun c hc => ?_⟩
  rw [y3 c hc _ rfl, runGates_id hn hc _ _ _ _ (fun c _ => rfl)]
  simp [biasAt]

/-- C76: with more than one level `DenseEntangler` does not keep the order of the legs: gates that do nothing change the
vector. -/
theorem C76_entangler_order_false :
    ¬ ∀ (d n levels : Nat), 2 ≤ n → 1 ≤ levels → ∀ x : List ℤ, x.length = d ^ n →
      entangleVec n d (d ^ n) (List.replicate (levels * (n - 1)) (idGate d)) none x = .ok x := by
  intro h
  have := h 2 2 2 le_rfl (by omega) [1, 2, 3, 4] rfl
  revert this
  decide +kernel

/-! ## Cases -/

example : entangleVec 2 2 4 [idGate 2, idGate 2] none [(1 : ℤ), 2, 3, 4] = .ok [1, 3, 2, 4] := by decide +kernel

/-- Three legs of size two become legs of size three, with two levels. -/
example : (List.range 4).map (gateShape 2 3 3 2) = [[2, 2, 2, 2], [2, 2, 2, 2], [2, 2, 3, 2], [2, 2, 3, 3]] := by decide +kernel

/-- Three legs of size three become legs of size two, with one level. -/
example : (List.range 2).map (gateShape 3 2 3 1) = [[3, 3, 2, 2], [2, 3, 2, 2]] := by decide +kernel

end TN.Keras
