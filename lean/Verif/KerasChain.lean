import Verif.KerasProps

/-!
# What `DenseExpander` and `DenseCondenser` compute
-/

namespace TN.Keras

open Finset NDArray

variable {R : Type} [CommSemiring R]

/-- The entry `(i, j)` of the product of the matrices `w[:, b, :]`, one for each array of the list; all have `d` rows and
columns. -/
def prodEntry (d : Nat) : List (NDArray R) → List Nat → Nat → Nat → R
  | w :: ws, b :: bs, i, j => ∑ k ∈ range d, w.get [i, b, k] * prodEntry d ws bs k j
  | _, _, i, j => if i = j then 1 else 0

/-- The edges of the nodes of an expander that are not connected. -/
def exOuts : Nat → Nat → List Leg
  | _, 0 => []
  | i, n + 1 => ⟨i, 1⟩ :: exOuts (i + 1) n

/-- The last edge -/
def exLast : Nat → Nat → Leg → Leg
  | _, 0, e => e
  | i, n + 1, _ => exLast (i + 1) n ⟨i, 2⟩

/-- The size of an edge in the layers with `exp_base`. -/
def chDim (base d : Nat) (l : Leg) : Nat := if l.axis = 1 then base else d

theorem expandLoop_ok {base d : Nat} : ∀ (ws : List (NDArray R)) (i : Nat) (st : LNode R) (P : List Leg) (e : Leg),
    (∀ w ∈ ws, w.shape = [d, base, d]) → st.2 = P ++ [e] → Shaped (chDim base d) st.1 st.2 → st.2.Nodup →
    (∀ l ∈ st.2, l.node < i) → e.axis ≠ 1 →
    ∃ t, expandLoop i ws st e = .ok (t, P ++ exOuts i ws.length ++ [exLast i ws.length e]) ∧
      Shaped (chDim base d) t (P ++ exOuts i ws.length ++ [exLast i ws.length e]) ∧
      (P ++ exOuts i ws.length ++ [exLast i ws.length e]).Nodup ∧
      ∀ σ : Leg → Nat, σ (exLast i ws.length e) < d →
        val t (P ++ exOuts i ws.length ++ [exLast i ws.length e]) σ =
          ∑ a ∈ range d, val st.1 st.2 (Function.update σ e a) *
            prodEntry d ws ((exOuts i ws.length).map σ) a (σ (exLast i ws.length e)) := by
  intro ws
  induction ws with
  | nil =>
    intro i st P e _ hst hs hn _ he
    refine ⟨st.1, ?_, by simpa [exOuts, exLast, ← hst] using hs, by simpa [exOuts, exLast, ← hst] using hn, ?_⟩
    · simp [expandLoop, exOuts, exLast, ← hst]
    · intro σ hσ
      simp only [List.length_nil, exLast] at hσ
      simp only [List.length_nil, exOuts, exLast, List.append_nil, prodEntry, ← hst, mul_ite, mul_one, mul_zero]
      rw [Finset.sum_ite_eq' (range d) (σ e), if_pos (by simpa using hσ), Function.update_eq_self]
  | cons w ws ih =>
    intro i st P e hw hst hs hn hf he
    have hei : e.node < i := hf e (by simp [hst])
    have hPi : ∀ l ∈ P, l.node < i := fun l hl => hf l (by simp [hst, hl])
    have e1 : e ≠ ⟨i, 1⟩ := by rintro rfl; simp at hei
    have e2 : e ≠ ⟨i, 2⟩ := by rintro rfl; simp at hei
    have hP1 : (⟨i, 1⟩ : Leg) ∉ P := fun h => by simpa using hPi _ h
    have hP2 : (⟨i, 2⟩ : Leg) ∉ P := fun h => by simpa using hPi _ h
    have hnP : P.Nodup ∧ e ∉ P := by
      rw [hst, List.nodup_append] at hn
      exact ⟨hn.1, fun h => hn.2.2 e h e (by simp) rfl⟩
    obtain ⟨t, t1, t2, t3⟩ := contractL_ok (dim := chDim base d) (a := st) (b := (w, [e, ⟨i, 1⟩, ⟨i, 2⟩])) (C := [e]) hs
      (by simp [Shaped, hw w (by simp), chDim, he]) hn (by simp [e1, e2])
      (by
        rw [hst, List.filter_append, List.filter_eq_nil_iff.2]
        · simp
        · intro l hl
          have h1 : l ≠ e := fun h => hnP.2 (h ▸ hl)
          have h2 : l ≠ ⟨i, 1⟩ := fun h => hP1 (h ▸ hl)
          have h3 : l ≠ ⟨i, 2⟩ := fun h => hP2 (h ▸ hl)
          simp [h1, h2, h3]) (by simp)
    rw [show List.filter (fun l => decide (l ∉ [e])) st.2 ++
        List.filter (fun l => decide (l ∉ [e])) (w, [e, ⟨i, 1⟩, ⟨i, 2⟩]).2 = (P ++ [⟨i, 1⟩]) ++ [⟨i, 2⟩] by
      rw [hst, List.filter_append, List.filter_eq_self.2]
      · simp [Ne.symm e1, Ne.symm e2]
      · intro l hl
        simpa using fun h : l = e => hnP.2 (h ▸ hl)] at t1 t2 t3
    obtain ⟨u, u1, u2, u3, u4⟩ := ih (i + 1) (t, (P ++ [⟨i, 1⟩]) ++ [⟨i, 2⟩]) (P ++ [⟨i, 1⟩]) ⟨i, 2⟩
      (fun w' h => hw w' (by simp [h])) rfl t2
      (by simp [List.nodup_append, hnP.1]; exact fun a ha => ⟨fun h => hP1 (h ▸ ha), fun h => hP2 (h ▸ ha)⟩)
      (by
        intro l hl
        simp only [List.mem_append, List.mem_singleton] at hl
        rcases hl with (hl | rfl) | rfl
        · exact (hPi l hl).trans (by omega)
        · simp
        · simp) (by simp)
    have hlab : P ++ exOuts i (w :: ws).length ++ [exLast i (w :: ws).length e] =
        P ++ [⟨i, 1⟩] ++ exOuts (i + 1) ws.length ++ [exLast (i + 1) ws.length ⟨i, 2⟩] := by
      simp [exOuts, exLast]
    rw [hlab]
    refine ⟨u, ?_, u2, u3, ?_⟩
    · rw [expandLoop, t1]
      exact u1
    · intro σ hσ
      rw [u4 σ hσ]
      simp only [List.length_cons, exOuts, exLast, List.map_cons, prodEntry, Finset.mul_sum]
      rw [Finset.sum_comm]
      apply Finset.sum_congr rfl
      intro c _
      rw [t3, sumOver_one, Finset.sum_mul]
      apply Finset.sum_congr (by simp [chDim, he])
      intro a _
      rw [show val st.1 st.2 (Function.update (Function.update σ ⟨i, 2⟩ c) e a) =
          val st.1 st.2 (Function.update σ e a) from val_congr _ fun l hl => by
        by_cases h : l = e
        · simp [h]
        · rw [Function.update_of_ne h, Function.update_of_ne h, Function.update_of_ne]
          rintro rfl
          simpa using hf _ hl]
      simp only [val, List.map_cons, List.map_nil, Function.update_self, Function.update_of_ne (Ne.symm e1),
        Function.update_of_ne (Ne.symm e2), Function.update_of_ne (show (⟨i, 1⟩ : Leg) ≠ ⟨i, 2⟩ by simp)]
      ring

theorem exOuts_length (i n : Nat) : (exOuts i n).length = n := by
  induction n generalizing i with
  | zero => rfl
  | succ n ih => simp [exOuts, ih]

theorem exOuts_dim (base d i n : Nat) : (exOuts i n).map (chDim base d) = List.replicate n base := by
  induction n generalizing i with
  | zero => rfl
  | succ n ih => simp [exOuts, ih, chDim, List.replicate_succ]

theorem exLast_axis (i n : Nat) {e : Leg} (he : e.axis ≠ 1) : (exLast i n e).axis ≠ 1 := by
  induction n generalizing i e with
  | zero => exact he
  | succ n ih => exact ih _ (by simp)

/-- C76: `DenseExpander` with `k` nodes turns a vector of length `d` into one of length `d * exp_base ** k`.  Written with
the shape `(exp_base, …, exp_base, d)`, the result at `b_1, …, b_k, j` is the entry `j` of the row vector `x` times the
matrices `node_1[:, b_1, :]`, …, `node_k[:, b_k, :]`, and then the bias is added. -/
theorem C76_expander {base d : Nat} {ws : List (NDArray R)} (hw : ∀ w ∈ ws, w.shape = [d, base, d])
    {bias : Option (List R)} (hbias : ∀ c, bias = some c → c.length = d * base ^ ws.length) {x : List R}
    (hx : x.length = d) :
    ∃ y, expandVec ws bias x = .ok y ∧ y.length = d * base ^ ws.length ∧
      ∀ bs j, InB (List.replicate ws.length base) bs → j < d →
        y.getD (ravel (List.replicate ws.length base ++ [d]) (bs ++ [j])) 0 =
          (∑ i ∈ range d, x.getD i 0 * prodEntry d ws bs i j) +
            biasAt bias (ravel (List.replicate ws.length base ++ [d]) (bs ++ [j])) := by
  obtain ⟨t, t1, t2, t3, t4⟩ := expandLoop_ok (base := base) (d := d) ws 1 (ofList [x.length] x, [⟨0, 0⟩]) [] ⟨0, 0⟩ hw rfl
    (by simp [Shaped, ofList, hx, chDim]) (by simp) (by simp) (by simp)
  set e := exLast 1 ws.length ⟨0, 0⟩ with he
  have ea : e.axis ≠ 1 := exLast_axis _ _ (by simp)
  have ts : t.shape = List.replicate ws.length base ++ [d] := by
    rw [t2]
    simp [exOuts_dim, chDim, ea]
  obtain ⟨y, y1, y2, y3⟩ := addBias_ok (bias := bias) (r := flat t) (fun c hc => by
    rw [flat_length, ts, hbias c hc]; simp [mul_comm])
  refine ⟨y, ?_, by rw [y2, flat_length, ts]; simp [mul_comm], fun bs j hb hj => ?_⟩
  · rw [expandVec, t1]
    exact y1
  · rw [y3]
    congr 1
    have hin : InB t.shape (bs ++ [j]) := by
      rw [ts]
      exact List.rel_append hb (List.Forall₂.cons hj List.Forall₂.nil)
    have := flat_get t hin
    rw [ts] at this
    rw [this]
    obtain ⟨σ, hσ⟩ : ∃ σ : Leg → Nat, (exOuts 1 ws.length ++ [e]).map σ = bs ++ [j] :=
      ⟨_, assign_map_self (σ := fun _ => 0) (by simpa using t3) (by simp [exOuts_length, hb.length])⟩
    rw [List.map_append] at hσ
    obtain ⟨h1, h2⟩ := List.append_inj hσ (by simp [exOuts_length, hb.length])
    simp only [List.map_cons, List.map_nil, List.cons.injEq, and_true] at h2
    have := t4 σ (by rw [h2]; exact hj)
    rw [val, List.nil_append, List.map_append, h1, List.map_cons, List.map_nil, h2] at this
    rw [this]
    apply Finset.sum_congr rfl
    intro i _
    simp [val, ofList_get, ravel]

/-! ## DenseCondenser -/

/-- One step of the loop in `DenseCondenser.call`. -/
theorem condense_step {dim : Leg → Nat} {base d i : Nat} {w : NDArray R} (hw : w.shape = [d, base, d]) {st : LNode R}
    {Q : List Leg} {e1 e2 : Leg} (hst : st.2 = Q ++ [e2, e1]) (hs : Shaped dim st.1 st.2) (hn : st.2.Nodup)
    (hf : ∀ l ∈ st.2, l.node < i) (h1 : dim e1 = d) (h2 : dim e2 = base) (hi : dim ⟨i, 2⟩ = d) :
    ∃ t, contractL st (w, [e1, e2, ⟨i, 2⟩]) = .ok (t, Q ++ [⟨i, 2⟩]) ∧ Shaped dim t (Q ++ [⟨i, 2⟩]) ∧
      (Q ++ [(⟨i, 2⟩ : Leg)]).Nodup ∧ ∀ (q : List Nat) c, q.length = Q.length →
        t.get (q ++ [c]) = ∑ b ∈ range base, ∑ a ∈ range d, st.1.get (q ++ [b, a]) * w.get [a, b, c] := by
  rw [hst] at hn
  have hn' := hn
  rw [List.nodup_append] at hn'
  obtain ⟨nQ, n21, hd⟩ := hn'
  have n12 : e2 ≠ e1 := by simpa using n21
  have d2 : e2 ∉ Q := fun h => hd e2 h e2 (by simp) rfl
  have d1 : e1 ∉ Q := fun h => hd e1 h e1 (by simp) rfl
  have f1 : e1 ≠ ⟨i, 2⟩ := fun h => by simpa [h] using hf e1 (by rw [hst]; simp)
  have f2 : e2 ≠ ⟨i, 2⟩ := fun h => by simpa [h] using hf e2 (by rw [hst]; simp)
  have fQ : (⟨i, 2⟩ : Leg) ∉ Q := fun h => by simpa using hf ⟨i, 2⟩ (by rw [hst]; simp [h])
  obtain ⟨t, t1, t2, t3⟩ := contractL_ok (dim := dim) (a := st) (b := (w, [e1, e2, ⟨i, 2⟩])) (C := [e2, e1]) hs
    (by simp [Shaped, hw, h1, h2, hi]) (hst ▸ hn) (by simp [Ne.symm n12, f1, f2])
    (by
      rw [hst, List.filter_append, List.filter_eq_nil_iff.2]
      · simp
      · intro l hl
        have h1 : l ≠ e1 := fun h => d1 (h ▸ hl)
        have h2 : l ≠ e2 := fun h => d2 (h ▸ hl)
        have h3 : l ≠ ⟨i, 2⟩ := fun h => fQ (h ▸ hl)
        simp [h1, h2, h3]) (by simp)
  rw [show List.filter (fun l => decide (l ∉ [e2, e1])) st.2 ++
      List.filter (fun l => decide (l ∉ [e2, e1])) (w, [e1, e2, ⟨i, 2⟩]).2 = Q ++ [⟨i, 2⟩] by
    rw [hst, List.filter_append, List.filter_eq_self.2]
    · simp [Ne.symm f1, Ne.symm f2]
    · intro l hl
      have h1 : l ≠ e1 := fun h => d1 (h ▸ hl)
      have h2 : l ≠ e2 := fun h => d2 (h ▸ hl)
      simp [h1, h2]] at t1 t2 t3
  have nr : (Q ++ [(⟨i, 2⟩ : Leg)]).Nodup := by
    rw [List.nodup_append]
    refine ⟨nQ, by simp, ?_⟩
    intro a ha b hb
    rw [List.mem_singleton] at hb
    exact fun h => fQ (hb ▸ h ▸ ha)
  refine ⟨t, t1, t2, nr, fun q c hq => ?_⟩
  obtain ⟨σ, hσ⟩ : ∃ σ : Leg → Nat, (Q ++ [(⟨i, 2⟩ : Leg)]).map σ = q ++ [c] :=
    ⟨_, assign_map_self (σ := fun _ => 0) nr (by simp [hq])⟩
  have h := t3 σ
  rw [val, hσ] at h
  rw [h]
  simp only [sumOver, h1, h2]
  rw [List.map_append] at hσ
  obtain ⟨s1, s2⟩ := List.append_inj hσ (by simp [hq])
  simp only [List.map_cons, List.map_nil, List.cons.injEq, and_true] at s2
  apply Finset.sum_congr rfl
  intro b _
  apply Finset.sum_congr rfl
  intro a _
  have hQ : Q.map (Function.update (Function.update σ e2 b) e1 a) = q := by
    rw [← s1]
    apply List.map_congr_left
    intro l hl
    rw [Function.update_of_ne (show l ≠ e1 from fun h => d1 (h ▸ hl)),
      Function.update_of_ne (show l ≠ e2 from fun h => d2 (h ▸ hl))]
  simp only [val, hst, List.map_append, hQ, List.map_cons, List.map_nil, Function.update_self, Function.update_of_ne n12,
    Function.update_of_ne (Ne.symm f1), Function.update_of_ne (Ne.symm f2), s2]

theorem sumIdx_fsum {s : List Nat} {ι : Type} (S : Finset ι) (f : List Nat → ι → R) :
    sumIdx s (fun i => ∑ k ∈ S, f i k) = ∑ k ∈ S, sumIdx s (fun i => f i k) := by
  simp only [← sum_range_unravel]
  exact Finset.sum_comm

theorem condenseLoop_ok {base d : Nat} : ∀ (ws : List (NDArray R)) (i : Nat) (st : LNode R) (Q : List Leg) (e : Leg)
    (dim : Leg → Nat), (∀ w ∈ ws, w.shape = [d, base, d]) → st.2 = Q ++ [e] → Q.length = ws.length →
    Shaped dim st.1 st.2 → st.2.Nodup → (∀ l ∈ st.2, l.node < i) → (∀ l ∈ Q, dim l = base) → dim e = d →
    (∀ k ≥ i, dim ⟨k, 2⟩ = d) →
    ∃ t l, condenseLoop i ws st = .ok (t, [l]) ∧ t.shape = [d] ∧ ∀ j < d, t.get [j] =
      sumIdx (List.replicate ws.length base) fun bs => ∑ a ∈ range d, st.1.get (bs ++ [a]) * prodEntry d ws bs.reverse a j := by
  intro ws
  induction ws with
  | nil =>
    intro i st Q e dim _ hst hQ hs hn hf hb he hd
    have hQ' : Q = [] := by simpa using hQ
    subst hQ'
    refine ⟨st.1, e, ?_, ?_, ?_⟩
    · rw [condenseLoop]
      simp [← show st.2 = [e] from hst]
    · rw [hs, hst]
      simp [he]
    · intro j hj
      simp only [List.length_nil, List.replicate_zero, sumIdx, List.nil_append, prodEntry, mul_ite,
        mul_one, mul_zero]
      rw [Finset.sum_ite_eq' (range d) j, if_pos (by simpa using hj)]
  | cons w ws ih =>
    intro i st Q e dim hw hst hQ hs hn hf hb he hd
    rcases List.eq_nil_or_concat Q with rfl | ⟨Q, e2, rfl⟩
    · simp at hQ
    rw [List.concat_eq_append] at *
    have hst' : st.2 = Q ++ [e2, e] := by rw [hst]; simp
    obtain ⟨t, t1, t2, t3, t4⟩ := condense_step (hw w (by simp)) hst' hs hn hf he (hb e2 (by simp)) (hd i le_rfl)
    obtain ⟨u, l, u1, u2, u3⟩ := ih (i + 1) (t, Q ++ [⟨i, 2⟩]) Q ⟨i, 2⟩ dim (fun w' h => hw w' (by simp [h])) rfl
      (by simpa using hQ) t2 t3
      (by
        intro l hl
        simp only [List.mem_append, List.mem_singleton] at hl
        rcases hl with hl | rfl
        · exact (hf l (by rw [hst]; simp [hl])).trans (by omega)
        · simp)
      (fun l hl => hb l (by simp [hl])) (hd i le_rfl) (fun k hk => hd k (by omega))
    refine ⟨u, l, ?_, u2, fun j hj => ?_⟩
    · rw [condenseLoop, show st.2.reverse = e :: e2 :: Q.reverse by rw [hst']; simp]
      simp only
      rw [t1]
      exact u1
    · rw [u3 j hj, List.length_cons, List.replicate_succ', sumIdx_append]
      apply sumIdx_congr
      intro bs hbs
      have hl : bs.length = Q.length := by rw [hbs.length]; simpa using hQ.symm
      simp only [sumIdx, t4 bs _ hl, Finset.sum_mul, List.reverse_append, List.reverse_cons, List.reverse_nil,
        List.nil_append, List.singleton_append, prodEntry, Finset.mul_sum]
      rw [Finset.sum_comm]
      apply Finset.sum_congr rfl
      intro b _
      rw [Finset.sum_comm]
      apply Finset.sum_congr rfl
      intro a _
      apply Finset.sum_congr rfl
      intro c _
      rw [List.append_assoc, mul_assoc]
      rfl

/-- C76: `DenseCondenser` with `k` nodes turns a vector of length `d * exp_base ** k` into one of length `d`.  With the
vector written with the shape `(exp_base, …, exp_base, d)`, the entry `j` of the result is the sum over `b_1, …, b_k` and
`i` of `x[b_1, …, b_k, i]` times the entry `(i, j)` of `node_1[:, b_k, :]`, …, `node_k[:, b_1, :]`, and then the bias is
added.  For a vector of another length the layer raises `ValueError`. -/
theorem C76_condenser {base d : Nat} {ws : List (NDArray R)} (hw : ∀ w ∈ ws, w.shape = [d, base, d])
    {bias : Option (List R)} (hbias : ∀ c, bias = some c → c.length = d) (x : List R) :
    (x.length ≠ d * base ^ ws.length → condenseVec base d ws bias x = .error .valueError) ∧
    (x.length = d * base ^ ws.length → ∃ y, condenseVec base d ws bias x = .ok y ∧ y.length = d ∧
      ∀ j < d, y.getD j 0 =
        (sumIdx (List.replicate ws.length base) fun bs => ∑ i ∈ range d,
          x.getD (ravel (List.replicate ws.length base ++ [d]) (bs ++ [i])) 0 * prodEntry d ws bs.reverse i j) +
        biasAt bias j) := by
  have hp : (List.replicate ws.length base ++ [d]).prod = d * base ^ ws.length := by simp [mul_comm]
  constructor
  · intro hx
    rw [condenseVec, reshapeVec, hp, if_neg (Ne.symm hx)]
    rfl
  intro hx
  let dim : Leg → Nat := fun l => if l.node = 0 ∧ l.axis < ws.length then base else d
  have hlab : (List.range (ws.length + 1)).map (fun a => (⟨0, a⟩ : Leg)) =
      (List.range ws.length).map (fun a => (⟨0, a⟩ : Leg)) ++ [⟨0, ws.length⟩] := by
    rw [List.range_succ, List.map_append]
    rfl
  obtain ⟨t, l, t1, t2, t3⟩ := condenseLoop_ok (base := base) (d := d) ws 1
    (ofList (List.replicate ws.length base ++ [d]) x, (List.range (ws.length + 1)).map (fun a => (⟨0, a⟩ : Leg)))
    ((List.range ws.length).map (fun a => (⟨0, a⟩ : Leg))) ⟨0, ws.length⟩ dim hw hlab (by simp)
    (by
      show List.replicate ws.length base ++ [d] = _
      rw [hlab, List.map_append, List.map_map]
      congr 1
      · symm
        rw [List.eq_replicate_iff]
        refine ⟨by simp, ?_⟩
        intro b hb
        simp only [List.mem_map, List.mem_range, Function.comp] at hb
        obtain ⟨k, hk, rfl⟩ := hb
        simp [dim, hk]
      · simp [dim])
    (List.Nodup.map (fun a b h => by simpa using h) List.nodup_range)
    (by intro l hl; simp only [List.mem_map] at hl; obtain ⟨a, _, rfl⟩ := hl; simp)
    (by intro l hl; simp only [List.mem_map, List.mem_range] at hl; obtain ⟨a, ha, rfl⟩ := hl; simp [dim, ha])
    (by simp [dim]) (by intro k hk; simp only [dim]; rw [if_neg]; simp; omega)
  obtain ⟨y, y1, y2, y3⟩ := addBias_ok (bias := bias) (r := flat t) (fun c hc => by
    rw [flat_length, t2, hbias c hc]; simp)
  refine ⟨y, ?_, by rw [y2, flat_length, t2]; simp, fun j hj => ?_⟩
  · rw [condenseVec, reshapeVec, hp, if_pos hx.symm]
    show (condenseLoop 1 ws _ >>= _) = _
    rw [t1]
    exact y1
  · rw [y3]
    congr 1
    have h1 := flat_get t (i := [j]) (by rw [t2]; exact List.Forall₂.cons hj List.Forall₂.nil)
    rw [t2, show ravel [d] [j] = j by simp [ravel]] at h1
    rw [h1, t3 j hj]
    rfl

/-! ## Cases -/

/-- A node of shape `(2, 3, 2)`. -/
def exNode : NDArray ℤ := ⟨[2, 3, 2], fun i => 6 * i.getD 0 0 + 2 * i.getD 1 0 + i.getD 2 0⟩

/-- With the node that holds `0, 1, …, 11`, the vector `[1, 10]` becomes `[60, 71, 82, 93, 104, 115]`. -/
example : expandVec [exNode] none [1, 10] = .ok [60, 71, 82, 93, 104, 115] := by decide +kernel

example : (∀ w ∈ [exNode, exNode], w.shape = [2, 3, 2]) ∧ ([1, 10] : List ℤ).length = 2 := by decide +kernel

example : condenseVec 3 2 [exNode] (some [1000, 2000]) [1, 10, 100, 1000, 10000, 100000] = .ok [1049260, 1161371] := by
  decide +kernel

example : condenseVec 3 2 [exNode] none [1, 10, 100, 1000, 10000] = .error .valueError := by decide +kernel

end TN.Keras
