import Verif.KerasChain

/-!
# What `DenseMPO` computes, and where it fails
-/

namespace TN.Keras

open Finset NDArray

variable {R : Type} [CommSemiring R]

/-- The entry of a chain of nodes of a matrix product operator from the bond `k` on: the nodes but the last have the axes
input, bond, bond and output, the last one has the axes input, bond and output. -/
def mpoRest (D : Nat) : List (NDArray R) → List Nat → List Nat → Nat → R
  | [w], a :: _, o :: _, k => w.get [a, k, o]
  | w :: w' :: ws, a :: as, o :: os, k => ∑ k' ∈ range D, w.get [a, k, k', o] * mpoRest D (w' :: ws) as os k'
  | _, _, _, _ => 0

/-- The entry of a matrix product operator for the input indices `as` and the output indices `os`. -/
def mpoEntry (D : Nat) : List (NDArray R) → List Nat → List Nat → R
  | w :: ws, a :: as, o :: os => ∑ k ∈ range D, w.get [a, k, o] * mpoRest D ws as os k
  | _, _, _ => 0

/-- The shapes of the nodes after the first one (mpo.py:117-130). -/
def MpoShapes (l D o : Nat) : List (NDArray R) → Prop
  | [] => False
  | [w] => w.shape = [l, D, o]
  | w :: w' :: ws => w.shape = [l, D, D, o] ∧ MpoShapes l D o (w' :: ws)

/-- The value of a contraction at an index. -/
theorem contractL_get {dim : Leg → Nat} {a b : LNode R} (ha : Shaped dim a.1 a.2) (hb : Shaped dim b.1 b.2)
    (na : a.2.Nodup) (nb : b.2.Nodup) {C L : List Leg} (hC : a.2.filter (· ∈ b.2) = C) (hne : C ≠ [])
    (hL : a.2.filter (· ∉ C) ++ b.2.filter (· ∉ C) = L) :
    ∃ t, contractL a b = .ok (t, L) ∧ Shaped dim t L ∧ L.Nodup ∧
      ∀ idx : List Nat, idx.length = L.length → ∃ σ : Leg → Nat, L.map σ = idx ∧
        t.get idx = sumOver dim C (fun τ => val a.1 a.2 τ * val b.1 b.2 τ) σ := by
  obtain ⟨t, t1, t2, t3⟩ := contractL_ok ha hb na nb hC hne
  rw [hL] at t1 t2 t3
  have hn : L.Nodup := by
    rw [← hL, List.nodup_append]
    refine ⟨na.filter _, nb.filter _, ?_⟩
    rintro x hx y hy rfl
    rw [List.mem_filter] at hx hy
    have : x ∈ C := by
      rw [← hC, List.mem_filter]
      exact ⟨hx.1, by simpa using hy.1⟩
    simp [this] at hx
  refine ⟨t, t1, t2, hn, fun idx hi => ⟨_, assign_map_self (σ := fun _ => 0) hn hi, ?_⟩⟩
  rw [← t3, val, assign_map_self hn hi]

theorem update_ne2 {σ : Leg → Nat} {x y l : Leg} {a b : Nat} (hx : l ≠ x) (hy : l ≠ y) :
    Function.update (Function.update σ x a) y b l = σ l := by
  rw [Function.update_of_ne hy, Function.update_of_ne hx]

/-- One step of the loop in `DenseMPO.call`: the state has the edges `x`, `Y`, `b` and `o`, and the next node has `x`, `b`
and the new edges `N`. -/
theorem mpo_step {dim : Leg → Nat} {st : LNode R} {w : NDArray R} {x b o : Leg} {Y N : List Leg}
    (hst : st.2 = x :: Y ++ [b, o]) (hs : Shaped dim st.1 st.2) (hn : st.2.Nodup)
    (hw : w.shape = dim x :: dim b :: N.map dim) (hN : N.Nodup) (hd : ∀ l ∈ N, l ∉ st.2) :
    ∃ t, contractL st (w, x :: b :: N) = .ok (t, Y ++ [o] ++ N) ∧ Shaped dim t (Y ++ [o] ++ N) ∧ (Y ++ [o] ++ N).Nodup ∧
      ∀ (ys : List Nat) c (ns : List Nat), ys.length = Y.length → ns.length = N.length →
        t.get (ys ++ [c] ++ ns) = ∑ a ∈ range (dim x), ∑ k ∈ range (dim b),
          st.1.get (a :: ys ++ [k, c]) * w.get (a :: k :: ns) := by
  have hn' := hn
  rw [hst] at hn' hd
  simp only [List.cons_append, List.nodup_cons, List.nodup_append, List.mem_append, List.mem_cons, List.not_mem_nil, or_false,
    not_or, List.nodup_nil, and_true, not_false_eq_true] at hn'
  obtain ⟨⟨xY, xb, xo⟩, nY, bo, hYb⟩ := hn'
  have hYb' : ∀ l ∈ Y, l ≠ b ∧ l ≠ o := fun l hl => ⟨hYb l hl b (Or.inl rfl), hYb l hl o (Or.inr rfl)⟩
  have hYx : ∀ l ∈ Y, l ≠ x := fun l hl h => xY (h ▸ hl)
  have hNx : ∀ l ∈ N, l ≠ x ∧ l ≠ b ∧ l ≠ o ∧ l ∉ Y := by
    intro l hl
    have := hd l hl
    simp only [List.cons_append, List.mem_cons, List.mem_append, List.not_mem_nil, or_false, not_or] at this
    exact ⟨this.1, this.2.2.1, this.2.2.2, this.2.1⟩
  obtain ⟨t, t1, t2, t3, t4⟩ := contractL_get (dim := dim) (a := st) (b := (w, x :: b :: N)) (C := [x, b])
    (L := Y ++ [o] ++ N) hs (by simp [Shaped, hw]) hn
    (by
      simp only [List.nodup_cons, List.mem_cons, not_or]
      exact ⟨⟨xb, fun h => (hNx x h).1 rfl⟩, fun h => (hNx b h).2.1 rfl, hN⟩)
    (by
      have h1 : Y.filter (fun l => decide (l ∈ x :: b :: N)) = [] := by
        rw [List.filter_eq_nil_iff]
        intro l hl
        have h3 : l ∉ N := fun h => (hNx l h).2.2.2 hl
        simp [hYx l hl, (hYb' l hl).1, h3]
      have h2 : o ∉ N := fun h => (hNx o h).2.2.1 rfl
      rw [hst, List.filter_append, List.filter_cons, h1]
      simp [Ne.symm xo, Ne.symm bo, h2]) (by simp)
    (by
      have h1 : Y.filter (fun l => decide (l ∉ [x, b])) = Y := by
        rw [List.filter_eq_self]
        intro l hl
        simp [hYx l hl, (hYb' l hl).1]
      have h2 : N.filter (fun l => decide (l ∉ [x, b])) = N := by
        rw [List.filter_eq_self]
        intro l hl
        simp [(hNx l hl).1, (hNx l hl).2.1]
      have h3 : (x :: b :: N).filter (fun l => decide (l ∉ [x, b])) = N := by
        rw [List.filter_cons, List.filter_cons, h2]
        simp
      rw [hst, List.filter_append, List.filter_cons, h1]
      show _ ++ List.filter _ (x :: b :: N) = _
      rw [h3]
      simp [Ne.symm xo, Ne.symm bo])
  refine ⟨t, t1, t2, t3, fun ys c ns hys hns => ?_⟩
  obtain ⟨σ, s1, s2⟩ := t4 (ys ++ [c] ++ ns) (by simp [hys, hns])
  rw [s2]
  rw [List.map_append, List.map_append] at s1
  obtain ⟨s3, sN⟩ := List.append_inj' s1 (by simp [hns])
  obtain ⟨sY, so⟩ := List.append_inj s3 (by simp [hys])
  simp only [List.map_cons, List.map_nil, List.cons.injEq, and_true] at so
  simp only [sumOver]
  apply Finset.sum_congr rfl
  intro a _
  apply Finset.sum_congr rfl
  intro k _
  have e1 : Y.map (Function.update (Function.update σ x a) b k) = ys := by
    rw [← sY]
    exact List.map_congr_left fun l hl => update_ne2 (hYx l hl) (hYb' l hl).1
  have e2 : N.map (Function.update (Function.update σ x a) b k) = ns := by
    rw [← sN]
    exact List.map_congr_left fun l hl => update_ne2 (hNx l hl).1 (hNx l hl).2.1
  simp only [val, hst, List.map_append, List.map_cons, List.map_nil, e1, e2, Function.update_self,
    update_ne2 (Ne.symm xo) (Ne.symm bo), so, Function.update_of_ne xb, List.cons_append]

/-- The edges of the input that are not contracted before the node `i`. -/
def xLegs (i n : Nat) : List Leg := (List.range' i n).map fun a => ⟨0, a⟩

theorem xLegs_succ (i n : Nat) : xLegs i (n + 1) = ⟨0, i⟩ :: xLegs (i + 1) n := by
  simp [xLegs, List.range'_succ]

theorem mpoLoop_ok {l D o : Nat} {dim : Leg → Nat} (hl : ∀ k, dim ⟨0, k⟩ = l) :
    ∀ (ws : List (NDArray R)) (i : Nat) (st : LNode R) (O : List Leg) (b e : Leg), MpoShapes l D o ws →
    st.2 = xLegs i ws.length ++ O ++ [b, e] → Shaped dim st.1 st.2 → st.2.Nodup → (∀ k ∈ st.2, k.node ≤ i) →
    dim b = D → (∀ j, i < j → j < i + ws.length → dim ⟨j, 2⟩ = D ∧ dim ⟨j, 3⟩ = o) → dim ⟨i + ws.length, 2⟩ = o →
    ∃ t L, mpoLoop i ws st b = .ok (t, L) ∧ t.shape = O.map dim ++ [dim e] ++ List.replicate ws.length o ∧
      ∀ os c ns, os.length = O.length → ns.length = ws.length →
        t.get (os ++ [c] ++ ns) = sumIdx (List.replicate ws.length l) fun as =>
          ∑ k ∈ range D, st.1.get (as ++ os ++ [k, c]) * mpoRest D ws as ns k := by
  intro ws
  induction ws with
  | nil => intro i st O b e h; exact h.elim
  | cons w ws ih =>
    intro i st O b e hsh hst hs hn hf hb hd hlast
    rw [List.length_cons, xLegs_succ] at hst
    have hst' : st.2 = ⟨0, i⟩ :: (xLegs (i + 1) ws.length ++ O) ++ [b, e] := by rw [hst]; simp
    cases ws with
    | nil =>
      have hw : w.shape = [l, D, o] := hsh
      obtain ⟨t, t1, t2, t3, t4⟩ := mpo_step (dim := dim) (w := w) (N := [⟨i + 1, 2⟩]) hst' hs hn
        (by simp [hw, hl, hb, show dim ⟨i + 1, 2⟩ = o by simpa using hlast]) (by simp)
        (by intro k hk; rw [List.mem_singleton] at hk; subst hk; intro h; simpa using hf _ h)
      refine ⟨t, (xLegs (i + 1) 0 ++ O) ++ [e] ++ [⟨i + 1, 2⟩], ?_, ?_, ?_⟩
      · rw [mpoLoop, if_neg (by simp [NDArray.ndim, hw]), t1]
        rfl
      · rw [t2]
        simp [xLegs, show dim ⟨i + 1, 2⟩ = o by simpa using hlast]
      · intro os c ns ho hns
        obtain ⟨n, rfl⟩ : ∃ n, ns = [n] := List.length_eq_one_iff.1 (by simpa using hns)
        have := t4 os c [n] (by simpa [xLegs] using ho) (by simp)
        rw [this, hl, hb]
        simp [sumIdx, mpoRest]
    | cons w' ws =>
      have hw : w.shape = [l, D, D, o] := hsh.1
      have hd1 := hd (i + 1) (by omega) (by simp)
      obtain ⟨t, t1, t2, t3, t4⟩ := mpo_step (dim := dim) (w := w) (N := [⟨i + 1, 2⟩, ⟨i + 1, 3⟩]) hst' hs hn
        (by simp [hw, hl, hb, hd1]) (by simp)
        (by
          intro k hk h
          have := hf _ h
          simp only [List.mem_cons, List.not_mem_nil, or_false] at hk
          rcases hk with rfl | rfl <;> simp at this)
      obtain ⟨u, L, u1, u2, u3⟩ := ih (i + 1) (t, (xLegs (i + 1) (w' :: ws).length ++ O) ++ [e] ++ [⟨i + 1, 2⟩, ⟨i + 1, 3⟩])
        (O ++ [e]) ⟨i + 1, 2⟩ ⟨i + 1, 3⟩ hsh.2 (by simp) t2 t3
        (by
          intro k hk
          simp only [List.mem_append, List.mem_cons, List.not_mem_nil, or_false] at hk
          rcases hk with ((hk | hk) | rfl) | rfl | rfl
          · exact (hf k (by rw [hst]; simp only [List.mem_append, List.mem_cons]; tauto)).trans (by omega)
          · exact (hf k (by rw [hst]; simp [hk])).trans (by omega)
          · exact (hf k (by rw [hst]; simp)).trans (by omega)
          · simp
          · simp) hd1.1
        (fun j h1 h2 => hd j (by omega) (by simp only [List.length_cons] at h2 ⊢; omega))
        (by rw [← hlast]; congr 2; simp only [List.length_cons]; omega)
      refine ⟨u, L, ?_, ?_, ?_⟩
      · rw [mpoLoop, if_pos (by simp [NDArray.ndim, hw]), t1]
        exact u1
      · rw [u2, hd1.2]
        simp [List.replicate_succ]
      · intro os c ns ho hns
        obtain ⟨n, ns, rfl⟩ : ∃ n ns', ns = n :: ns' := List.exists_cons_of_length_pos (by simp [hns])
        have := u3 (os ++ [c]) n ns (by simp [ho]) (by simpa using hns)
        rw [show os ++ [c] ++ n :: ns = os ++ [c] ++ [n] ++ ns by simp, this, List.length_cons (a := w),
          List.replicate_succ, sumIdx]
        rw [← sumIdx_fsum]
        apply sumIdx_congr
        intro as has
        simp only [mpoRest]
        have hlen : (as ++ os).length = (xLegs (i + 1) (w' :: ws).length ++ O).length := by
          simp [has.length, ho, xLegs]
        have h4 : ∀ k', t.get (as ++ (os ++ [c]) ++ [k', n]) = ∑ a ∈ range l, ∑ k ∈ range D,
            st.1.get (a :: (as ++ os) ++ [k, c]) * w.get [a, k, k', n] := fun k' => by
          have := t4 (as ++ os) c [k', n] hlen (by simp)
          rw [hl, hb] at this
          rw [← this]
          simp
        simp only [h4, Finset.sum_mul, Finset.mul_sum]
        rw [Finset.sum_comm]
        apply Finset.sum_congr rfl
        intro a _
        rw [Finset.sum_comm]
        apply Finset.sum_congr rfl
        intro k _
        apply Finset.sum_congr rfl
        intro k' _
        simp [mul_assoc]

theorem getD_addBiasRows {out : Nat} {bias : Option (List R)} {r : List R} {k : Nat} (hr : r.length = out) (hk : k < out) :
    (addBiasRows out bias r).getD k 0 = r.getD k 0 + biasAt bias k := by
  cases bias with
  | none => simp [addBiasRows, biasAt]
  | some b =>
    simp only [addBiasRows]
    rw [List.getD_eq_getElem _ _ (by simpa using hr ▸ hk), List.getD_eq_getElem _ _ (by omega)]
    simp [biasAt, Nat.mod_eq_of_lt hk]

/-- C76: `DenseMPO` applies a matrix product operator.  With the vector written with the shape `(l, …, l)` and the result
with the shape `(o, …, o)`, the result at `o_1, …, o_n` is the sum over `a_1, …, a_n` of `x[a_1, …, a_n]` times the entry of
the operator, which is the sum over the bonds of the products of the entries of the nodes; then the bias is added.  For a
vector whose length is not `l ** n` the layer raises `ValueError`. -/
theorem C76_mpo {l D o : Nat} (ho : 0 < o) {w : NDArray R} {ws : List (NDArray R)} (hw : w.shape = [l, D, o])
    (hws : MpoShapes l D o ws) (bias : Option (List R)) (x : List R) :
    (x.length ≠ l ^ (ws.length + 1) → ∀ out, mpoVec l out (w :: ws) bias x = .error .valueError) ∧
    (x.length = l ^ (ws.length + 1) → ∃ y, mpoVec l (o ^ (ws.length + 1)) (w :: ws) bias x = .ok y ∧
      y.length = o ^ (ws.length + 1) ∧ ∀ os, InB (List.replicate (ws.length + 1) o) os →
        y.getD (ravel (List.replicate (ws.length + 1) o) os) 0 =
          (sumIdx (List.replicate (ws.length + 1) l) fun as =>
            x.getD (ravel (List.replicate (ws.length + 1) l) as) 0 * mpoEntry D (w :: ws) as os) +
          biasAt bias (ravel (List.replicate (ws.length + 1) o) os)) ∧
    (x.length = l ^ (ws.length + 1) → ∀ out, o ^ (ws.length + 1) % out ≠ 0 →
      mpoVec l out (w :: ws) bias x = .error .valueError) := by
  set n := ws.length + 1 with hn
  have hp : (List.replicate n l).prod = l ^ n := by simp
  refine ⟨fun hx out => ?_, ?_⟩
  · rw [mpoVec, List.length_cons, ← hn, reshapeVec, hp, if_neg (Ne.symm hx)]
    rfl
  have hmain : x.length = l ^ n → ∃ t L st, contractL (ofList (List.replicate n l) x, (List.range n).map (fun a => (⟨0, a⟩ : Leg)))
      (w, [⟨0, 0⟩, ⟨1, 1⟩, ⟨1, 2⟩]) = .ok st ∧ mpoLoop 1 ws st ⟨1, 1⟩ = .ok (t, L) ∧ t.shape = List.replicate n o ∧
      ∀ os, InB (List.replicate n o) os → t.get os = sumIdx (List.replicate n l) fun as =>
        x.getD (ravel (List.replicate n l) as) 0 * mpoEntry D (w :: ws) as os := by
    intro hx
    let dim : Leg → Nat := fun e => if e.node = 0 then l else
      if e.node = 1 then (if e.axis = 1 then D else o) else if e.node = n then o else if e.axis = 2 then D else o
    have hlab : (List.range n).map (fun a => (⟨0, a⟩ : Leg)) = ⟨0, 0⟩ :: xLegs 1 ws.length := by
      rw [List.range_eq_range', hn]
      exact xLegs_succ 0 ws.length
    have h0 : ∀ k ∈ xLegs 1 ws.length, k.node = 0 ∧ k.axis ≠ 0 := by
      intro k hk
      simp only [xLegs, List.mem_map, List.mem_range'_1] at hk
      obtain ⟨a, ha, rfl⟩ := hk
      exact ⟨rfl, by simp; omega⟩
    have hnx : (xLegs 1 ws.length).Nodup := List.Nodup.map (fun a b h => by simpa using h) List.nodup_range'
    have hdx : (xLegs 1 ws.length).map dim = List.replicate ws.length l := by
      rw [List.eq_replicate_iff]
      refine ⟨by simp [xLegs], ?_⟩
      intro b hb
      rw [List.mem_map] at hb
      obtain ⟨k, hk, rfl⟩ := hb
      simp [dim, (h0 k hk).1]
    have hx0 : ∀ k ∈ xLegs 1 ws.length, k ≠ ⟨0, 0⟩ ∧ k ≠ ⟨1, 1⟩ ∧ k ≠ ⟨1, 2⟩ := by
      intro k hk
      obtain ⟨h1, h2⟩ := h0 k hk
      refine ⟨?_, ?_, ?_⟩ <;> rintro rfl <;> simp at h1 h2
    have hwsl : 0 < ws.length := by
      cases ws with
      | nil => exact hws.elim
      | cons => simp
    obtain ⟨t, t1, t2, t3, t4⟩ := contractL_get (dim := dim)
      (a := (ofList (List.replicate n l) x, (List.range n).map (fun a => (⟨0, a⟩ : Leg))))
      (b := (w, [⟨0, 0⟩, ⟨1, 1⟩, ⟨1, 2⟩])) (C := [⟨0, 0⟩]) (L := xLegs 1 ws.length ++ [] ++ [⟨1, 1⟩, ⟨1, 2⟩])
      (by
        show List.replicate n l = _
        rw [hlab, List.map_cons, hdx, hn, List.replicate_succ]
        simp [dim])
      (by simp [Shaped, hw, dim])
      (List.Nodup.map (fun a b h => by simpa using h) List.nodup_range) (by simp)
      (by
        show List.filter _ ((List.range n).map (fun a => (⟨0, a⟩ : Leg))) = _
        rw [hlab, List.filter_cons, List.filter_eq_nil_iff.2]
        · simp
        · intro k hk
          obtain ⟨h1, h2, h3⟩ := hx0 k hk
          simp [h1, h2, h3]) (by simp)
      (by
        show List.filter _ ((List.range n).map (fun a => (⟨0, a⟩ : Leg))) ++ _ = _
        rw [hlab, List.filter_cons, List.filter_eq_self.2]
        · simp
        · intro k hk
          obtain ⟨h1, h2, h3⟩ := hx0 k hk
          simp [h1])
    obtain ⟨u, L, u1, u2, u3⟩ := mpoLoop_ok (l := l) (D := D) (o := o) (dim := dim) (by simp [dim]) ws 1
      (t, xLegs 1 ws.length ++ [] ++ [⟨1, 1⟩, ⟨1, 2⟩]) [] ⟨1, 1⟩ ⟨1, 2⟩ hws rfl t2 t3
      (by
        intro k hk
        simp only [List.mem_append, List.mem_cons, List.not_mem_nil, or_false] at hk
        rcases hk with hk | rfl | rfl
        · simp [(h0 k hk).1]
        · simp
        · simp) (by simp [dim])
      (by
        intro j h1 h2
        have h3 : j ≠ 0 := by omega
        have h4 : j ≠ 1 := by omega
        have h5 : j ≠ n := by omega
        simp [dim, h3, h4, h5])
      (by
        have h3 : 1 + ws.length ≠ 1 := by omega
        have h4 : 1 + ws.length = n := by omega
        simp [dim, h4])
    refine ⟨u, L, _, t1, u1, ?_, ?_⟩
    · rw [u2, hn, List.replicate_succ]
      simp [dim]
    · intro os hos
      obtain ⟨c, ns, rfl⟩ : ∃ c ns, os = c :: ns := List.exists_cons_of_length_pos (by rw [hos.length]; simp [hn])
      have hns : ns.length = ws.length := by
        have := hos.length
        simpa [hn] using this
      have := u3 [] c ns rfl hns
      rw [show c :: ns = [] ++ [c] ++ ns by simp, this, hn, List.replicate_succ, sumIdx, ← sumIdx_fsum]
      apply sumIdx_congr
      intro as has
      have hlen : (as ++ [] ++ [0, c]).length = (xLegs 1 ws.length ++ [] ++ [(⟨1, 1⟩ : Leg), ⟨1, 2⟩]).length := by
        simp [has.length, xLegs]
      have h4 : ∀ k, t.get (as ++ [] ++ [k, c]) = ∑ a ∈ range l,
          x.getD (ravel (l :: List.replicate ws.length l) (a :: as)) 0 * w.get [a, k, c] := by
        intro k
        obtain ⟨σ, s1, s2⟩ := t4 (as ++ [] ++ [k, c]) (by simpa using hlen)
        rw [s2]
        simp only [List.append_nil, List.map_append] at s1
        obtain ⟨s3, s4⟩ := List.append_inj s1 (by simp [has.length, xLegs])
        simp only [List.map_cons, List.map_nil, List.cons.injEq, and_true] at s4
        rw [sumOver_one]
        apply Finset.sum_congr (by simp [dim])
        intro a _
        have e1 : (xLegs 1 ws.length).map (Function.update σ ⟨0, 0⟩ a) = as := by
          rw [← s3]
          exact List.map_congr_left fun k hk => Function.update_of_ne (hx0 k hk).1 _ _
        simp only [val, hlab, List.map_cons, List.map_nil, Function.update_self, e1, ofList_get,
          Function.update_of_ne (show (⟨1, 1⟩ : Leg) ≠ ⟨0, 0⟩ by simp),
          Function.update_of_ne (show (⟨1, 2⟩ : Leg) ≠ ⟨0, 0⟩ by simp), s4]
        simp only [hn, List.replicate_succ]
      simp only [h4, mpoEntry, Finset.sum_mul, Finset.mul_sum, List.nil_append, List.singleton_append]
      rw [Finset.sum_comm]
      apply Finset.sum_congr rfl
      intro a _
      apply Finset.sum_congr rfl
      intro k _
      rw [mul_assoc]
  constructor
  · intro hx
    obtain ⟨t, L, st, h1, h2, h3, h4⟩ := hmain hx
    have hpo : t.shape.prod = o ^ n := by rw [h3]; simp
    have hpos : 0 < o ^ n := Nat.pow_pos ho
    refine ⟨addBiasRows (o ^ n) bias (flat t), ?_, ?_, ?_⟩
    · rw [mpoVec, List.length_cons, ← hn, reshapeVec, hp, if_pos hx.symm]
      show (contractL _ _ >>= _) = _
      rw [h1]
      show (mpoLoop _ _ _ _ >>= _) = _
      rw [h2]
      show (if _ then _ else _) = _
      rw [if_neg]
      simp only [hpo, Nat.mod_self]
      omega
    · cases bias <;> simp [addBiasRows, flat_length, hpo]
    · intro os hos
      have hlt := ravel_lt hos
      rw [List.prod_replicate] at hlt
      rw [getD_addBiasRows (by rw [flat_length, hpo]) hlt]
      congr 1
      have := flat_get t (i := os) (h3 ▸ hos)
      rw [h3] at this
      rw [this, h4 os hos]
  · intro hx out hout
    obtain ⟨t, L, st, h1, h2, h3, h4⟩ := hmain hx
    rw [mpoVec, List.length_cons, ← hn, reshapeVec, hp, if_pos hx.symm]
    show (contractL _ _ >>= _) = _
    rw [h1]
    show (mpoLoop _ _ _ _ >>= _) = _
    rw [h2]
    show (if _ then _ else _) = _
    rw [if_pos]
    right
    rw [h3]
    simpa using hout

/-! ## The sizes of the legs -/

theorem pyRound_near (q : ℚ) : (pyRound q : ℚ) - 1 / 2 ≤ q ∧ q ≤ pyRound q + 1 / 2 := by
  have h := Int.self_sub_floor q
  have h0 := Int.fract_nonneg q
  have h1 := Int.fract_lt_one q
  unfold pyRound
  split_ifs <;> push_cast <;> constructor <;> linarith

theorem ceil_pyRound {q : ℚ} : (q ≤ pyRound q → ⌈q⌉ = pyRound q) ∧ ((pyRound q : ℚ) < q → ⌈q⌉ = pyRound q + 1) := by
  obtain ⟨h1, h2⟩ := pyRound_near q
  constructor
  · intro h
    rw [Int.ceil_eq_iff]
    constructor <;> linarith
  · intro h
    rw [Int.ceil_eq_iff]
    push_cast
    constructor <;> linarith

theorem pyRound_nonneg {q : ℚ} (h : 0 ≤ q) : 0 ≤ pyRound q := by
  have := Int.floor_nonneg.2 h
  unfold pyRound
  split_ifs <;> omega

/-- C76: `DenseMPO` works when neither floating point root lies above its rounded value.  Then `build` finds leg sizes whose
powers are the two dimensions, or raises when one dimension is not the power of the rounded root. -/
theorem C76_mpo_legs_partial {n dim out : Nat} {rin rout : ℚ} (h1 : 0 ≤ rin) (h2 : 0 ≤ rout) (hi : rin ≤ pyRound rin)
    (ho : rout ≤ pyRound rout) :
    (∃ l o, mpoBuild n dim out rin rout = .ok (l, o) ∧ l ^ n = dim ∧ o ^ n = out) ∨
      (mpoBuild n dim out rin rout = .error .runtimeError ∧
        (pyRound rin ^ n ≠ dim ∨ pyRound rout ^ n ≠ out)) := by
  by_cases h : pyRound rin ^ n ≠ (dim : Int) ∨ pyRound rout ^ n ≠ (out : Int)
  · right
    exact ⟨by rw [mpoBuild, if_pos h], h⟩
  · left
    refine ⟨_, _, by rw [mpoBuild, if_neg h], ?_, ?_⟩
    · rw [ceil_pyRound.1 hi]
      push Not at h
      zify
      rw [Int.toNat_of_nonneg (pyRound_nonneg h1), h.1]
    · rw [ceil_pyRound.1 ho]
      push Not at h
      zify
      rw [Int.toNat_of_nonneg (pyRound_nonneg h2), h.2]

/-- C76: a `DenseMPO` that was built need not work.  `build` checks the rounded root but takes the next integer above the
root.  If the floating point root lies above the integer that it is rounded to, as `3125**(1. / 5)` does, `build` succeeds
and every call raises `ValueError`. -/
theorem C76_mpo_root_false {n dim out : Nat} {rin rout : ℚ} (h1 : 0 ≤ rin) (h2 : 0 ≤ rout)
    (hdim : pyRound rin ^ n = (dim : Int)) (hout : pyRound rout ^ n = (out : Int))
    (hroot : (pyRound rin : ℚ) < rin ∨ (rin ≤ pyRound rin ∧ (pyRound rout : ℚ) < rout ∧ 2 ≤ out)) :
    ∃ l o, mpoBuild n dim out rin rout = .ok (l, o) ∧ ∀ (D : Nat) (w : NDArray R) (ws : List (NDArray R)),
      ws.length + 1 = n → w.shape = [l, D, o] → MpoShapes l D o ws → ∀ (bias : Option (List R)) (x : List R),
        x.length = dim → mpoVec l out (w :: ws) bias x = .error .valueError := by
  refine ⟨_, _, by rw [mpoBuild, if_neg (by simp [hdim, hout])], ?_⟩
  intro D w ws hn hw hws bias x hx
  have hn0 : n ≠ 0 := by omega
  obtain ⟨r, hr⟩ := Int.eq_ofNat_of_zero_le (pyRound_nonneg h1)
  obtain ⟨s, hs⟩ := Int.eq_ofNat_of_zero_le (pyRound_nonneg h2)
  have hrn : r ^ n = dim := by rw [hr] at hdim; exact_mod_cast hdim
  have hsn : s ^ n = out := by rw [hs] at hout; exact_mod_cast hout
  rcases hroot with h | ⟨h, h', ho⟩
  · have hl : ⌈rin⌉.toNat = r + 1 := by rw [ceil_pyRound.2 h, hr]; rfl
    rw [hl] at hw hws ⊢
    have hne : x.length ≠ (r + 1) ^ (ws.length + 1) := by
      rw [hn, hx, ← hrn]
      exact (Nat.pow_lt_pow_left (Nat.lt_succ_self r) hn0).ne
    have hxn : (List.replicate (w :: ws).length (r + 1)).prod ≠ x.length := by
      simpa using Ne.symm hne
    rw [mpoVec, reshapeVec, if_neg hxn]
    rfl
  · have hl : ⌈rin⌉.toNat = r := by rw [ceil_pyRound.1 h, hr]; rfl
    have hl' : ⌈rout⌉.toNat = s + 1 := by rw [ceil_pyRound.2 h', hs]; rfl
    rw [hl] at hw hws ⊢
    rw [hl'] at hw hws
    refine (C76_mpo (Nat.succ_pos s) hw hws bias x).2.2 (by rw [hx, hn, hrn]) out ?_
    rw [hn]
    intro hm
    have hd : out ∣ (s + 1) ^ n := Nat.dvd_of_mod_eq_zero hm
    have hc : Nat.Coprime (s ^ n) ((s + 1) ^ n) := Nat.Coprime.pow n n (by
      rw [Nat.Coprime, Nat.gcd_self_add_right, Nat.gcd_one_right])
    rw [hsn] at hc
    have := Nat.Coprime.eq_one_of_dvd hc hd
    omega

/-! ## Cases -/

/-- The identity on two legs of size two, as a matrix product operator with bonds of size one. -/
def exFirst : NDArray ℤ := ⟨[2, 1, 2], fun i => if i.getD 0 0 = i.getD 2 0 then 1 else 0⟩

example : exFirst.shape = [2, 1, 2] ∧ MpoShapes 2 1 2 [exFirst] := ⟨rfl, rfl⟩

/-- For the identity operator and no bias, the layer gives back its input. -/
example : mpoVec 2 4 [exFirst, exFirst] none [1, 2, 3, 4] = .ok [1, 2, 3, 4] := by decide +kernel

example : mpoVec 2 4 [exFirst, exFirst] (some [10, 20, 30, 40]) [1, 2, 3, 4] = .ok [11, 22, 33, 44] := by decide +kernel

example : pyRound 2 ^ 2 = (4 : Nat) ∧ (2 : ℚ) ≤ pyRound 2 ∧ mpoBuild 2 4 4 2 2 = .ok (2, 2) := by
  decide +kernel

/-- The root of 3125 for five nodes, a little above 5: the hypotheses of `C76_mpo_root_false`. -/
example : pyRound (5 + 1 / 1000000000000000) ^ 5 = (3125 : Nat) ∧
    (pyRound (5 + 1 / 1000000000000000) : ℚ) < 5 + 1 / 1000000000000000 ∧
    mpoBuild 5 3125 3125 (5 + 1 / 1000000000000000) (5 + 1 / 1000000000000000) = .ok (6, 6) := by
  decide +kernel

end TN.Keras
