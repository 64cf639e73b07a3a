import Verif.KerasEntangler

/-!
# What `Conv2DMPO` computes
-/

namespace TN.Keras

open Finset NDArray

variable {R : Type} [CommSemiring R]

/-- The entry of a chain of nodes with the axes input, left, right and output: the sum over the `D` values of each inner
bond of the products of the entries of the nodes; `k` and `r` are the indices of the two ends. -/
def chainEntry (D : Nat) : List (NDArray R) → List Nat → List Nat → Nat → Nat → R
  | [w], a :: _, o :: _, k, r => w.get [a, k, r, o]
  | w :: w' :: ws, a :: as, o :: os, k, r => ∑ k' ∈ range D, w.get [a, k, k', o] * chainEntry D (w' :: ws) as os k' r
  | _, _, _, _, _ => 0

/-- The shapes of the nodes (conv2d_mpo.py:160-182) after the first one; `kw` is the width of the kernel. -/
def ConvShapes (l D kw o : Nat) : List (NDArray R) → Prop
  | [] => False
  | [w] => w.shape = [l, D, kw, o]
  | w :: w' :: ws => w.shape = [l, D, D, o] ∧ ConvShapes l D kw o (w' :: ws)

theorem nodeLegs_succ (i n a : Nat) : nodeLegs i (n + 1) a = ⟨i, a⟩ :: nodeLegs (i + 1) n a := by
  simp [nodeLegs, List.range'_succ]

theorem mem_nodeLegs {i n a : Nat} {e : Leg} : e ∈ nodeLegs i n a ↔ i ≤ e.node ∧ e.node < i + n ∧ e.axis = a := by
  simp only [nodeLegs, List.mem_map, List.mem_range'_1]
  constructor
  · rintro ⟨k, hk, rfl⟩
    exact ⟨hk.1, hk.2, rfl⟩
  · rintro ⟨h1, h2, h3⟩
    exact ⟨e.node, ⟨h1, h2⟩, by cases e; simp_all⟩

/-- One step of the contraction. -/
theorem conv_step {dim : Leg → Nat} {st : LNode R} {w : NDArray R} {i : Nat} {P : List Leg} {e : Leg}
    (hst : st.2 = P ++ [⟨i, 2⟩, e]) (hs : Shaped dim st.1 st.2) (hn : st.2.Nodup) (hf : ∀ k ∈ st.2, k.node ≤ i)
    (hw : w.shape = [dim ⟨i + 1, 0⟩, dim ⟨i, 2⟩, dim ⟨i + 1, 2⟩, dim ⟨i + 1, 3⟩]) :
    ∃ t, contractL st (w, [⟨i + 1, 0⟩, ⟨i, 2⟩, ⟨i + 1, 2⟩, ⟨i + 1, 3⟩]) =
        .ok (t, P ++ [e, ⟨i + 1, 0⟩] ++ [⟨i + 1, 2⟩, ⟨i + 1, 3⟩]) ∧
      Shaped dim t (P ++ [e, ⟨i + 1, 0⟩] ++ [⟨i + 1, 2⟩, ⟨i + 1, 3⟩]) ∧
      (P ++ [e, (⟨i + 1, 0⟩ : Leg)] ++ [(⟨i + 1, 2⟩ : Leg), ⟨i + 1, 3⟩]).Nodup ∧
      ∀ σ, val t (P ++ [e, ⟨i + 1, 0⟩] ++ [⟨i + 1, 2⟩, ⟨i + 1, 3⟩]) σ = ∑ k ∈ range (dim ⟨i, 2⟩),
        val st.1 st.2 (Function.update σ ⟨i, 2⟩ k) * w.get [σ ⟨i + 1, 0⟩, k, σ ⟨i + 1, 2⟩, σ ⟨i + 1, 3⟩] := by
  have hn' := hn
  rw [hst, List.nodup_append] at hn'
  obtain ⟨nP, n2, hd⟩ := hn'
  have be : (⟨i, 2⟩ : Leg) ≠ e := by simpa using n2
  have bP : ∀ l ∈ P, l ≠ ⟨i, 2⟩ := fun l hl => hd l hl _ (by simp)
  have hnew : ∀ a, ∀ l ∈ st.2, l ≠ ⟨i + 1, a⟩ := fun a l hl h => by
    have := hf l hl
    rw [h] at this
    simp at this
  have hPn : ∀ a, ∀ l ∈ P, l ≠ ⟨i + 1, a⟩ := fun a l hl => hnew a l (by rw [hst]; simp [hl])
  have hen : ∀ a, e ≠ ⟨i + 1, a⟩ := fun a => hnew a e (by rw [hst]; simp)
  obtain ⟨t, t1, t2, t3⟩ := contractL_ok (dim := dim) (a := st)
    (b := (w, [⟨i + 1, 0⟩, ⟨i, 2⟩, ⟨i + 1, 2⟩, ⟨i + 1, 3⟩])) (C := [⟨i, 2⟩]) hs (by simp [Shaped, hw]) hn (by simp)
    (by
      have h1 : P.filter (fun l => decide (l ∈ ([⟨i + 1, 0⟩, ⟨i, 2⟩, ⟨i + 1, 2⟩, ⟨i + 1, 3⟩] : List Leg))) = [] := by
        rw [List.filter_eq_nil_iff]
        intro l hl
        simp [bP l hl, hPn _ l hl]
      rw [hst, List.filter_append, h1]
      simp [hen, Ne.symm be]) (by simp)
  have hlab : List.filter (fun l => decide (l ∉ ([⟨i, 2⟩] : List Leg))) st.2 ++
      List.filter (fun l => decide (l ∉ ([⟨i, 2⟩] : List Leg))) [⟨i + 1, 0⟩, ⟨i, 2⟩, ⟨i + 1, 2⟩, ⟨i + 1, 3⟩] =
        P ++ [e, ⟨i + 1, 0⟩] ++ [⟨i + 1, 2⟩, ⟨i + 1, 3⟩] := by
    have h1 : P.filter (fun l => decide (l ∉ ([⟨i, 2⟩] : List Leg))) = P := by
      rw [List.filter_eq_self]
      intro l hl
      simp [bP l hl]
    rw [hst, List.filter_append, h1]
    simp [Ne.symm be]
  rw [hlab] at t1 t2 t3
  refine ⟨t, t1, t2, ?_, fun σ => ?_⟩
  · rw [List.append_assoc, List.nodup_append]
    refine ⟨nP, by simp [hen], ?_⟩
    intro a ha b hb
    simp only [List.cons_append, List.nil_append, List.mem_cons, List.not_mem_nil, or_false] at hb
    rcases hb with rfl | rfl | rfl | rfl
    · exact hd a ha _ (by simp)
    · exact hPn _ a ha
    · exact hPn _ a ha
    · exact hPn _ a ha
  · rw [t3, sumOver_one]
    apply Finset.sum_congr rfl
    intro k _
    congr 1
    simp [val]

theorem convLoop_ok {l D kw o : Nat} {dim : Leg → Nat} : ∀ (ws : List (NDArray R)) (i : Nat) (st : LNode R) (P : List Leg)
    (e : Leg), ConvShapes l D kw o ws → st.2 = P ++ [⟨i, 2⟩, e] → Shaped dim st.1 st.2 → st.2.Nodup →
    (∀ k ∈ st.2, k.node ≤ i) → (∀ j, i < j → j ≤ i + ws.length → dim ⟨j, 0⟩ = l ∧ dim ⟨j, 3⟩ = o) →
    (∀ j, i ≤ j → j < i + ws.length → dim ⟨j, 2⟩ = D) → dim ⟨i + ws.length, 2⟩ = kw →
    ∃ t L, convLoop i ws st = .ok (t, L) ∧ Shaped dim t L ∧ L.Nodup ∧
      L.Perm (P ++ [e] ++ nodeLegs (i + 1) ws.length 0 ++ nodeLegs (i + 1) ws.length 3 ++ [⟨i + ws.length, 2⟩]) ∧
      ∀ σ, val t L σ = ∑ k ∈ range D, val st.1 st.2 (Function.update σ ⟨i, 2⟩ k) *
        chainEntry D ws ((nodeLegs (i + 1) ws.length 0).map σ) ((nodeLegs (i + 1) ws.length 3).map σ) k
          (σ ⟨i + ws.length, 2⟩) := by
  intro ws
  induction ws with
  | nil => intro i st P e h; exact h.elim
  | cons w ws ih =>
    intro i st P e hsh hst hs hn hf hd hD hkw
    have hd1 := hd (i + 1) (by omega) (by simp)
    have hDi := hD i le_rfl (by simp)
    cases ws with
    | nil =>
      have hw : w.shape = [l, D, kw, o] := hsh
      have hkw' : dim ⟨i + 1, 2⟩ = kw := by simpa using hkw
      obtain ⟨t, t1, t2, t3, t4⟩ := conv_step (dim := dim) (w := w) hst hs hn hf (by rw [hw, hd1.1, hd1.2, hDi, hkw'])
      refine ⟨t, _, ?_, t2, t3, ?_, fun σ => ?_⟩
      · rw [convLoop, t1]
        rfl
      · simp only [List.length_cons, List.length_nil, Nat.zero_add, nodeLegs, List.append_assoc, List.cons_append, List.nil_append]
        refine List.Perm.append_left _ (List.Perm.cons _ (List.Perm.cons _ ?_))
        exact List.Perm.swap _ _ _
      · rw [t4, hDi]
        simp [nodeLegs, chainEntry]
    | cons w' ws =>
      have hw : w.shape = [l, D, D, o] := hsh.1
      have hDi1 := hD (i + 1) (by omega) (by simp)
      obtain ⟨t, t1, t2, t3, t4⟩ := conv_step (dim := dim) (w := w) hst hs hn hf (by rw [hw, hd1.1, hd1.2, hDi, hDi1])
      have hlen : i + 1 + (w' :: ws).length = i + (w :: w' :: ws).length := by simp only [List.length_cons]; omega
      obtain ⟨u, L, u1, u2, u3, u4, u5⟩ := ih (i + 1) (t, P ++ [e, ⟨i + 1, 0⟩] ++ [⟨i + 1, 2⟩, ⟨i + 1, 3⟩])
        (P ++ [e, ⟨i + 1, 0⟩]) ⟨i + 1, 3⟩ hsh.2 rfl t2 t3
        (by
          intro k hk
          simp only [List.mem_append, List.mem_cons, List.not_mem_nil, or_false] at hk
          rcases hk with (hk | rfl | rfl) | rfl | rfl
          · exact (hf k (by rw [hst]; simp [hk])).trans (by omega)
          · exact (hf k (by rw [hst]; simp)).trans (by omega)
          · simp
          · simp
          · simp)
        (fun j h1 h2 => hd j (by omega) (by omega)) (fun j h1 h2 => hD j (by omega) (by omega)) (by rw [hlen]; exact hkw)
      rw [hlen] at u4 u5
      refine ⟨u, L, ?_, u2, u3, ?_, fun σ => ?_⟩
      · rw [convLoop, t1]
        exact u1
      · refine u4.trans ?_
        rw [List.length_cons (a := w), nodeLegs_succ (i + 1) _ 0, nodeLegs_succ (i + 1) _ 3]
        simp only [List.append_assoc, List.cons_append, List.nil_append]
        refine List.Perm.append_left _ (List.Perm.cons _ (List.Perm.cons _ ?_))
        exact List.perm_middle.symm
      · rw [u5, List.length_cons (a := w), nodeLegs_succ (i + 1) _ 0, nodeLegs_succ (i + 1) _ 3]
        simp only [List.map_cons, chainEntry, Finset.mul_sum]
        rw [Finset.sum_comm]
        apply Finset.sum_congr rfl
        intro k' _
        rw [t4, hDi, Finset.sum_mul]
        apply Finset.sum_congr rfl
        intro k _
        rw [show val st.1 st.2 (Function.update (Function.update σ ⟨i + 1, 2⟩ k') ⟨i, 2⟩ k) =
            val st.1 st.2 (Function.update σ ⟨i, 2⟩ k) from val_congr _ fun e he => by
          by_cases h : e = ⟨i, 2⟩
          · simp [h]
          · rw [Function.update_of_ne h, Function.update_of_ne h, Function.update_of_ne]
            rintro rfl
            simpa using hf _ he]
        rw [Function.update_self, Function.update_of_ne (by simp), Function.update_of_ne (by simp)]
        ring

theorem map_idxOf_perm {L M : List Leg} (h : M.Perm L) (hn : L.Nodup) : (M.map L.idxOf).Perm (List.range L.length) := by
  refine (h.map _).trans ?_
  have : L.map L.idxOf = List.range L.length := by
    apply List.ext_getElem (by simp)
    intro k h1 h2
    simp only [List.getElem_map, List.getElem_range]
    exact List.Nodup.idxOf_getElem hn k _
  rw [this]

theorem map_nodeLegs {dim : Leg → Nat} {i n a d : Nat} (h : ∀ k, dim ⟨k, a⟩ = d) :
    (nodeLegs i n a).map dim = List.replicate n d := by
  rw [List.eq_replicate_iff]
  refine ⟨by simp [nodeLegs], ?_⟩
  intro b hb
  simp only [nodeLegs, List.map_map, List.mem_map, Function.comp] at hb
  obtain ⟨k, _, rfl⟩ := hb
  exact h k

/-- C76: the kernel of `Conv2DMPO` has the shape `(height, width, channels, filters)`.  With the channel written in the base
of the input leg and the filter in the base of the output leg, its entry is the entry of the chain of nodes, that is the sum
over the bonds of the products of the entries of the nodes. -/
theorem C76_conv_kernel {l D kh kw o : Nat} {w : NDArray R} {ws : List (NDArray R)} (hw : w.shape = [l, kh, D, o])
    (hws : ConvShapes l D kw o ws) :
    ∃ K, convKernel (w :: ws) = .ok K ∧ K.shape = [kh, kw, l ^ (ws.length + 1), o ^ (ws.length + 1)] ∧
      ∀ h v as os, h < kh → v < kw → InB (List.replicate (ws.length + 1) l) as → InB (List.replicate (ws.length + 1) o) os →
        K.get [h, v, ravel (List.replicate (ws.length + 1) l) as, ravel (List.replicate (ws.length + 1) o) os] =
          chainEntry D (w :: ws) as os h v := by
  set n := ws.length + 1 with hn
  obtain ⟨w1, ws1, rfl⟩ : ∃ w1 ws1, ws = w1 :: ws1 := by
    cases ws with
    | nil => exact hws.elim
    | cons a b => exact ⟨a, b, rfl⟩
  have hn2 : 2 ≤ n := by simp [hn]
  let dim : Leg → Nat := fun e => if e.axis = 0 then l else if e.axis = 1 then kh else if e.axis = 3 then o else
    if e.node = n then kw else D
  obtain ⟨t, L, t1, t2, t3, t4, t5⟩ := convLoop_ok (l := l) (D := D) (kw := kw) (o := o) (dim := dim) (w1 :: ws1) 1
    (w, [⟨1, 0⟩, ⟨1, 1⟩, ⟨1, 2⟩, ⟨1, 3⟩]) [⟨1, 0⟩, ⟨1, 1⟩] ⟨1, 3⟩ hws rfl
    (by
      have : 1 ≠ n := by omega
      simp [Shaped, hw, dim, this]) (by simp) (by simp) (by intro j _ _; simp [dim])
    (by
      intro j h1 h2
      have : j ≠ n := by omega
      simp [dim, this])
    (by
      have : 1 + (w1 :: ws1).length = n := by omega
      simp only [dim, this]
      simp)
  rw [show 1 + (w1 :: ws1).length = n by omega] at t4 t5
  set edges : List Leg := ([⟨1, 1⟩, ⟨n, 2⟩] : List Leg) ++ nodeLegs 1 n 0 ++ nodeLegs 1 n 3 with hedges
  have hperm : edges.Perm L := by
    refine List.Perm.trans ?_ t4.symm
    rw [hedges, hn, nodeLegs_succ, nodeLegs_succ]
    simp only [List.append_assoc, List.cons_append, List.nil_append]
    generalize nodeLegs (1 + 1) (w1 :: ws1).length 0 = A
    generalize nodeLegs (1 + 1) (w1 :: ws1).length 3 = B
    rw [List.perm_iff_count]
    intro e
    simp only [List.count_cons, List.count_append, List.count_nil]
    omega
  have hnd : edges.Nodup := hperm.nodup_iff.2 t3
  obtain ⟨u, u1, u2, u3⟩ := transpose_val t2 (map_idxOf_perm hperm t3)
  have hlab : (edges.map L.idxOf).map (fun p => L.getD p default) = edges := by
    rw [List.map_map]
    conv_rhs => rw [← List.map_id edges]
    apply List.map_congr_left
    intro e he
    exact getD_idxOf (hperm.mem_iff.1 he)
  rw [hlab] at u2 u3
  have us : u.shape = [kh, kw] ++ List.replicate n l ++ List.replicate n o := by
    rw [u2, hedges, List.map_append, List.map_append, map_nodeLegs (d := l) (by simp [dim]),
      map_nodeLegs (d := o) (by simp [dim])]
    simp [dim]
  refine ⟨⟨[kh, kw, l ^ n, o ^ n], fun i => u.get (unravel u.shape (ravel [kh, kw, l ^ n, o ^ n] i))⟩, ?_, rfl, ?_⟩
  · rw [convKernel]
    show (convLoop 1 (w1 :: ws1) _ >>= _) = _
    rw [t1]
    show (t.transpose (edges.map L.idxOf) >>= _) = _
    rw [u1]
    show u.reshape _ = _
    have hs : [u.shape.getD 0 0, u.shape.getD 1 0, ((u.shape.drop 2).take n).prod, ((u.shape.drop 2).drop n).prod] =
        [kh, kw, l ^ n, o ^ n] := by
      rw [us]
      simp
    show u.reshape [u.shape.getD 0 0, u.shape.getD 1 0, ((u.shape.drop 2).take n).prod, ((u.shape.drop 2).drop n).prod] = _
    rw [hs, reshape, if_pos]
    rw [us]
    simp
  · intro h v as os hh hv has hos
    have hr : ravel [kh, kw, l ^ n, o ^ n] [h, v, ravel (List.replicate n l) as, ravel (List.replicate n o) os] =
        ravel u.shape ([h, v] ++ as ++ os) := by
      rw [us, ravel_append (by simp [has.length]), ravel_append (by simp)]
      simp only [ravel, List.prod_cons, List.prod_nil, List.prod_replicate]
      ring
    have hin : InB u.shape ([h, v] ++ as ++ os) := by
      rw [us]
      exact List.rel_append (List.rel_append (List.Forall₂.cons hh (List.Forall₂.cons hv List.Forall₂.nil)) has) hos
    show u.get (unravel u.shape (ravel _ _)) = _
    rw [hr, unravel_ravel hin]
    obtain ⟨σ, hσ⟩ : ∃ σ : Leg → Nat, edges.map σ = [h, v] ++ as ++ os :=
      ⟨_, assign_map_self (σ := fun _ => 0) hnd (by rw [hin.length, u2]; simp)⟩
    have h1 := u3 σ
    rw [val, hσ, t5] at h1
    rw [h1]
    rw [hedges, List.map_append, List.map_append] at hσ
    obtain ⟨s1, sO⟩ := List.append_inj hσ (by simp [has.length, nodeLegs])
    obtain ⟨s2, sA⟩ := List.append_inj s1 (by simp)
    simp only [List.map_cons, List.map_nil, List.cons.injEq, and_true] at s2
    rw [hn, nodeLegs_succ, List.map_cons] at sA sO
    rw [← sA, ← sO, chainEntry]
    apply Finset.sum_congr rfl
    intro k _
    rw [s2.2]
    congr 1
    simp [val, s2.1]

/-! ## The bias -/

/-- C76: for `channels_last` the bias of `Conv2DMPO` is added to the channels. -/
theorem C76_conv_bias_partial {N H W : Nat} {b : List R} {t : NDArray R} (ht : t.shape = [N, H, W, b.length]) :
    ∃ r, convBias b t = .ok r ∧ r.shape = t.shape ∧
      ∀ n h v c, c < b.length → r.get [n, h, v, c] = t.get [n, h, v, c] + b.getD c 0 := by
  refine ⟨⟨t.shape, fun i => t.get i + b.getD (if b.length = 1 then 0 else i.getD 3 0) 0⟩, ?_, rfl, fun n h v c hc => ?_⟩
  · simp only [convBias]
    rw [if_pos (by simp [ht])]
  · show _ + b.getD (if b.length = 1 then 0 else c) 0 = _
    split_ifs with h1
    · rw [show c = 0 by omega]
    · rfl

/-- C76: for `channels_first` the bias of `Conv2DMPO` is not added to the channels.  With more than one filter, the layer
raises `ValueError` unless the width is the number of filters or one; if it is the number of filters the bias goes to the
columns, and if it is one the result has the wrong width. -/
theorem C76_conv_bias_false {N H W : Nat} {b : List R} (hb : 2 ≤ b.length) {t : NDArray R}
    (ht : t.shape = [N, b.length, H, W]) :
    (W ≠ b.length → W ≠ 1 → convBias b t = .error .valueError) ∧
    (W = b.length → ∃ r, convBias b t = .ok r ∧ r.shape = t.shape ∧
      ∀ n c h v, r.get [n, c, h, v] = t.get [n, c, h, v] + b.getD v 0) ∧
    (W = 1 → ∃ r, convBias b t = .ok r ∧ r.shape = [N, b.length, H, b.length]) := by
  have hs : t.shape.getD 3 0 = W := by simp [ht]
  have hb1 : b.length ≠ 1 := by omega
  refine ⟨fun h1 h2 => ?_, fun h => ?_, fun h => ?_⟩
  · simp only [convBias, hs]
    rw [if_neg (by omega), if_neg h2]
  · refine ⟨⟨t.shape, fun i => t.get i + b.getD (if b.length = 1 then 0 else i.getD 3 0) 0⟩, ?_, rfl, fun n c h v => ?_⟩
    · simp only [convBias, hs]
      rw [if_pos (Or.inl h)]
    · simp [hb1]
  · refine ⟨_, by simp only [convBias, hs]; rw [if_neg (by omega), if_pos h], ?_⟩
    simp [ht]

/-- C76: `Conv2DMPO` with `channels_last` applies the convolution with its kernel, adds the bias of each filter, and applies
the activation; `conv` is `tf.nn.conv2d`, of which it is only used that the last axis of the result is the filter. -/
theorem C76_conv {l D kh kw o : Nat} {w : NDArray R} {ws : List (NDArray R)} (hw : w.shape = [l, kh, D, o])
    (hws : ConvShapes l D kw o ws) {conv : NDArray R → NDArray R → Py (NDArray R)} {b : List R}
    (hb : b.length = o ^ (ws.length + 1)) {act : R → R} {x r : NDArray R} {N H W : Nat}
    (hconv : ∀ K, convKernel (w :: ws) = .ok K → conv x K = .ok r) (hr : r.shape = [N, H, W, o ^ (ws.length + 1)]) :
    ∃ y, convCall conv (w :: ws) (some b) act x = .ok y ∧ y.shape = r.shape ∧
      ∀ n h v c, c < o ^ (ws.length + 1) → y.get [n, h, v, c] = act (r.get [n, h, v, c] + b.getD c 0) := by
  obtain ⟨K, k1, -, -⟩ := C76_conv_kernel hw hws
  obtain ⟨s, s1, s2, s3⟩ := C76_conv_bias_partial (b := b) (t := r) (by rw [hr, hb])
  refine ⟨⟨s.shape, fun i => act (s.get i)⟩, ?_, s2, fun n h v c hc => ?_⟩
  · rw [convCall, k1]
    show (conv x K >>= _) = _
    rw [hconv K k1]
    show (convBias b r >>= _) = _
    rw [s1]
    rfl
  · show act (s.get _) = _
    rw [s3 _ _ _ _ (by omega)]

/-! ## Cases -/

/-- A node with legs of size two, kernel axes of size two and bonds of size two. -/
def exConv : NDArray ℤ := ⟨[2, 2, 2, 2], fun i => 8 * i.getD 0 0 + 4 * i.getD 1 0 + 2 * i.getD 2 0 + i.getD 3 0⟩

example : exConv.shape = [2, 2, 2, 2] ∧ ConvShapes 2 2 2 2 [exConv] := ⟨rfl, rfl⟩

/-- The entry for channel 1, which has the legs 0 and 1, and filter 2, which has the legs 1 and 0. -/
example : (convKernel [exConv, exConv]).map (fun K => (K.shape, K.get [1, 0, 1, 2])) =
    .ok ([2, 2, 4, 4], 5 * 8 + 7 * 12) := by decide +kernel

/-- Two filters and width three, channels first. -/
example : convBias [1, 2] (⟨[1, 2, 3, 3], fun _ => 0⟩ : NDArray ℤ) = .error .valueError :=
  (C76_conv_bias_false (N := 1) (H := 3) (W := 3) (b := [1, 2]) (by simp) rfl).1 (by simp) (by simp)

end TN.Keras
