import Verif.Net

/-!
# Networks of the examples

Lemmas for the functions of the directory `examples` that add nodes to a network one by one: a node
is an array with the names of its edges, edges with two ends are summed over (`netVal`).
-/

set_option linter.unusedSectionVars false

namespace TN.Ex

open TN Finset

variable {R : Type}

/-- The open edges of a network. -/
def Dangling (net : List (NDArray R × List Nat)) (e : Nat) : Prop := (flatL net).count e = 1

instance (net : List (NDArray R × List Nat)) (e : Nat) : Decidable (Dangling net e) :=
  inferInstanceAs (Decidable (_ = _))

variable [CommSemiring R] {dim : Nat → Nat}

theorem netVal_congr {net : List (NDArray R × List Nat)} (hc : Consistent dim net)
    {σ τ : Nat → Nat} (h : ∀ e, e ∈ flatL net → e ∉ closedL net → σ e = τ e) :
    netVal net σ = netVal net τ := by
  rw [netVal_eq hc, netVal_eq hc]
  refine sumOver_dependsOn (prodVal_dependsOn net) _ _ fun e he => ?_
  rw [List.mem_filter, decide_eq_true_eq] at he
  exact h e he.1 he.2

/-- A node is added: its edges that are already there are summed over. -/
theorem netVal_snoc {net : List (NDArray R × List Nat)} {t : NDArray R} {ls D : List Nat}
    (hc : Consistent dim (net ++ [(t, ls)])) (hnd : ls.Nodup) (hDn : D.Nodup)
    (hD : ∀ e, e ∈ D ↔ e ∈ ls ∧ Dangling net e)
    (hls : ∀ e ∈ ls, e ∉ D → e ∉ flatL net) (σ : Nat → Nat) :
    netVal (net ++ [(t, ls)]) σ =
      sumOver dim D (fun τ => netVal net τ * val t ls τ) σ := by
  have hcl : ∀ e ∈ ls, e ∉ closedL net := by
    intro e he h2
    rw [mem_closedL] at h2
    by_cases hd : e ∈ D
    · have := ((hD e).1 hd).2
      rw [Dangling] at this
      omega
    · have := hls e he hd
      rw [← List.count_eq_zero] at this
      omega
  have hperm : (closedL (net ++ [(t, ls)])).Perm (D ++ closedL net) := by
    rw [List.perm_ext_iff_of_nodup (closedL_nodup _)]
    · intro e
      rw [mem_closedL, List.mem_append, mem_closedL, flatL_append, List.count_append,
        show flatL [(t, ls)] = ls by simp [flatL]]
      by_cases he : e ∈ ls
      · rw [List.count_eq_one_of_mem hnd he]
        by_cases hd : e ∈ D
        · have := ((hD e).1 hd).2
          rw [Dangling] at this
          simp [hd, this]
        · have := List.count_eq_zero.2 (hls e he hd)
          simp [hd, this]
      · rw [List.count_eq_zero.2 he]
        have : e ∉ D := fun h => he ((hD e).1 h).1
        simp [this]
    · rw [List.nodup_append']
      refine ⟨hDn, closedL_nodup _, ?_⟩
      intro e h1 h2
      exact hcl e ((hD e).1 h1).1 h2
  rw [netVal_eq hc, sumOver_perm hperm, sumOver_append]
  refine sumOver_congr fun τ _ _ => ?_
  rw [netVal_eq hc.append_left, ← sumOver_mul_right (dependsOn_val t ls) hcl]
  refine sumOver_congr fun τ' _ _ => ?_
  rw [prodVal_append]
  simp [prodVal]

/-! ### Growing a network at its open edges -/

/-- A network with a list of open edges that are followed, and the next unused name of an edge. -/
structure St (R : Type) where
  net : List (NDArray R × List Nat)
  state : List Nat
  next : Nat

/-- The edges that are followed are open, distinct and have dimension two. -/
structure Inv (dim : Nat → Nat) (s : St R) : Prop where
  cons : Consistent dim s.net
  lt : ∀ e ∈ flatL s.net, e < s.next
  dangling : ∀ e ∈ s.state, Dangling s.net e
  two : ∀ e ∈ s.state, dim e = 2
  nodup : s.state.Nodup
  fresh : ∀ e, s.next ≤ e → dim e = 2

/-- `s'` comes from `s` by adding nodes at the edges that are followed. -/
structure Grown (s s' : St R) : Prop where
  pre : s.net <+: s'.net
  len : s'.state.length = s.state.length
  next : s.next ≤ s'.next
  kept : ∀ e, e < s.next → e ∉ s.state →
    (flatL s'.net).count e = (flatL s.net).count e ∧ e ∉ s'.state
  fresh : ∀ k, k < s.state.length →
    s.next ≤ s'.state.getD k 0 ∨ s'.state.getD k 0 = s.state.getD k 0

theorem Grown.refl (s : St R) : Grown s s :=
  ⟨List.prefix_refl _, rfl, le_refl _, fun _ _ h => ⟨rfl, h⟩, fun _ _ => .inr rfl⟩

theorem Grown.trans {s s' s'' : St R} (h : Grown s s') (h' : Grown s' s'') : Grown s s'' :=
  ⟨h.pre.trans h'.pre, h'.len.trans h.len, h.next.trans h'.next, fun e he hs => by
    have h1 := h.kept e he hs
    have h2 := h'.kept e (lt_of_lt_of_le he h.next) h1.2
    exact ⟨h2.1.trans h1.1, h2.2⟩, fun k hk => by
    have h1 := h'.fresh k (by rw [h.len]; exact hk)
    rcases h1 with h1 | h1
    · exact .inl (h.next.trans h1)
    · rw [h1]; exact h.fresh k hk⟩

theorem mem_set_nodup {l : List Nat} {i x e : Nat} (hn : l.Nodup) (hi : i < l.length)
    (h : e ∈ l.set i x) : e = x ∨ (e ∈ l ∧ e ≠ l[i]) := by
  obtain ⟨k, hk, rfl⟩ := List.getElem_of_mem h
  rw [List.length_set] at hk
  rw [List.getElem_set]
  by_cases hik : i = k
  · left; simp [hik]
  · right
    rw [if_neg hik]
    refine ⟨List.getElem_mem _, fun h => hik ?_⟩
    exact ((hn.getElem_inj_iff).1 h).symm

theorem nodup_set {l : List Nat} {i x : Nat} (hn : l.Nodup) (hx : x ∉ l) : (l.set i x).Nodup := by
  rw [List.nodup_iff_getElem?_ne_getElem?]
  intro a b hab hb
  rw [List.length_set] at hb
  rw [List.getElem?_eq_getElem (by simp; omega), List.getElem?_eq_getElem (by simp; omega)]
  simp only [ne_eq, Option.some.injEq, List.getElem_set]
  split
  · split
    · omega
    · intro h; exact hx (h ▸ List.getElem_mem _)
  · split
    · intro h; exact hx (h ▸ List.getElem_mem _)
    · intro h
      have := (hn.getElem_inj_iff).1 h
      omega

theorem Inv.not_mem {s : St R} (h : Inv dim s) {e : Nat} (he : s.next ≤ e) : e ∉ flatL s.net :=
  fun h' => absurd (h.lt e h') (by omega)

theorem Dangling.mem {net : List (NDArray R × List Nat)} {e : Nat} (h : Dangling net e) :
    e ∈ flatL net := List.count_pos_iff.1 (by rw [Dangling] at h; omega)

theorem Inv.state_lt {s : St R} (h : Inv dim s) {e : Nat} (he : e ∈ s.state) : e < s.next :=
  h.lt e (h.dangling e he).mem

/-- A node with two axes is added at one edge. -/
theorem Inv.add_one {s : St R} (h : Inv dim s) {t : NDArray R} (ht : t.shape = [2, 2]) {i : Nat}
    (hi : i < s.state.length) :
    Inv dim ⟨s.net ++ [(t, [s.state[i], s.next])], s.state.set i s.next, s.next + 1⟩ ∧
      Grown s ⟨s.net ++ [(t, [s.state[i], s.next])], s.state.set i s.next, s.next + 1⟩ := by
  have hin : s.state[i] ∈ s.state := List.getElem_mem hi
  have hlt := h.state_lt hin
  have hfl : flatL (s.net ++ [(t, [s.state[i], s.next])]) =
      flatL s.net ++ [s.state[i], s.next] := by rw [flatL_append]; simp [flatL]
  have hns : s.next ∉ s.state := fun h' => absurd (h.state_lt h') (by omega)
  have hmem : ∀ e ∈ s.state.set i s.next, e = s.next ∨ (e ∈ s.state ∧ e ≠ s.state[i]) :=
    fun e he => mem_set_nodup h.nodup hi he
  refine ⟨⟨?_, ?_, ?_, ?_, nodup_set h.nodup hns, ?_⟩,
    ⟨List.prefix_append _ _, by simp, by simp, ?_, fun k hk => ?_⟩⟩
  · intro p hp
    rw [List.mem_append, List.mem_singleton] at hp
    rcases hp with hp | rfl
    · exact h.cons p hp
    · simp [Shaped, ht, h.two _ hin, h.fresh _ (le_refl _)]
  · intro e he
    rw [hfl] at he
    simp only [List.mem_append, List.mem_cons, List.not_mem_nil, or_false] at he
    dsimp only
    rcases he with he | he | he
    · have := h.lt e he; omega
    · omega
    · omega
  · intro e he
    rw [Dangling, hfl, List.count_append]
    rcases hmem e he with rfl | ⟨h1, h2⟩
    · rw [List.count_eq_zero.2 (h.not_mem (le_refl _))]
      simp [hlt.ne]
    · have h3 := h.dangling e h1
      rw [Dangling] at h3
      have h4 := h.state_lt h1
      rw [h3, List.count_eq_zero.2]
      simp only [List.mem_cons, List.not_mem_nil, or_false, not_or]
      exact ⟨h2, by omega⟩
  · intro e he
    rcases hmem e he with rfl | ⟨h1, _⟩
    · exact h.fresh _ (le_refl _)
    · exact h.two e h1
  · intro e he
    exact h.fresh e (by dsimp only at he; omega)
  · intro e he hs
    dsimp only
    rw [hfl, List.count_append, List.count_eq_zero (l := [s.state[i], s.next])|>.2]
    · refine ⟨by simp, fun h' => ?_⟩
      rcases hmem e h' with h' | h'
      · omega
      · exact hs h'.1
    · simp only [List.mem_cons, List.not_mem_nil, or_false, not_or]
      exact ⟨fun h' => hs (h' ▸ hin), by omega⟩
  · by_cases hki : i = k
    · left; subst hki; simp [hk]
    · right; simp [List.getElem?_set_ne hki]

/-- A node with four axes is added at two edges. -/
theorem Inv.add_two {s : St R} (h : Inv dim s) {t : NDArray R} (ht : t.shape = [2, 2, 2, 2])
    {i j : Nat} (hi : i < s.state.length) (hj : j < s.state.length) (hij : i ≠ j) :
    Inv dim ⟨s.net ++ [(t, [s.state[i], s.state[j], s.next, s.next + 1])],
        (s.state.set i s.next).set j (s.next + 1), s.next + 2⟩ ∧
      Grown s ⟨s.net ++ [(t, [s.state[i], s.state[j], s.next, s.next + 1])],
        (s.state.set i s.next).set j (s.next + 1), s.next + 2⟩ := by
  have hin : s.state[i] ∈ s.state := List.getElem_mem hi
  have hjn : s.state[j] ∈ s.state := List.getElem_mem hj
  have hlt := h.state_lt hin
  have hltj := h.state_lt hjn
  have hne : s.state[i] ≠ s.state[j] := fun h' => hij ((h.nodup.getElem_inj_iff).1 h')
  have hfl : flatL (s.net ++ [(t, [s.state[i], s.state[j], s.next, s.next + 1])]) =
      flatL s.net ++ [s.state[i], s.state[j], s.next, s.next + 1] := by
    rw [flatL_append]; simp [flatL]
  have hns : s.next ∉ s.state := fun h' => absurd (h.state_lt h') (by omega)
  have hns' : s.next + 1 ∉ s.state.set i s.next := by
    intro h'
    rcases mem_set_nodup h.nodup hi h' with h' | h'
    · omega
    · exact absurd (h.state_lt h'.1) (by omega)
  have hmem : ∀ e ∈ (s.state.set i s.next).set j (s.next + 1),
      e = s.next ∨ e = s.next + 1 ∨ (e ∈ s.state ∧ e ≠ s.state[i] ∧ e ≠ s.state[j]) := by
    intro e he
    rcases mem_set_nodup (nodup_set h.nodup hns) (by simpa using hj) he with h1 | ⟨h1, h2⟩
    · exact .inr (.inl h1)
    · rw [List.getElem_set_ne hij] at h2
      rcases mem_set_nodup h.nodup hi h1 with h3 | h3
      · exact .inl h3
      · exact .inr (.inr ⟨h3.1, h3.2, h2⟩)
  refine ⟨⟨?_, ?_, ?_, ?_, nodup_set (nodup_set h.nodup hns) hns', ?_⟩,
    ⟨List.prefix_append _ _, by simp, by simp, ?_, fun k hk => ?_⟩⟩
  · intro p hp
    rw [List.mem_append, List.mem_singleton] at hp
    rcases hp with hp | rfl
    · exact h.cons p hp
    · simp [Shaped, ht, h.two _ hin, h.two _ hjn, h.fresh _ (le_refl _),
        h.fresh (s.next + 1) (by omega)]
  · intro e he
    rw [hfl] at he
    simp only [List.mem_append, List.mem_cons, List.not_mem_nil, or_false] at he
    dsimp only
    rcases he with he | he | he | he | he
    · have := h.lt e he; omega
    all_goals omega
  · intro e he
    rw [Dangling, hfl, List.count_append]
    rcases hmem e he with rfl | rfl | ⟨h1, h2, h2'⟩
    · rw [List.count_eq_zero.2 (h.not_mem (le_refl _))]
      simp [hlt.ne, hltj.ne]
    · rw [List.count_eq_zero.2 (h.not_mem (by omega))]
      have e1 : s.state[i] ≠ s.next + 1 := by omega
      have e2 : s.state[j] ≠ s.next + 1 := by omega
      simp [e1, e2]
    · have h3 := h.dangling e h1
      rw [Dangling] at h3
      have h4 := h.state_lt h1
      rw [h3, List.count_eq_zero.2]
      simp only [List.mem_cons, List.not_mem_nil, or_false, not_or]
      exact ⟨h2, h2', by omega, by omega⟩
  · intro e he
    rcases hmem e he with rfl | rfl | ⟨h1, _⟩
    · exact h.fresh _ (le_refl _)
    · exact h.fresh _ (by omega)
    · exact h.two e h1
  · intro e he
    exact h.fresh e (by dsimp only at he; omega)
  · intro e he hs
    dsimp only
    rw [hfl, List.count_append,
      List.count_eq_zero (l := [s.state[i], s.state[j], s.next, s.next + 1])|>.2]
    · refine ⟨by simp, fun h' => ?_⟩
      rcases hmem e h' with h' | h' | h'
      · omega
      · omega
      · exact hs h'.1
    · simp only [List.mem_cons, List.not_mem_nil, or_false, not_or]
      exact ⟨fun h' => hs (h' ▸ hin), fun h' => hs (h' ▸ hjn), by omega, by omega⟩
  · by_cases hkj : j = k
    · left; subst hkj; simp [hk]
    · by_cases hki : i = k
      · left; subst hki; simp [List.getElem_set_ne hkj, hk]
      · right; simp [List.getElem?_set_ne hki, List.getElem?_set_ne hkj]

/-- The positions `τ` have the values `b` at the edges that are followed and agree with `σ`
at all others. -/
def Fits (σ : Nat → Nat) (s : St R) (b τ : Nat → Nat) : Prop :=
  (∀ k, k < s.state.length → b k < 2) ∧
  (∀ k (hk : k < s.state.length), τ s.state[k] = b k) ∧ ∀ e, e < s.next → e ∉ s.state → τ e = σ e

/-- The value of the network as a function of the positions of the edges that are followed. -/
def Amp (σ : Nat → Nat) (s : St R) (Φ : (Nat → Nat) → R) : Prop :=
  ∀ b τ, Fits σ s b τ → netVal s.net τ = Φ b

theorem Amp.add_one {s : St R} (h : Inv dim s) {t : NDArray R} (ht : t.shape = [2, 2]) {i : Nat}
    (hi : i < s.state.length) {σ : Nat → Nat} {Φ : (Nat → Nat) → R} (hA : Amp σ s Φ) :
    Amp σ ⟨s.net ++ [(t, [s.state[i], s.next])], s.state.set i s.next, s.next + 1⟩
      (fun b => ∑ c ∈ range 2, Φ (Function.update b i c) * t.get [c, b i]) := by
  intro b τ ⟨hb, hs, ho⟩
  have hin : s.state[i] ∈ s.state := List.getElem_mem hi
  have hlt := h.state_lt hin
  rw [netVal_snoc (D := [s.state[i]]) (h.add_one ht hi).1.cons (by simp [hlt.ne]) (by simp)
    (by
      intro e
      simp only [List.mem_cons, List.not_mem_nil, or_false]
      constructor
      · rintro rfl; exact ⟨.inl rfl, h.dangling _ hin⟩
      · rintro ⟨h1 | rfl, h2⟩
        · exact h1
        · exact absurd (h.lt _ h2.mem) (by omega))
    (by
      intro e he hD
      simp only [List.mem_cons, List.not_mem_nil, or_false] at he hD
      exact h.not_mem (by omega))]
  simp only [sumOver, h.two _ hin]
  refine Finset.sum_congr rfl fun c hc => ?_
  have hnx : τ s.next = b i := by
    have := hs i (by simpa using hi)
    simpa using this
  congr 1
  · refine hA _ _ ⟨?_, ?_, ?_⟩
    · intro k hk
      by_cases hki : k = i
      · subst hki; simpa using hc
      · rw [Function.update_of_ne hki]; exact hb k (by simpa using hk)
    · intro k hk
      by_cases hki : k = i
      · subst hki; simp
      · have : s.state[k] ≠ s.state[i] := fun h' => hki ((h.nodup.getElem_inj_iff).1 h')
        rw [Function.update_of_ne hki, Function.update_of_ne this]
        have h5 := hs k (by simpa using hk)
        rw [← h5]
        simp only [List.getElem_set_ne (Ne.symm hki)]
    · intro e he hes
      have : e ≠ s.state[i] := fun h' => hes (h' ▸ hin)
      rw [Function.update_of_ne this]
      refine ho e (by dsimp only; omega) fun h' => ?_
      rcases mem_set_nodup h.nodup hi h' with h' | h'
      · omega
      · exact hes h'.1
  · simp [val, Function.update_of_ne hlt.ne', hnx]

theorem Amp.add_two {s : St R} (h : Inv dim s) {t : NDArray R} (ht : t.shape = [2, 2, 2, 2])
    {i j : Nat} (hi : i < s.state.length) (hj : j < s.state.length) (hij : i ≠ j)
    {σ : Nat → Nat} {Φ : (Nat → Nat) → R} (hA : Amp σ s Φ) :
    Amp σ ⟨s.net ++ [(t, [s.state[i], s.state[j], s.next, s.next + 1])],
        (s.state.set i s.next).set j (s.next + 1), s.next + 2⟩
      (fun b => ∑ c ∈ range 2, ∑ d ∈ range 2,
        Φ (Function.update (Function.update b i c) j d) * t.get [c, d, b i, b j]) := by
  intro b τ ⟨hb, hs, ho⟩
  have hin : s.state[i] ∈ s.state := List.getElem_mem hi
  have hjn : s.state[j] ∈ s.state := List.getElem_mem hj
  have hlt := h.state_lt hin
  have hltj := h.state_lt hjn
  have hne : s.state[i] ≠ s.state[j] := fun h' => hij ((h.nodup.getElem_inj_iff).1 h')
  have e1 : s.state[i] ≠ s.next + 1 := by omega
  have e2 : s.state[j] ≠ s.next + 1 := by omega
  rw [netVal_snoc (D := [s.state[i], s.state[j]]) (h.add_two ht hi hj hij).1.cons
    (by simp [hlt.ne, hltj.ne, hne, e1, e2]) (by simp [hne])
    (by
      intro e
      simp only [List.mem_cons, List.not_mem_nil, or_false]
      constructor
      · rintro (rfl | rfl)
        · exact ⟨.inl rfl, h.dangling _ hin⟩
        · exact ⟨.inr (.inl rfl), h.dangling _ hjn⟩
      · rintro ⟨h1 | h1 | rfl | rfl, h2⟩
        · exact .inl h1
        · exact .inr h1
        · exact absurd (h.lt _ h2.mem) (by omega)
        · exact absurd (h.lt _ h2.mem) (by omega))
    (by
      intro e he hD
      simp only [List.mem_cons, List.not_mem_nil, or_false] at he hD
      exact h.not_mem (by omega))]
  simp only [sumOver, h.two _ hin, h.two _ hjn]
  refine Finset.sum_congr rfl fun c hc => Finset.sum_congr rfl fun d hd => ?_
  have hnx : τ s.next = b i := by
    have := hs i (by simpa using hi)
    simpa [List.getElem_set_ne (Ne.symm hij)] using this
  have hnx1 : τ (s.next + 1) = b j := by
    have := hs j (by simpa using hj)
    simpa using this
  congr 1
  · refine hA _ _ ⟨?_, ?_, ?_⟩
    · intro k hk
      by_cases hkj : k = j
      · subst hkj; simpa using hd
      · rw [Function.update_of_ne hkj]
        by_cases hki : k = i
        · subst hki; simpa using hc
        · rw [Function.update_of_ne hki]; exact hb k (by simpa using hk)
    · intro k hk
      by_cases hkj : k = j
      · subst hkj; simp
      · have h6 : s.state[k] ≠ s.state[j] := fun h' => hkj ((h.nodup.getElem_inj_iff).1 h')
        rw [Function.update_of_ne hkj, Function.update_of_ne h6]
        by_cases hki : k = i
        · subst hki; simp
        · have : s.state[k] ≠ s.state[i] := fun h' => hki ((h.nodup.getElem_inj_iff).1 h')
          rw [Function.update_of_ne hki, Function.update_of_ne this]
          have h5 := hs k (by simpa using hk)
          rw [← h5]
          simp only [List.getElem_set_ne (Ne.symm hki), List.getElem_set_ne (Ne.symm hkj)]
    · intro e he hes
      have h7 : e ≠ s.state[i] := fun h' => hes (h' ▸ hin)
      have h8 : e ≠ s.state[j] := fun h' => hes (h' ▸ hjn)
      rw [Function.update_of_ne h8, Function.update_of_ne h7]
      refine ho e (by dsimp only; omega) fun h' => ?_
      rcases List.mem_or_eq_of_mem_set h' with h' | h'
      · rcases List.mem_or_eq_of_mem_set h' with h' | h'
        · exact hes h'
        · omega
      · omega
  · simp [val, Function.update_of_ne hltj.ne', Function.update_of_ne hlt.ne',
      Function.update_of_ne e1.symm, Function.update_of_ne e2.symm,
      Function.update_of_ne hne, hnx, hnx1]

end TN.Ex
