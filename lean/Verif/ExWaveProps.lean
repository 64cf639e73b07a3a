import Verif.ExWave

/-!
# Exact wave functions: what `apply_op`, `expval` and `apply_circuit` compute
-/

set_option linter.unusedSectionVars false

namespace TN.Wave

open TN TN.NDArray Finset

variable {R : Type}

/-- The place is in the list. -/
def Rng (N : Nat) (n1 : Int) (pbc : Bool) (m : Nat) : Prop :=
  (pbc = true → 0 < N) ∧ (pbc = false → -N ≤ n1 + m ∧ n1 + m < N)

theorem pyIdx_target (N : Nat) (n1 : Int) (pbc : Bool) (m : Nat) :
    (Rng N n1 pbc m → pyIdx N (if pbc then (n1 + m) % (N : Int) else n1 + m) = .ok (site N n1 m) ∧ site N n1 m < N) ∧
    (¬ Rng N n1 pbc m → pyIdx N (if pbc then (n1 + m) % (N : Int) else n1 + m) = .error .indexError) := by
  unfold Rng pyIdx site
  cases pbc with
  | true =>
    simp only [if_true, forall_const, reduceCtorEq, false_implies, and_true]
    constructor
    · intro hN
      have h1 := Int.emod_nonneg (n1 + m) (by omega : (N : Int) ≠ 0)
      have h2 := Int.emod_lt_of_pos (n1 + m) (by omega : 0 < (N : Int))
      rw [if_pos ⟨h1, h2⟩]
      exact ⟨rfl, by omega⟩
    · intro hN
      have : N = 0 := by omega
      subst this
      rw [if_neg (by simp), if_neg (by simp)]
  | false =>
    simp only [Bool.false_eq_true, if_false, forall_const, false_implies, true_and]
    constructor
    · rintro ⟨h1, h2⟩
      by_cases h : 0 ≤ n1 + m
      · rw [if_pos ⟨h, h2⟩, Int.emod_eq_of_lt h h2]
        exact ⟨rfl, by omega⟩
      · rw [if_neg (by omega), if_pos ⟨h1, by omega⟩]
        have : (n1 + m) % (N : Int) = n1 + m + N := by
          rw [← Int.add_emod_right, Int.emod_eq_of_lt (by omega) (by omega)]
        rw [this]
        exact ⟨rfl, by omega⟩
    · intro h
      rw [if_neg (by omega), if_neg (by omega)]

theorem connectLoop_ok (op : NDArray R) (k : Nat) (n1 : Int) (pbc : Bool) (outs : Nat → Ed) (ms : List Nat)
    {sites : List Ed} (hr : ∀ m ∈ ms, Rng sites.length n1 pbc m) (hn : (ms.map (site sites.length n1)).Nodup)
    (hd : ∀ m ∈ ms, op.shape.getD (k + m) 0 = (sites.getD (site sites.length n1 m) default).dim) :
    connectLoop op k n1 pbc outs ms sites = .ok (setAll sites (ms.map (site sites.length n1)) (ms.map outs),
      (ms.map (site sites.length n1)).map fun i => sites.getD i default) := by
  induction ms generalizing sites with
  | nil => rfl
  | cons m ms ih =>
    obtain ⟨h1, h2⟩ := (pyIdx_target _ _ _ _).1 (hr m (by simp))
    rw [connectLoop, h1]
    show (if _ then _ else _) = _
    rw [if_neg (by simpa using hd m (by simp))]
    rw [List.map_cons, List.nodup_cons] at hn
    have hlen : (sites.set (site sites.length n1 m) (outs m)).length = sites.length := List.length_set
    have hkeep : ∀ m' ∈ ms, (sites.set (site sites.length n1 m) (outs m)).getD (site sites.length n1 m') default =
        sites.getD (site sites.length n1 m') default := by
      intro m' hm'
      rw [List.getD_eq_getElem?_getD, List.getElem?_set_ne, ← List.getD_eq_getElem?_getD]
      intro h
      exact hn.1 (h ▸ List.mem_map_of_mem hm')
    rw [ih (by rw [hlen]; exact fun m' h => hr m' (by simp [h])) (by rw [hlen]; exact hn.2)
      (by
        rw [hlen]
        intro m' h
        rw [hd m' (by simp [h]), hkeep m' h])]
    rw [hlen]
    simp only [List.map_cons, setAll]
    show Except.ok _ = Except.ok _
    congr 3
    rw [List.map_map, List.map_map]
    exact List.map_congr_left fun m' h => hkeep m' h

/-- A place that comes again hands over the edge that was put there. -/
theorem connectLoop_mem {op : NDArray R} {k : Nat} {n1 : Int} {pbc : Bool} {outs : Nat → Ed} {ms : List Nat}
    {sites : List Ed} {r : List Ed × List Ed} (h : connectLoop op k n1 pbc outs ms sites = .ok r) {t : Nat}
    (ht : t ∈ ms.map (site sites.length n1)) : sites.getD t default ∈ r.2 := by
  induction ms generalizing sites r with
  | nil => simp at ht
  | cons m ms ih =>
    rw [connectLoop] at h
    by_cases hr : Rng sites.length n1 pbc m
    · rw [((pyIdx_target _ _ _ _).1 hr).1] at h
      replace h : (if _ then _ else _) = _ := h
      split_ifs at h
      rcases hc : connectLoop op k n1 pbc outs ms (sites.set (site sites.length n1 m) (outs m)) with e | r'
      · rw [hc] at h; exact absurd h (by rintro ⟨⟩)
      rw [hc] at h
      obtain rfl : (r'.1, sites.getD (site sites.length n1 m) default :: r'.2) = r := by
        injection h
      by_cases htm : t = site sites.length n1 m
      · subst htm; simp
      · rw [List.map_cons, List.mem_cons] at ht
        have := ih hc (by rw [List.length_set]; exact ht.resolve_left htm)
        rw [List.getD_eq_getElem?_getD, List.getElem?_set_ne (Ne.symm htm), ← List.getD_eq_getElem?_getD] at this
        exact List.mem_cons_of_mem _ this
    · rw [(pyIdx_target _ _ _ _).2 hr] at h
      exact absurd h (by rintro ⟨⟩)

theorem connectLoop_inv {op : NDArray R} {k : Nat} {n1 : Int} {pbc : Bool} {outs : Nat → Ed} {ms : List Nat}
    {sites : List Ed} {r : List Ed × List Ed} (h : connectLoop op k n1 pbc outs ms sites = .ok r) :
    (∀ m ∈ ms, Rng sites.length n1 pbc m) ∧
    r.1 = setAll sites (ms.map (site sites.length n1)) (ms.map outs) ∧
    ((ms.map (site sites.length n1)).Nodup →
      ∀ m ∈ ms, op.shape.getD (k + m) 0 = (sites.getD (site sites.length n1 m) default).dim) ∧
    (¬ (ms.map (site sites.length n1)).Nodup → ∃ m ∈ ms, outs m ∈ r.2) := by
  induction ms generalizing sites r with
  | nil =>
    rw [connectLoop] at h
    injection h with h
    subst h
    simp [setAll]
  | cons m ms ih =>
    rw [connectLoop] at h
    by_cases hr : Rng sites.length n1 pbc m
    · obtain ⟨h1, h2⟩ := (pyIdx_target _ _ _ _).1 hr
      rw [h1] at h
      replace h : (if _ then _ else _) = _ := h
      split_ifs at h with hdim
      rcases hc : connectLoop op k n1 pbc outs ms (sites.set (site sites.length n1 m) (outs m)) with e | r'
      · rw [hc] at h; exact absurd h (by rintro ⟨⟩)
      rw [hc] at h
      obtain rfl : (r'.1, sites.getD (site sites.length n1 m) default :: r'.2) = r := by
        injection h
      obtain ⟨i1, i2, i3, i4⟩ := ih hc
      have hmem := fun t => connectLoop_mem (t := t) hc
      rw [List.length_set] at i1 i2 i3 i4 hmem
      refine ⟨?_, ?_, ?_, ?_⟩
      · simpa using ⟨hr, i1⟩
      · simp only [List.map_cons, setAll]; exact i2
      · intro hn
        rw [List.map_cons, List.nodup_cons] at hn
        intro m' hm'
        rcases List.mem_cons.1 hm' with rfl | hm'
        · simpa using hdim
        · rw [i3 hn.2 m' hm', List.getD_eq_getElem?_getD, List.getElem?_set_ne, ← List.getD_eq_getElem?_getD]
          intro h'
          exact hn.1 (h' ▸ List.mem_map_of_mem hm')
      · intro hn
        by_cases hn2 : (ms.map (site sites.length n1)).Nodup
        · have : site sites.length n1 m ∈ ms.map (site sites.length n1) := by
            by_contra h'
            exact hn (by rw [List.map_cons, List.nodup_cons]; exact ⟨h', hn2⟩)
          have h3 := hmem _ this
          rw [List.getD_eq_getElem _ _ (by simpa using h2), List.getElem_set_self] at h3
          exact ⟨m, by simp, List.mem_cons_of_mem _ h3⟩
        · obtain ⟨m', h3, h4⟩ := i4 hn2
          exact ⟨m', by simp [h3], List.mem_cons_of_mem _ h4⟩
    · rw [(pyIdx_target _ _ _ _).2 hr] at h
      exact absurd h (by rintro ⟨⟩)

section
variable [CommSemiring R]

theorem contractB_labels {a b n : LN R} (h : contractB a b = .ok n) :
    a.2.filter (· ∈ b.2) ≠ [] ∧ n.2 = a.2.filter (· ∉ a.2.filter (· ∈ b.2)) ++ b.2.filter (· ∉ a.2.filter (· ∈ b.2)) := by
  rw [contractB] at h
  split_ifs at h with hc
  refine ⟨hc, ?_⟩
  rcases ht : a.1.tensordot b.1 ((a.2.filter (· ∈ b.2)).map a.2.idxOf) ((a.2.filter (· ∈ b.2)).map b.2.idxOf) with e | t
  · rw [ht] at h; exact absurd h (by rintro ⟨⟩)
  · rw [ht] at h
    injection h with h
    rw [← h]

theorem newEdges_nodup (t : NDArray R) (next : Nat) : (newEdges t next).Nodup := by
  rw [newEdges]
  refine List.nodup_range.map_on fun a _ b _ h => ?_
  simp only [Ed.mk.injEq] at h
  omega

theorem newEdges_dim (t : NDArray R) (next : Nat) : (newEdges t next).map Ed.dim = t.shape := by
  apply List.ext_getElem (by simp [newEdges, NDArray.ndim])
  intro i h1 h2
  simp [newEdges, List.getElem?_eq_getElem h2]

theorem repr_new (psi : NDArray R) (next : Nat) : Repr (psi, newEdges psi next) (newEdges psi next) psi :=
  ⟨(newEdges_dim psi next).symm, .refl _, newEdges_nodup psi next, (newEdges_dim psi next).symm, fun _ => rfl⟩

theorem newEdges_length (t : NDArray R) (next : Nat) : (newEdges t next).length = t.ndim := by simp [newEdges]

theorem newEdges_id {t : NDArray R} {next : Nat} {e : Ed} (h : e ∈ newEdges t next) : next ≤ e.id ∧ e.id < next + t.ndim := by
  simp only [newEdges, List.mem_map, List.mem_range] at h
  obtain ⟨m, hm, rfl⟩ := h
  simp; omega

/-- The outputs of a new operator. -/
def outsOf (op : NDArray R) (k next : Nat) : List Ed := (List.range k).map fun m => ⟨next + m, op.shape.getD m 0⟩

theorem gate_new {op : NDArray R} {T : List Nat} (hk : T.length ≤ op.ndim) {sites : List Ed} {next : Nat} (hs : ∀ e ∈ sites, e.id < next) :
    Gate op T sites (outsOf op T.length next) := by
  refine ⟨?_, ?_, ?_⟩
  · apply List.ext_getElem (by simpa [outsOf, NDArray.ndim] using hk)
    intro i h1 h2
    have : i < op.shape.length := by simp at h2; omega
    simp [outsOf, List.getElem?_eq_getElem this]
  · rw [outsOf]
    refine List.nodup_range.map_on fun a _ b _ h => ?_
    simp only [Ed.mk.injEq] at h
    omega
  · intro e he h
    simp only [outsOf, List.mem_map] at he
    obtain ⟨m, _, rfl⟩ := he
    have := hs _ h
    simp at this

/-- `_apply_op_network` in the good case. -/
theorem applyOpNetwork_ok {op psi : NDArray R} {n1 : Int} {pbc : Bool} {sites : List Ed} {next : Nat}
    (hsh : psi.shape = sites.map Ed.dim)
    (f : Fits op ((List.range (op.ndim / 2)).map (site sites.length n1)) psi)
    (hr : ∀ m < op.ndim / 2, Rng sites.length n1 pbc m) :
    applyOpNetwork sites op n1 pbc next =
      .ok (setAll sites ((List.range (op.ndim / 2)).map (site sites.length n1)) (outsOf op (op.ndim / 2) next),
        (op, outsOf op (op.ndim / 2) next ++
          ((List.range (op.ndim / 2)).map (site sites.length n1)).map fun i => sites.getD i default)) := by
  have hN : sites.length = psi.ndim := by rw [NDArray.ndim, hsh, List.length_map]
  have hk := f.ndim
  rw [List.length_map, List.length_range] at hk
  have hd : ∀ m ∈ List.range (op.ndim / 2), op.shape.getD (op.ndim / 2 + m) 0 =
      (sites.getD (site sites.length n1 m) default).dim := by
    intro m hm
    rw [List.mem_range] at hm
    have h1 := f.lt (site sites.length n1 m) (List.mem_map_of_mem (List.mem_range.2 hm))
    have h2 := congrArg (fun l => l.getD m 0) f.dim
    simp only [List.length_map, List.length_range] at h2
    rw [List.getD_eq_getElem?_getD, List.getElem?_drop, ← List.getD_eq_getElem?_getD] at h2
    rw [h2, List.getD_eq_getElem _ _ (by simpa using hm), List.getElem_map, List.getElem_map, List.getElem_range, hsh,
      List.getD_eq_getElem _ _ (by rw [List.length_map]; exact lt_of_lt_of_eq h1 hN.symm), List.getElem_map,
      List.getD_eq_getElem _ _ (lt_of_lt_of_eq h1 hN.symm)]
  rw [applyOpNetwork]
  rw [connectLoop_ok op (op.ndim / 2) n1 pbc _ (List.range (op.ndim / 2)) (fun m hm => hr m (List.mem_range.1 hm)) f.nodup hd]
  have : op.ndim - 2 * (op.ndim / 2) = 0 := by omega
  rw [this]
  simp [outsOf, bind, Except.bind]

/-- **C86.**  `apply_op` succeeds exactly if the operator has `2k` axes with `0 < k`, its sites are
different and exist, and the dimensions fit; then it returns the operator applied at the sites
`n1, …, n1 + k - 1`, modulo the number of sites with periodic boundary conditions. -/
theorem C86_apply_op (psi op : NDArray R) (n1 : Int) (pbc : Bool) :
    ((∃ out, applyOp psi op n1 pbc = .ok out) ↔
      Fits op ((List.range (op.ndim / 2)).map (site psi.ndim n1)) psi ∧
        (pbc = false → -(psi.ndim : Int) ≤ n1 ∧ n1 + (op.ndim / 2 : Nat) ≤ psi.ndim)) ∧
    ∀ out, applyOp psi op n1 pbc = .ok out → out.Same (act op ((List.range (op.ndim / 2)).map (site psi.ndim n1)) psi) := by
  have hl := newEdges_length psi 0
  have good : ∀ (f : Fits op ((List.range (op.ndim / 2)).map (site psi.ndim n1)) psi)
      (hr : pbc = false → -(psi.ndim : Int) ≤ n1 ∧ n1 + (op.ndim / 2 : Nat) ≤ psi.ndim),
      ∃ out, applyOp psi op n1 pbc = .ok out ∧
        out.Same (act op ((List.range (op.ndim / 2)).map (site psi.ndim n1)) psi) := by
    intro f hr
    have hpos := f.pos
    have hk := f.ndim
    rw [List.length_map, List.length_range] at hpos hk
    have hN : 0 < psi.ndim := lt_of_le_of_lt (Nat.zero_le _) (f.lt _ (List.mem_map_of_mem (List.mem_range.2 hpos)))
    have h1 := applyOpNetwork_ok (op := op) (n1 := n1) (pbc := pbc) (sites := newEdges psi 0) (next := psi.ndim)
      (newEdges_dim psi 0).symm (by rw [hl]; exact f) (fun m hm => by
        rw [hl]
        refine ⟨fun _ => hN, fun hp => ?_⟩
        have := hr hp
        omega)
    rw [hl] at h1
    have g := gate_new (op := op) (T := (List.range (op.ndim / 2)).map (site psi.ndim n1)) (next := psi.ndim)
      (sites := newEdges psi 0) (by simp; omega) (fun e he => by have := newEdges_id he; omega)
    rw [List.length_map, List.length_range] at g
    obtain ⟨n', h2, h3⟩ := (gate_step (repr_new psi 0) f g).2
    obtain ⟨t, h4, h5⟩ := h3.reorder
    refine ⟨t, ?_, h5⟩
    rw [applyOp]
    simp only [h1]
    show (contractB _ _ >>= _) = _
    rw [h2]
    exact h4
  have nec : ∀ out, applyOp psi op n1 pbc = .ok out →
      Fits op ((List.range (op.ndim / 2)).map (site psi.ndim n1)) psi ∧
        (pbc = false → -(psi.ndim : Int) ≤ n1 ∧ n1 + (op.ndim / 2 : Nat) ≤ psi.ndim) := by
    intro out ho
    rw [applyOp, applyOpNetwork] at ho
    rcases hc : connectLoop op (op.ndim / 2) n1 pbc (fun m => (⟨psi.ndim + m, op.shape.getD m 0⟩ : Ed))
      (List.range (op.ndim / 2)) (newEdges psi 0) with e | r
    · rw [hc] at ho; exact absurd ho (by rintro ⟨⟩)
    rw [hc] at ho
    obtain ⟨i1, i2, i3, i4⟩ := connectLoop_inv hc
    rw [hl] at i1 i2 i3 i4
    replace ho : (contractB _ _ >>= _) = _ := ho
    rcases hb : contractB (op, (List.range (op.ndim / 2)).map (fun m => (⟨psi.ndim + m, op.shape.getD m 0⟩ : Ed)) ++ r.2 ++
      (List.range' (2 * (op.ndim / 2)) (op.ndim - 2 * (op.ndim / 2))).map (fun m => (⟨psi.ndim + m, op.shape.getD m 0⟩ : Ed)))
      (psi, newEdges psi 0) with e | n
    · rw [hb] at ho; exact absurd ho (by rintro ⟨⟩)
    rw [hb] at ho
    replace ho : reorder n r.1 = _ := ho
    rw [reorder] at ho
    split_ifs at ho with hperm
    obtain ⟨j1, j2⟩ := contractB_labels hb
    have hids : ∀ e ∈ newEdges psi 0, e.id < psi.ndim := fun e he => by have := newEdges_id he; omega
    have hr1 : r.1.Nodup := by
      rw [i2]
      refine nodup_setAll (newEdges_nodup psi 0) ?_ ?_
      · refine List.nodup_range.map_on fun a _ b _ h => ?_
        simp only [Ed.mk.injEq] at h
        omega
      · intro e he h
        simp only [List.mem_map] at he
        obtain ⟨m, _, rfl⟩ := he
        have := hids _ h
        simp at this
    have hn2 := hperm.nodup_iff.1 hr1
    rw [j2, List.nodup_append] at hn2
    have hfresh : ∀ m, (⟨psi.ndim + m, op.shape.getD m 0⟩ : Ed) ∉ newEdges psi 0 := by
      intro m h
      have := hids _ h
      simp at this
    -- the sites are different
    have hnd : ((List.range (op.ndim / 2)).map (site psi.ndim n1)).Nodup := by
      by_contra hcon
      obtain ⟨m, hm, hm2⟩ := i4 hcon
      have h1 := hn2.1
      rw [List.filter_append, List.filter_append, List.append_assoc, List.nodup_append] at h1
      refine h1.2.2 ⟨psi.ndim + m, op.shape.getD m 0⟩ ?_ ⟨psi.ndim + m, op.shape.getD m 0⟩ ?_ rfl
      · rw [List.mem_filter]
        refine ⟨List.mem_map_of_mem hm, ?_⟩
        rw [decide_eq_true_eq, List.mem_filter, decide_eq_true_eq]
        exact fun h => hfresh _ h.2
      · rw [List.mem_append, List.mem_filter]
        refine .inl ⟨hm2, ?_⟩
        rw [decide_eq_true_eq, List.mem_filter, decide_eq_true_eq]
        exact fun h => hfresh _ h.2
    -- no axis is left over
    have heven : op.ndim = 2 * (op.ndim / 2) := by
      by_contra hcon
      have h1 : (⟨psi.ndim + 2 * (op.ndim / 2), op.shape.getD (2 * (op.ndim / 2)) 0⟩ : Ed) ∈ r.1 := by
        rw [hperm.mem_iff, j2, List.mem_append, List.mem_filter]
        refine .inl ⟨?_, ?_⟩
        · rw [List.mem_append]
          right
          refine List.mem_map_of_mem (f := fun m => (⟨psi.ndim + m, op.shape.getD m 0⟩ : Ed)) ?_
          rw [List.mem_range'_1]
          omega
        · rw [decide_eq_true_eq, List.mem_filter, decide_eq_true_eq]
          exact fun h => hfresh _ h.2
      rw [i2] at h1
      by_cases hk : op.ndim / 2 = 0
      · rw [hk] at h1
        simp only [List.range_zero, List.map_nil] at h1
        exact hfresh _ h1
      have hN : ∀ i ∈ (List.range (op.ndim / 2)).map (site psi.ndim n1), i < (newEdges psi 0).length := by
        intro i hi
        obtain ⟨m, hm, rfl⟩ := List.mem_map.1 hi
        rw [hl]
        exact ((pyIdx_target _ _ _ _).1 (i1 m hm)).2
      rw [mem_setAll hnd (by simp) hN] at h1
      rcases h1 with h1 | ⟨p, -, h1⟩
      · simp only [List.mem_map, List.mem_range, Ed.mk.injEq] at h1
        obtain ⟨m, h2, h3, -⟩ := h1
        omega
      · exact hfresh _ (List.mem_of_getElem? h1)
    have hpos : 0 < op.ndim / 2 := by
      by_contra hcon
      have hk : op.ndim / 2 = 0 := by omega
      rw [hk] at hc
      rw [List.range_zero, connectLoop] at hc
      injection hc with hc
      apply j1
      rw [List.filter_eq_nil_iff]
      intro e he
      rw [← hc, hk] at he
      have : op.ndim - 2 * 0 = 0 := by omega
      rw [this] at he
      simp at he
    have hrng := fun m (hm : m < op.ndim / 2) => i1 m (List.mem_range.2 hm)
    refine ⟨⟨by simpa using hpos, by simpa using heven, hnd, ?_, ?_⟩, ?_⟩
    · intro i hi
      obtain ⟨m, hm, rfl⟩ := List.mem_map.1 hi
      exact ((pyIdx_target _ _ _ _).1 (i1 m hm)).2
    · rw [List.length_map, List.length_range, List.map_map]
      apply List.ext_getElem
      · simp only [List.length_drop, List.length_map, List.length_range]
        have : op.shape.length = op.ndim := rfl
        omega
      · intro m h1 h2
        have hm : m < op.ndim / 2 := by simpa using h2
        have h3 := i3 hnd m (List.mem_range.2 hm)
        have h4 := ((pyIdx_target _ _ _ _).1 (hrng m hm)).2
        have h5 : op.ndim / 2 + m < op.shape.length := by
          have : op.shape.length = op.ndim := rfl
          omega
        rw [List.getD_eq_getElem _ _ h5] at h3
        rw [List.getElem_drop, h3, List.getElem_map, List.getElem_range, Function.comp_apply]
        conv_rhs => rw [← newEdges_dim psi 0]
        rw [List.getD_eq_getElem _ _ (by rw [hl]; exact h4), List.getD_eq_getElem _ _ (by rw [List.length_map, hl]; exact h4),
          List.getElem_map]
    · intro hp
      have h0 := (hrng 0 hpos).2 hp
      have h1 := (hrng (op.ndim / 2 - 1) (by omega)).2 hp
      omega
  refine ⟨⟨fun ⟨out, h⟩ => nec out h, fun ⟨f, hr⟩ => ?_⟩, fun out h => ?_⟩
  · obtain ⟨out, h, _⟩ := good f hr
    exact ⟨out, h⟩
  · obtain ⟨f, hr⟩ := nec out h
    obtain ⟨out', h', h2⟩ := good f hr
    rw [h] at h'
    injection h' with h'
    rw [h']
    exact h2

/-- The sites of an operator are different exactly if there are at most as many as in the ring. -/
theorem sites_nodup {N k : Nat} (hN : 0 < N) (n1 : Int) : ((List.range k).map (site N n1)).Nodup ↔ k ≤ N := by
  constructor
  · intro h
    have h1 : ((List.range k).map (site N n1)).Subperm (List.range N) := by
      refine h.subperm fun i hi => ?_
      obtain ⟨m, _, rfl⟩ := List.mem_map.1 hi
      rw [List.mem_range, site]
      have := Int.emod_lt_of_pos (n1 + m) (by omega : 0 < (N : Int))
      have := Int.emod_nonneg (n1 + m) (by omega : (N : Int) ≠ 0)
      omega
    simpa using h1.length_le
  · intro h
    refine List.nodup_range.map_on fun a ha b hb hab => ?_
    rw [List.mem_range] at ha hb
    rw [site, site] at hab
    have h1 := Int.emod_nonneg (n1 + a) (by omega : (N : Int) ≠ 0)
    have h2 := Int.emod_nonneg (n1 + b) (by omega : (N : Int) ≠ 0)
    have h3 : (n1 + a) % (N : Int) = (n1 + b) % (N : Int) := by omega
    rw [Int.emod_emod_of_dvd _ (dvd_refl _) |>.symm] at h3
    have h4 := Int.emod_emod_of_dvd (n1 + a) (dvd_refl (N : Int))
    have h5 : (N : Int) ∣ (n1 + a) - (n1 + b) := by
      rw [h4] at h3
      exact Int.dvd_of_emod_eq_zero (Int.emod_eq_emod_iff_emod_sub_eq_zero.1 h3)
    obtain ⟨c, hc⟩ := h5
    have hc0 : c = 0 := by
      by_contra hne
      rcases lt_or_gt_of_ne hne with hlt | hgt
      · nlinarith
      · nlinarith
    rw [hc0] at hc
    omega

theorem act_shape {op psi : NDArray R} {T : List Nat} (f : Fits op T psi) (hsq : op.shape.take T.length = op.shape.drop T.length) :
    (act op T psi).shape = psi.shape := by
  symm
  show psi.shape = setAll psi.shape T (op.shape.take T.length)
  rw [hsq, f.dim]
  refine setAll_ext f.nodup (by simp) f.lt (fun j hj => ?_) fun p _ => rfl
  have h1 : T[j] < psi.shape.length := f.lt _ (List.getElem_mem _)
  rw [List.getElem?_eq_getElem h1, List.getElem?_map, List.getElem?_eq_getElem hj, Option.map_some,
    List.getD_eq_getElem _ _ h1]

theorem sumOver_sites {sites : List Ed} (hs : sites.Nodup) (f : List Nat → R) (σ : Ed → Nat) :
    sumOver Ed.dim sites (fun τ => f (sites.map τ)) σ = sumIdx (sites.map Ed.dim) f := by
  rw [sumOver_eq_sumIdx]
  refine sumIdx_congr fun c hc => ?_
  rw [assign_map_self hs (by simpa using hc.length)]

theorem inner_same {conj : R → R} {a b : NDArray R} (h : a.shape = b.shape) :
    inner conj a b = .ok (sumIdx a.shape fun i => conj (a.get i) * b.get i) := by
  rw [inner, Bcast.elementwise, h, Bcast.bshape_self]
  show Except.ok _ = Except.ok _
  congr 1
  refine sumIdx_congr fun i hi => ?_
  dsimp only at hi ⊢
  rw [Bcast.bidx_self hi]

/-- A state of three sites and an operator on two for the examples. -/
def exPsi : NDArray ℤ := ⟨[2, 3, 2], fun i => i.getD 0 0 + 10 * i.getD 1 0 + 100 * i.getD 2 0⟩

@[inherit_doc exPsi]
def exOp : NDArray ℤ := ⟨[2, 2, 2, 2], fun i => if i.getD 0 0 = i.getD 3 0 then 1 + i.getD 1 0 * i.getD 2 0 else 2⟩

/-- At the last site the operator goes round to the first one with periodic boundary conditions only. -/
example : (∃ out, applyOp exPsi exOp 2 true = .ok out) ∧ ¬ (∃ out, applyOp exPsi exOp 2 false = .ok out) ∧
    (∃ out, applyOp exPsi exOp 2 true = .ok out ∧ out.get [1, 2, 0] = 20 * (1 + 2 + 2 + 2) + 1 * 2 + 100 * (2 + 2) + 2) ∧
    ¬ (∃ out, applyOp exPsi exOp 1 true = .ok out) := by
  have h1 : ∃ out, applyOp exPsi exOp 2 true = .ok out :=
    (C86_apply_op exPsi exOp 2 true).1.2 ⟨⟨by decide, by decide, by decide, by decide, by decide⟩, by simp⟩
  refine ⟨h1, fun h => ?_, ?_, fun h => ?_⟩
  · exact absurd (((C86_apply_op exPsi exOp 2 false).1.1 h).2 rfl).2 (by decide)
  · obtain ⟨out, ho⟩ := h1
    refine ⟨out, ho, ?_⟩
    have h2 := (C86_apply_op exPsi exOp 2 true).2 out ho
    rw [h2.2 [1, 2, 0] (by rw [h2.1, inB_iff_getD]; decide +kernel)]
    decide +kernel
  · exact absurd ((C86_apply_op exPsi exOp 1 true).1.1 h).1.dim (by decide)

/-- **C86.**  If the operator can be applied and keeps the dimensions of its sites, `expval` is the
inner product of `psi` with `apply_op(psi, op, n1)`. -/
theorem C86_expval {conj : R → R} {psi op : NDArray R} {n1 : Int} {pbc : Bool} {out : NDArray R}
    (h : applyOp psi op n1 pbc = .ok out) (hsq : op.shape.take (op.ndim / 2) = op.shape.drop (op.ndim / 2)) :
    ∃ e x, expval conj psi op n1 pbc = .ok e ∧ e.shape = [] ∧ inner conj psi out = .ok x ∧ e.get [] = x ∧
      x = sumIdx psi.shape fun i => conj (psi.get i) *
        (act op ((List.range (op.ndim / 2)).map (site psi.ndim n1)) psi).get i := by
  obtain ⟨h1, h2⟩ := C86_apply_op psi op n1 pbc
  obtain ⟨f, hr⟩ := h1.1 ⟨out, h⟩
  have hsame := h2 out h
  have hl := newEdges_length psi 0
  have hpos := f.pos
  have hk := f.ndim
  rw [List.length_map, List.length_range] at hpos hk
  have hN : 0 < psi.ndim := lt_of_le_of_lt (Nat.zero_le _) (f.lt _ (List.mem_map_of_mem (List.mem_range.2 hpos)))
  have h3 := applyOpNetwork_ok (op := op) (n1 := n1) (pbc := pbc) (sites := newEdges psi 0) (next := psi.ndim)
    (newEdges_dim psi 0).symm (by rw [hl]; exact f) (fun m hm => by
      rw [hl]
      refine ⟨fun _ => hN, fun hp => ?_⟩
      have := hr hp
      omega)
  rw [hl] at h3
  have g := gate_new (op := op) (T := (List.range (op.ndim / 2)).map (site psi.ndim n1)) (next := psi.ndim)
    (sites := newEdges psi 0) (by simp; omega) (fun e he => by have := newEdges_id he; omega)
  rw [List.length_map, List.length_range] at g
  obtain ⟨n', h4, h5⟩ := (gate_step (repr_new psi 0) f g).2
  have hshape : (act op ((List.range (op.ndim / 2)).map (site psi.ndim n1)) psi).shape = psi.shape :=
    act_shape f (by simpa using hsq)
  obtain ⟨sites, hsites⟩ : ∃ s, s = setAll (newEdges psi 0) ((List.range (op.ndim / 2)).map (site psi.ndim n1))
    (outsOf op (op.ndim / 2) psi.ndim) := ⟨_, rfl⟩
  rw [← hsites] at h5 h3
  have hdim : sites.map Ed.dim = psi.shape := by rw [← h5.shape, hshape]
  have hC : (sites.filter (· ∈ n'.2)) = sites := by
    rw [List.filter_eq_self]
    intro e he
    simpa using h5.perm.mem_iff.1 he
  have hne : sites ≠ [] := by
    intro h'
    have := h5.len
    rw [h', NDArray.ndim, hshape] at this
    rw [NDArray.ndim, ← this] at hN
    simp at hN
  obtain ⟨t, t1, t2, t3⟩ := contractB_ok (a := (⟨psi.shape, fun i => conj (psi.get i)⟩, sites)) (b := n')
    hdim.symm h5.shaped h5.nodup h5.nodup' hC hne
  have hnil : sites.filter (· ∉ sites) ++ n'.2.filter (· ∉ sites) = [] := by
    rw [List.append_eq_nil_iff, List.filter_eq_nil_iff, List.filter_eq_nil_iff]
    refine ⟨fun e he => by simpa using he, fun e he => ?_⟩
    simpa using h5.perm.mem_iff.2 he
  simp only [hnil] at t1 t2 t3
  have hin := inner_same (conj := conj) (a := psi) (b := out) (by rw [hsame.1, hshape])
  have hval : (sumIdx psi.shape fun i => conj (psi.get i) * out.get i) = sumIdx psi.shape fun i => conj (psi.get i) *
      (act op ((List.range (op.ndim / 2)).map (site psi.ndim n1)) psi).get i :=
    sumIdx_congr fun i hi => by rw [hsame.2 i (by rw [hsame.1, hshape]; exact hi)]
  refine ⟨t, _, ?_, by simpa [Shaped] using t2, hin, ?_, hval⟩
  · rw [expval]
    simp only [h3]
    show (contractB _ _ >>= _) = _
    rw [h4]
    show (connectAll _ _ >>= _) = _
    rw [connectAll, if_pos hdim]
    show (contractB _ _ >>= _) = _
    rw [t1]
    rfl
  · have := t3 (fun _ => 0)
    rw [val, List.map_nil] at this
    rw [this, hval, ← hdim, ← sumOver_sites h5.nodup _ (fun _ => 0)]
    refine sumOver_congr fun τ _ _ => ?_
    rw [h5.val]
    rfl

/-- The expectation value of the operator of the example at the first and the last site. -/
example : ∃ e, expval id exPsi exOp 2 true = .ok e ∧ e.get [] = sumIdx [2, 3, 2] fun i => exPsi.get i *
    (act exOp [2, 0] exPsi).get i := by
  obtain ⟨out, ho⟩ := (C86_apply_op exPsi exOp 2 true).1.2 ⟨⟨by decide, by decide, by decide, by decide, by decide⟩, by simp⟩
  obtain ⟨e, x, h1, -, -, h2, h3⟩ := C86_expval (conj := id) ho (by decide)
  exact ⟨e, h1, by rw [h2, h3]; rfl⟩

end

end TN.Wave
