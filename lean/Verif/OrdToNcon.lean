import Verif.NconProps
import Mathlib.Data.List.Sort
import Mathlib.Data.List.Dedup

/-!
# `ord_to_ncon`

Model of `ord_to_ncon` (contractors/custom_path_solvers/nconinterface.py:83-120): a sequence of
pairwise contractions becomes a contraction order for `ncon`.
-/

namespace TN.Solver

open TN.Ncon

/-- `np.unique` -/
def npUnique (l : List Int) : List Int := l.dedup.insertionSort (· ≤ ·)

/-- The traced labels of a tensor: `uni_inds[np.flatnonzero(counts == 2)]`
(nconinterface.py:103-104). -/
def traceInds (t : List Int) : List Int := (npUnique t).filter (fun l => t.count l == 2)

/-- The labels that occur once: `temp_label[np.isin(temp_label, uni_inds[counts == 1])]`
(nconinterface.py:106). -/
def onceInds (t : List Int) : List Int := t.filter (fun l => t.count l == 1)

/-- One pairwise contraction (nconinterface.py:108-118): the common labels, and the new list of
label lists.  `np.intersect1d` with `return_indices` gives the position of the first occurrence
of each common label, and `np.delete` removes these positions; this is `List.diff`. -/
def ordStep (nl : List (List Int)) (p : Nat × Nat) : Py (List Int × List (List Int)) :=
  match nl[p.1]?, nl[p.2]? with
  | some a, some b =>
    let cont := (npUnique a).filter (· ∈ b)
    .ok (cont, (nl.set p.1 (a.diff cont ++ b.diff cont)).eraseIdx p.2)
  | _, _ => .error .indexError

/-- The loop over the contractions. -/
def ordLoop : List (Nat × Nat) → List Int → List (List Int) → Py (List Int)
  | [], con, _ => .ok con
  | p :: ps, con, nl =>
    match ordStep nl p with
    | .error e => .error e
    | .ok (c, nl') => ordLoop ps (con ++ c) nl'

/-- `ord_to_ncon` (nconinterface.py:83-120).  `orders` is the `2 × (N-1)` array, column by
column; `reshape(2, N - 1)` raises `ValueError` for another number of columns. -/
def ordToNcon (labels : List (List Int)) (orders : List (Nat × Nat)) : Py (List Int) :=
  if orders.length + 1 ≠ labels.length then .error .valueError
  else ordLoop orders (labels.flatMap traceInds) (labels.map onceInds)

/-- Pairwise contractions of a list of `n` tensors: the positions of each step are different and
inside of the current list. -/
def ValidOrders : Nat → List (Nat × Nat) → Prop
  | _, [] => True
  | n, p :: ps => p.1 < n ∧ p.2 < n ∧ p.1 ≠ p.2 ∧ ValidOrders (n - 1) ps

theorem mem_npUnique {l : List Int} {x : Int} : x ∈ npUnique l ↔ x ∈ l := by
  rw [npUnique, List.mem_insertionSort, List.mem_dedup]

theorem npUnique_nodup (l : List Int) : (npUnique l).Nodup :=
  (List.perm_insertionSort _ _).nodup_iff.2 (List.nodup_dedup l)

theorem count_filter_nodup {l : List Int} (hl : l.Nodup) (p : Int → Bool) (x : Int) :
    (l.filter p).count x = if x ∈ l ∧ p x = true then 1 else 0 := by
  split_ifs with h
  · exact List.count_eq_one_of_mem (hl.filter _) (List.mem_filter.2 h)
  · exact List.count_eq_zero.2 (fun hc => h (List.mem_filter.1 hc))

theorem count_traceInds (t : List Int) (x : Int) :
    (traceInds t).count x = if t.count x = 2 then 1 else 0 := by
  rw [traceInds, count_filter_nodup (npUnique_nodup t)]
  simp only [mem_npUnique]
  by_cases h : t.count x = 2
  · have : x ∈ t := List.count_pos_iff.1 (by omega)
    simp [h, this]
  · simp [h]

theorem count_onceInds (t : List Int) (x : Int) :
    (onceInds t).count x = if t.count x = 1 then 1 else 0 := by
  rw [onceInds]
  by_cases h : t.count x = 1
  · rw [List.count_filter (by simp [h])]; simp [h]
  · rw [if_neg h, List.count_eq_zero]
    intro hc
    exact h (by simpa using (List.mem_filter.1 hc).2)

theorem flat_count_set {nl : List (List Int)} {i : Nat} {a b : List Int} (x : Int)
    (h : nl[i]? = some a) :
    (nl.set i b).flatten.count x + a.count x = nl.flatten.count x + b.count x := by
  induction nl generalizing i with
  | nil => simp at h
  | cons c nl ih =>
    cases i with
    | zero =>
      simp only [List.getElem?_cons_zero, Option.some.injEq] at h
      subst h
      simp only [List.set_cons_zero, List.flatten_cons, List.count_append]
      omega
    | succ i =>
      have := ih (by simpa using h)
      simp only [List.set_cons_succ, List.flatten_cons, List.count_append]
      omega

theorem flat_count_erase {nl : List (List Int)} {i : Nat} {a : List Int} (x : Int)
    (h : nl[i]? = some a) :
    (nl.eraseIdx i).flatten.count x + a.count x = nl.flatten.count x := by
  induction nl generalizing i with
  | nil => simp at h
  | cons c nl ih =>
    cases i with
    | zero =>
      simp only [List.getElem?_cons_zero, Option.some.injEq] at h
      subst h
      simp only [List.eraseIdx_cons_zero, List.flatten_cons, List.count_append]
      omega
    | succ i =>
      have := ih (by simpa using h)
      simp only [List.eraseIdx_cons_succ, List.flatten_cons, List.count_append]
      omega

/-- The state of the loop: every label list has no repetition, and for every label the number of
occurrences in `labels` is twice the number in the order plus the number that is left. -/
structure OrdInv (total : Int → Nat) (con : List Int) (nl : List (List Int)) : Prop where
  nodup : ∀ t ∈ nl, t.Nodup
  count : ∀ x, 2 * con.count x + nl.flatten.count x = total x

theorem OrdInv.step {total : Int → Nat} {con : List Int} {nl : List (List Int)} {p : Nat × Nat}
    (h : OrdInv total con nl) (h1 : p.1 < nl.length) (h2 : p.2 < nl.length) (hne : p.1 ≠ p.2) :
    ∃ c nl', ordStep nl p = .ok (c, nl') ∧ nl'.length = nl.length - 1 ∧
      OrdInv total (con ++ c) nl' := by
  obtain ⟨a, ha⟩ : ∃ a, nl[p.1]? = some a := ⟨_, List.getElem?_eq_getElem h1⟩
  obtain ⟨b, hb⟩ : ∃ b, nl[p.2]? = some b := ⟨_, List.getElem?_eq_getElem h2⟩
  have na := h.nodup a (List.mem_of_getElem? ha)
  have nb := h.nodup b (List.mem_of_getElem? hb)
  obtain ⟨c, hc⟩ : ∃ c, c = (npUnique a).filter (· ∈ b) := ⟨_, rfl⟩
  have cc : ∀ x, c.count x = if x ∈ a ∧ x ∈ b then 1 else 0 := by
    intro x
    rw [hc, count_filter_nodup (npUnique_nodup a)]
    simp [mem_npUnique]
  have ca : ∀ x, a.count x = if x ∈ a then 1 else 0 := fun x => by
    split_ifs with hx
    · exact List.count_eq_one_of_mem na hx
    · exact List.count_eq_zero.2 hx
  have cb : ∀ x, b.count x = if x ∈ b then 1 else 0 := fun x => by
    split_ifs with hx
    · exact List.count_eq_one_of_mem nb hx
    · exact List.count_eq_zero.2 hx
  have crest : ∀ x, (a.diff c ++ b.diff c).count x + 2 * c.count x = a.count x + b.count x := by
    intro x
    rw [List.count_append, List.count_diff, List.count_diff, ca, cb, cc]
    by_cases hx : x ∈ a <;> by_cases hy : x ∈ b <;> simp [hx, hy]
  refine ⟨c, (nl.set p.1 (a.diff c ++ b.diff c)).eraseIdx p.2, ?_, ?_, ?_, ?_⟩
  · simp only [ordStep, ha, hb, ← hc]
  · rw [List.length_eraseIdx_of_lt (by simpa using h2), List.length_set]
  · intro t ht
    rcases List.mem_or_eq_of_mem_set (List.mem_of_mem_eraseIdx ht) with ht | rfl
    · exact h.nodup t ht
    · rw [List.nodup_iff_count_le_one]
      intro x
      have := crest x
      rw [ca, cb, cc] at this
      by_cases hx : x ∈ a <;> by_cases hy : x ∈ b <;> simp [hx, hy] at this ⊢ <;> omega
  · intro x
    have e1 := flat_count_set (b := a.diff c ++ b.diff c) x ha
    have hb' : (nl.set p.1 (a.diff c ++ b.diff c))[p.2]? = some b := by
      rw [List.getElem?_set_ne hne, hb]
    have e2 := flat_count_erase x hb'
    have e3 := crest x
    have e4 := h.count x
    rw [List.count_append (l₁ := con)]
    omega

theorem ordLoop_ok {total : Int → Nat} (orders : List (Nat × Nat)) {con : List Int}
    {nl : List (List Int)} (h : OrdInv total con nl) (hlen : orders.length + 1 = nl.length)
    (hv : ValidOrders nl.length orders) :
    ∃ c t, ordLoop orders con nl = .ok c ∧ OrdInv total c [t] := by
  induction orders generalizing con nl with
  | nil =>
    obtain ⟨t, rfl⟩ := List.length_eq_one_iff.1 hlen.symm
    exact ⟨con, t, rfl, h⟩
  | cons p ps ih =>
    obtain ⟨h1, h2, h3, h4⟩ := hv
    obtain ⟨c, nl', e1, e2, e3⟩ := h.step h1 h2 h3
    obtain ⟨c', t, e4, e5⟩ := ih e3 (by simp at hlen; omega) (e2 ▸ h4)
    exact ⟨c', t, by simp only [ordLoop, e1, e4], e5⟩

theorem ordInv_init {labels : List (List Int)} (h2 : ∀ t ∈ labels, ∀ x, t.count x ≤ 2) :
    OrdInv (fun x => labels.flatten.count x) (labels.flatMap traceInds) (labels.map onceInds) := by
  constructor
  · intro t ht
    obtain ⟨t', -, rfl⟩ := List.mem_map.1 ht
    rw [List.nodup_iff_count_le_one]
    intro x
    rw [count_onceInds]
    split_ifs <;> omega
  · intro x
    induction labels with
    | nil => simp
    | cons a ls ih =>
      have i1 := ih (fun t ht => h2 t (List.mem_cons_of_mem _ ht))
      have i2 := h2 a (List.mem_cons_self) x
      simp only [List.flatMap_cons, List.map_cons, List.flatten_cons, List.count_append,
        count_traceInds, count_onceInds] at i1 ⊢
      split_ifs <;> omega

/-- For every network in which closed (positive) labels occur twice and open (negative) labels
once, and for every sequence of pairwise contractions: `ord_to_ncon` returns a list that has
every closed label exactly once and nothing else. -/
theorem C34_ord_to_ncon {labels : List (List Int)} {orders : List (Nat × Nat)}
    (hcnt : ∀ l ∈ labels.flatten, labels.flatten.count l = if l < 0 then 1 else 2)
    (hlen : orders.length + 1 = labels.length) (hv : ValidOrders labels.length orders) :
    ∃ c, ordToNcon labels orders = .ok c ∧ c.Nodup ∧
      ∀ l, l ∈ c ↔ l ∈ labels.flatten ∧ 0 ≤ l := by
  have h2 : ∀ t ∈ labels, ∀ x, t.count x ≤ 2 := by
    intro t ht x
    by_cases hx : x ∈ t
    · have h3 := (List.sublist_flatten_of_mem ht).count_le x
      have h4 := hcnt x (List.mem_flatten.2 ⟨t, ht, hx⟩)
      split_ifs at h4 <;> omega
    · rw [List.count_eq_zero.2 hx]; omega
  obtain ⟨c, t, e1, e2⟩ := ordLoop_ok orders (ordInv_init h2) (by simpa using hlen)
    (by simpa using hv)
  have ht := e2.nodup t (by simp)
  have key : ∀ x, c.count x = if x ∈ labels.flatten ∧ 0 ≤ x then 1 else 0 := by
    intro x
    have e3 := e2.count x
    simp only [List.flatten_cons, List.flatten_nil, List.append_nil] at e3
    have e4 := List.nodup_iff_count_le_one.1 ht x
    by_cases hx : x ∈ labels.flatten
    · rw [hcnt x hx] at e3
      by_cases h0 : x < 0
      · rw [if_pos h0] at e3
        rw [if_neg (by omega)]
        omega
      · rw [if_neg h0] at e3
        rw [if_pos ⟨hx, by omega⟩]
        omega
    · rw [if_neg (fun h => hx h.1)]
      rw [List.count_eq_zero.2 hx] at e3
      omega
  refine ⟨c, ?_, ?_, ?_⟩
  · rw [ordToNcon, if_neg (by simpa using hlen), e1]
  · rw [List.nodup_iff_count_le_one]
    intro x
    rw [key]
    split_ifs <;> omega
  · intro x
    rw [← List.count_pos_iff, key]
    split_ifs with h
    · exact iff_of_true Nat.one_pos h
    · exact iff_of_false (Nat.lt_irrefl 0) h

/-- A network with a traced label and two labels between the same tensors. -/
example := C34_ord_to_ncon (labels := [[1, 5, 2, 5], [2, -1, 3, 1], [3, -2]])
  (orders := [(2, 0), (0, 1)]) (by decide) rfl (by simp [ValidOrders])

/-- The labels as they are given to `ncon`. -/
abbrev lab (labels : List (List Int)) : List (List Lab) := labels.map (fun t => t.map Lab.num)

theorem num_injective : Function.Injective Lab.num := fun _ _ h => by injection h

theorem lab_flat (labels : List (List Int)) :
    (lab labels).flatMap id = labels.flatten.map Lab.num := by
  rw [List.flatMap_id, List.map_flatten]

/-- `ncon` accepts the order that `ord_to_ncon` returns, and computes the same tensor as with its
default order. -/
theorem C34_accepted {R : Type} [CommSemiring R] (so so' : SetOrder) {ts : List (NDArray R)}
    {labels : List (List Int)} {orders : List (Nat × Nat)} {out : Option (List Lab)}
    (hne : ts ≠ []) (hreq : ValidRequest (lab labels) (ts.map NDArray.shape) none out)
    (ho : out ≠ some [])
    (hcnt : ∀ l ∈ labels.flatten, labels.flatten.count l = if l < 0 then 1 else 2)
    (hlen : orders.length + 1 = labels.length) (hv : ValidOrders labels.length orders) :
    ∃ c r r', ordToNcon labels orders = .ok c ∧
      ncon so ts (lab labels) (some (c.map Lab.num)) out true = .ok r ∧
      ncon so' ts (lab labels) none out true = .ok r' ∧ r.Same r' := by
  obtain ⟨c, h1, h2, h3⟩ := C34_ord_to_ncon hcnt hlen hv
  have hcnt' : ∀ l ∈ (lab labels).flatMap id,
      ((lab labels).flatMap id).count l = if l.isOpen = true then 1 else 2 := by
    rw [lab_flat]
    intro l hl
    obtain ⟨i, hi, rfl⟩ := List.mem_map.1 hl
    rw [List.count_map_of_injective _ _ num_injective, hcnt i hi]
    simp [Lab.isOpen]
  have hreq' : ValidRequest (lab labels) (ts.map NDArray.shape) (some (c.map Lab.num)) out := by
    refine { hreq with con_enum := ?_ }
    rintro _ ⟨⟩
    refine ⟨h2.map num_injective, fun x => ?_⟩
    rw [lab_flat]
    constructor
    · intro hx
      obtain ⟨i, hi, rfl⟩ := List.mem_map.1 hx
      obtain ⟨k1, k2⟩ := (h3 i).1 hi
      exact ⟨List.mem_map_of_mem k1, by simp [Lab.isOpen]; omega⟩
    · rintro ⟨hx, hx2⟩
      obtain ⟨i, hi, rfl⟩ := List.mem_map.1 hx
      refine List.mem_map_of_mem ((h3 i).2 ⟨hi, ?_⟩)
      simp only [Lab.isOpen, decide_eq_false_iff_not, not_lt] at hx2
      exact hx2
  obtain ⟨r', hr'⟩ := C03_ordinary_network so' hne hreq (by simp) ho hcnt'
  obtain ⟨r, hr⟩ : ∃ r, ncon so ts (lab labels) (some (c.map Lab.num)) out true = .ok r := by
    by_cases hc : c = []
    · subst hc
      have e : ncon so ts (lab labels) (some []) out true =
          ncon so ts (lab labels) none out true := by simp [ncon]
      obtain ⟨r, hr⟩ := C03_ordinary_network so hne hreq (by simp) ho hcnt'
      exact ⟨r, by rw [List.map_nil, e, hr]⟩
    · exact C03_ordinary_network so hne hreq' (by simpa using hc) ho hcnt'
  have hlen' : ts.length = (lab labels).length := by simpa using hreq.count.symm
  obtain ⟨k1, k2⟩ := ordinary_conditions hlen' hcnt'
  exact ⟨c, r, r', h1, hr, hr', C02_con_order_independent so so' hr hr' k1 k2⟩

/-- The hypotheses hold for two matrices with a common label. -/
example (so : SetOrder) (A B : NDArray Nat) (hA : A.shape = [2, 3]) (hB : B.shape = [3, 4]) :=
  C34_accepted so so (ts := [A, B]) (labels := [[-1, 1], [1, -2]]) (orders := [(0, 1)])
    (out := none) (by simp)
    { count := rfl
      rank := by simp [hA, hB]
      allowed := by
        intro l hl
        have : l = .num (-1) ∨ l = .num 1 ∨ l = .num (-2) := by simpa [lab] using hl
        rcases this with rfl | rfl | rfl <;> exact (fun h => by cases h)
      con_enum := by simp
      out_enum := by simp
      dims_eq := by
        rw [show [A, B].map NDArray.shape = [[2, 3], [3, 4]] by simp [hA, hB]]
        decide }
    (by simp) (by decide) rfl (by simp [ValidOrders])

end TN.Solver
