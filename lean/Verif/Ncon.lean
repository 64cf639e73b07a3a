import Verif.Group
import Mathlib.Data.List.Sort
import Mathlib.Data.List.Dedup

/-!
# Model of `ncon_interface.py`: the contraction engine `_jittable_ncon`

Labels are the canonical integer labels: positive = closed, negative = open.  The two
parallel Python lists `tensors` and `network_structure`, which are always popped and
appended together, are modelled as one list of pairs.  Python sets are iterated in an
order chosen by a parameter `SetOrder`.
-/

namespace TN.Ncon

open Finset NDArray

variable {R : Type*}

/-- A tensor of the working list together with its labels. -/
abbrev LT (R : Type*) := NDArray R × List Int

/-- An arbitrary iteration order of Python sets.  The first argument is a time stamp, so
equal sets may be iterated differently at different times. -/
structure SetOrder where
  ord : Nat → List Int → List Int
  perm : ∀ k l, (ord k l).Perm l

/-- `sorted(l)` for a list of integers. -/
def sortInt (l : List Int) : List Int := l.mergeSort (fun a b => decide (a ≤ b))

/-- `l[::2]` -/
def everyOther {α : Type*} : List α → List α
  | [] => []
  | [a] => [a]
  | a :: _ :: l => a :: everyOther l

/-- Positions of `x` in `l`: `[n for n, label in enumerate(l) if label == x]`. -/
def positions (l : List Int) (x : Int) : List Nat :=
  (List.range l.length).filter (fun n => l.getD n 0 == x)

/-- `_partial_trace` (ncon_interface.py:241-277).  Returns the tensor, its new labels and
the traced labels. -/
def partialTrace [AddCommMonoid R] (t : NDArray R) (labels : List Int) :
    Py (NDArray R × List Int × List Int) :=
  let traceLabels := labels.filter (fun l => labels.count l == 2)
  if traceLabels.length > 0 then do
    let numCont := traceLabels.length / 2
    -- `sorted(trace_labels)[0:-1:2]`
    let uniq := everyOther (sortInt traceLabels).dropLast
    let contracted := uniq.map (fun l => (positions labels l).getD 0 0) ++
      uniq.map (fun l => (positions labels l).getD 1 0)
    let free := freeAxes labels.length contracted
    let cdim := ((contracted.take numCont).map (fun d => t.shape.getD d 0)).prod
    let t1 ← t.transpose (free ++ contracted)
    let t2 ← t1.reshape (free.map (fun d => t.shape.getD d 0) ++ [cdim, cdim])
    let r ← t2.trace
    return (r, labels.filter (fun l => l ∉ uniq), uniq)
  else return (t, labels, [])

/-- `_batch_cont` (ncon_interface.py:280-354).  Returns the new tensor with its labels and
the labels that were summed (which the caller removes from `con_order`). -/
def batchCont [CommSemiring R] (so : SetOrder) (tag : Nat) (a b : LT R) (cb : List Int) :
    Py (LT R × List Int) := do
  let l1 := a.2
  let l2 := b.2
  let bpos1 := cb.map l1.idxOf
  let bpos2 := cb.map l2.idxOf
  let cc := so.ord tag (((l1.filter (fun l => l ∉ cb)).dedup).filter
    (fun l => l ∈ l2.filter (fun l => l ∉ cb)))
  let cont1 := cc.map l1.idxOf
  let cont2 := cc.map l2.idxOf
  let fpos1 := (List.range l1.length).filter
    (fun n => l1.getD n 0 ∉ cc ∧ l1.getD n 0 ∉ cb)
  let fpos2 := (List.range l2.length).filter
    (fun n => l2.getD n 0 ∉ cc ∧ l2.getD n 0 ∉ cb)
  let dims1 := fun (ps : List Nat) => ps.map (fun p => a.1.shape.getD p 0)
  let dims2 := fun (ps : List Nat) => ps.map (fun p => b.1.shape.getD p 0)
  let x1 ← a.1.transpose (bpos1 ++ (fpos1 ++ cont1))
  let m1 ← x1.reshape [(dims1 bpos1).prod, (dims1 fpos1).prod, (dims1 cont1).prod]
  let x2 ← b.1.transpose (bpos2 ++ (cont2 ++ fpos2))
  let m2 ← x2.reshape [(dims2 bpos2).prod, (dims2 cont2).prod, (dims2 fpos2).prod]
  let m ← m1.matmul3 m2
  let r ← m.reshape (dims1 bpos1 ++ dims1 fpos1 ++ dims2 fpos2)
  return ((r, bpos1.map (fun p => l1.getD p 0) ++ (fpos1.map (fun p => l1.getD p 0) ++
    fpos2.map (fun p => l2.getD p 0))), cc)

/-- `label_intersection` (ncon_interface.py:357-361), first component. -/
def commonLabels (so : SetOrder) (tag : Nat) (l1 l2 : List Int) : List Int :=
  so.ord tag (l1.dedup.filter (fun l => l ∈ l2))

/-- The regular `tensordot` branch (ncon_interface.py:478-494): the axes are sorted by
their position in the first tensor. -/
def dotCont [CommSemiring R] (a b : LT R) (common : List Int) : Py (LT R) := do
  let c1 := common.map a.2.idxOf
  let c2 := common.map b.2.idxOf
  let indSort := (c1.mergeSort (fun x y => decide (x ≤ y))).map c1.idxOf
  let r ← a.1.tensordot b.1 (indSort.map (fun i => c1.getD i 0))
    (indSort.map (fun i => c2.getD i 0))
  return (r, a.2.filter (fun l => l ∉ common) ++ b.2.filter (fun l => l ∉ common))

/-- State of the main loop. -/
structure State (R : Type*) where
  ts : List (LT R)
  con : List Int
  batch : List (Int × Nat)
  skip : Nat

/-- Reduce the counts of the batch labels `cb` by one and drop those which are no longer
batch labels (ncon_interface.py:459-473). -/
def updateBatch (batch : List (Int × Nat)) (cb : List Int) : List (Int × Nat) :=
  (batch.map (fun p => if p.1 ∈ cb then (p.1, p.2 - 1) else p)).filter
    (fun p => ¬ (p.1 ∈ cb ∧ ((p.1 > 0 ∧ p.2 ≤ 2) ∨ (p.1 < 0 ∧ p.2 < 2))))

/-- One round of the main loop (ncon_interface.py:431-494).  `none`: `con_order` is empty
and the loop is left. -/
def step [CommSemiring R] (so : SetOrder) (st : State R) : Py (Option (State R)) :=
  match st.con with
  | [] => .ok none
  | c :: rest =>
    if c ∈ st.batch.map Prod.fst then
      -- `con_order.append(con_order.pop(0)); skip_counter += 1`
      if st.skip + 1 > (rest ++ [c]).length then .error .valueError
      else .ok (some { st with con := rest ++ [c], skip := st.skip + 1 })
    else
      let locs := (List.range st.ts.length).filter (fun n => c ∈ ((st.ts.map Prod.snd).getD n []))
      match locs with
      | n0 :: n1 :: _ =>
        match st.ts[n0]?, st.ts[n1]? with
        | some a, some b =>
          let others := (st.ts.eraseIdx n1).eraseIdx n0
          let tag := 3 * st.ts.length
          let common := commonLabels so tag a.2 b.2
          let cb := so.ord (tag + 1)
            ((st.batch.map Prod.fst).dedup.filter (fun l => l ∈ common))
          if cb.length > 0 then do
            let (r, cc) ← batchCont so (tag + 2) a b cb
            return some { ts := others ++ [r], con := st.con.filter (fun x => x ∉ cc),
                          batch := updateBatch st.batch cb, skip := st.skip }
          else do
            let r ← dotCont a b common
            return some { ts := others ++ [r], con := st.con.filter (fun x => x ∉ common),
                          batch := st.batch, skip := st.skip }
        | _, _ => .error .indexError
      | _ => .error .indexError

/-- The state after one round is smaller: either `con_order` got shorter or one more skip
was used up. -/
def measure (st : State R) : Nat × Nat := (st.con.length, st.con.length - st.skip)

theorem batchCont_cc [CommSemiring R] {so : SetOrder} {tag : Nat} {a b r : LT R} {cb cc : List Int}
    (h : batchCont so tag a b cb = .ok (r, cc)) {c : Int} :
    c ∈ cc ↔ c ∈ a.2 ∧ c ∈ b.2 ∧ c ∉ cb := by
  simp only [batchCont, py_bind_ok, py_pure_ok, Prod.mk.injEq] at h
  obtain ⟨_, _, _, _, _, _, _, _, _, _, _, _, _, rfl⟩ := h
  rw [(so.perm _ _).mem_iff]
  simp only [List.mem_filter, List.mem_dedup, decide_eq_true_eq]
  tauto

theorem mem_of_locs {ts : List (LT R)} {c : Int} {n : Nat} {a : LT R}
    (h : n ∈ (List.range ts.length).filter (fun n => c ∈ ((ts.map Prod.snd).getD n [])))
    (ha : ts[n]? = some a) : c ∈ a.2 := by
  simp only [List.mem_filter, decide_eq_true_eq] at h
  have := h.2
  rw [List.getD_eq_getElem?_getD, List.getElem?_map, ha] at this
  simpa using this

theorem mem_commonLabels {so : SetOrder} {tag : Nat} {l1 l2 : List Int} {c : Int} :
    c ∈ commonLabels so tag l1 l2 ↔ c ∈ l1 ∧ c ∈ l2 := by
  rw [commonLabels, (so.perm _ _).mem_iff]
  simp

/-- Result of a round of the main loop in explicit form. -/
theorem step_some [CommSemiring R] {so : SetOrder} {st st' : State R}
    (h : step so st = .ok (some st')) :
    (∃ c rest, st.con = c :: rest ∧ c ∈ st.batch.map Prod.fst ∧
      st.skip + 1 ≤ st.con.length ∧
      st' = { st with con := rest ++ [c], skip := st.skip + 1 }) ∨
    (∃ c rest n0 n1 a b, st.con = c :: rest ∧ c ∉ st.batch.map Prod.fst ∧ n0 < n1 ∧
      st.ts[n0]? = some a ∧ st.ts[n1]? = some b ∧ c ∈ a.2 ∧ c ∈ b.2 ∧
      ((∃ cb cc r, cb.Perm ((st.batch.map Prod.fst).dedup.filter
            (fun l => l ∈ commonLabels so (3 * st.ts.length) a.2 b.2)) ∧
          cb ≠ [] ∧ batchCont so (3 * st.ts.length + 2) a b cb = .ok (r, cc) ∧
          st' = { ts := (st.ts.eraseIdx n1).eraseIdx n0 ++ [r],
                  con := st.con.filter (fun x => x ∉ cc),
                  batch := updateBatch st.batch cb, skip := st.skip }) ∨
       (∃ r, (∀ l ∈ st.batch.map Prod.fst,
              l ∉ commonLabels so (3 * st.ts.length) a.2 b.2) ∧
          dotCont a b (commonLabels so (3 * st.ts.length) a.2 b.2) = .ok r ∧
          st' = { ts := (st.ts.eraseIdx n1).eraseIdx n0 ++ [r],
                  con := st.con.filter
                    (fun x => x ∉ commonLabels so (3 * st.ts.length) a.2 b.2),
                  batch := st.batch, skip := st.skip }))) := by
  unfold step at h
  split at h
  · simp at h
  · rename_i c rest hcon
    split at h
    · rename_i hb
      split at h
      · simp at h
      · rename_i hs
        left
        refine ⟨c, rest, hcon, hb, ?_, ?_⟩
        · simp only [List.length_append, List.length_singleton] at hs
          rw [hcon, List.length_cons]
          omega
        · simpa using h.symm
    · rename_i hb
      right
      simp only at h
      split at h
      · rename_i n0 n1 tl hlocs
        have hn0 : n0 ∈ (List.range st.ts.length).filter
            (fun n => c ∈ ((st.ts.map Prod.snd).getD n [])) := by rw [hlocs]; simp
        have hn1 : n1 ∈ (List.range st.ts.length).filter
            (fun n => c ∈ ((st.ts.map Prod.snd).getD n [])) := by rw [hlocs]; simp
        have hlt : n0 < n1 := by
          have hs : ((List.range st.ts.length).filter
            (fun n => c ∈ ((st.ts.map Prod.snd).getD n []))).Pairwise (· < ·) :=
            List.Pairwise.filter _ List.pairwise_lt_range
          rw [hlocs] at hs
          exact (List.pairwise_cons.1 hs).1 n1 (by simp)
        split at h
        · rename_i a b ha hb'
          have hca := mem_of_locs hn0 ha
          have hcb := mem_of_locs hn1 hb'
          refine ⟨c, rest, n0, n1, a, b, hcon, hb, hlt, ha, hb', hca, hcb, ?_⟩
          split at h
          · rename_i hpos
            left
            simp only [py_bind_ok, py_pure_ok, Option.some.injEq, Prod.exists] at h
            obtain ⟨r, rl, cc, h1, h2⟩ := h
            refine ⟨_, cc, (r, rl), so.perm _ _, ?_, h1, h2.symm⟩
            intro h0
            rw [h0] at hpos
            simp at hpos
          · rename_i hpos
            right
            simp only [py_bind_ok, py_pure_ok, Option.some.injEq] at h
            obtain ⟨r, h1, h2⟩ := h
            refine ⟨r, ?_, h1, h2.symm⟩
            intro l hl hlc
            have h0 : (so.ord (3 * st.ts.length + 1) ((st.batch.map Prod.fst).dedup.filter
                (fun l => l ∈ commonLabels so (3 * st.ts.length) a.2 b.2))).length = 0 := by
              omega
            rw [(so.perm _ _).length_eq, List.length_eq_zero_iff] at h0
            have : l ∈ ((st.batch.map Prod.fst).dedup.filter
                (fun l => l ∈ commonLabels so (3 * st.ts.length) a.2 b.2)) := by
              rw [List.mem_filter]
              exact ⟨List.mem_dedup.2 hl, by simpa using hlc⟩
            rw [h0] at this
            simp at this
        · simp at h
      · simp at h

theorem step_decreases [CommSemiring R] {so : SetOrder} {st st' : State R}
    (h : step so st = .ok (some st')) :
    Prod.Lex (· < ·) (· < ·) (measure st') (measure st) := by
  rcases step_some h with ⟨c, rest, hc, _, hs, rfl⟩ |
      ⟨c, rest, n0, n1, a, b, hc, hb, _, _, _, hca, hcb, h | h⟩
  · simp only [measure, hc, List.length_append, List.length_cons, List.length_nil] at hs ⊢
    apply Prod.Lex.right
    omega
  · obtain ⟨cb, cc, r, h1, h2, h3, rfl⟩ := h
    apply Prod.Lex.left
    simp only
    have hcc : c ∈ cc := by
      rw [batchCont_cc h3]
      refine ⟨hca, hcb, fun hx => hb ?_⟩
      have := (h1.mem_iff.1 hx)
      simp only [List.mem_filter, List.mem_dedup] at this
      exact this.1
    rw [hc]
    simp only [List.filter_cons, hcc, not_true, decide_false, Bool.false_eq_true, if_false,
      List.length_cons]
    exact Nat.lt_succ_of_le (List.length_filter_le _ _)
  · obtain ⟨r, h1, h2, rfl⟩ := h
    apply Prod.Lex.left
    simp only
    have hcc : c ∈ commonLabels so (3 * st.ts.length) a.2 b.2 :=
      mem_commonLabels.2 ⟨hca, hcb⟩
    rw [hc]
    simp only [List.filter_cons, hcc, not_true, decide_false, Bool.false_eq_true, if_false,
      List.length_cons]
    exact Nat.lt_succ_of_le (List.length_filter_le _ _)

/-- The main loop `while len(con_order) > 0` (ncon_interface.py:431-494).  That this is a
total function is the termination of the loop. -/
def loop [CommSemiring R] (so : SetOrder) (st : State R) : Py (State R) :=
  match h : step so st with
  | .error e => .error e
  | .ok none => .ok st
  | .ok (some st') => loop so st'
termination_by measure st
decreasing_by exact step_decreases h

/-- `while len(tensors) > 1` (ncon_interface.py:497-513): outer products and remaining batch
contractions.  The list is kept in reverse order, so `pop()` takes the head. -/
def finish [CommSemiring R] (so : SetOrder) (batch : List Int) : List (LT R) → Py (LT R)
  | [] => .error .indexError
  | [a] => .ok a
  | b :: a :: rest =>
    let tag := 3 * (rest.length + 2)
    let common := commonLabels so tag a.2 b.2
    let cb := so.ord (tag + 1) (batch.dedup.filter (fun l => l ∈ common))
    if cb.length > 0 then do
      let (r, _) ← batchCont so (tag + 2) a b cb
      finish so batch (r :: rest)
    else finish so batch ((a.1.outerProduct b.1, a.2 ++ b.2) :: rest)
termination_by ts => ts.length

/-- Summing over labels that occur only once (ncon_interface.py:402-419) for one tensor:
`labels.index(l)` raises `ValueError` if some other single label is missing here. -/
def sumSingles [AddCommMonoid R] (contractable : List Int) (a : LT R) : Py (LT R) :=
  if (a.2.filter (fun l => l ∈ contractable)).length > 0 then
    if ∀ l ∈ contractable, l ∈ a.2 then do
      let r ← a.1.sum (contractable.map a.2.idxOf)
      return (r, a.2.filter (fun l => l ∉ contractable))
    else .error .valueError
  else return a

/-- The batch labels with their counts (ncon_interface.py:422-429). -/
def batchInit (so : SetOrder) (flat : List Int) : List (Int × Nat) :=
  ((so.ord 0 flat.dedup).filter
    (fun l => flat.count l > 2 ∨ (flat.count l = 2 ∧ l < 0))).map (fun l => (l, flat.count l))

/-- Rebuilding `network_structure` from flat labels and sizes
(ncon_interface.py:383-388). -/
def unflatten {α : Type*} : List α → List Nat → List (List α)
  | _, [] => []
  | l, n :: ns => l.take n :: unflatten (l.drop n) ns

/-- The final permutation (ncon_interface.py:515-519). -/
def finalPerm (a : LT R) (out : List Int) : Py (NDArray R) :=
  if a.2.length > 1 then
    if ∀ l ∈ out, l ∈ a.2 then a.1.transpose (out.map a.2.idxOf) else .error .valueError
  else .ok a.1

/-- `mapM` for Python loops that replace each list element in turn. -/
def pyMap {α β : Type*} (f : α → Py β) : List α → Py (List β)
  | [] => .ok []
  | a :: l => match f a with
    | .error e => .error e
    | .ok b => match pyMap f l with
      | .error e => .error e
      | .ok bs => .ok (b :: bs)

/-- `_jittable_ncon` (ncon_interface.py:364-520). -/
def jittableNcon [CommSemiring R] (so : SetOrder) (tensors : List (NDArray R))
    (flatLabels : List Int) (sizes : List Nat) (conOrder outOrder : List Int) :
    Py (NDArray R) := do
  let structure0 := unflatten flatLabels sizes
  -- partial trace
  let traced ← pyMap (fun p : NDArray R × List Int => partialTrace p.1 p.2)
    (tensors.zip structure0)
  let ts1 := traced.map (fun p => ((p.1, p.2.1) : LT R))
  let con1 := conOrder.filter (fun c => ∀ p ∈ traced, c ∉ p.2.2)
  -- labels appearing only once
  let flat := ts1.flatMap Prod.snd
  let contractable := flat.filter (fun l => flat.count l = 1 ∧ l > 0)
  let con2 := con1.filter (fun o => o ∉ contractable)
  let ts2 ← pyMap (sumSingles contractable) ts1
  -- main loop
  let st ← loop so { ts := ts2, con := con2, batch := batchInit so flat, skip := 0 }
  let a ← finish so (st.batch.map Prod.fst) st.ts.reverse
  finalPerm a outOrder

end TN.Ncon
