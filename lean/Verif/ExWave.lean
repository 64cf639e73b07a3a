import Verif.Net
import Verif.Broadcast
import Mathlib.Tactic.Ring

/-!
# Exact wave functions: `examples/wavefunctions/wavefunctions.py`

`inner`, `apply_op`, `_apply_op_network`, `expval` and `apply_circuit`.  A node is an array with its
edges; an edge is known by a number and its dimension.  Connecting an axis of a new node to an open
edge gives the axis that edge.  `tensornetwork.contract_between` is the contraction of the common
edges of two nodes; that it does this in the graph of nodes and edges is the content of the
properties of the graph operations.
-/

set_option linter.unusedSectionVars false

namespace TN.Wave

open TN TN.NDArray Finset

variable {R : Type}

/-- An edge. -/
structure Ed where
  id : Nat
  dim : Nat
deriving DecidableEq, Inhabited

/-- A node with its edges. -/
abbrev LN (R : Type) := NDArray R × List Ed

/-- `contract_between(a, b)` (network_components.py:1984-2095), without the exchange of the operands,
which only changes the order of the axes before `reorder_edges`. -/
def contractB [CommSemiring R] (a b : LN R) : Py (LN R) :=
  let C := a.2.filter (· ∈ b.2)
  if C = [] then .error .valueError
  else do
    let t ← a.1.tensordot b.1 (C.map a.2.idxOf) (C.map b.2.idxOf)
    .ok (t, a.2.filter (· ∉ C) ++ b.2.filter (· ∉ C))

/-- `node.reorder_edges(order)` (network_components.py:202-250), and the tensor. -/
def reorder (n : LN R) (order : List Ed) : Py (NDArray R) :=
  if order.Perm n.2 then n.1.transpose (order.map n.2.idxOf) else .error .valueError

/-- `l[t]` for a list of length `N`. -/
def pyIdx (N : Nat) (t : Int) : Py Nat :=
  if 0 ≤ t ∧ t < N then .ok t.toNat
  else if -N ≤ t ∧ t < 0 then .ok (t + N).toNat
  else .error .indexError

/-- The loop of `_apply_op_network` (wavefunctions.py:74-77); `outs m` is the edge of the axis `m` of
the operator.  Returns the new list of edges of the sites and the edges of the input axes.  The
remainder modulo zero, which raises in Python, leads to an IndexError here. -/
def connectLoop (op : NDArray R) (k : Nat) (n1 : Int) (pbc : Bool) (outs : Nat → Ed) :
    List Nat → List Ed → Py (List Ed × List Ed)
  | [], sites => .ok (sites, [])
  | m :: ms, sites => do
    let t ← pyIdx sites.length (if pbc then (n1 + m) % (sites.length : Int) else n1 + m)
    let e := sites.getD t default
    -- `connect` (network_components.py:1849-1902)
    if op.shape.getD (k + m) 0 ≠ e.dim then .error .valueError
    else do
      let r ← connectLoop op k n1 pbc outs ms (sites.set t (outs m))
      .ok (r.1, e :: r.2)

/-- `_apply_op_network` (wavefunctions.py:70-78); new edges are numbered from `next` on. -/
def applyOpNetwork (sites : List Ed) (op : NDArray R) (n1 : Int) (pbc : Bool) (next : Nat) :
    Py (List Ed × LN R) := do
  let k := op.ndim / 2
  let own := fun m => (⟨next + m, op.shape.getD m 0⟩ : Ed)
  let r ← connectLoop op k n1 pbc own (List.range k) sites
  .ok (r.1, (op, (List.range k).map own ++ r.2 ++ (List.range' (2 * k) (op.ndim - 2 * k)).map own))

/-- The edges of a new node. -/
def newEdges (t : NDArray R) (next : Nat) : List Ed :=
  (List.range t.ndim).map fun m => ⟨next + m, t.shape.getD m 0⟩

/-- `apply_op` (wavefunctions.py:37-67) -/
def applyOp [CommSemiring R] (psi op : NDArray R) (n1 : Int) (pbc : Bool) : Py (NDArray R) := do
  let s := newEdges psi 0
  let r ← applyOpNetwork s op n1 pbc psi.ndim
  reorder (← contractB r.2 (psi, s)) r.1

/-- The edges of the complex conjugate in `expval` (wavefunctions.py:107-108): its axes are connected
to the open edges. -/
def connectAll (sites : List Ed) (shape : List Nat) : Py (List Ed) :=
  if sites.map Ed.dim = shape then .ok sites else .error .valueError

/-- `expval` (wavefunctions.py:81-112); `conj` is applied to each entry. -/
def expval [CommSemiring R] (conj : R → R) (psi op : NDArray R) (n1 : Int) (pbc : Bool) : Py (NDArray R) := do
  let s := newEdges psi 0
  let r ← applyOpNetwork s op n1 pbc psi.ndim
  let n ← contractB r.2 (psi, s)
  let c ← connectAll r.1 psi.shape
  let res ← contractB (⟨psi.shape, fun i => conj (psi.get i)⟩, c) n
  .ok res.1

/-- `inner` (wavefunctions.py:24-34) -/
def inner [CommSemiring R] (conj : R → R) (psi1 psi2 : NDArray R) : Py R := do
  let p ← Bcast.elementwise (fun x y => conj x * y) psi1 psi2
  .ok (sumIdx p.shape p.get)

/-- The inner loop of `apply_circuit` (wavefunctions.py:255-271).  After a gate with no sites `skip`
is -1 in the code, which acts like zero. -/
def layerLoop (gates : List (Option (NDArray R))) : List Nat → Nat → List Ed → List (LN R) → Nat →
    Py (List Ed × List (LN R) × Nat)
  | [], _, sites, nodes, next => .ok (sites, nodes, next)
  | n :: ns, skip, sites, nodes, next =>
    match skip, gates.getD n none with
    | _ + 1, some _ => .error .valueError
    | skip + 1, none => layerLoop gates ns skip sites nodes next
    | 0, none => layerLoop gates ns 0 sites nodes next
    | 0, some g => do
      let r ← applyOpNetwork sites g n false next
      layerLoop gates ns (g.ndim / 2 - 1) r.1 (nodes ++ [r.2]) (next + g.ndim)

/-- The outer loop of `apply_circuit` (wavefunctions.py:253-271). -/
def layersLoop (N : Nat) : List (List (Option (NDArray R))) → List Ed → List (LN R) → Nat →
    Py (List Ed × List (LN R) × Nat)
  | [], sites, nodes, next => .ok (sites, nodes, next)
  | gates :: ls, sites, nodes, next => do
    let r ← layerLoop gates (List.range N) 0 sites nodes next
    layersLoop N ls r.1 r.2.1 r.2.2

/-- `reduce(contract_between, nodes)` with the first node -/
def reduceB [CommSemiring R] : LN R → List (LN R) → Py (LN R)
  | a, [] => .ok a
  | a, b :: l => do reduceB (← contractB a b) l

/-- `apply_circuit` (wavefunctions.py:231-277) -/
def applyCircuit [CommSemiring R] (psi : NDArray R) (layers : List (List (Option (NDArray R)))) : Py (NDArray R) := do
  let s := newEdges psi 0
  let r ← layersLoop psi.ndim layers s [] psi.ndim
  reorder (← reduceB (psi, s) r.2.1) r.1

/-! ### Specification -/

/-- The list with new entries at the places `T`. -/
def setAll {α : Type} : List α → List Nat → List α → List α
  | s, i :: T, x :: xs => setAll (s.set i x) T xs
  | s, _, _ => s

/-- The operator with `2k` axes acts on the sites `T`. -/
def act [CommSemiring R] (op : NDArray R) (T : List Nat) (psi : NDArray R) : NDArray R where
  shape := setAll psi.shape T (op.shape.take T.length)
  get s := sumIdx (op.shape.drop T.length) fun c => op.get (T.map (fun i => s.getD i 0) ++ c) * psi.get (setAll s T c)

/-- The operator has an output and an input for each of the sites `T`, at least one, and the
dimensions of the inputs are those of the sites. -/
structure Fits (op : NDArray R) (T : List Nat) (psi : NDArray R) : Prop where
  pos : 0 < T.length
  ndim : op.ndim = 2 * T.length
  nodup : T.Nodup
  lt : ∀ i ∈ T, i < psi.ndim
  dim : op.shape.drop T.length = T.map fun i => psi.shape.getD i 0

/-- The site `n1 + m` of a ring of `N` sites. -/
def site (N : Nat) (n1 : Int) (m : Nat) : Nat := ((n1 + m) % (N : Int)).toNat

/-! ### Lists with replaced entries -/

section
variable {α β : Type}

theorem setAll_length (s : List α) (T : List Nat) (x : List α) : (setAll s T x).length = s.length := by
  induction T generalizing s x with
  | nil => cases x <;> rfl
  | cons i T ih => cases x with
    | nil => rfl
    | cons y x => rw [setAll, ih, List.length_set]

theorem setAll_map (f : α → β) (s : List α) (T : List Nat) (x : List α) :
    (setAll s T x).map f = setAll (s.map f) T (x.map f) := by
  induction T generalizing s x with
  | nil => cases x <;> rfl
  | cons i T ih => cases x with
    | nil => rfl
    | cons y x => rw [List.map_cons, setAll, setAll, ih, List.map_set]

theorem setAll_getElem?_not {s : List α} {T : List Nat} {x : List α} {p : Nat} (h : p ∉ T) :
    (setAll s T x)[p]? = s[p]? := by
  induction T generalizing s x with
  | nil => cases x <;> rfl
  | cons i T ih => cases x with
    | nil => rfl
    | cons y x =>
      rw [List.mem_cons, not_or] at h
      rw [setAll, ih h.2, List.getElem?_set_ne (Ne.symm h.1)]

theorem setAll_getElem?_mem {s : List α} {T : List Nat} {x : List α} (hn : T.Nodup) (hl : x.length = T.length)
    {j : Nat} (hj : j < T.length) (hs : T[j] < s.length) :
    (setAll s T x)[T[j]]? = x[j]? := by
  induction T generalizing s x j with
  | nil => simp at hj
  | cons i T ih => cases x with
    | nil => simp at hl
    | cons y x =>
      rw [List.nodup_cons] at hn
      cases j with
      | zero =>
        simp only [List.getElem_cons_zero] at hs ⊢
        rw [setAll, setAll_getElem?_not hn.1, List.getElem?_set_self hs]
        rfl
      | succ j =>
        simp only [List.getElem_cons_succ] at hs ⊢
        rw [setAll, ih hn.2 (by simpa using hl) (by simpa using hj) (by simpa using hs)]
        rfl

theorem setAll_ext {s s' : List α} {T : List Nat} {x : List α} (hn : T.Nodup) (hx : x.length = T.length)
    (hT : ∀ i ∈ T, i < s.length)
    (h1 : ∀ j (hj : j < T.length), s'[T[j]]? = x[j]?) (h2 : ∀ p, p ∉ T → s'[p]? = s[p]?) :
    s' = setAll s T x := by
  apply List.ext_getElem?
  intro p
  by_cases hp : p ∈ T
  · obtain ⟨j, hj, rfl⟩ := List.getElem_of_mem hp
    rw [h1 j hj, setAll_getElem?_mem hn hx hj (hT _ (List.getElem_mem _))]
  · rw [h2 p hp, setAll_getElem?_not hp]

theorem setAll_setAll {s : List α} {T : List Nat} {x y : List α} (hn : T.Nodup) (hx : x.length = T.length)
    (hT : ∀ i ∈ T, i < s.length) :
    setAll (setAll s T y) T x = setAll s T x := by
  refine setAll_ext hn hx hT (fun j hj => ?_) fun p hp => ?_
  · exact setAll_getElem?_mem hn hx hj (by rw [setAll_length]; exact hT _ (List.getElem_mem _))
  · rw [setAll_getElem?_not hp, setAll_getElem?_not hp]

theorem setAll_read {s : List α} {T : List Nat} {x : List α} (d : α) (hn : T.Nodup) (hx : x.length = T.length)
    (hT : ∀ i ∈ T, i < s.length) : T.map (fun i => (setAll s T x).getD i d) = x := by
  apply List.ext_getElem (by simp [hx])
  intro j h1 h2
  have hj : j < T.length := by simpa using h1
  rw [List.getElem_map, List.getD_eq_getElem?_getD, setAll_getElem?_mem hn hx hj (hT _ (List.getElem_mem _)),
    List.getElem?_eq_getElem h2]
  rfl

theorem mem_setAll {s : List α} {T : List Nat} {x : List α} (hn : T.Nodup) (hx : x.length = T.length)
    (hT : ∀ i ∈ T, i < s.length) {a : α} :
    a ∈ setAll s T x ↔ a ∈ x ∨ ∃ p, p ∉ T ∧ s[p]? = some a := by
  rw [List.mem_iff_getElem?]
  constructor
  · rintro ⟨p, hp⟩
    by_cases h : p ∈ T
    · obtain ⟨j, hj, rfl⟩ := List.getElem_of_mem h
      rw [setAll_getElem?_mem hn hx hj (hT _ (List.getElem_mem _))] at hp
      exact .inl (List.mem_of_getElem? hp)
    · rw [setAll_getElem?_not h] at hp
      exact .inr ⟨p, h, hp⟩
  · rintro (h | ⟨p, h, hp⟩)
    · obtain ⟨j, hj, rfl⟩ := List.getElem_of_mem h
      refine ⟨T[j], ?_⟩
      rw [setAll_getElem?_mem hn hx (by omega) (hT _ (List.getElem_mem _)), List.getElem?_eq_getElem hj]
    · exact ⟨p, by rw [setAll_getElem?_not h, hp]⟩

theorem nodup_setAll {s : List α} {T : List Nat} {x : List α} (hs : s.Nodup) (hxn : x.Nodup)
    (hd : ∀ a ∈ x, a ∉ s) : (setAll s T x).Nodup := by
  induction T generalizing s x with
  | nil => cases x <;> exact hs
  | cons i T ih => cases x with
    | nil => exact hs
    | cons y x =>
      rw [List.nodup_cons] at hxn
      rw [setAll]
      refine ih ?_ hxn.2 ?_
      · rw [List.nodup_iff_getElem?_ne_getElem?] at hs ⊢
        intro a b hab hb
        rw [List.length_set] at hb
        have := hs a b hab hb
        have hy := hd y (by simp)
        by_cases h1 : i = a
        · subst h1
          rw [List.getElem?_set_self (by omega), List.getElem?_set_ne (by omega)]
          intro h
          exact hy (List.mem_of_getElem? h.symm)
        · rw [List.getElem?_set_ne h1]
          by_cases h2 : i = b
          · subst h2
            rw [List.getElem?_set_self hb]
            intro h
            exact hy (List.mem_of_getElem? h)
          · rw [List.getElem?_set_ne h2]; exact this
      · intro a ha h
        rcases List.mem_or_eq_of_mem_set h with h | rfl
        · exact hd a (by simp [ha]) h
        · exact hxn.1 ha

end

/-! ### One gate -/

section
variable [CommSemiring R]

theorem contractB_ok {a b : LN R} (ha : Shaped Ed.dim a.1 a.2) (hb : Shaped Ed.dim b.1 b.2) (na : a.2.Nodup)
    (nb : b.2.Nodup) {C : List Ed} (hC : a.2.filter (· ∈ b.2) = C) (hne : C ≠ []) :
    ∃ t, contractB a b = .ok (t, a.2.filter (· ∉ C) ++ b.2.filter (· ∉ C)) ∧
      Shaped Ed.dim t (a.2.filter (· ∉ C) ++ b.2.filter (· ∉ C)) ∧
      ∀ σ, val t (a.2.filter (· ∉ C) ++ b.2.filter (· ∉ C)) σ =
        sumOver Ed.dim C (fun τ => val a.1 a.2 τ * val b.1 b.2 τ) σ := by
  subst hC
  obtain ⟨t, h1, h2, h3⟩ := tensordot_val ha hb (C := a.2.filter (· ∈ b.2)) (na.filter _)
    (fun l hl => List.count_eq_one_of_mem na (List.mem_of_mem_filter hl))
    (fun l hl => List.count_eq_one_of_mem nb (by simpa using (List.mem_filter.1 hl).2))
  refine ⟨t, ?_, h2, h3⟩
  rw [contractB]
  simp only [if_neg hne]
  rw [h1]
  rfl

theorem reorder_ok {n : LN R} (h : Shaped Ed.dim n.1 n.2) (hn : n.2.Nodup) {o : List Ed} (hp : o.Perm n.2) :
    ∃ t, reorder n o = .ok t ∧ Shaped Ed.dim t o ∧ ∀ σ, val t o σ = val n.1 n.2 σ := by
  have hc : ∀ l ∈ o, n.2.count l = 1 := fun l hl => List.count_eq_one_of_mem hn (hp.mem_iff.1 hl)
  have hperm : (o.map n.2.idxOf).Perm (List.range n.2.length) := by
    rw [List.perm_ext_iff_of_nodup (idxOf_map_nodup (hp.nodup_iff.2 hn) hc) List.nodup_range]
    intro p
    rw [List.mem_range]
    refine ⟨map_idxOf_lt hc p, fun hlt => ?_⟩
    rw [List.mem_map]
    exact ⟨n.2[p], hp.mem_iff.2 (List.getElem_mem _), hn.idxOf_getElem p hlt⟩
  obtain ⟨t, h1, h2, h3⟩ := transpose_val h hperm
  rw [map_idxOf_getD hc] at h2 h3
  exact ⟨t, by rw [reorder, if_pos hp, h1], h2, h3⟩

/-- The node `n` has the edges of the sites, in some order, and the entries of `psi`. -/
structure Repr (n : LN R) (sites : List Ed) (psi : NDArray R) : Prop where
  shaped : Shaped Ed.dim n.1 n.2
  perm : sites.Perm n.2
  nodup : sites.Nodup
  shape : psi.shape = sites.map Ed.dim
  val : ∀ σ, val n.1 n.2 σ = psi.get (sites.map σ)

theorem Repr.nodup' {n : LN R} {sites : List Ed} {psi : NDArray R} (h : Repr n sites psi) : n.2.Nodup :=
  h.perm.nodup_iff.1 h.nodup

theorem Repr.len {n : LN R} {sites : List Ed} {psi : NDArray R} (h : Repr n sites psi) : sites.length = psi.ndim := by
  rw [NDArray.ndim, h.shape, List.length_map]

theorem sites_assign {L : Type} [DecidableEq L] [Inhabited L] {sites : List L} (hs : sites.Nodup) {T : List Nat} (hn : T.Nodup) (hT : ∀ i ∈ T, i < sites.length)
    {c : List Nat} (hc : c.length = T.length) (σ : L → Nat) :
    sites.map (assign σ (T.map fun i => sites.getD i default) c) = setAll (sites.map σ) T c := by
  have hmem : ∀ j (hj : j < T.length), (T.map fun i => sites.getD i default)[j]'(by simpa using hj) =
      sites[T[j]]'(hT _ (List.getElem_mem _)) := by
    intro j hj
    rw [List.getElem_map, List.getD_eq_getElem _ _ (hT _ (List.getElem_mem _))]
  have hnd : (T.map fun i => sites.getD i default).Nodup := by
    refine hn.map_on fun x hx y hy h => ?_
    rw [List.getD_eq_getElem _ _ (hT _ hx), List.getD_eq_getElem _ _ (hT _ hy)] at h
    exact (hs.getElem_inj_iff).1 h
  have hself : (T.map fun i => sites.getD i default).map (assign σ (T.map fun i => sites.getD i default) c) = c :=
    assign_map_self hnd (by simpa using hc)
  refine setAll_ext hn hc (by simpa using hT) (fun j hj => ?_) fun p hp => ?_
  · have h1 := hT _ (List.getElem_mem hj)
    rw [List.getElem?_map, List.getElem?_eq_getElem h1, Option.map_some, ← hmem j hj]
    have : c[j]? = ((T.map fun i => sites.getD i default).map (assign σ (T.map fun i => sites.getD i default) c))[j]? := by
      rw [hself]
    rw [this, List.getElem?_map, List.getElem?_eq_getElem (by simpa using hj), Option.map_some]
  · rw [List.getElem?_map, List.getElem?_map]
    by_cases hlt : p < sites.length
    · rw [List.getElem?_eq_getElem hlt, Option.map_some, Option.map_some, assign_not_mem]
      rw [List.mem_map]
      rintro ⟨i, hi, h⟩
      rw [List.getD_eq_getElem _ _ (hT _ hi)] at h
      exact hp ((hs.getElem_inj_iff).1 h ▸ hi)
    · rw [List.getElem?_eq_none (by omega)]; rfl

/-- What the sum over the common edges is. -/
theorem act_val {n : LN R} {sites : List Ed} {psi : NDArray R} (h : Repr n sites psi) {op : NDArray R} {T : List Nat}
    (f : Fits op T psi) {outs C : List Ed} (ho : outs.length = T.length) (hfresh : ∀ e ∈ outs, e ∉ sites)
    (hC : C.Perm (T.map fun i => sites.getD i default)) (σ : Ed → Nat) :
    sumOver Ed.dim C (fun τ => val n.1 n.2 τ * val op (outs ++ T.map fun i => sites.getD i default) τ) σ =
      (act op T psi).get ((setAll sites T outs).map σ) := by
  have hT : ∀ i ∈ T, i < sites.length := fun i hi => by rw [h.len]; exact f.lt i hi
  have hdim : (T.map fun i => sites.getD i default).map Ed.dim = op.shape.drop T.length := by
    rw [f.dim, List.map_map]
    refine List.map_congr_left fun i hi => ?_
    have := hT i hi
    simp only [Function.comp_apply, h.shape]
    rw [List.getD_eq_getElem _ _ this, List.getD_eq_getElem _ _ (by simpa using this), List.getElem_map]
  have hnd : (T.map fun i => sites.getD i default).Nodup := by
    refine f.nodup.map_on fun x hx y hy h' => ?_
    rw [List.getD_eq_getElem _ _ (hT _ hx), List.getD_eq_getElem _ _ (hT _ hy)] at h'
    exact (h.nodup.getElem_inj_iff).1 h'
  rw [sumOver_perm hC, sumOver_eq_sumIdx, hdim]
  simp only [act]
  refine sumIdx_congr fun c hc => ?_
  have hcl : c.length = T.length := by
    rw [hc.length, List.length_drop, ← NDArray.ndim, f.ndim]; omega
  rw [h.val, sites_assign h.nodup f.nodup hT hcl, mul_comm]
  congr 1
  · rw [val, List.map_append, assign_map_self hnd (by simpa using hcl), setAll_map,
      setAll_read 0 f.nodup (by simpa using ho) (by simpa using hT)]
    congr 2
    refine List.map_congr_left fun e he => assign_not_mem ?_
    rw [List.mem_map]
    rintro ⟨i, hi, rfl⟩
    rw [List.getD_eq_getElem _ _ (hT _ hi)] at he
    exact hfresh _ he (List.getElem_mem _)
  · rw [setAll_map, setAll_setAll f.nodup hcl (by simpa using hT)]

/-- The gate node has new edges as outputs and the edges of the sites `T` as inputs. -/
structure Gate (op : NDArray R) (T : List Nat) (sites outs : List Ed) : Prop where
  dim : outs.map Ed.dim = op.shape.take T.length
  nodup : outs.Nodup
  fresh : ∀ e ∈ outs, e ∉ sites

theorem gate_step {n : LN R} {sites : List Ed} {psi : NDArray R} (h : Repr n sites psi) {op : NDArray R} {T : List Nat}
    (f : Fits op T psi) {outs : List Ed} (g : Gate op T sites outs) :
    (∃ n', contractB n (op, outs ++ T.map fun i => sites.getD i default) = .ok n' ∧
      Repr n' (setAll sites T outs) (act op T psi)) ∧
    ∃ n', contractB (op, outs ++ T.map fun i => sites.getD i default) n = .ok n' ∧
      Repr n' (setAll sites T outs) (act op T psi) := by
  have hT : ∀ i ∈ T, i < sites.length := fun i hi => by rw [h.len]; exact f.lt i hi
  have ho : outs.length = T.length := by
    have := congrArg List.length g.dim
    rw [List.length_map, List.length_take, ← NDArray.ndim, f.ndim] at this
    omega
  obtain ⟨ins, hins⟩ : ∃ ins, ins = T.map fun i => sites.getD i default := ⟨_, rfl⟩
  have hinm : ∀ e ∈ ins, e ∈ sites := by
    intro e he
    rw [hins, List.mem_map] at he
    obtain ⟨i, hi, rfl⟩ := he
    rw [List.getD_eq_getElem _ _ (hT _ hi)]
    exact List.getElem_mem _
  have hnd : ins.Nodup := by
    rw [hins]
    refine f.nodup.map_on fun x hx y hy h' => ?_
    rw [List.getD_eq_getElem _ _ (hT _ hx), List.getD_eq_getElem _ _ (hT _ hy)] at h'
    exact (h.nodup.getElem_inj_iff).1 h'
  have hsh : Shaped Ed.dim op (outs ++ ins) := by
    rw [Shaped, List.map_append, g.dim, hins, List.map_map]
    conv_lhs => rw [← List.take_append_drop T.length op.shape, f.dim]
    congr 1
    refine List.map_congr_left fun i hi => ?_
    have := hT i hi
    simp only [Function.comp_apply, h.shape]
    rw [List.getD_eq_getElem _ _ this, List.getD_eq_getElem _ _ (by simpa using this), List.getElem_map]
  have hgn : (outs ++ ins).Nodup := by
    rw [List.nodup_append]
    refine ⟨g.nodup, hnd, ?_⟩
    rintro a ha b hb rfl
    exact g.fresh a ha (hinm a hb)
  have hne : ins ≠ [] := by
    rw [hins, ne_eq, List.map_eq_nil_iff]
    intro h'
    have := f.pos
    simp [h'] at this
  have hps : (setAll sites T outs).Nodup := nodup_setAll h.nodup g.nodup g.fresh
  have hmem : ∀ e, e ∈ setAll sites T outs ↔ e ∈ outs ∨ (e ∈ sites ∧ e ∉ ins) := by
    intro e
    rw [mem_setAll f.nodup ho hT]
    refine or_congr_right ?_
    rw [List.mem_iff_getElem? (l := sites), hins]
    constructor
    · rintro ⟨p, hp, hp2⟩
      refine ⟨⟨p, hp2⟩, ?_⟩
      rw [List.mem_map]
      rintro ⟨i, hi, he⟩
      rw [List.getD_eq_getElem _ _ (hT _ hi)] at he
      obtain ⟨hlt, hp3⟩ := List.getElem?_eq_some_iff.1 hp2
      exact hp ((h.nodup.getElem_inj_iff).1 (he.trans hp3.symm) ▸ hi)
    · rintro ⟨⟨p, hp⟩, h2⟩
      refine ⟨p, fun hpT => h2 ?_, hp⟩
      rw [List.mem_map]
      exact ⟨p, hpT, by rw [List.getD_eq_getElem?_getD, hp]; rfl⟩
  have hshape : (act op T psi).shape = (setAll sites T outs).map Ed.dim := by
    rw [setAll_map, g.dim, ← h.shape]
    rfl
  have main : ∀ (C L : List Ed) (t : NDArray R), C.Perm ins → (∀ e, e ∈ L ↔ e ∈ outs ∨ (e ∈ sites ∧ e ∉ ins)) → L.Nodup →
      Shaped Ed.dim t L → (∀ σ, val t L σ = sumOver Ed.dim C (fun τ => val n.1 n.2 τ * val op (outs ++ ins) τ) σ) →
      Repr (t, L) (setAll sites T outs) (act op T psi) := by
    intro C L t hC hL hLn hsL hv
    refine ⟨hsL, ?_, hps, hshape, fun σ => ?_⟩
    · rw [List.perm_ext_iff_of_nodup hps hLn]
      intro e
      rw [hmem, hL]
    · rw [hv, hins]
      exact act_val h f ho g.fresh (hins ▸ hC) σ
  rw [← hins]
  constructor
  · have hC : (n.2.filter (· ∈ outs ++ ins)).Perm ins := by
      rw [List.perm_ext_iff_of_nodup (h.nodup'.filter _) hnd]
      intro e
      simp only [List.mem_filter, decide_eq_true_eq, List.mem_append]
      rw [← h.perm.mem_iff]
      exact ⟨fun x => x.2.resolve_left fun y => g.fresh e y x.1, fun x => ⟨hinm e x, .inr x⟩⟩
    obtain ⟨t, h1, h2, h3⟩ := contractB_ok (a := n) (b := (op, outs ++ ins)) h.shaped hsh h.nodup' hgn rfl
      (by intro h'; rw [h'] at hC; exact hne hC.nil_eq.symm)
    refine ⟨_, h1, main _ _ _ hC (fun e => ?_) ?_ h2 h3⟩
    · simp only [List.mem_append, List.mem_filter, not_and,
        decide_eq_true_eq, ← h.perm.mem_iff]
      have a1 := g.fresh e
      have a2 := hinm e
      tauto
    · rw [List.nodup_append]
      refine ⟨h.nodup'.filter _, hgn.filter _, ?_⟩
      rintro a ha b hb rfl
      simp only [List.mem_filter, not_and,
        decide_eq_true_eq] at ha hb
      exact ha.2 ha.1 hb.1
  · have hC : ((outs ++ ins).filter (· ∈ n.2)).Perm ins := by
      rw [List.perm_ext_iff_of_nodup (hgn.filter _) hnd]
      intro e
      simp only [List.mem_filter, decide_eq_true_eq, List.mem_append]
      rw [← h.perm.mem_iff]
      exact ⟨fun x => x.1.resolve_left fun y => g.fresh e y x.2, fun x => ⟨.inr x, hinm e x⟩⟩
    obtain ⟨t, h1, h2, h3⟩ := contractB_ok (b := n) (a := (op, outs ++ ins)) hsh h.shaped hgn h.nodup' rfl
      (by intro h'; rw [h'] at hC; exact hne hC.nil_eq.symm)
    refine ⟨_, h1, main _ _ _ hC (fun e => ?_) ?_ h2 fun σ => ?_⟩
    · simp only [List.mem_append, List.mem_filter, not_and,
        decide_eq_true_eq, ← h.perm.mem_iff]
      have a1 := g.fresh e
      have a2 := hinm e
      tauto
    · rw [List.nodup_append]
      refine ⟨hgn.filter _, h.nodup'.filter _, ?_⟩
      rintro a ha b hb rfl
      simp only [List.mem_filter, not_and,
        decide_eq_true_eq] at ha hb
      exact ha.2 ha.1 hb.1
    · rw [h3]
      exact sumOver_congr fun τ _ _ => mul_comm _ _

/-- The array that is read off at the end. -/
theorem Repr.reorder {n : LN R} {sites : List Ed} {psi : NDArray R} (h : Repr n sites psi) :
    ∃ t, Wave.reorder n sites = .ok t ∧ t.Same psi := by
  obtain ⟨t, h1, h2, h3⟩ := reorder_ok h.shaped h.nodup' h.perm
  refine ⟨t, h1, h2.trans h.shape.symm, fun i hi => ?_⟩
  have hl : i.length = sites.length := by rw [hi.length, h2, List.length_map]
  have h4 := h3 (assign (fun _ => 0) sites i)
  rw [h.val, TN.val, assign_map_self h.nodup hl] at h4
  exact h4

end

end TN.Wave
