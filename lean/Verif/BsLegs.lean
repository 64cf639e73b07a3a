import Verif.BsRep
import Verif.Idx

/-!
# Fusing legs (block_sparse/charge.py, blocksparse_utils.py)

`grid dims` lists all positions of a dense array row-major, and `total L i` is the charge at a
position.  These two are the specification of everything that follows.
-/

set_option linter.unusedSectionVars false

namespace TN.Bs

/-! ## Positions -/

/-- All multi-indices of a dense array in row-major order. -/
def grid : List Nat → List (List Nat)
  | [] => [[]]
  | d :: ds => (List.range d).flatMap (fun i => (grid ds).map (fun is => i :: is))

@[simp] theorem mem_grid {ds i : List Nat} : i ∈ grid ds ↔ InB ds i := by
  induction ds generalizing i with
  | nil => simp [grid, inB_nil_iff]
  | cons d ds ih =>
    simp only [grid, List.mem_flatMap, List.mem_range, List.mem_map, ih, inB_cons_iff]
    constructor
    · rintro ⟨a, ha, is, his, rfl⟩; exact ⟨a, is, rfl, ha, his⟩
    · rintro ⟨a, is, rfl, ha, his⟩; exact ⟨a, ha, is, his, rfl⟩

theorem grid_append (a b : List Nat) :
    grid (a ++ b) = (grid a).flatMap (fun i => (grid b).map (fun j => i ++ j)) := by
  induction a with
  | nil => simp [grid]
  | cons d a ih =>
    simp only [List.cons_append, grid, ih, List.flatMap_assoc, List.flatMap_map, List.map_flatMap,
      List.map_map]
    rfl

theorem grid_single (d : Nat) : grid [d] = (List.range d).map (fun i => [i]) := by
  simp only [grid, List.map_cons, List.map_nil]
  exact (List.map_eq_flatMap ..).symm

theorem grid_length (ds : List Nat) : (grid ds).length = ds.prod := by
  induction ds with
  | nil => rfl
  | cons d ds ih => simp [grid, List.length_flatMap, ih]

theorem grid_eq (ds : List Nat) : grid ds = (List.range ds.prod).map (unravel ds) := by
  induction ds with
  | nil => rfl
  | cons d ds ih =>
    rw [grid, ih]
    apply List.ext_getElem?
    intro k
    have e : ((List.range d).flatMap (fun i =>
        ((List.range ds.prod).map (unravel ds)).map (fun is => i :: is))) =
        outerRavel (fun i k => i :: unravel ds k) (List.range d) (List.range ds.prod) := by
      simp [outerRavel, Function.comp_def]
    rw [e]
    by_cases hk : k < d * ds.prod
    · have hp : 0 < ds.prod := by
        rcases Nat.eq_zero_or_pos ds.prod with h | h
        · simp [h] at hk
        · exact h
      have hm := Nat.mod_lt k hp
      have hdv := (Nat.div_lt_iff_lt_mul hp).2 hk
      have := outerRavel_getElem? (fun i k => i :: unravel ds k) (List.range d)
        (List.range ds.prod) (i := k / ds.prod) (j := k % ds.prod) (by simpa using hm)
      rw [List.length_range, Nat.div_add_mod'] at this
      rw [this]
      simp [hm, hdv, hk, unravel]
    · rw [List.getElem?_eq_none, List.getElem?_eq_none]
      · simp; omega
      · rw [outerRavel_length]; simp; omega

theorem grid_getElem {ds : List Nat} {k : Nat} (hk : k < (grid ds).length) :
    (grid ds)[k] = unravel ds k := by
  have h := grid_eq ds
  simp [h]

theorem grid_nodup (ds : List Nat) : (grid ds).Nodup := by
  rw [grid_eq]
  refine (List.nodup_map_iff_inj_on List.nodup_range).2 ?_
  intro x hx y hy h
  rw [List.mem_range] at hx hy
  rw [← ravel_unravel hx, h, ravel_unravel hy]

theorem grid_idxOf {ds i : List Nat} (h : InB ds i) : (grid ds).idxOf i = ravel ds i := by
  have hl : ravel ds i < (grid ds).length := by rw [grid_length]; exact ravel_lt h
  have h1 : (grid ds)[ravel ds i] = i := by rw [grid_getElem, unravel_ravel h]
  conv_lhs => rw [← h1]
  exact List.Nodup.idxOf_getElem (grid_nodup ds) _ hl

/-! ## Charges at a position -/

section
variable {Q : Type} [AddCommMonoid Q]

/-- The charge of a dense position: the sum over the legs of the charge of the index. -/
def total : List (List Q) → List Nat → Q
  | A :: L, i :: is => A.getD i 0 + total L is
  | _, _ => 0

/-- The dimensions of the legs. -/
abbrev dims (L : List (List Q)) : List Nat := L.map List.length

/-- The charges of all dense positions, row-major. -/
def fuseL (L : List (List Q)) : List Q := (grid (dims L)).map (total L)

theorem total_append {A B : List (List Q)} {i j : List Nat} (h : i.length = A.length) :
    total (A ++ B) (i ++ j) = total A i + total B j := by
  induction A generalizing i with
  | nil =>
    have : i = [] := List.length_eq_zero_iff.1 (by simpa using h)
    subst this; simp [total]
  | cons a A ih =>
    cases i with
    | nil => simp at h
    | cons x i =>
      simp only [List.cons_append, total, ih (by simpa using h), add_assoc]

theorem fuseL_append (A B : List (List Q)) :
    fuseL (A ++ B) = outerRavel (· + ·) (fuseL A) (fuseL B) := by
  simp only [fuseL, dims, List.map_append, grid_append, outerRavel, List.flatMap_map,
    List.map_flatMap, List.map_map]
  apply List.flatMap_congr
  intro i hi
  apply List.map_congr_left
  intro j _
  have := (mem_grid.1 hi).length
  simp only [Function.comp_apply]
  exact total_append (by simpa using this)

theorem fuseL_single (A : List Q) : fuseL [A] = A := by
  apply List.ext_getElem
  · simp [fuseL, grid_length]
  · intro k h1 h2
    simp [fuseL, grid_getElem, unravel, total, h2]

theorem fuseL_length (L : List (List Q)) : (fuseL L).length = (dims L).prod := by
  simp [fuseL, grid_length]

theorem fuseL_getD {L : List (List Q)} {i : List Nat} (h : InB (dims L) i) :
    (fuseL L).getD (ravel (dims L) i) 0 = total L i := by
  have hl : ravel (dims L) i < (grid (dims L)).length := by rw [grid_length]; exact ravel_lt h
  simp [fuseL, List.getD_eq_getElem?_getD, hl, grid_getElem, unravel_ravel h]

theorem total_neg {Q : Type} [AddCommGroup Q] (L : List (List Q)) (i : List Nat) (h : InB (dims L) i) :
    total (L.map (fun A => A.map (fun q => -q))) i = - total L i := by
  induction L generalizing i with
  | nil => simp [total]
  | cons A L ih =>
    obtain ⟨a, is, rfl, ha, h⟩ := inB_cons_iff.1 (by simpa using h)
    simp only [List.map_cons, total, ih is (by simpa using h)]
    simp [ha, add_comm]

end

/-! ## The code -/

section
variable {Q : Type} [AddCommGroup Q] [LinearOrder Q]

/-- A leg: its charge object and its flow; the code keeps two lists of the same length. -/
abbrev Leg (Q : Type) := Charge Q × Bool

/-- The charge `charges[n] * flows[n]` as a list: the charges that enter the fusion. -/
def eff (legs : List (Leg Q)) : List (List Q) := legs.map (fun l => (l.1.dual l.2).charges)

/-- All legs have a consistent representation. -/
def LegsWF (legs : List (Leg Q)) : Prop := ∀ l ∈ legs, l.1.WF

/-- `np.logical_not(flows)` -/
def flipFlows (legs : List (Leg Q)) : List (Leg Q) := legs.map (fun l => (l.1, !l.2))

/-- `fuse_charges` (charge.py:625-645); `charges[0]` of an empty list raises. -/
def fuseCharges : List (Leg Q) → Py (Charge Q)
  | [] => .error .indexError
  | l :: ls => .ok (ls.foldl (fun acc m => acc.add (m.1.dual m.2)) (l.1.dual l.2))

theorem eff_append (A B : List (Leg Q)) : eff (A ++ B) = eff A ++ eff B := by simp [eff]

theorem dims_eff (legs : List (Leg Q)) : dims (eff legs) = legs.map (fun l => l.1.dim) := by
  simp only [dims, eff, List.map_map]
  apply List.map_congr_left
  intro l _
  simp only [Function.comp_apply]
  rw [← Charge.dim_eq, Charge.dual_dim]

theorem eff_flip {legs : List (Leg Q)} (h : LegsWF legs) :
    eff (flipFlows legs) = (eff legs).map (fun A => A.map (fun q => -q)) := by
  simp only [eff, flipFlows, List.map_map]
  apply List.map_congr_left
  intro l hl
  simp only [Function.comp_apply]
  rw [Charge.dual_charges (h l hl), Charge.dual_charges (h l hl)]
  cases l.2 <;> simp

theorem flipFlows_wf {legs : List (Leg Q)} (h : LegsWF legs) : LegsWF (flipFlows legs) := by
  intro l hl
  obtain ⟨m, hm, rfl⟩ := List.mem_map.1 hl
  exact h m hm

theorem fuse_foldl {ls : List (Leg Q)} (acc : Charge Q) (L : List (List Q))
    (ha : acc.WF) (hc : acc.charges = fuseL L) :
    (ls.foldl (fun acc m => acc.add (m.1.dual m.2)) acc).WF ∧
    (ls.foldl (fun acc m => acc.add (m.1.dual m.2)) acc).charges = fuseL (L ++ eff ls) := by
  induction ls generalizing acc L with
  | nil => simpa [eff] using ⟨ha, hc⟩
  | cons m ls ih =>
    have := ih (acc.add (m.1.dual m.2)) (L ++ [(m.1.dual m.2).charges]) (Charge.add_wf _ _)
      (by rw [fuseL_append, fuseL_single, ← hc]; rfl)
    simpa [eff] using this

/-- `fuse_charges` lists the charges of all positions of the legs in row-major order, whatever the
representation of the legs. -/
theorem fuseCharges_spec {legs : List (Leg Q)} (h : LegsWF legs) (hne : legs ≠ []) :
    ∃ c, fuseCharges legs = .ok c ∧ c.WF ∧ c.charges = fuseL (eff legs) := by
  cases legs with
  | nil => exact absurd rfl hne
  | cons l ls =>
    have h1 := fuse_foldl (ls := ls) (l.1.dual l.2) [(l.1.dual l.2).charges]
      (Charge.dual_wf (h l (by simp)) _) (fuseL_single _).symm
    exact ⟨_, rfl, h1.1, by simpa [eff] using h1.2⟩

end
end TN.Bs
