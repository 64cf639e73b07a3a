import Verif.NconProps

/-!
# C06: labels repeated inside one tensor, and concrete cases for C01–C05
-/

set_option linter.unusedSectionVars false

namespace TN.Ncon

open NDArray

variable {R : Type} [CommSemiring R]

theorem sortInt_singleton (a : Int) : sortInt [a] = [a] := by simp [sortInt]
theorem sortInt_pair_self (a : Int) : sortInt [a, a] = [a, a] := by
  have h := sortInt_perm [a, a]
  exact List.perm_replicate (n := 2) (a := a) |>.1 h

theorem sortInt_nil : sortInt [] = [] := by simp [sortInt]

theorem ord_nil (so : SetOrder) (k : Nat) : so.ord k [] = [] :=
  List.perm_nil.1 (so.perm k [])

theorem ord_singleton (so : SetOrder) (k : Nat) (a : Int) : so.ord k [a] = [a] :=
  List.perm_singleton.1 (so.perm k [a])

theorem valid_11_1 (n : Nat) : ValidRequest [[.num 1, .num 1], [.num 1]] [[n, n], [n]] none none := by
  refine ⟨rfl, ?_, ?_, ?_, ?_, ?_⟩
  · simp
  · simp [Lab.Allowed]
  · simp
  · simp
  · simp

theorem partialTrace_pair (A : NDArray R) (n : Nat) (hA : A.shape = [n, n]) (l : Int) :
    ∃ r, partialTrace A [l, l] = .ok (r, [], [l]) ∧ r.shape = [] ∧
      r.get [] = ∑ i ∈ Finset.range n, A.get [i, i] := by
  obtain ⟨r, u, h1, h2, h3, h4, h5⟩ := partialTrace_ok (dim := fun _ => n) (t := A)
    (labels := [l, l]) (by simp [Shaped, hA])
  have hu : u = [l] := by
    have hp : u.Perm [l] := (List.perm_ext_iff_of_nodup h2 (by simp)).2 (fun x => by
      rw [h3]
      by_cases hx : l = x
      · simp [hx]
      · simp [hx, Ne.symm hx])
    exact List.perm_singleton.1 hp
  subst hu
  simp only [List.mem_singleton, decide_not, List.filter_cons, decide_true, Bool.not_true,
    Bool.false_eq_true, if_false, List.filter_nil] at h1 h4 h5
  refine ⟨r, h1, by simpa [Shaped] using h4, ?_⟩
  have := h5 (fun _ => 0) (by simp)
  simpa [val, sumOver] using this

theorem partialTrace_single (B : NDArray R) (l : Int) :
    partialTrace B [l] = .ok (B, [l], []) := by
  simp [partialTrace, pure, Except.pure]

theorem sumSingles_single (B : NDArray R) (n : Nat) (hB : B.shape = [n]) (l : Int) :
    ∃ r, sumSingles [l] (B, [l]) = .ok (r, []) ∧ r.shape = [] ∧
      r.get [] = ∑ i ∈ Finset.range n, B.get [i] := by
  obtain ⟨r, h1, h2, h3⟩ := sum_val (dim := fun _ => n) (t := B) (ls := [l]) (C := [l])
    (by simp [Shaped, hB]) (by simp) (by simp)
  refine ⟨r, ?_, ?_, ?_⟩
  · simp only [sumSingles]
    simp only [List.mem_singleton, decide_true, List.filter_cons_of_pos, List.filter_nil,
      List.length_singleton, gt_iff_lt, Nat.lt_one_iff, imp_self, implies_true, if_true, h1]
    simp [bind, Except.bind, pure, Except.pure]
  · simpa [Shaped] using h2
  · have := h3 (fun _ => 0)
    simpa [val, sumOver] using this

/-- What `ncon([A, B], [[1, 1], [1]])` computes. -/
theorem ncon_11_1 (so : SetOrder) (A B : NDArray R) (n : Nat) (hA : A.shape = [n, n])
    (hB : B.shape = [n]) :
    ∃ r, ncon so [A, B] [[.num 1, .num 1], [.num 1]] none none true = .ok r ∧ r.shape = [] ∧
      r.get [] = (∑ i ∈ Finset.range n, A.get [i, i]) * ∑ i ∈ Finset.range n, B.get [i] := by
  have hv : ValidRequest [[.num 1, .num 1], [.num 1]] (([A, B] : List (NDArray R)).map shape)
      (eff none) (eff none) := by
    simp only [List.map_cons, List.map_nil, hA, hB]
    exact valid_11_1 n
  have hfl : ([[.num 1, .num 1], [.num 1]] : List (List Lab)).flatMap id
      = [.num 1, .num 1, .num 1] := rfl
  have hs : strLabels [.num 1, .num 1, .num 1] = [] := rfl
  have hi : intLabels [.num 1, .num 1, .num 1] = [1] := by decide
  have hc : conUsed [.num 1, .num 1, .num 1] none = [.num 1] := by
    simp [conUsed, eff, posKeys, hs, hi, sortInt, sortStr]
  have ho : outUsed [.num 1, .num 1, .num 1] none = [] := by
    simp [outUsed, eff, negKeys, hs, hi, sortInt, sortStr]
  have hcan : canon [.num 1, .num 1, .num 1] (.num 1) = 1 := by
    simp [canon, canonLabel, posKeys, negKeys, hs, hi,
      sortInt, sortStr]
  rw [ncon_eq so true hv, hfl, hc, ho]
  simp only [List.map_cons, List.map_nil, hcan, List.length_cons, List.length_nil]
  obtain ⟨r1, e1, s1, v1⟩ := partialTrace_pair A n hA 1
  obtain ⟨r2, e2, s2, v2⟩ := sumSingles_single B n hB 1
  refine ⟨r1.outerProduct r2, ?_, by simp [outerProduct, s1, s2], ?_⟩
  · unfold jittableNcon
    simp only [unflatten, List.take, List.drop, List.zip_cons_cons, List.zip_nil_left, pyMap, e1,
      partialTrace_single, bind, Except.bind, List.map_cons, List.map_nil, List.flatMap_cons,
      List.flatMap_nil, List.nil_append, List.append_nil]
    have hcb : ([1] : List Int).filter (fun l => decide (List.count l [1] = 1 ∧ l > 0)) = [1] := by
      decide
    have hr1 : sumSingles [1] ((r1, []) : LT R) = .ok (r1, []) := by
      simp [sumSingles, pure, Except.pure]
    rw [hcb]
    simp only [hr1, e2]
    rw [loop_eq]
    simp [step, finish, commonLabels, finalPerm, ord_nil, batchInit, ord_singleton]
  · simp [outerProduct, NDArray.ndim, s1, v1, v2]

theorem valid_m1m1 (n : Nat) : ValidRequest [[.num (-1), .num (-1)]] [[n, n]] none none := by
  refine ⟨rfl, ?_, ?_, ?_, ?_, ?_⟩
  · simp
  · simp [Lab.Allowed]
  · simp
  · simp
  · simp

/-- What `ncon([A], [[-1, -1]])` computes: the trace, not the diagonal. -/
theorem ncon_m1m1 (so : SetOrder) (A : NDArray R) (n : Nat) (hA : A.shape = [n, n]) :
    ∃ r, ncon so [A] [[.num (-1), .num (-1)]] none none true = .ok r ∧ r.shape = [] ∧
      r.get [] = ∑ i ∈ Finset.range n, A.get [i, i] := by
  have hv : ValidRequest [[.num (-1), .num (-1)]] (([A] : List (NDArray R)).map shape)
      (eff none) (eff none) := by
    simp only [List.map_cons, List.map_nil, hA]
    exact valid_m1m1 n
  have hfl : ([[.num (-1), .num (-1)]] : List (List Lab)).flatMap id
      = [.num (-1), .num (-1)] := rfl
  have hs : strLabels [.num (-1), .num (-1)] = [] := rfl
  have hi : intLabels [.num (-1), .num (-1)] = [-1] := by decide
  have hc : conUsed [.num (-1), .num (-1)] none = [] := by
    simp [conUsed, eff, posKeys, hs, hi, sortInt, sortStr]
  have ho : outUsed [.num (-1), .num (-1)] none = [.num (-1)] := by
    simp [outUsed, eff, negKeys, hs, hi, sortInt, sortStr]
  have hcan : canon [.num (-1), .num (-1)] (.num (-1)) = -1 := by
    simp [canon, canonLabel, negKeys, hs, hi, sortInt, sortStr]
  rw [ncon_eq so true hv, hfl, hc, ho]
  simp only [List.map_cons, List.map_nil, hcan, List.length_cons, List.length_nil]
  obtain ⟨r1, e1, s1, v1⟩ := partialTrace_pair A n hA (-1)
  refine ⟨r1, ?_, s1, v1⟩
  unfold jittableNcon
  simp only [unflatten, List.take, List.zip_cons_cons, List.zip_nil_left, pyMap, e1,
    bind, Except.bind, List.map_cons, List.map_nil, List.flatMap_cons,
    List.flatMap_nil, List.append_nil]
  have hr1 : sumSingles [] ((r1, []) : LT R) = .ok (r1, []) := by
    simp [sumSingles, pure, Except.pure]
  simp only [List.filter_nil, hr1]
  rw [loop_eq]
  simp [step, finish, finalPerm]

/-- The full claim of C06: any accepted network is an Einstein sum, whatever labels are
repeated inside a tensor. -/
def C06Claim : Prop :=
  ∀ (so : SetOrder) (ts : List (NDArray Int)) (ls : List (List Lab)) (r : NDArray Int)
    (dim : Lab → Nat) (closed o : List Lab),
    ncon so ts ls none none true = .ok r →
    (∀ p ∈ ts.zip ls, p.1.shape = p.2.map dim) →
    Enumerates closed (fun l => l ∈ ls.flatMap id ∧ l.isOpen = false) →
    OutputOrder (ls.flatMap id) none o →
    IsEinsum dim (ts.zip ls) closed o r

/-- The arrays of the witness: the 2×2 identity and `(1, 0)`. -/
def eye2 : NDArray Int := ⟨[2, 2], fun i => if i.getD 0 0 = i.getD 1 0 then 1 else 0⟩
def e0 : NDArray Int := ⟨[2], fun i => if i.getD 0 0 = 0 then 1 else 0⟩

def soId : SetOrder := ⟨fun _ l => l, fun _ _ => List.Perm.refl _⟩

/-- **C06** is false for a closed label: `ncon([A, B], [[1, 1], [1]])` returns
`tr(A) · Σ B` instead of `Σ_i A[i,i] B[i]`. -/
theorem C06_closed_repeat_false : ¬ C06Claim := by
  intro h
  obtain ⟨r, h1, h2, h3⟩ := ncon_11_1 soId eye2 e0 2 rfl rfl
  have hE := h soId [eye2, e0] [[.num 1, .num 1], [.num 1]] r (fun _ => 2) [.num 1] [] h1
    (by simp [eye2, e0]) ⟨by simp, by
      intro x
      simp only [List.flatMap_cons, id, List.flatMap_nil, List.append_nil, List.cons_append,
        List.nil_append, List.mem_cons, List.not_mem_nil, or_false, or_self]
      constructor
      · rintro rfl; exact ⟨rfl, rfl⟩
      · exact fun h => h.1⟩ ⟨⟨by simp, by
      intro x
      simp only [List.flatMap_cons, id, List.flatMap_nil, List.append_nil, List.cons_append,
        List.nil_append, List.mem_cons, List.not_mem_nil, or_false, or_self, false_iff]
      rintro ⟨rfl, h⟩
      simp [Lab.isOpen] at h⟩, by simp⟩
  have h4 := hE.2 [] (by simp [inB_nil])
  rw [h3] at h4
  revert h4
  simp only [eye2, e0, List.zip_cons_cons, List.zip_nil_left, List.map_cons, List.map_nil,
    sumIdx, posOf, Finset.sum_range_succ, Finset.sum_range_zero]
  decide

/-- **C06** is false for an open label: `ncon([A], [[-1, -1]])` returns the trace of `A`
(rank 0) instead of its diagonal (rank 1). -/
theorem C06_open_repeat_false (so : SetOrder) (A : NDArray R) (n : Nat) (hA : A.shape = [n, n])
    {r : NDArray R} (h : ncon so [A] [[.num (-1), .num (-1)]] none none true = .ok r) :
    r.shape = [] ∧ ∀ (dim : Lab → Nat) (closed : List Lab), ¬ IsEinsum dim
      ([A].zip [[Lab.num (-1), Lab.num (-1)]]) closed [Lab.num (-1)] r := by
  obtain ⟨r', h1, h2, _⟩ := ncon_m1m1 so A n hA
  rw [h] at h1
  cases h1
  refine ⟨h2, fun dim closed hE => ?_⟩
  have := hE.1
  rw [h2] at this
  simp at this

/-- **C06**, what holds: a closed label that occurs twice in one tensor and nowhere else is
summed over the diagonal of the two axes.  Missing: labels repeated in one tensor that occur
elsewhere, and repeated open labels (false, see above). -/
theorem C06_private_repeat_partial (so : SetOrder) {ts : List (NDArray R)} {ls : List (List Lab)}
    {r : NDArray R} {con out : Option (List Lab)} (h : ncon so ts ls con out true = .ok r)
    (hrep : NoInnerRepeats ls) {dim : Lab → Nat}
    (hdim : ∀ p ∈ ts.zip ls, p.1.shape = p.2.map dim) {closed o : List Lab}
    (hcl : Enumerates closed (fun l => l ∈ ls.flatMap id ∧ l.isOpen = false))
    (ho : OutputOrder (ls.flatMap id) out o) :
    IsEinsum dim (ts.zip ls) closed o r :=
  (C04_axis_order so h hrep hdim ho).2 closed hcl

/-! ### Concrete cases for C01–C05: `A[a,b] B[b,c]`, with a batch label, and a trace -/

/-- An integer array of a given shape. -/
def arr (s : List Nat) : NDArray Int := ⟨s, fun i => (ravel s i : Int)⟩

/-- labels `[-1, 1, 2, 2]` and `[1, "-x"]`: a trace, a contraction, a mixed output -/
def exLs : List (List Lab) := [[.num (-1), .num 1, .num 2, .num 2], [.num 1, .str "-x"]]
def exTs : List (NDArray Int) := [arr [2, 3, 4, 4], arr [3, 5]]

theorem exValid (con : Option (List Lab))
    (hc : con = none ∨ con = some [.num 1, .num 2] ∨ con = some [.num 2, .num 1]) :
    ValidRequest exLs (exTs.map shape) con none := by
  refine ⟨rfl, ?_, ?_, ?_, ?_, ?_⟩
  · decide
  · intro l hl
    simp only [exLs, List.flatMap_cons, id, List.flatMap_nil, List.append_nil, List.cons_append,
      List.nil_append, List.mem_cons, List.not_mem_nil, or_false] at hl
    rcases hl with rfl | rfl | rfl | rfl | rfl | rfl <;> simp only [Lab.Allowed] <;> decide
  · intro c h
    have key : ∀ l, l ∈ exLs.flatMap id ∧ l.isOpen = false ↔ l = .num 1 ∨ l = .num 2 := by
      intro l
      simp only [exLs, List.flatMap_cons, id, List.flatMap_nil, List.append_nil, List.cons_append,
        List.nil_append, List.mem_cons, List.not_mem_nil, or_false]
      constructor
      · rintro ⟨rfl | rfl | rfl | rfl | rfl | rfl, h⟩ <;> revert h <;> decide
      · rintro (rfl | rfl) <;> decide
    subst h
    rcases hc with h | h | h
    · cases h
    · cases h
      exact ⟨by decide, fun l => by simp only [key]; simp⟩
    · cases h
      exact ⟨by decide, fun l => by simp only [key]; simp [or_comm]⟩
  · simp
  · decide

example (so : SetOrder) : ∃ r, ncon so exTs exLs (some [.num 2, .num 1]) none true = .ok r :=
  C03_ordinary_network so (by decide) (exValid _ (Or.inr (Or.inr rfl))) (by decide) (by decide)
    (by decide)

/-- The hypotheses of C01, C02 and C04 hold for it. -/
example : NoInnerRepeats exLs ∧ OpenDimsAgree exTs exLs :=
  ⟨by unfold NoInnerRepeats; decide, by unfold OpenDimsAgree; decide⟩

example : OutputOrder (exLs.flatMap id) none [.num (-1), .str "-x"] := by
  refine ⟨⟨by decide, fun l => ?_⟩, by simp [Before]⟩
  simp only [exLs, List.flatMap_cons, id, List.flatMap_nil, List.append_nil, List.cons_append,
    List.nil_append, List.mem_cons, List.not_mem_nil, or_false]
  constructor
  · rintro (rfl | rfl) <;> decide
  · rintro ⟨rfl | rfl | rfl | rfl | rfl | rfl, h⟩ <;> revert h <;> decide

/-- C05 rejects: a zero label, a closed dimension mismatch, a con_order with a repetition. -/
example : ¬ ValidRequest [[.num 0]] [[2]] none none := fun h => h.allowed (.num 0) (by decide) rfl
example : ¬ ValidRequest [[.num 1], [.num 1]] [[2], [3]] none none := fun h => by
  have := h.dims_eq ([.num 1], [2]) (by decide) ([.num 1], [3]) (by decide) (.num 1, 2)
    (by decide) (.num 1, 3) (by decide) rfl rfl
  simp at this
example : ¬ ValidRequest [[.num 1, .num 1]] [[2, 2]] (some [.num 1, .num 1]) none := fun h => by
  have := (h.con_enum _ rfl).1
  simp at this

end TN.Ncon
