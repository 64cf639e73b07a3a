import Verif.Label
import Mathlib.Algebra.BigOperators.Fin
import Mathlib.Algebra.BigOperators.Pi

/-!
# Specification of a tensor contraction

`IsEinsum dim net closed out r` says that `r` is the Einstein sum of the labelled tensors
`net`: its axes are the labels `out`, and each entry is the sum, over all positions of the
labels `closed`, of the product of the tensors' entries.  It does not mention any step of
the contraction algorithms.
-/

namespace TN

variable {R : Type*} {L : Type*} [DecidableEq L]

/-- The position of label `l` when the output multi-index is `i` and the summation
multi-index is `c`. -/
def posOf (out : List L) (i : List Nat) (closed : List L) (c : List Nat) (l : L) : Nat :=
  if l ∈ out then i.getD (out.idxOf l) 0 else c.getD (closed.idxOf l) 0

/-- `r` is the Einstein sum of `net`. -/
def IsEinsum [CommSemiring R] (dim : L → Nat) (net : List (NDArray R × List L))
    (closed out : List L) (r : NDArray R) : Prop :=
  r.shape = out.map dim ∧
  ∀ i, InB (out.map dim) i →
    r.get i = sumIdx (closed.map dim) (fun c =>
      (net.map (fun p => p.1.get (p.2.map (posOf out i closed c)))).prod)

/-- The iterated sum used in the specification is the sum over all multi-indices of the
given shape. -/
theorem sumIdx_eq_sum_pi [AddCommMonoid R] (s : List Nat) (f : List Nat → R) :
    sumIdx s f = ∑ c : ((k : Fin s.length) → Fin (s.get k)),
      f (List.ofFn (fun k => (c k : Nat))) := by
  induction s generalizing f with
  | nil => simp [sumIdx, one_nsmul]
  | cons d s ih =>
    simp only [sumIdx]
    have e : (∑ c : ((k : Fin (d :: s).length) → Fin ((d :: s).get k)),
        f (List.ofFn (fun k => (c k : Nat)))) =
        ∑ p : Fin d × ((k : Fin s.length) → Fin (s.get k)),
          f ((p.1 : Nat) :: List.ofFn (fun k => (p.2 k : Nat))) := by
      symm
      refine Fintype.sum_equiv (Fin.consEquiv
        (fun k : Fin (s.length + 1) => Fin ((d :: s).get k))) _ _ ?_
      intro p
      congr 1
      rw [List.ofFn_succ]
      rfl
    rw [e, Fintype.sum_prod_type, Finset.sum_range]
    refine Finset.sum_congr rfl fun x _ => ?_
    rw [ih]

/-- Results of the same contraction are the same array. -/
theorem IsEinsum.same [CommSemiring R] {dim : L → Nat} {net : List (NDArray R × List L)}
    {closed out : List L} {r r' : NDArray R} (h : IsEinsum dim net closed out r)
    (h' : IsEinsum dim net closed out r') : r.Same r' := by
  refine ⟨h.1.trans h'.1.symm, fun i hi => ?_⟩
  rw [h.1] at hi
  rw [h.2 i hi, h'.2 i hi]

/-- From the assignment form of the value of a network to `IsEinsum`. -/
theorem isEinsum_of_val [CommSemiring R] {dim : L → Nat} {net : List (NDArray R × List L)}
    {closed out : List L} {r : NDArray R} (hsh : Shaped dim r out)
    (hout : out.Nodup) (hclosed : closed.Nodup) (hdis : ∀ l ∈ out, l ∉ closed)
    (hcov : ∀ p ∈ net, ∀ l ∈ p.2, l ∈ out ∨ l ∈ closed)
    (hval : ∀ σ : L → Nat, (∀ l ∈ out, σ l < dim l) →
      val r out σ = sumOver dim closed (fun τ => (net.map (fun p => val p.1 p.2 τ)).prod) σ) :
    IsEinsum dim net closed out r := by
  refine ⟨hsh, fun i hi => ?_⟩
  have hlen : i.length = out.length := by simpa using hi.length
  have hmap : out.map (assign (fun _ => 0) out i) = i := assign_map_self hout hlen
  have hσ : ∀ l ∈ out, assign (fun _ => 0) out i l < dim l := by
    rw [← hmap, inB_map] at hi
    intro l hl
    exact hi l hl
  have h1 := hval _ hσ
  rw [val, hmap, sumOver_eq_sumIdx] at h1
  rw [h1]
  refine sumIdx_congr fun c hc => ?_
  congr 1
  refine List.map_congr_left fun p hp => ?_
  rw [val]
  congr 1
  refine List.map_congr_left fun l hl => ?_
  have hclen : c.length = closed.length := by simpa using hc.length
  unfold posOf
  split
  · rename_i hlo
    rw [assign_not_mem (hdis l hlo), assign_mem hlo hout hlen]
  · rename_i hlo
    have hlc : l ∈ closed := (hcov p hp l hl).resolve_left hlo
    rw [assign_mem hlc hclosed hclen]

/-- The value of a network in assignment form from `IsEinsum`. -/
theorem IsEinsum.val [CommSemiring R] {dim : L → Nat} {net : List (NDArray R × List L)}
    {closed out : List L} {r : NDArray R} (h : IsEinsum dim net closed out r)
    (hclosed : closed.Nodup) (hdis : ∀ l ∈ out, l ∉ closed)
    (hcov : ∀ p ∈ net, ∀ l ∈ p.2, l ∈ out ∨ l ∈ closed) (σ : L → Nat)
    (hσ : ∀ l ∈ out, σ l < dim l) :
    TN.val r out σ = sumOver dim closed (fun τ => (net.map (fun p => TN.val p.1 p.2 τ)).prod) σ := by
  rw [TN.val, h.2 _ ((inB_map _ _ _).2 hσ), sumOver_eq_sumIdx]
  refine sumIdx_congr fun c hc => ?_
  have hclen : c.length = closed.length := by simpa using hc.length
  congr 1
  refine List.map_congr_left fun p hp => ?_
  rw [TN.val]
  congr 1
  refine List.map_congr_left fun l hl => ?_
  unfold posOf
  split
  · rename_i hlo
    rw [assign_not_mem (hdis l hlo), List.getD_eq_getElem _ _ (by
      simpa using List.idxOf_lt_length_of_mem hlo)]
    simp
  · rename_i hlo
    have hlc : l ∈ closed := (hcov p hp l hl).resolve_left hlo
    rw [assign_mem hlc hclosed hclen]

end TN
