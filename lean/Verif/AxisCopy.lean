import Verif.AxisProps2

/-!
# The axis names of a copied node (C72)
-/

namespace TN.Graph

open TN

set_option linter.unusedSectionVars false

variable {R : Type}

/-- **C72.**  A copy of a node whose names are distinct, one per axis, is a new node with the same names and the
(conjugated) tensor; names, tensors and edges of all other nodes are left alone. -/
theorem C72_copy [CommSemiring R] {h : Heap R} (g : GraphOK h) {nm : AxTab} {n : NId} (hn : n < h.nn)
    (hl : (nm n).length = (h.node n).edges.length) (hd : (nm n).Nodup) (cj : R → R) (conjugate : Bool) :
    ∃ h' nm', nodeCopyN cj conjugate n (h, nm) = (.ok h.nn, (h', nm')) ∧ h'.nn = h.nn + 1 ∧ nm' h.nn = nm n ∧
      (∀ m, m ≠ h.nn → nm' m = nm m) ∧ (∀ m < h.nn, h'.node m = h.node m) ∧
      (h'.node h.nn).edges.length = (h.node n).edges.length ∧
      (h'.node h.nn).tensor.shape = (h.node n).tensor.shape ∧
      ∀ i, (h'.node h.nn).tensor.get i = if conjugate then cj ((h.node n).tensor.get i) else (h.node n).tensor.get i := by
  have w := graphOK_iff.1 g
  obtain ⟨k, E, h1, h2, h3⟩ := nodeCopy_ok (c := fun _ => h.nn) (nodes := [n]) (k := h) (E := id) cj conjugate w
    (pre := []) (n := n) (by simpa using hn) (by simp) (by simp) (by simp) rfl
    ⟨le_refl _, le_refl _, fun _ _ => rfl, fun _ _ => rfl, by simp, by simp, by simp, by simp, by simp, by simp⟩
  have ht := h3.tensor n (by simp)
  refine ⟨k, Function.update nm h.nn (nm n), ?_, h2, by simp, fun m hm => Function.update_of_ne hm _ _, h3.old_node,
    h3.len n (by simp), ?_, fun i => ?_⟩
  · unfold nodeCopyN
    rw [NM.bind_ok (x := NM.names n) (a := nm n) (s' := (h, nm)) rfl, NM.bind_ok (NM.lift_ok (nodeTensor_eq n) nm),
      if_neg (by simpa using hd), if_neg (by rw [hl, w.len n hn]; simp), NM.bind_ok (NM.lift_ok h1 nm)]
    rfl
  · rw [ht]; exact copyTensor_shape _ _ _
  · rw [ht]; cases conjugate <;> rfl

example := C72_copy oneNode_ok (nm := letters oneNode) (n := 0) (by decide) (by decide) (by decide) (fun x => x + 1) true

end TN.Graph
