import Verif.Decomp
import Verif.Label

/-!
# The Kronecker product of tensors (C43)

`kron` (linalg/operations.py:300-342) and the check of backends it relies on (linalg/operations.py:20-38).
-/

set_option linter.unusedSectionVars false

namespace TN.Kron

open TN NDArray

variable {R : Type} [CommSemiring R]

/-- A `Tensor`: an array and the name of its backend (tensor.py:25-60). -/
structure Tensor (R : Type) where
  array : NDArray R
  backend : String

/-- `_check_backends` (linalg/operations.py:20-38), the flag; an empty list raises `IndexError`. -/
def checkBackends (ts : List (Tensor R)) : Py Bool :=
  match ts.map Tensor.backend with
  | [] => .error .indexError
  | n :: names => .ok (names.all fun m => n == m)

/-- `incoming + outgoing` (linalg/operations.py:337-339). -/
def kronPerm (ndimA ndimB : Nat) : List Nat :=
  (List.range (ndimA / 2) ++ List.range' ndimA (ndimB / 2)) ++
  (List.range' (ndimA / 2) (ndimA - ndimA / 2) ++ List.range' (ndimA + ndimB / 2) (ndimB - ndimB / 2))

/-- `kron` (linalg/operations.py:300-342); `outer` is `outer_product` of the backend of the first tensor,
which may raise when it is given an array of another backend. -/
def kronWith (outer : NDArray R → NDArray R → Py (NDArray R)) (tensorA tensorB : Tensor R) : Py (Tensor R) := do
  let tensors := [tensorA, tensorA]
  let same ← checkBackends tensors
  if !same then .error .valueError
  else if tensorA.array.ndim % 2 ≠ 0 then .error .valueError
  else if tensorB.array.ndim % 2 ≠ 0 then .error .valueError
  else do
    let out ← outer tensorA.array tensorB.array
    let arr ← out.transpose (kronPerm tensorA.array.ndim tensorB.array.ndim)
    pure ⟨arr, tensorA.backend⟩

/-- `kron` with the outer product of the numpy backend. -/
def kron (tensorA tensorB : Tensor R) : Py (Tensor R) :=
  kronWith (fun a b => .ok (a.outerProduct b)) tensorA tensorB

/-- `outer` (linalg/operations.py:121-128). -/
def outer (tensorA tensorB : Tensor R) : Py (Tensor R) := do
  let same ← checkBackends [tensorA, tensorB]
  if !same then .error .valueError
  else pure ⟨tensorA.array.outerProduct tensorB.array, tensorA.backend⟩

/-! ### Specification and proof -/

/-- `M` is the Kronecker product of the matrices `A` (`m` by `n`) and `B` (`p` by `q`), as in `np.kron`. -/
def IsKron (M A B : NDArray R) (m n p q : Nat) : Prop :=
  M.shape = [m * p, n * q] ∧ ∀ i < m, ∀ j < n, ∀ k < p, ∀ l < q,
    M.get [i * p + k, j * q + l] = A.get [i, j] * B.get [k, l]

theorem kronPerm_perm (a b : Nat) : (kronPerm (2 * a) (2 * b)).Perm (List.range (2 * a + 2 * b)) := by
  have h1 : kronPerm (2 * a) (2 * b) = (List.range' 0 a ++ List.range' (2 * a) b) ++
      (List.range' a a ++ List.range' (2 * a + b) b) := by
    unfold kronPerm
    have e1 : 2 * a / 2 = a := by omega
    have e2 : 2 * b / 2 = b := by omega
    have e3 : 2 * a - a = a := by omega
    have e4 : 2 * b - b = b := by omega
    rw [e1, e2, e3, e4, List.range_eq_range']
  have h2 : List.range (2 * a + 2 * b) = (List.range' 0 a ++ List.range' a a) ++
      (List.range' (2 * a) b ++ List.range' (2 * a + b) b) := by
    have e : 2 * a + 2 * b = a + (a + (b + b)) := by omega
    rw [List.range_eq_range', e, ← List.range'_append_1, ← List.range'_append_1, ← List.range'_append_1]
    have e1 : 0 + a + a = 2 * a := by omega
    rw [e1, Nat.zero_add, List.append_assoc]
  rw [h1, h2, List.append_assoc, List.append_assoc]
  refine List.Perm.append_left _ ?_
  rw [← List.append_assoc, ← List.append_assoc]
  exact List.Perm.append_right _ List.perm_append_comm

theorem map_range'_getD {α : Type} (x : α) (l m r : List α) :
    (List.range' l.length m.length).map (fun p => (l ++ m ++ r).getD p x) = m := by
  apply List.ext_getElem (by simp)
  intro k h1 h2
  simp only [List.getElem_map, List.getElem_range', Nat.one_mul]
  rw [List.getD_eq_getElem _ _ (by simp; omega), List.getElem_append_left (by simp; omega),
    List.getElem_append_right (by omega)]
  simp

/-- Reading four pieces in the order of `kronPerm`. -/
theorem kronPerm_map {α : Type} (x : α) {i j k l : List α} {a b : Nat} (hi : i.length = a) (hj : j.length = a)
    (hk : k.length = b) (hl : l.length = b) :
    (kronPerm (2 * a) (2 * b)).map (fun p => (i ++ j ++ (k ++ l)).getD p x) = (i ++ k) ++ (j ++ l) := by
  have e1 : 2 * a / 2 = a := by omega
  have e2 : 2 * b / 2 = b := by omega
  have e3 : 2 * a - a = a := by omega
  have e4 : 2 * b - b = b := by omega
  unfold kronPerm
  rw [e1, e2, e3, e4, List.range_eq_range', List.map_append, List.map_append, List.map_append]
  have p1 := map_range'_getD x [] i (j ++ (k ++ l))
  have p2 := map_range'_getD x (i ++ j) k l
  have p3 := map_range'_getD x i j (k ++ l)
  have p4 := map_range'_getD x (i ++ j ++ k) l []
  simp only [List.nil_append, List.append_nil, List.length_nil, List.length_append, hi, hj, hk, hl,
    ← List.append_assoc] at p1 p2 p3 p4 ⊢
  have e5 : a + a = 2 * a := by omega
  rw [e5] at p2 p4
  rw [p1, p2, p3, p4]

/-- The entries of the tensor: row indices of both, then column indices of both. -/
theorem kron_entries (A B : Tensor R) {Ar Ac Br Bc : List Nat} (hA : A.array.shape = Ar ++ Ac)
    (hB : B.array.shape = Br ++ Bc) (ha : Ar.length = Ac.length) (hb : Br.length = Bc.length) :
    ∃ T, kron A B = .ok T ∧ T.backend = A.backend ∧ T.array.shape = (Ar ++ Br) ++ (Ac ++ Bc) ∧
      ∀ i j k l, InB Ar i → InB Ac j → InB Br k → InB Bc l →
        T.array.get ((i ++ k) ++ (j ++ l)) = A.array.get (i ++ j) * B.array.get (k ++ l) := by
  have hna : A.array.ndim = 2 * Ar.length := by simp [ndim, hA]; omega
  have hnb : B.array.ndim = 2 * Br.length := by simp [ndim, hB]; omega
  have hsh : (A.array.outerProduct B.array).shape = Ar ++ Ac ++ (Br ++ Bc) := by
    simp [outerProduct, hA, hB]
  have hlen : (Ar ++ Ac ++ (Br ++ Bc)).length = 2 * Ar.length + 2 * Br.length := by simp; omega
  have hS : Shaped (fun p => (Ar ++ Ac ++ (Br ++ Bc)).getD p 0) (A.array.outerProduct B.array)
      (List.range (2 * Ar.length + 2 * Br.length)) := by
    rw [Shaped, hsh, ← hlen]
    apply List.ext_getElem (by simp)
    intro n h1 h2
    simp only [List.getElem_map, List.getElem_range]
    rw [List.getD_eq_getElem _ _ h1]
  obtain ⟨t, t1, t2, t3⟩ := transpose_val hS (perm := kronPerm (2 * Ar.length) (2 * Br.length))
    (by rw [List.length_range]; exact kronPerm_perm _ _)
  have hperm : (kronPerm (2 * Ar.length) (2 * Br.length)).map
      (fun p => (List.range (2 * Ar.length + 2 * Br.length)).getD p default) =
      kronPerm (2 * Ar.length) (2 * Br.length) := by
    refine (List.map_congr_left fun p hp => ?_).trans (List.map_id _)
    have := (kronPerm_perm _ _).mem_iff.1 hp
    rw [List.mem_range] at this
    rw [List.getD_eq_getElem _ _ (by simpa using this), List.getElem_range, id]
  rw [hperm] at t2 t3
  refine ⟨⟨t, A.backend⟩, ?_, rfl, ?_, fun i j k l hi hj hk hl => ?_⟩
  · unfold kron kronWith
    simp only [checkBackends, List.map_cons, List.map_nil, List.all_cons, List.all_nil, beq_self_eq_true,
      bind, Except.bind]
    rw [hna, hnb, if_neg (by simp), if_neg (by omega), if_neg (by omega), t1]
    rfl
  · rw [Shaped, kronPerm_map 0 rfl ha.symm rfl hb.symm] at t2
    exact t2
  · have li := hi.length
    have lj := hj.length
    have lk := hk.length
    have ll := hl.length
    have := t3 fun p => (i ++ j ++ (k ++ l)).getD p 0
    simp only [val] at this
    rw [kronPerm_map 0 li (by omega) lk (by omega)] at this
    rw [this]
    have hr : (List.range (2 * Ar.length + 2 * Br.length)).map (fun p => (i ++ j ++ (k ++ l)).getD p 0) =
        i ++ j ++ (k ++ l) := by
      have hl' : 2 * Ar.length + 2 * Br.length = (i ++ j ++ (k ++ l)).length := by simp; omega
      rw [hl']
      apply List.ext_getElem (by simp)
      intro n h1 h2
      simp only [List.getElem_map, List.getElem_range]
      rw [List.getD_eq_getElem _ _ h2]
    rw [hr]
    have hl2 : (i ++ j).length = A.array.ndim := by simp [ndim, hA]; omega
    simp only [outerProduct]
    rw [List.take_left' hl2, List.drop_left' hl2]

/-- **C43**: reshaped to matrices, `kron` is the Kronecker product, for tensors of all even ranks. -/
theorem C43_kron (A B : Tensor R) {Ar Ac Br Bc : List Nat} (hA : A.array.shape = Ar ++ Ac)
    (hB : B.array.shape = Br ++ Bc) (ha : Ar.length = Ac.length) (hb : Br.length = Bc.length) :
    ∃ T MT MA MB, kron A B = .ok T ∧ T.array.shape = (Ar ++ Br) ++ (Ac ++ Bc) ∧
      T.array.reshape [(Ar ++ Br).prod, (Ac ++ Bc).prod] = .ok MT ∧
      A.array.reshape [Ar.prod, Ac.prod] = .ok MA ∧ B.array.reshape [Br.prod, Bc.prod] = .ok MB ∧
      IsKron MT MA MB Ar.prod Ac.prod Br.prod Bc.prod := by
  obtain ⟨T, h1, _, h2, h3⟩ := kron_entries A B hA hB ha hb
  obtain ⟨MT, r1, r2, r3⟩ := Decomp.reshape_matrix h2
  obtain ⟨MA, a1, a2, a3⟩ := Decomp.reshape_matrix hA
  obtain ⟨MB, b1, b2, b3⟩ := Decomp.reshape_matrix hB
  refine ⟨T, MT, MA, MB, h1, h2, r1, a1, b1, ?_, fun i hi j hj k hk l hl => ?_⟩
  · rw [r2, List.prod_append, List.prod_append]
  · have e1 := unravel_inB hi
    have e2 := unravel_inB hj
    have e3 := unravel_inB hk
    have e4 := unravel_inB hl
    have := r3 (unravel Ar i ++ unravel Br k) (unravel Ac j ++ unravel Bc l) (inB_append e1 e3) (inB_append e2 e4)
    rw [ravel_append e1.length, ravel_append e2.length, ravel_unravel hi, ravel_unravel hj, ravel_unravel hk,
      ravel_unravel hl, h3 _ _ _ _ e1 e2 e3 e4, ← a3 _ _ e1 e2, ← b3 _ _ e3 e4, ravel_unravel hi, ravel_unravel hj,
      ravel_unravel hk, ravel_unravel hl] at this
    exact this

/-- **C43**, tensors with an odd number of legs are rejected. -/
theorem C43_odd (A B : Tensor R) (h : A.array.ndim % 2 ≠ 0 ∨ B.array.ndim % 2 ≠ 0) :
    kron A B = .error .valueError := by
  unfold kron kronWith
  simp only [checkBackends, List.map_cons, List.map_nil, List.all_cons, List.all_nil, beq_self_eq_true,
    bind, Except.bind]
  rw [if_neg (by simp)]
  by_cases ha : A.array.ndim % 2 ≠ 0
  · rw [if_pos ha]
  · rw [if_neg ha, if_pos (h.resolve_left ha)]

/-- **C43** fails for backends: what `kron` does, does not depend on the backend of the second tensor, for
every outer product; so different backends are never what it rejects. -/
theorem C43_backend_ignored (outer : NDArray R → NDArray R → Py (NDArray R)) (A B : Tensor R) (name : String) :
    kronWith outer A ⟨B.array, name⟩ = kronWith outer A B := rfl

/-- **C43** fails for backends: matrices of different backends are accepted, though `outer` rejects them. -/
theorem C43_backend_false : ∃ A B : Tensor Nat, A.backend ≠ B.backend ∧ (∃ T, kron A B = .ok T) ∧
    outer A B = .error .valueError := by
  refine ⟨⟨⟨[1, 1], fun _ => 2⟩, "numpy"⟩, ⟨⟨[1, 1], fun _ => 3⟩, "jax"⟩, by decide, ?_, rfl⟩
  obtain ⟨T, _, _, _, h, _⟩ := C43_kron (R := Nat) ⟨⟨[1, 1], fun _ => 2⟩, "numpy"⟩ ⟨⟨[1, 1], fun _ => 3⟩, "jax"⟩
    (Ar := [1]) (Ac := [1]) (Br := [1]) (Bc := [1]) rfl rfl rfl rfl
  exact ⟨T, h⟩

/-- The example of the documentation. -/
example : ∃ T, kron (R := Nat) ⟨⟨[2, 3, 4, 5], fun i => ravel [2, 3, 4, 5] i⟩, "numpy"⟩
    ⟨⟨[6, 7], fun i => ravel [6, 7] i + 1⟩, "numpy"⟩ = .ok T ∧ T.array.shape = [2, 3, 6, 4, 5, 7] ∧
    T.array.get [1, 2, 5, 3, 4, 6] = 119 * 42 := by
  obtain ⟨T, h1, _, h2, h3⟩ := kron_entries (R := Nat) ⟨⟨[2, 3, 4, 5], fun i => ravel [2, 3, 4, 5] i⟩, "numpy"⟩
    ⟨⟨[6, 7], fun i => ravel [6, 7] i + 1⟩, "numpy"⟩ (Ar := [2, 3]) (Ac := [4, 5]) (Br := [6]) (Bc := [7])
    rfl rfl rfl rfl
  refine ⟨T, h1, h2, ?_⟩
  exact h3 [1, 2] [3, 4] [5] [6] (.cons (by decide) (.cons (by decide) .nil))
    (.cons (by decide) (.cons (by decide) .nil)) (.cons (by decide) .nil) (.cons (by decide) .nil)

end TN.Kron
