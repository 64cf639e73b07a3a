import Verif.Broadcast
import Verif.Kron
import Verif.NconProps
import Mathlib.Algebra.Field.Basic
import Mathlib.Algebra.Star.BigOperators

/-!
# The class `Tensor` (C84)

Model of tensornetwork/tensor.py with the numpy backend, of `finalize` (ncon_interface.py:665-669),
and of the two broadcasting products of the numpy backend (numpy_backend.py:560-575).  Aliasing of
buffers (`ravel` may return a view, `flatten` does not) and dtypes are not modelled.
-/

set_option linter.unusedSectionVars false

namespace TN.TensorCls

open TN NDArray Bcast Ncon

abbrev Tensor := Kron.Tensor

variable {R : Type}

/-! ### Model -/

/-- What may be handed to `Tensor(...)`: an array (numpy scalars are arrays with no axes), a Python
number, or anything else. -/
inductive Arg (R : Type)
  | array (a : NDArray R)
  | number (x : R)
  | other

/-- `NumPyBackend.convert_to_tensor` (numpy_backend.py:92-97). -/
def convertToTensor : Arg R → Py (NDArray R)
  | .array a => .ok a
  | .number x => .ok ⟨[], fun _ => x⟩
  | .other => .error .typeError

/-- The attribute `shape` of an argument. -/
def Arg.shape : Arg R → Py (List Nat)
  | .array a => .ok a.shape
  | _ => .error .attributeError

/-- `Tensor.__init__` (tensor.py:26-36): the array is converted, but `array.shape` is read from the
argument itself. -/
def newTensor (x : Arg R) (backend : String) : Py (Tensor R) := do
  let array ← convertToTensor x
  let _ ← x.shape
  pure ⟨array, backend⟩

/-- The second operand of an arithmetic operator: a `Tensor` or an array; a number is an array
without axes. -/
inductive Operand (R : Type)
  | tensor (t : Tensor R)
  | array (a : NDArray R)

/-- A number as operand. -/
def number (x : R) : Operand R := .array ⟨[], fun _ => x⟩

/-- The common form of `__mul__`, `__truediv__`, `__sub__`, `__add__` (tensor.py:133-177). -/
def binop (f : R → R → R) (self : Tensor R) : Operand R → Py (Tensor R)
  | .tensor other =>
    if self.backend ≠ other.backend then .error .valueError
    else do pure ⟨← elementwise f self.array other.array, self.backend⟩
  | .array other => do pure ⟨← elementwise f self.array other, self.backend⟩

/-- `__add__` (tensor.py:169-177). -/
def add [Add R] (self : Tensor R) (other : Operand R) : Py (Tensor R) := binop (· + ·) self other

/-- `__radd__ = __add__` (tensor.py:179). -/
def radd [Add R] (self : Tensor R) (other : Operand R) : Py (Tensor R) := add self other

/-- `__mul__` (tensor.py:133-141). -/
def mul [Mul R] (self : Tensor R) (other : Operand R) : Py (Tensor R) := binop (· * ·) self other

/-- `__rmul__ = __mul__` (tensor.py:143). -/
def rmul [Mul R] (self : Tensor R) (other : Operand R) : Py (Tensor R) := mul self other

/-- `__sub__` (tensor.py:155-163). -/
def sub [Sub R] (self : Tensor R) (other : Operand R) : Py (Tensor R) := binop (· - ·) self other

/-- `__rsub__` (tensor.py:165-167), which is only reached with a number on the left. -/
def rsub [Sub R] (self : Tensor R) (x : R) : Py (Tensor R) := do
  pure ⟨← elementwise (· - ·) ⟨[], fun _ => x⟩ self.array, self.backend⟩

/-- `__truediv__` (tensor.py:145-153). -/
def truediv [Div R] (self : Tensor R) (other : Operand R) : Py (Tensor R) := binop (· / ·) self other

/-- The operators of Python. -/
inductive Op
  | add | sub | mul | div
  deriving DecidableEq

/-- `x op t` with a number `x` on the left: Python calls the reflected method of the tensor.  The
class has no `__rtruediv__` (tensor.py:133-190), which is a `TypeError`. -/
def numberOp [Ring R] (op : Op) (x : R) (t : Tensor R) : Py (Tensor R) :=
  match op with
  | .add => radd t (number x)
  | .mul => rmul t (number x)
  | .sub => rsub t x
  | .div => .error .typeError

/-- `transpose` (tensor.py:122-131), `perm = None` reverses the axes. -/
def transpose (self : Tensor R) (perm : Option (List Nat)) : Py (Tensor R) := do
  pure ⟨← self.array.transpose (perm.getD (List.range self.array.ndim).reverse), self.backend⟩

/-- `T` (tensor.py:44-50). -/
def T (self : Tensor R) : Py (Tensor R) := transpose self none

/-- `NumPyBackend.conj` (numpy_backend.py:162-163). -/
def conjArray [Star R] (a : NDArray R) : NDArray R := ⟨a.shape, fun i => star (a.get i)⟩

/-- `conj` and `conjugate` (tensor.py:60-69). -/
def conj [Star R] (self : Tensor R) : Tensor R := ⟨conjArray self.array, self.backend⟩

/-- `H` (tensor.py:52-58). -/
def H [Star R] (self : Tensor R) : Py (Tensor R) := do
  let star := conjArray self.array
  pure ⟨← star.transpose (List.range star.ndim).reverse, self.backend⟩

/-- `hconj` (tensor.py:86-95). -/
def hconj [Star R] (self : Tensor R) (perm : Option (List Nat)) : Py (Tensor R) :=
  transpose (conj self) perm

/-- `reshape` (tensor.py:105-113). -/
def reshape (self : Tensor R) (shape : List Nat) : Py (Tensor R) := do
  pure ⟨← self.array.reshape shape, self.backend⟩

/-- `ravel` (tensor.py:97-103) and, up to the copy, `flatten` (tensor.py:76-84). -/
def ravelT (self : Tensor R) : Py (Tensor R) := reshape self [self.array.shape.prod]

/-- `squeeze` (tensor.py:115-120). -/
def squeeze (self : Tensor R) : Py (Tensor R) := reshape self (self.array.shape.filter fun d => d ≠ 1)

/-- `NumPyBackend.matmul` (numpy_backend.py:609-612) and `np.matmul`: the last two axes are matrix
axes, the other axes are broadcast. -/
def matmulArray [NonUnitalNonAssocSemiring R] (a b : NDArray R) : Py (NDArray R) :=
  if a.ndim ≤ 1 ∨ b.ndim ≤ 1 then .error .valueError
  else
    let ba := a.shape.take (a.ndim - 2)
    let bb := b.shape.take (b.ndim - 2)
    let m := a.shape.getD (a.ndim - 2) 0
    let k := a.shape.getD (a.ndim - 1) 0
    let k' := b.shape.getD (b.ndim - 2) 0
    let n := b.shape.getD (b.ndim - 1) 0
    if k ≠ k' then .error .valueError
    else match bshape ba bb with
      | none => .error .valueError
      | some s => .ok ⟨s ++ [m, n], fun i => ∑ l ∈ Finset.range k,
          a.get (bidx ba (i.take s.length) ++ [i.getD s.length 0, l]) *
          b.get (bidx bb (i.take s.length) ++ [l, i.getD (s.length + 1) 0])⟩

/-- `__matmul__` (tensor.py:181-187). -/
def matmul [NonUnitalNonAssocSemiring R] (self other : Tensor R) : Py (Tensor R) :=
  if self.backend ≠ other.backend then .error .valueError
  else do pure ⟨← matmulArray self.array other.array, self.backend⟩

/-- `NumPyBackend.broadcast_right_multiplication` (numpy_backend.py:560-565). -/
def broadcastRight [Mul R] (tensor1 tensor2 : NDArray R) : Py (NDArray R) :=
  if tensor2.ndim ≠ 1 then .error .valueError
  else elementwise (· * ·) tensor1 tensor2

/-- `NumPyBackend.broadcast_left_multiplication` (numpy_backend.py:567-575). -/
def broadcastLeft [Mul R] (tensor1 tensor2 : NDArray R) : Py (NDArray R) :=
  if tensor1.ndim ≠ 1 then .error .valueError
  else do
    let t ← tensor1.reshape (tensor1.shape ++ List.replicate (tensor2.ndim - 1) 1)
    elementwise (· * ·) tensor2 t

/-- `NconBuilder` (tensor.py:193-202). -/
structure NconBuilder (R : Type) where
  tensors : List (Tensor R)
  axes : List (List Lab)

/-- `Tensor.__call__` (tensor.py:189-190). -/
def call (t : Tensor R) (args : List Lab) : NconBuilder R := ⟨[t], [args]⟩

/-- `NconBuilder.__matmul__` (tensor.py:198-202). -/
def NconBuilder.matmul (self other : NconBuilder R) : NconBuilder R :=
  ⟨self.tensors ++ other.tensors, self.axes ++ other.axes⟩

/-- `ncon` with `Tensor` objects (ncon_interface.py:613-663): the backends are compared, the arrays
are contracted, and the result is a `Tensor` again. -/
def nconTensors [CommSemiring R] (so : SetOrder) (ts : List (Tensor R)) (ls : List (List Lab)) (backend : String) :
    Py (Tensor R) :=
  if ts.all fun t => t.backend = backend then do
    pure ⟨← ncon so (ts.map (·.array)) ls none none true, backend⟩
  else .error .valueError

/-- `finalize` (ncon_interface.py:665-669). -/
def finalize [CommSemiring R] (so : SetOrder) (b : NconBuilder R) : Py (Tensor R) :=
  match b.tensors with
  | [] => .error .indexError
  | t :: _ => nconTensors so b.tensors b.axes t.backend

/-! ### Arithmetic -/

/-- `j` is the index of an array of shape `s` that belongs to the index `i` of a result: counted from
the end, the entries agree wherever the axis is not repeated. -/
def Aligned (s i j : List Nat) : Prop :=
  InB s j ∧ ∀ k, axisFromEnd s k ≠ 1 → j.reverse.getD k 0 = i.reverse.getD k 0

theorem aligned_bidx {s i j : List Nat} (hl : s.length ≤ i.length) (h : Aligned s i j) : bidx s i = j := by
  obtain ⟨h1, h2⟩ := h
  have hj := h1.length
  have hr : List.Forall₂ (· < ·) j.reverse s.reverse := List.forall₂_reverse_iff.2 h1
  have : bidxR s.reverse i.reverse = j.reverse := by
    apply List.ext_getElem
    · simp [bidxR]; omega
    · intro k hk hk'
      have hks : k < s.reverse.length := by simp at hk' ⊢; omega
      have hki : k < i.reverse.length := by simp at hks ⊢; omega
      simp only [bidxR, List.getElem_zipWith]
      have hlt := hr.get hk' hks
      simp only [List.get_eq_getElem] at hlt
      split_ifs with hd
      · omega
      · have := h2 k (by simpa only [axisFromEnd, List.getD_eq_getElem _ _ hks] using hd)
        rw [List.getD_eq_getElem _ _ hk', List.getD_eq_getElem _ _ hki] at this
        exact this.symm
  rw [bidx, this, List.reverse_reverse]

/-- Two shapes can be combined, and `s` is the shape of the result. -/
def Fit (a b s : List Nat) : Prop :=
  (∀ k, axisFromEnd a k = axisFromEnd b k ∨ axisFromEnd a k = 1 ∨ axisFromEnd b k = 1) ∧
    s.length = max a.length b.length ∧
    ∀ k, axisFromEnd s k = if axisFromEnd a k = 1 then axisFromEnd b k else axisFromEnd a k

theorem elementwise_spec (f : R → R → R) (a b : NDArray R) :
    (∃ c, elementwise f a b = .ok c ∧ Fit a.shape b.shape c.shape ∧
      ∀ i, InB c.shape i → (∃ ja jb, Aligned a.shape i ja ∧ Aligned b.shape i jb) ∧
        ∀ ja jb, Aligned a.shape i ja → Aligned b.shape i jb → c.get i = f (a.get ja) (b.get jb)) ∨
    (elementwise f a b = .error .valueError ∧
      ∃ k, axisFromEnd a.shape k ≠ axisFromEnd b.shape k ∧ axisFromEnd a.shape k ≠ 1 ∧ axisFromEnd b.shape k ≠ 1) := by
  have al : ∀ {a b s i : List Nat}, bshape a b = some s → InB s i → Aligned a i (bidx a i) := by
    intro a b s i h hi
    refine ⟨bidx_inB h hi, fun k hk => ?_⟩
    by_cases hka : k < a.reverse.length
    · have hlen := (bshape_eq_some.1 h).2.1
      have hil := hi.length
      have hki : k < i.reverse.length := by simp at hka ⊢; omega
      have hkz : k < (bidxR a.reverse i.reverse).length := by simp only [bidxR, List.length_zipWith]; omega
      simp only [bidx, List.reverse_reverse]
      rw [List.getD_eq_getElem _ _ hkz, List.getD_eq_getElem _ _ hki]
      simp only [bidxR, List.getElem_zipWith]
      rw [if_neg (by simpa only [axisFromEnd, List.getD_eq_getElem _ _ hka] using hk)]
    · exact absurd (by simp only [axisFromEnd]; exact List.getD_eq_default _ _ (by omega)) hk
  unfold elementwise
  cases h : bshape a.shape b.shape with
  | none => exact .inr ⟨rfl, bshape_eq_none.1 h⟩
  | some s =>
    have hf := bshape_eq_some.1 h
    refine .inl ⟨_, rfl, hf, fun i hi => ⟨⟨_, _, al h hi, al (bshape_comm _ _ ▸ h) hi⟩, fun ja jb ha hb => ?_⟩⟩
    have hil : i.length = s.length := InB.length hi
    rw [hf.2.1] at hil
    simp only [aligned_bidx (by omega) ha, aligned_bidx (by omega) hb]

/-- The operation that an operator stands for. -/
def Op.eval [Field R] : Op → R → R → R
  | .add => (· + ·)
  | .sub => (· - ·)
  | .mul => (· * ·)
  | .div => (· / ·)

/-- `t op other`. -/
def tensorOp [Field R] (op : Op) (t : Tensor R) (other : Operand R) : Py (Tensor R) :=
  match op with
  | .add => add t other
  | .sub => sub t other
  | .mul => mul t other
  | .div => truediv t other

theorem tensorOp_eq [Field R] (op : Op) (t : Tensor R) (other : Operand R) :
    tensorOp op t other = binop op.eval t other := by cases op <;> rfl

/-- **C84**, arithmetic of two tensors.  Tensors of different backends are refused; otherwise the
result exists exactly when the shapes can be broadcast, has the broadcast shape, and every entry is
the operation applied to the entries that belong to it. -/
theorem C84_tensor_op [Field R] (op : Op) (a b : Tensor R) :
    (a.backend ≠ b.backend → tensorOp op a (.tensor b) = .error .valueError) ∧
    (a.backend = b.backend →
      ((∃ k, axisFromEnd a.array.shape k ≠ axisFromEnd b.array.shape k ∧ axisFromEnd a.array.shape k ≠ 1 ∧
          axisFromEnd b.array.shape k ≠ 1) → tensorOp op a (.tensor b) = .error .valueError) ∧
      ((∀ k, axisFromEnd a.array.shape k = axisFromEnd b.array.shape k ∨ axisFromEnd a.array.shape k = 1 ∨
          axisFromEnd b.array.shape k = 1) →
        ∃ c, tensorOp op a (.tensor b) = .ok c ∧ c.backend = a.backend ∧
          Fit a.array.shape b.array.shape c.array.shape ∧
          ∀ i, InB c.array.shape i →
            (∃ ja jb, Aligned a.array.shape i ja ∧ Aligned b.array.shape i jb) ∧
            ∀ ja jb, Aligned a.array.shape i ja → Aligned b.array.shape i jb →
              c.array.get i = op.eval (a.array.get ja) (b.array.get jb))) := by
  rw [tensorOp_eq]
  refine ⟨fun h => by simp [binop, h], fun h => ⟨?_, ?_⟩⟩
  · rintro ⟨k, hk⟩
    rcases elementwise_spec op.eval a.array b.array with ⟨c, _, hf, _⟩ | ⟨he, _⟩
    · have := hf.1 k; tauto
    · simp [binop, h, he, bind, Except.bind]
  · intro hk
    rcases elementwise_spec op.eval a.array b.array with ⟨c, hc, hf, hv⟩ | ⟨_, k, hk'⟩
    · exact ⟨⟨c, a.backend⟩, by simp [binop, h, hc, bind, Except.bind, pure, Except.pure], rfl, hf, hv⟩
    · have := hk k; tauto

/-- **C84**, tensors of the same shape: the operation acts entry by entry. -/
theorem C84_same_shape [Field R] (op : Op) (a b : Tensor R) (hb : a.backend = b.backend)
    (hs : a.array.shape = b.array.shape) :
    ∃ c, tensorOp op a (.tensor b) = .ok c ∧ c.backend = a.backend ∧ c.array.shape = a.array.shape ∧
      ∀ i, InB a.array.shape i → c.array.get i = op.eval (a.array.get i) (b.array.get i) := by
  rw [tensorOp_eq]
  refine ⟨⟨⟨a.array.shape, fun i => op.eval (a.array.get (bidx a.array.shape i))
    (b.array.get (bidx a.array.shape i))⟩, a.backend⟩, by
    simp only [binop, hb, ne_eq, not_true_eq_false, if_false, elementwise, ← hs, bshape_self]; rfl, rfl, rfl, ?_⟩
  intro i hi
  simp only [bidx_self hi]

/-- **C84**, numbers: `t op x` acts entry by entry, and so does `x op t` for all operators but the
division. -/
theorem C84_number [Field R] (op : Op) (t : Tensor R) (x : R) :
    (∃ c, tensorOp op t (number x) = .ok c ∧ c.backend = t.backend ∧ c.array.shape = t.array.shape ∧
      ∀ i, InB t.array.shape i → c.array.get i = op.eval (t.array.get i) x) ∧
    (op ≠ .div → ∃ c, numberOp op x t = .ok c ∧ c.backend = t.backend ∧ c.array.shape = t.array.shape ∧
      ∀ i, InB t.array.shape i → c.array.get i = op.eval x (t.array.get i)) := by
  constructor
  · rw [tensorOp_eq]
    refine ⟨⟨⟨t.array.shape, fun i => op.eval (t.array.get (bidx t.array.shape i)) x⟩, t.backend⟩, by
      simp only [binop, number, elementwise, bshape_nil_right]; rfl, rfl, rfl, ?_⟩
    intro i hi
    simp only [bidx_self hi]
  · intro hop
    cases op with
    | div => exact absurd rfl hop
    | add =>
      refine ⟨⟨⟨t.array.shape, fun i => t.array.get (bidx t.array.shape i) + x⟩, t.backend⟩, by
        simp only [numberOp, radd, add, binop, number, elementwise, bshape_nil_right]; rfl, rfl, rfl, ?_⟩
      intro i hi
      simp only [bidx_self hi, Op.eval, add_comm]
    | mul =>
      refine ⟨⟨⟨t.array.shape, fun i => t.array.get (bidx t.array.shape i) * x⟩, t.backend⟩, by
        simp only [numberOp, rmul, mul, binop, number, elementwise, bshape_nil_right]; rfl, rfl, rfl, ?_⟩
      intro i hi
      simp only [bidx_self hi, Op.eval, mul_comm]
    | sub =>
      refine ⟨⟨⟨t.array.shape, fun i => x - t.array.get (bidx t.array.shape i)⟩, t.backend⟩, by
        simp only [numberOp, rsub, elementwise, bshape_nil_left]; rfl, rfl, rfl, ?_⟩
      intro i hi
      simp only [bidx_self hi, Op.eval]

/-- **C84**, the operators of Python with a number on the left are not all available: `x / t` is a
`TypeError` for every tensor. -/
theorem C84_number_left_false [Field R] : ¬ ∀ (op : Op) (x : R) (t : Tensor R), ∃ c, numberOp op x t = .ok c := by
  intro h
  obtain ⟨c, hc⟩ := h .div 1 ⟨⟨[], fun _ => 1⟩, "numpy"⟩
  cases hc

/-- **C84**, the laws of arithmetic hold for tensors of all shapes and backends, including the
cases where an exception is raised: sums and products are commutative and associative, products
distribute over sums, and a difference is the sum with the negative. -/
theorem C84_laws [CommRing R] (a b c : Tensor R) (x : R) :
    add a (.tensor b) = add b (.tensor a) ∧
    mul a (.tensor b) = mul b (.tensor a) ∧
    (add a (.tensor b) >>= fun y => add y (.tensor c)) = (add b (.tensor c) >>= fun y => add a (.tensor y)) ∧
    (mul a (.tensor b) >>= fun y => mul y (.tensor c)) = (mul b (.tensor c) >>= fun y => mul a (.tensor y)) ∧
    (add b (.tensor c) >>= fun y => mul a (.tensor y)) =
      (mul a (.tensor b) >>= fun y => mul a (.tensor c) >>= fun z => add y (.tensor z)) ∧
    sub a (.tensor b) = (mul b (number (-1)) >>= fun y => add a (.tensor y)) ∧
    rsub a x = (sub a (number x) >>= fun y => mul y (number (-1))) := by
  have comm : ∀ f : R → R → R, (∀ x y, f x y = f y x) → binop f a (.tensor b) = binop f b (.tensor a) := by
    intro f hf
    by_cases h : a.backend = b.backend
    · simp only [binop, h, elementwise_comm f hf a.array b.array]
    · simp [binop, h, Ne.symm h]
  have lift : ∀ (f : R → R → R) (p q : Tensor R), binop f p (.tensor q) =
      if p.backend = q.backend then (elementwise f p.array q.array).map (⟨·, p.backend⟩) else .error .valueError := by
    intro f p q
    by_cases h : p.backend = q.backend
    · simp only [binop, h, ne_eq, not_true_eq_false, if_false, if_true]
      cases elementwise f p.array q.array <;> rfl
    · simp [binop, h]
  have bindL : ∀ (f g : R → R → R), a.backend = b.backend → b.backend = c.backend →
      (binop f a (.tensor b) >>= fun y => binop g y (.tensor c)) =
        ((elementwise f a.array b.array >>= fun y => elementwise g y c.array).map (⟨·, a.backend⟩)) := by
    intro f g h h'
    rw [lift, if_pos h]
    cases e : elementwise f a.array b.array with
    | error e => rfl
    | ok y => simp only [Except.map, bind, Except.bind, lift, h.trans h', if_true]
  have bindR : ∀ (f g : R → R → R), a.backend = b.backend → b.backend = c.backend →
      (binop f b (.tensor c) >>= fun y => binop g a (.tensor y)) =
        ((elementwise f b.array c.array >>= fun y => elementwise g a.array y).map (⟨·, a.backend⟩)) := by
    intro f g h h'
    rw [lift, if_pos h']
    cases e : elementwise f b.array c.array with
    | error e => rfl
    | ok y => simp only [Except.map, bind, Except.bind, lift, h, if_true]
  have err : ∀ (f : R → R → R) (p q : Tensor R) (e : PyErr), binop f p (.tensor q) = .error e → e = .valueError := by
    intro f p q e h
    rw [lift] at h
    split_ifs at h
    · cases e' : elementwise f p.array q.array with
      | ok y => simp [e', Except.map] at h
      | error e'' =>
        simp only [e', Except.map, Except.error.injEq] at h
        exact h ▸ elementwise_error e'
    · simpa using h.symm
  have back : ∀ (f : R → R → R) (p q y : Tensor R), binop f p (.tensor q) = .ok y →
      p.backend = q.backend ∧ y.backend = p.backend := by
    intro f p q y h
    rw [lift] at h
    split_ifs at h with hpq
    cases e' : elementwise f p.array q.array with
    | error e'' => simp [e', Except.map] at h
    | ok z =>
      simp only [e', Except.map, Except.ok.injEq] at h
      exact ⟨hpq, by rw [← h]⟩
  have badL : ∀ (f g : R → R → R), ¬ (a.backend = b.backend ∧ b.backend = c.backend) →
      (binop f a (.tensor b) >>= fun y => binop g y (.tensor c)) = .error .valueError := by
    intro f g h
    cases e : binop f a (.tensor b) with
    | error e' => rw [err f a b e' e]; rfl
    | ok y =>
      obtain ⟨h1, h2⟩ := back f a b y e
      have : y.backend ≠ c.backend := fun hc => h ⟨h1, by rw [← h1, ← h2, hc]⟩
      simp only [bind, Except.bind, lift, this, if_false]
  have badR : ∀ (f g : R → R → R), ¬ (a.backend = b.backend ∧ b.backend = c.backend) →
      (binop f b (.tensor c) >>= fun y => binop g a (.tensor y)) = .error .valueError := by
    intro f g h
    cases e : binop f b (.tensor c) with
    | error e' => rw [err f b c e' e]; rfl
    | ok y =>
      obtain ⟨h1, h2⟩ := back f b c y e
      have : a.backend ≠ y.backend := fun hc => h ⟨hc.trans h2, h1⟩
      simp only [bind, Except.bind, lift, this, if_false]
  have assoc : ∀ f : R → R → R, (∀ x y z, f (f x y) z = f x (f y z)) →
      (binop f a (.tensor b) >>= fun y => binop f y (.tensor c)) =
        (binop f b (.tensor c) >>= fun y => binop f a (.tensor y)) := by
    intro f hf
    by_cases h : a.backend = b.backend ∧ b.backend = c.backend
    · rw [bindL f f h.1 h.2, bindR f f h.1 h.2, elementwise_assoc f hf]
    · rw [badL f f h, badR f f h]
  refine ⟨comm _ add_comm, comm _ mul_comm, assoc _ add_assoc, assoc _ mul_assoc, ?_, ?_, ?_⟩
  · unfold add mul
    by_cases h : a.backend = b.backend ∧ b.backend = c.backend
    · rw [bindR _ _ h.1 h.2, elementwise_bind_right, lift, if_pos h.1, ← bshape_distrib]
      simp only [elementwise]
      cases h1 : bshape a.array.shape b.array.shape with
      | none => rfl
      | some s =>
        simp only [Option.bind_some, Except.map, bind, Except.bind, lift, h.1.trans h.2, if_true, elementwise]
        cases h2 : bshape a.array.shape c.array.shape with
        | none => rfl
        | some t =>
          simp only [Option.bind_some, if_true]
          cases h3 : bshape s t with
          | none => rfl
          | some u =>
            simp only [bidx_bidx h1, bidx_bidx h2, bidx_bidx_right h1, bidx_bidx_right h2, mul_add]
    · rw [badR _ _ h]
      cases e : binop (· * ·) a (.tensor b) with
      | error e' => rw [err _ a b e' e]; rfl
      | ok y =>
        obtain ⟨h1, h2⟩ := back _ a b y e
        have : a.backend ≠ c.backend := fun hc => h ⟨h1, by rw [← h1, hc]⟩
        simp only [bind, Except.bind, lift, this, if_false]
  · unfold add mul sub
    have e : binop (· * ·) b (number (-1)) = .ok ⟨⟨b.array.shape, fun i => b.array.get (bidx b.array.shape i) * -1⟩, b.backend⟩ := by
      simp only [binop, number, elementwise, bshape_nil_right]; rfl
    rw [e, lift]
    simp only [bind, Except.bind, lift]
    split_ifs with h
    · unfold elementwise
      cases h1 : bshape a.array.shape b.array.shape with
      | none => rfl
      | some s =>
        have h2 := bidx_bidx (bshape_self b.array.shape)
        simp [h2, sub_eq_add_neg]
    · rfl
  · unfold mul sub rsub
    have e : binop (· - ·) a (number x) = .ok ⟨⟨a.array.shape, fun i => a.array.get (bidx a.array.shape i) - x⟩, a.backend⟩ := by
      simp only [binop, number, elementwise, bshape_nil_right]; rfl
    rw [e]
    simp only [binop, number, bind, Except.bind, elementwise, bshape_nil_left, bshape_nil_right, pure, Except.pure]
    have h2 := bidx_bidx (bshape_self a.array.shape)
    simp [h2]

end TN.TensorCls
