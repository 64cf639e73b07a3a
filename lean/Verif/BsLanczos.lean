import Verif.BsEigs
import Verif.BsDot
import Verif.LanczosProps2

/-!
# C96: `eigsh_lanczos` of the symmetric backend

backends/symmetric/symmetric_backend.py:294-448.  The model of `eigsh_lanczos` of the numpy backend (C57) is in Lanczos.lean.  Simplifications:
`args` and the cache (C27, C83) are left out; a division by the norm 0, which gives NaN, stops the model; `A` does not keep the tensor that it is
given.  The sums and differences of tensors can change the storage of their operands (C50); the tensors here are stored contiguously, so that
nothing moves, and the model drops the operands.
-/

set_option linter.unusedSectionVars false

namespace TN.Bs

open NDArray Lanczos

section
variable {Q : Type} [AddCommGroup Q] [LinearOrder Q] {K : Type} [RCLike K]

/-! ### The model -/

/-- `numpy.dot(numpy.conj(x), y)` for arrays of stored elements. -/
def bdot (x y : List K) : Py K :=
  if x.length = y.length then .ok (List.zipWith (fun a b => star a * b) x y).sum else .error .valueError

/-- `T / z` (blocksparsetensor.py:776-787). -/
noncomputable def bdiv (T : BST Q K) (z : ℝ) : Py (BST Q K) :=
  if z = 0 then .error .runtimeError else .ok (T.mapData fun x => x / (z : K))

/-- `S - O * c` (blocksparsetensor.py:728-736, 752-762). -/
def bsubMul (argsort : List Nat → List Nat) (empty : Nat → List K) (S : BST Q K) (c : K) (O : BST Q K) : Py (BST Q K) := do
  let r ← S.binop (· - ·) argsort empty (O.mapData fun x => x * c)
  .ok r.1

/-- `S + O * c` (blocksparsetensor.py:738-762). -/
def baddMul (argsort : List Nat → List Nat) (empty : Nat → List K) (S : BST Q K) (c : K) (O : BST Q K) : Py (BST Q K) := do
  let r ← S.binop (· + ·) argsort empty (O.mapData fun x => x * c)
  .ok r.1

/-- The loop of `reorthogonalize` (symmetric_backend.py:388-394). -/
def symReorth (argsort : List Nat → List Nat) (empty : Nat → List K) : List (BST Q K) → BST Q K → Py (BST Q K)
  | [], x => .ok x
  | v :: vs, x => do
    let v ← v.contiguous argsort empty none
    let c ← bdot v.data x.data
    symReorth argsort empty vs ⟨List.zipWith (fun a b => a - c * b) x.data v.data, x.legs, x.order⟩

/-- `if reorthogonalize:` (symmetric_backend.py:387). -/
def symOrth (argsort : List Nat → List Nat) (empty : Nat → List K) (reorth : Bool) (vecs : List (BST Q K)) (q : BST Q K) : Py (BST Q K) :=
  if reorth then symReorth argsort empty vecs q else .ok q

/-- The lists `krylov_vecs`, `diag_elements` and `norms_vector_n`. -/
structure SymKrylov (Q K : Type) where
  vecs : List (BST Q K)
  diag : List K
  norms : List ℝ

/-- `A_tridiag` (symmetric_backend.py:408-410, 426-428): the expression of the numpy backend. -/
noncomputable def SymKrylov.numbers (k : SymKrylov Q K) : Krylov K := ⟨[], k.diag, k.norms⟩

/-- The subtractions at the end of the loop (symmetric_backend.py:418-422). -/
noncomputable def symNext (argsort : List Nat → List Nat) (empty : Nat → List K) (it : Nat) (w : BST Q K) (a : K) (q : BST Q K) (z : ℝ)
    (last : BST Q K) : Py (BST Q K) := do
  let w ← bsubMul argsort empty w a q
  if 0 < it then bsubMul argsort empty w (z : K) last else .ok w

/-- The loop (symmetric_backend.py:377-423) with `n` iterations left.  `old` is `eigvalsold`, `none` while `first` is true. -/
noncomputable def symLoop (argsort : List Nat → List Nat) (empty : Nat → List K) (eigh : Eigh K) (A : BST Q K → Py (BST Q K)) (o : Opts) :
    Nat → Nat → BST Q K → SymKrylov Q K → Option (List ℝ) → Py (SymKrylov Q K)
  | 0, _, _, k, _ => .ok k
  | n + 1, it, v, k, old =>
    if |bsNorm v| < o.delta then .ok k else do
    let q ← bdiv v (bsNorm v)
    let q ← symOrth argsort empty o.reorth k.vecs q
    let w ← A q
    let w ← w.contiguous argsort empty none
    let a ← bdot q.data w.data
    let k' : SymKrylov Q K := ⟨k.vecs ++ [q], k.diag ++ [a], k.norms ++ [bsNorm v]⟩
    if 0 < it ∧ o.ndiag = 0 then .error .runtimeError
    else if 0 < it ∧ it % o.ndiag = 0 ∧ o.numeig ≤ k'.diag.length then
      if old.any (fun e => decide (distance (eigvals eigh o.numeig k'.numbers) e < o.tol)) then .ok k'
      else do
        let w ← symNext argsort empty it w a q (bsNorm v) (k.vecs.getLastD q)
        symLoop argsort empty eigh A o n (it + 1) w k' (some (eigvals eigh o.numeig k'.numbers))
    else do
      let w ← symNext argsort empty it w a q (bsNorm v) (k.vecs.getLastD q)
      symLoop argsort empty eigh A o n (it + 1) w k' old

/-- `zeros(indices)` (initialization.py:37-48, blocksparse_utils.py:33-60). -/
def zerosBST (argsort : List Nat → List Nat) (indices : List (List (Leg Q))) : Py (BST Q K) := do
  let n ← numNonzero argsort indices.flatten
  .ok ⟨List.replicate n 0, indices.flatten, consecutive 0 (indices.map List.length)⟩

/-- `state += vec * u[n1, n2]` for the vectors from number `j` on (symmetric_backend.py:435-436). -/
def symCombine (argsort : List Nat → List Nat) (empty : Nat → List K) (c : Nat → K) : Nat → List (BST Q K) → BST Q K → Py (BST Q K)
  | _, [], st => .ok st
  | j, v :: vs, st => do
    let st ← baddMul argsort empty st (c j) v
    symCombine argsort empty c (j + 1) vs st

/-- What the caller sees: eigenvalues, eigenvectors and the tensor `initial_state` after the call. -/
structure SymResult (Q K : Type) where
  vals : List ℝ
  vecs : List (BST Q K)
  initial : BST Q K

/-- `SymmetricBackend.eigsh_lanczos` (symmetric_backend.py:347-448).  `fresh` is `self.randn(shape, dtype)`, or `none` if one of the two is not
given.  `vector_n /= Z` makes a new tensor, as `BlockSparseTensor` has no division in place. -/
noncomputable def symLanczos (argsort : List Nat → List Nat) (empty : Nat → List K) (eigh : Eigh K) (A : BST Q K → Py (BST Q K)) (o : Opts)
    (initial : Init Q K) (fresh : Option (BST Q K)) : Py (SymResult Q K) :=
  if o.numKrylov < o.numeig then .error .valueError
  else if 1 < o.numeig ∧ o.reorth = false then .error .valueError
  else do
    let init ← match initial with
      | .missing => match fresh with
        | none => .error .valueError
        | some T => .ok T
      | .tensor T => .ok T
      | .other => .error .typeError
    let init ← init.contiguous argsort empty none
    let v ← bdiv init (bsNorm init)
    let k ← symLoop argsort empty eigh A o o.numKrylov 0 v ⟨[], [], []⟩ none
    let e := eigh _ (tridiag k.numbers)
    let vecs ← (List.range (min o.numeig k.diag.length)).mapM fun n => do
      let z ← zerosBST argsort init.sparseShape
      let state ← symCombine argsort empty (column e.2 n) 0 k.vecs z
      bdiv state (bsNorm state)
    .ok ⟨(List.ofFn e.1).take o.numeig, vecs, init⟩

/-! ### Specification -/

/-- `d` has the entries of the dense form of `T`. -/
def DenseIs (T : BST Q K) (d : NDArray K) : Prop := ∃ d0, T.todense = .ok d0 ∧ d0.Same d

/-- What `Index.__eq__` compares of a leg. -/
def legKey (l : Leg Q) : List Q × List Nat × Bool := (l.1.uniq, l.1.labels, l.2)

/-- The indices of the two tensors are equal. -/
def SameIndices (S T : BST Q K) : Prop := S.sparseShape.map (fun I => I.map legKey) = T.sparseShape.map (fun I => I.map legKey)

/-- The operator `A` on tensors with the indices of `b` is the operator `Ad` on their dense forms. -/
def DenseOp (A : BST Q K → Py (BST Q K)) (Ad : NDArray K → Py (NDArray K)) (b : BST Q K) : Prop :=
  ∀ T d, T.Valid → SameIndices T b → DenseIs T d → ∃ y e, A T = .ok y ∧ y.Valid ∧ SameIndices y b ∧ Ad d = .ok e ∧ DenseIs y e

/-! ### Two runs side by side -/

/-- Both calls raise the same error, or return related values. -/
def Sim {α β : Type} (r : α → β → Prop) : Py α → Py β → Prop
  | .ok a, .ok b => r a b
  | .error e, .error e' => e = e'
  | _, _ => False

theorem Sim.bind {α β γ δ : Type} {r : α → β → Prop} {r' : γ → δ → Prop} {x : Py α} {y : Py β} {f : α → Py γ} {g : β → Py δ}
    (h : Sim r x y) (hf : ∀ a b, r a b → Sim r' (f a) (g b)) : Sim r' (x >>= f) (y >>= g) := by
  cases x <;> cases y <;> first | exact h.elim | skip
  · exact h
  · exact hf _ _ h

theorem Sim.mapM {ι α β : Type} {r : α → β → Prop} {f : ι → Py α} {g : ι → Py β} (h : ∀ i, Sim r (f i) (g i)) (l : List ι) :
    Sim (List.Forall₂ r) (l.mapM f) (l.mapM g) := by
  induction l with
  | nil => exact .nil
  | cons i l ih =>
    rw [List.mapM_cons, List.mapM_cons]
    exact (h i).bind fun a b hab => ih.bind fun as bs hs => .cons hab hs

/-- A tensor in the layout of `X` with the dense form `d`. -/
structure Rel (X T : BST Q K) (d : NDArray K) : Prop where
  valid : T.Valid
  order : T.order = X.order
  key : T.legs.map legKey = X.legs.map legKey
  dense : DenseIs T d

/-- The layout of `X` is contiguous. -/
structure Frame (X : BST Q K) : Prop where
  valid : X.Valid
  ne : X.order ≠ []
  flat : X.order.flatten = List.range X.legs.length

theorem indices_of_key {S T : BST Q K} (ho : S.order = T.order) (hk : S.legs.map legKey = T.legs.map legKey) : SameIndices S T := by
  rw [SameIndices, BST.sparseShape, BST.sparseShape, ho, List.map_map, List.map_map]
  refine List.map_congr_left fun g _ => ?_
  simp only [Function.comp_apply, pick, List.map_map]
  refine List.map_congr_left fun n _ => ?_
  simp only [Function.comp_apply]
  rw [← List.getD_map (f := legKey), ← List.getD_map (f := legKey), hk]

theorem key_of_indices {S T : BST Q K} (h : SameIndices S T) (hS : S.Valid) (hT : T.Valid) (fS : S.order.flatten = List.range S.legs.length)
    (fT : T.order.flatten = List.range T.legs.length) : S.order = T.order ∧ S.legs.map legKey = T.legs.map legKey := by
  have e : ∀ {T : BST Q K}, T.Valid → T.order.flatten = List.range T.legs.length →
      (T.sparseShape.map (fun I => I.map legKey)).flatten = T.legs.map legKey := by
    intro T hT fT
    rw [← List.map_flatten, hT.sparseShape_flatten, fT, pick, map_range_getD]
  have hk : S.legs.map legKey = T.legs.map legKey := by rw [← e hS fS, ← e hT fT, h]
  refine ⟨List.eq_iff_flatten_eq.2 ⟨?_, ?_⟩, hk⟩
  · have := congrArg List.length hk
    rw [List.length_map, List.length_map] at this
    rw [fS, fT, this]
  · have := congrArg (List.map List.length) h
    simpa [BST.sparseShape, pick, Function.comp_def] using this

theorem SameIndices.indexEq {S T : BST Q K} (h : SameIndices S T) : S.sparseShape.length = T.sparseShape.length ∧
    ∀ n < S.sparseShape.length, indexEq (S.sparseShape.getD n []) (T.sparseShape.getD n []) := by
  have hl : S.sparseShape.length = T.sparseShape.length := by simpa using congrArg List.length h
  refine ⟨hl, fun n hn => ?_⟩
  have e : (S.sparseShape.getD n []).map legKey = (T.sparseShape.getD n []).map legKey := by
    have := congrArg (fun l => l.getD n []) h
    simpa [List.getD_eq_getElem?_getD, hn, hl ▸ hn] using this
  exact ⟨by simpa using (congrArg List.length e).symm, e⟩

theorem Rel.indices {X T : BST Q K} {d : NDArray K} (h : Rel X T d) : SameIndices T X := indices_of_key h.order h.key

theorem Rel.flat {X T : BST Q K} (hX : Frame X) {d : NDArray K} (h : Rel X T d) : T.order.flatten = List.range T.legs.length := by
  have := congrArg List.length h.key
  rw [List.length_map, List.length_map] at this
  rw [h.order, hX.flat, this]

theorem Rel.map {X T : BST Q K} (hX : Frame X) {d : NDArray K} (h : Rel X T d) {f : K → K} (hf : f 0 = 0) :
    Rel X (T.mapData f) ⟨d.shape, fun i => f (d.get i)⟩ := by
  obtain ⟨v, e, e', h1, h2, h3, h4⟩ := C50_map hf h.valid (h.order ▸ hX.ne)
  obtain ⟨d0, d1, d2⟩ := h.dense
  rw [h1] at d1; cases d1
  exact ⟨v, h.order, h.key, e', h2, h3.trans d2.1, fun i hi => by rw [h4 i (h3 ▸ hi), d2.2 i (h3 ▸ hi)]⟩

theorem Rel.zip {argsort : List Nat → List Nat} (ha : ArgsortOK argsort) {empty : Nat → List K} (he : ∀ n, (empty n).length = n)
    {X S T : BST Q K} (hX : Frame X) {s t : NDArray K} (hS : Rel X S s) (hT : Rel X T t) {f : K → K → K} (hf : f 0 0 = 0) :
    S.binop f argsort empty T = .ok (⟨List.zipWith f S.data T.data, S.legs, S.order⟩, S, T) ∧ t.shape = s.shape ∧ S.data.length = T.data.length ∧
    Rel X ⟨List.zipWith f S.data T.data, S.legs, S.order⟩ ⟨s.shape, fun i => f (s.get i) (t.get i)⟩ := by
  obtain ⟨hl, hi⟩ := (indices_of_key (hS.order.trans hT.order.symm) (hS.key.trans hT.key.symm)).indexEq
  obtain ⟨Z, S', T', s0, s', t0, t', d, b1, b2, b3, b4, b5, b6, b7, b8, b9, b10, b11, b12, b13, b14⟩ :=
    C50_binop hf ha he hS.valid hT.valid (hS.order ▸ hX.ne) hl hi
  obtain ⟨s1, e1, e2⟩ := hS.dense
  obtain ⟨t1, e3, e4⟩ := hT.dense
  rw [b5] at e1; cases e1
  rw [b8] at e3; cases e3
  have b1' := b1
  rw [BST.binop] at b1'
  cases hp : S.protect T with
  | error e => rw [hp] at b1'; cases b1'
  | ok u =>
  have hal : S.align argsort empty T = .ok (S, T) := by
    rw [BST.align, hS.flat hX, hT.flat hX]
    simp
  rw [hp] at b1'
  simp only [bind, Except.bind, hal] at b1'
  split_ifs at b1' with hlen
  simp only [Except.ok.injEq, Prod.mk.injEq] at b1'
  obtain ⟨rfl, rfl, rfl⟩ := b1'
  refine ⟨b1, by rw [← e4.1, b13, e2.1], hlen, b2, hS.order, hS.key, d, b11, b12.trans e2.1, fun i hi => ?_⟩
  rw [b14 i (b12 ▸ hi), e2.2 i (b12 ▸ hi), e4.2 i (b13 ▸ b12 ▸ hi)]

theorem Rel.norm {X T : BST Q K} (hX : Frame X) {d : NDArray K} (h : Rel X T d) : bsNorm T = Mps.norm d := by
  obtain ⟨e, h1, h2⟩ := C69_norm h.valid (h.order ▸ hX.ne)
  obtain ⟨d0, d1, d2⟩ := h.dense
  rw [h1] at d1; cases d1
  rw [h2, sum_grid, Mps.norm, d2.1]
  congr 1
  exact sumIdx_congr fun i hi => by rw [d2.2 i (d2.1 ▸ hi)]

theorem Rel.dot {argsort : List Nat → List Nat} (ha : ArgsortOK argsort) {X S T : BST Q K} (hX : Frame X) {s t : NDArray K} (hS : Rel X S s)
    (hT : Rel X T t) : ∃ c, bdot S.data T.data = .ok c ∧ Lanczos.dot s t = .ok c := by
  obtain ⟨-, h1, h2, h3⟩ := Rel.zip ha (empty := fun n => List.replicate n 0) (by simp) hX hS hT (f := fun a b => star a * b) (by simp)
  refine ⟨_, by rw [bdot, if_pos h2], ?_⟩
  rw [Lanczos.dot, if_pos h1.symm]
  obtain ⟨e, e1, e2⟩ := sum_dense h3.valid (h3.order ▸ hX.ne) (fun x => x) rfl
  obtain ⟨d0, d1, d2⟩ := h3.dense
  rw [e1] at d1; cases d1
  simp only [List.map_id'] at e2
  rw [e2, sum_grid, d2.1]
  exact congrArg _ (sumIdx_congr fun i hi => by rw [d2.2 i (d2.1 ▸ hi)])

theorem Rel.div {X T : BST Q K} (hX : Frame X) {d : NDArray K} (h : Rel X T d) (z : ℝ) : Sim (Rel X) (bdiv T z) (Mps.divide d z) := by
  rw [bdiv, Mps.divide]
  split_ifs
  · exact rfl
  · exact h.map hX (f := fun x => x / (z : K)) (by simp)

theorem Rel.congr {X T : BST Q K} {d e : NDArray K} (h : Rel X T d) (he : d.Same e) : Rel X T e := by
  obtain ⟨d0, d1, d2⟩ := h.dense
  exact ⟨h.valid, h.order, h.key, d0, d1, d2.1.trans he.1, fun i hi => (d2.2 i hi).trans (he.2 i (d2.1 ▸ hi))⟩

theorem Rel.contig {X T : BST Q K} (hX : Frame X) {d : NDArray K} (h : Rel X T d) (argsort : List Nat → List Nat) (empty : Nat → List K) :
    T.contiguous argsort empty none = .ok T := by
  rw [BST.contiguous]
  simp [h.flat hX]

theorem Rel.subMul {argsort : List Nat → List Nat} (ha : ArgsortOK argsort) {empty : Nat → List K} (he : ∀ n, (empty n).length = n)
    {X S T : BST Q K} (hX : Frame X) {s t : NDArray K} (hS : Rel X S s) (hT : Rel X T t) (c : K) :
    ∃ Z, bsubMul argsort empty S c T = .ok Z ∧ Rel X Z (subScaled s c t) := by
  obtain ⟨h1, h2, h3, h4⟩ := Rel.zip ha he hX hS (hT.map hX (f := fun x => x * c) (by simp)) (f := (· - ·)) (by simp)
  refine ⟨_, by rw [bsubMul, h1]; rfl, h4.congr ⟨rfl, fun i _ => ?_⟩⟩
  change s.get i - t.get i * c = s.get i - c * t.get i
  rw [mul_comm c]

theorem Rel.reorth {argsort : List Nat → List Nat} (ha : ArgsortOK argsort) {empty : Nat → List K} (he : ∀ n, (empty n).length = n)
    {X : BST Q K} (hX : Frame X) {V : List (BST Q K)} {vs : List (NDArray K)} (hV : List.Forall₂ (Rel X) V vs) {T : BST Q K} {d : NDArray K}
    (h : Rel X T d) : Sim (Rel X) (symReorth argsort empty V T) (reorthogonalize vs d) := by
  induction hV generalizing T d with
  | nil => exact h
  | cons h1 h2 ih =>
    rw [symReorth, reorthogonalize, h1.contig hX]
    obtain ⟨c, c1, c2⟩ := Rel.dot ha hX h1 h
    change Sim _ (bdot _ _ >>= _) _
    rw [c1, c2]
    obtain ⟨-, -, -, h4⟩ := Rel.zip ha he hX h h1 (f := fun a b => a - c * b) (by simp)
    exact ih h4

theorem Rel.orth {argsort : List Nat → List Nat} (ha : ArgsortOK argsort) {empty : Nat → List K} (he : ∀ n, (empty n).length = n)
    {X : BST Q K} (hX : Frame X) {V : List (BST Q K)} {vs : List (NDArray K)} (hV : List.Forall₂ (Rel X) V vs) {T : BST Q K} {d : NDArray K}
    (h : Rel X T d) (reorth : Bool) : Sim (Rel X) (symOrth argsort empty reorth V T) (orthStep reorth vs d) := by
  cases reorth
  · exact h
  · exact Rel.reorth ha he hX hV h

/-- The two states of the loop. -/
def KRel (X : BST Q K) (k : SymKrylov Q K) (k' : Krylov K) : Prop :=
  List.Forall₂ (Rel X) k.vecs k'.vecs ∧ k.diag = k'.diag ∧ k.norms = k'.norms

theorem forall₂_getLastD {α β : Type} {r : α → β → Prop} {l : List α} {m : List β} (h : List.Forall₂ r l m) {a : α} {b : β} (hab : r a b) :
    r (l.getLastD a) (m.getLastD b) := by
  induction h generalizing a b with
  | nil => exact hab
  | cons h1 h2 ih => simpa only [List.getLastD_cons] using ih h1

theorem next_rel {argsort : List Nat → List Nat} (ha : ArgsortOK argsort) {empty : Nat → List K} (he : ∀ n, (empty n).length = n)
    {X : BST Q K} (hX : Frame X) {W T L : BST Q K} {w q l : NDArray K} (hW : Rel X W w) (hT : Rel X T q) (hL : Rel X L l) (it : Nat) (a : K) (z : ℝ) :
    ∃ Z, symNext argsort empty it W a T z L = .ok Z ∧
      Rel X Z (if 0 < it then subScaled (subScaled w a q) ((z : ℝ) : K) l else subScaled w a q) := by
  obtain ⟨Z, z1, z2⟩ := Rel.subMul ha he hX hW hT a
  rw [symNext, z1]
  change ∃ Z', (if 0 < it then _ else _) = _ ∧ _
  split_ifs with h
  · exact Rel.subMul ha he hX z2 hL _
  · exact ⟨Z, rfl, z2⟩

theorem loop_sim {argsort : List Nat → List Nat} (ha : ArgsortOK argsort) {empty : Nat → List K} (he : ∀ n, (empty n).length = n)
    {X : BST Q K} (hX : Frame X) (eigh : Eigh K) {A : BST Q K → Py (BST Q K)} {Ad : NDArray K → Py (NDArray K)} (hA : DenseOp A Ad X) (o : Opts)
    (n it : Nat) (T : BST Q K) (v : NDArray K) (k : SymKrylov Q K) (k' : Krylov K) (old : Option (List ℝ)) (h : Rel X T v) (hk : KRel X k k') :
    Sim (KRel X) (symLoop argsort empty eigh A o n it T k old) (loop eigh Ad o n it v k' old) := by
  induction n generalizing it T v k k' old with
  | zero => exact hk
  | succ n ih =>
    obtain ⟨kv, kd, kn⟩ := k
    obtain ⟨kv', kd', kn'⟩ := k'
    obtain ⟨k1, rfl, rfl⟩ := hk
    rw [symLoop, loop, h.norm hX]
    by_cases hd : |Mps.norm v| < o.delta
    · rw [if_pos hd, if_pos hd]; exact ⟨k1, rfl, rfl⟩
    rw [if_neg hd, if_neg hd]
    refine (h.div hX _).bind fun q q' hq => (Rel.orth ha he hX k1 hq _).bind fun q q' hq => ?_
    obtain ⟨y, e, y1, y2, y3, y4, y5⟩ := hA q q' hq.valid hq.indices hq.dense
    obtain ⟨Y, f, f', c1, c2, c3, c4, c5, c6, c7⟩ := C26_contiguous ha he y2 (by
      intro h0
      have := congrArg List.length y3
      simp only [BST.sparseShape, h0, List.length_map, List.length_nil] at this
      exact hX.ne (List.length_eq_zero_iff.1 this.symm)) none (by simp)
    have hY : Rel X Y e := by
      have hi : SameIndices Y X := by rw [SameIndices, c6]; exact y3
      have fl : Y.order.flatten = List.range Y.legs.length := by
        have := c2.perm.length_eq
        rw [(c7 rfl).1, List.length_range, List.length_range] at this
        rw [(c7 rfl).1, this]
      obtain ⟨g1, g2⟩ := key_of_indices hi c2 hX.valid fl hX.flat
      obtain ⟨d0, d1, d2⟩ := y5
      rw [c3] at d1; cases d1
      exact ⟨c2, g1, g2, f', c4, c5.1.trans d2.1, fun i hi => (c5.2 i hi).trans (d2.2 i (c5.1 ▸ hi))⟩
    obtain ⟨a, a1, a2⟩ := Rel.dot ha hX hq hY
    rw [y1, y4]
    change Sim _ (y.contiguous argsort empty none >>= _) (Lanczos.dot q' e >>= _)
    rw [c1, a2]
    change Sim _ (bdot q.data Y.data >>= _) _
    rw [a1]
    have hk' : KRel X ⟨kv ++ [q], kd ++ [a], kn ++ [Mps.norm v]⟩ ⟨kv' ++ [q'], kd ++ [a], kn ++ [Mps.norm v]⟩ :=
      ⟨List.rel_append k1 (.cons hq .nil), rfl, rfl⟩
    obtain ⟨Z, z1, z2⟩ := next_rel ha he hX hY hq (forall₂_getLastD k1 hq) it a (Mps.norm v)
    simp only [bind, Except.bind, z1]
    by_cases g1 : 0 < it ∧ o.ndiag = 0
    · rw [if_pos g1, if_pos g1]; exact rfl
    rw [if_neg g1, if_neg g1]
    by_cases g2 : 0 < it ∧ it % o.ndiag = 0 ∧ o.numeig ≤ (kd ++ [a]).length
    · rw [if_pos g2, if_pos g2]
      change Sim _ (if (old.any fun e => decide (distance (eigvals eigh o.numeig ⟨kv' ++ [q'], kd ++ [a], kn ++ [Mps.norm v]⟩) e < o.tol)) = true
        then _ else _) _
      by_cases g3 : (old.any fun e => decide (distance (eigvals eigh o.numeig ⟨kv' ++ [q'], kd ++ [a], kn ++ [Mps.norm v]⟩) e < o.tol)) = true
      · rw [if_pos g3, if_pos g3]; exact hk'
      · rw [if_neg g3, if_neg g3]; exact ih _ _ _ _ _ _ z2 hk'
    · rw [if_neg g2, if_neg g2]
      exact ih _ _ _ _ _ _ z2 hk'

theorem zeros_rel {argsort : List Nat → List Nat} (ha : ArgsortOK argsort) {X : BST Q K} (hX : Frame X) {d : NDArray K} (h : Rel X X d) :
    ∃ Z, zerosBST argsort X.sparseShape = .ok Z ∧ Rel X Z ⟨d.shape, fun _ => 0⟩ := by
  refine ⟨X.mapData fun _ => 0, ?_, h.map hX (f := fun _ => 0) rfl⟩
  have h1 : X.sparseShape.flatten = X.legs := by rw [hX.valid.sparseShape_flatten, hX.flat, pick, map_range_getD]
  have h2 : X.sparseShape.map List.length = X.order.map List.length := by simp [BST.sparseShape, pick, Function.comp_def]
  have hne : X.legs ≠ [] := by
    intro h0
    obtain ⟨g, hg⟩ := List.exists_mem_of_ne_nil _ hX.ne
    obtain ⟨n, hn⟩ := List.exists_mem_of_ne_nil _ (hX.valid.groups g hg)
    have := hX.valid.mem_order.1 (List.mem_flatten.2 ⟨g, hg, hn⟩)
    simp [h0] at this
  have h3 : consecutive 0 (X.order.map List.length) = X.order := by
    refine List.eq_iff_flatten_eq.2 ⟨?_, consecutive_length _ _⟩
    rw [consecutive_flatten, ← List.length_flatten, hX.flat, List.length_range, List.range_eq_range']
  have h4 : numNonzero argsort X.legs = .ok X.data.length := by
    rw [C22_num_nonzero ha hX.valid.wf hne, hX.valid.size, stored, ← List.countP_eq_length_filter, dims_eff]
  rw [zerosBST, h1, h4, h2, h3]
  change Except.ok _ = _
  rw [BST.mapData, List.map_const']

theorem combine_rel {argsort : List Nat → List Nat} (ha : ArgsortOK argsort) {empty : Nat → List K} (he : ∀ n, (empty n).length = n)
    {X : BST Q K} (hX : Frame X) (c : Nat → K) (s : List Nat) {V : List (BST Q K)} {vs : List (NDArray K)} (hV : List.Forall₂ (Rel X) V vs)
    (pre : List (NDArray K)) (S : BST Q K) (hS : Rel X S (combine s pre c)) :
    ∃ Z, symCombine argsort empty c pre.length V S = .ok Z ∧ Rel X Z (combine s (pre ++ vs) c) := by
  induction hV generalizing pre S with
  | nil => exact ⟨S, rfl, by rwa [List.append_nil]⟩
  | @cons v v' V vs h1 h2 ih =>
    obtain ⟨b1, b2, b3, b4⟩ := Rel.zip ha he hX hS (h1.map hX (f := fun x => x * c pre.length) (by simp)) (f := (· + ·)) (by simp)
    rw [symCombine, baddMul, b1]
    have hp := ih (pre ++ [v']) _ (b4.congr (e := combine s (pre ++ [v']) c) ⟨rfl, fun i _ => ?_⟩)
    · rw [List.length_append, List.append_assoc] at hp
      exact hp
    · change (combine s pre c).get i + v'.get i * c pre.length = (combine s (pre ++ [v']) c).get i
      simp only [combine, List.length_append, List.length_singleton, Finset.sum_range_succ]
      congr 1
      · refine Finset.sum_congr rfl fun j hj => ?_
        rw [List.getD_append _ _ _ _ (Finset.mem_range.1 hj)]
      · rw [List.getD_append_right _ _ _ _ (le_refl _)]
        simp

/-- **C96.**  Run the numpy backend's `eigsh_lanczos` with the dense form of the operator on the dense form of the initial state.  If it raises, the
symmetric backend raises the same error; otherwise the symmetric backend returns the same eigenvalues, the eigenvectors have the indices of the
initial state and the dense forms are those that the numpy backend returns.  The initial state, which may be transposed or have fused legs, keeps its
value and its indices. -/
theorem C96_lanczos {argsort : List Nat → List Nat} (ha : ArgsortOK argsort) {empty : Nat → List K} (he : ∀ n, (empty n).length = n)
    (eigh : Eigh K) {A : BST Q K → Py (BST Q K)} {Ad : NDArray K → Py (NDArray K)} {b : BST Q K} (hb : b.Valid) (ho : b.order ≠ [])
    (hA : DenseOp A Ad b) {d : NDArray K} (hd : DenseIs b d) (o : Opts) {initial : Init Q K} {fresh : Option (BST Q K)}
    (hi : initial = .tensor b ∨ initial = .missing ∧ fresh = some b) :
    (∀ e, eigshLanczos eigh Ad o d = .error e → symLanczos argsort empty eigh A o initial fresh = .error e) ∧
    ∀ r, eigshLanczos eigh Ad o d = .ok r → ∃ r', symLanczos argsort empty eigh A o initial fresh = .ok r' ∧ r'.vals = r.vals ∧
      List.Forall₂ (fun V t => V.Valid ∧ SameIndices V b ∧ DenseIs V t) r'.vecs r.vecs ∧
      r'.initial.Valid ∧ SameIndices r'.initial b ∧ DenseIs r'.initial d := by
  obtain ⟨X, f, f', c1, c2, c3, c4, c5, c6, c7⟩ := C26_contiguous ha he hb ho none (by simp)
  have hix : SameIndices X b := by rw [SameIndices, c6]
  have hX : Frame X := by
    refine ⟨c2, ?_, ?_⟩
    · intro h0
      have := congrArg List.length c6
      simp only [BST.sparseShape, h0, List.length_map, List.length_nil] at this
      exact ho (List.length_eq_zero_iff.1 this.symm)
    · have := c2.perm.length_eq
      rw [(c7 rfl).1, List.length_range, List.length_range] at this
      rw [(c7 rfl).1, this]
  have hR : Rel X X d := by
    obtain ⟨d0, d1, d2⟩ := hd
    rw [c3] at d1; cases d1
    exact ⟨c2, rfl, rfl, f', c4, c5.1.trans d2.1, fun i hi => (c5.2 i hi).trans (d2.2 i (c5.1 ▸ hi))⟩
  have hAX : DenseOp A Ad X := by
    intro T t h1 h2 h3
    obtain ⟨y, e, y1, y2, y3, y4⟩ := hA T t h1 (h2.trans hix) h3
    exact ⟨y, e, y1, y2, y3.trans hix.symm, y4⟩
  obtain ⟨P, hP⟩ : ∃ P : SymResult Q K → Result K → Prop, P = fun r' r => r'.vals = r.vals ∧
      List.Forall₂ (fun V t => V.Valid ∧ SameIndices V b ∧ DenseIs V t) r'.vecs r.vecs ∧
      r'.initial.Valid ∧ SameIndices r'.initial b ∧ DenseIs r'.initial d := ⟨_, rfl⟩
  have key : Sim P (symLanczos argsort empty eigh A o initial fresh) (eigshLanczos eigh Ad o d) := by
    rw [symLanczos, eigshLanczos]
    by_cases g1 : o.numKrylov < o.numeig
    · rw [if_pos g1, if_pos g1]; exact rfl
    rw [if_neg g1, if_neg g1]
    by_cases g2 : 1 < o.numeig ∧ o.reorth = false
    · rw [if_pos g2, if_pos g2]; exact rfl
    rw [if_neg g2, if_neg g2]
    have main : Sim P (bdiv X (bsNorm X) >>= fun v => symLoop argsort empty eigh A o o.numKrylov 0 v ⟨[], [], []⟩ none >>= fun k =>
        (List.range (min o.numeig k.diag.length)).mapM (fun n => zerosBST argsort X.sparseShape >>= fun z =>
          symCombine argsort empty (column (eigh _ (tridiag k.numbers)).2 n) 0 k.vecs z >>= fun state => bdiv state (bsNorm state)) >>= fun vecs =>
        .ok ⟨(List.ofFn (eigh _ (tridiag k.numbers)).1).take o.numeig, vecs, X⟩)
        (Mps.divide d (Mps.norm d) >>= fun v => loop eigh Ad o o.numKrylov 0 v ⟨[], [], []⟩ none >>= fun k =>
        (List.range (min o.numeig k.diag.length)).mapM (fun n =>
          Mps.divide (combine d.shape k.vecs (column (eigh _ (tridiag k)).2 n)) (Mps.norm (combine d.shape k.vecs (column (eigh _ (tridiag k)).2 n)))) >>=
          fun vecs => .ok ⟨(List.ofFn (eigh _ (tridiag k)).1).take o.numeig, vecs, v⟩) := by
      rw [hR.norm hX]
      refine (hR.div hX _).bind fun v v' hv => (loop_sim ha he hX eigh hAX o _ 0 v v' _ _ none hv ⟨.nil, rfl, rfl⟩).bind fun k k' hk => ?_
      obtain ⟨kv, kd, kn⟩ := k
      obtain ⟨kv', kd', kn'⟩ := k'
      obtain ⟨k1, rfl, rfl⟩ := hk
      refine (Sim.mapM (r := Rel X) (fun n => ?_) _).bind fun V ts hV => ?_
      · obtain ⟨Z, z1, z2⟩ := zeros_rel ha hX hR
        obtain ⟨W, w1, w2⟩ := combine_rel ha he hX (column (eigh _ (tridiag (⟨kv', kd, kn⟩ : Krylov K))).2 n) d.shape k1 [] Z
          (z2.congr ⟨rfl, fun i _ => by simp [combine]⟩)
        rw [z1]
        change Sim _ (symCombine argsort empty (column (eigh _ (tridiag (⟨kv', kd, kn⟩ : Krylov K))).2 n) ([] : List (NDArray K)).length kv Z >>= _) _
        rw [w1]
        change Sim _ (bdiv W (bsNorm W)) _
        rw [w2.norm hX]
        exact w2.div hX _
      · rw [hP]
        exact ⟨rfl, hV.imp fun V t h => ⟨h.valid, h.indices.trans hix, h.dense⟩, c2, hix, hR.dense⟩
    rcases hi with rfl | ⟨rfl, rfl⟩ <;> simp only [bind, Except.bind, c1] at main ⊢ <;> exact main
  constructor
  · intro e h
    rw [h] at key
    cases hs : symLanczos argsort empty eigh A o initial fresh with
    | ok r => rw [hs] at key; exact key.elim
    | error e' => rw [hs] at key; exact congrArg _ key
  · intro r h
    rw [h] at key
    cases hs : symLanczos argsort empty eigh A o initial fresh with
    | ok r' => rw [hs, hP] at key; exact ⟨r', rfl, key⟩
    | error e' => rw [hs] at key; exact key.elim

/-- **C96.**  For an operator whose dense form is a symmetric linear operator, and an initial state that is not zero, the call returns; the dense
forms of the eigenvectors and the eigenvalues are Ritz pairs, with all that `Ritz` says about them. -/
theorem C96_ritz {argsort : List Nat → List Nat} (ha : ArgsortOK argsort) {empty : Nat → List K} (he : ∀ n, (empty n).length = n)
    {eigh : Eigh K} (hE : EighOK eigh) {A : BST Q K → Py (BST Q K)} {Ad : NDArray K → Py (NDArray K)} {b : BST Q K} (hb : b.Valid)
    (ho : b.order ≠ []) (hA : DenseOp A Ad b) {d : NDArray K} (hd : DenseIs b d)
    {L : EuclideanSpace K (Fin d.shape.prod) →ₗ[K] EuclideanSpace K (Fin d.shape.prod)} (hL : L.IsSymmetric) (hAd : ActsAs d.shape Ad L) {o : Opts}
    (hd0 : 0 < o.delta) (hd1 : o.delta ≤ 1) (hn : o.ndiag ≠ 0) (hk : 0 < o.numKrylov) (hk1 : o.numeig ≤ o.numKrylov)
    (hre : o.numeig ≤ 1 ∨ o.reorth = true) (h0 : vec d.shape d ≠ 0) :
    ∃ r' r m, symLanczos argsort empty eigh A o (.tensor b) none = .ok r' ∧ Ritz d.shape L (vec d.shape d) o m r ∧ r'.vals = r.vals ∧
      List.Forall₂ (fun V t => V.Valid ∧ SameIndices V b ∧ DenseIs V t) r'.vecs r.vecs ∧ DenseIs r'.initial d := by
  obtain ⟨r, m, r1, r2, -⟩ := C57_lanczos hL hE hAd hd0 hd1 hn hk hk1 hre rfl h0
  obtain ⟨r', s1, s2, s3, -, -, s4⟩ := (C96_lanczos ha he eigh hb ho hA hd o (.inl rfl) (fresh := none)).2 r r1
  exact ⟨r', r, m, s1, r2, s2, s3, s4⟩

/-- **C96.**  What is refused. -/
theorem C96_refused {argsort : List Nat → List Nat} {empty : Nat → List K} {eigh : Eigh K} {A : BST Q K → Py (BST Q K)} {o : Opts}
    {initial : Init Q K} {fresh : Option (BST Q K)} :
    (o.numKrylov < o.numeig ∨ 1 < o.numeig ∧ o.reorth = false ∨ initial = .missing ∧ fresh = none →
      symLanczos argsort empty eigh A o initial fresh = .error .valueError) ∧
    (o.numeig ≤ o.numKrylov → (o.numeig ≤ 1 ∨ o.reorth = true) → initial = .other →
      symLanczos argsort empty eigh A o initial fresh = .error .typeError) := by
  constructor
  · intro h
    rw [symLanczos]
    by_cases g1 : o.numKrylov < o.numeig
    · rw [if_pos g1]
    rw [if_neg g1]
    by_cases g2 : 1 < o.numeig ∧ o.reorth = false
    · rw [if_pos g2]
    rw [if_neg g2]
    obtain ⟨rfl, rfl⟩ := (h.resolve_left g1).resolve_left g2
    rfl
  · rintro h1 h2 rfl
    rw [symLanczos, if_neg (by omega), if_neg (by rintro ⟨g1, g2⟩; rcases h2 with h2 | h2 <;> [omega; simp [h2] at g2])]
    rfl

/-! ### What fails, and cases -/

/-- The same charges with other unique charges, as `dual` returns them. -/
def relabelLeg (l : Leg Int) : Leg Int := (if l.1.charges = [0, 1, 1] then .lab [1, 0] [1, 0, 0] else l.1, l.2)

/-- The identity with these charges. -/
def relabel (T : BST Int ℝ) : Py (BST Int ℝ) := .ok ⟨T.data, T.legs.map relabelLeg, T.order⟩

theorem relabelLeg_view (l : Leg Int) : (relabelLeg l).1.charges = l.1.charges := by
  rw [relabelLeg]
  split_ifs with h
  · rw [h]; rfl
  · rfl

theorem relabel_view (L : List (Leg Int)) : view (L.map relabelLeg) = view L := by
  rw [view, List.map_map]
  exact List.map_congr_left fun l _ => by rw [Function.comp_apply, relabelLeg_view]; rfl

theorem relabel_keeps (b : BST Int ℝ) : Keeps relabel b := by
  intro T hT hv
  have hwf : LegsWF (T.legs.map relabelLeg) := by
    intro l hl
    obtain ⟨m, hm, rfl⟩ := List.mem_map.1 hl
    rw [relabelLeg]
    split_ifs
    · refine ⟨by decide, fun i => ?_⟩
      simp only [List.mem_cons, List.not_mem_nil, or_false, List.length_cons, List.length_nil]
      omega
    · exact hT.wf m hm
  refine ⟨_, rfl, ⟨hwf, by simpa using hT.perm, hT.groups, ?_⟩, ?_⟩
  · change T.data.length = _
    rw [hT.size, eff_of_view hwf hT.wf (relabel_view _)]
  · rw [← hv, axesView, axesView, BST.sparseShape, BST.sparseShape, List.map_map, List.map_map]
    refine List.map_congr_left fun g _ => ?_
    simp only [Function.comp_apply, pick, view, List.map_map]
    refine List.map_congr_left fun n _ => ?_
    simp only [Function.comp_apply]
    rw [show ((.raw [], false) : Leg Int) = relabelLeg (.raw [], false) from rfl, List.getD_map, relabelLeg_view]
    rfl

/-- A tensor of norm 1. -/
def laEx (order : List (List Nat)) : BST Int ℝ := { gmEx order with data := [1, 0, 0, 0] }

theorem laEx_valid {order : List (List Nat)} (h : order.flatten.Perm [0, 1]) (hg : ∀ g ∈ order, g ≠ []) : (laEx order).Valid :=
  ⟨(gmEx_valid h hg).wf, (gmEx_valid h hg).perm, hg, (gmEx_valid h hg).size⟩

/-- **C96**, what fails: it is not enough that the operator keeps charges and flows, as it is for `gmres` and `eigs`.  If it returns the same
charges with other unique charges the call raises. -/
theorem C96_charges_false : ∃ (b : BST Int ℝ) (A : BST Int ℝ → Py (BST Int ℝ)), b.Valid ∧ Keeps A b ∧ ∀ eigh : Eigh ℝ,
    symLanczos argsortI (fun n => List.replicate n 0) eigh A ⟨1, 1, 0, 1 / 2, 1, false⟩ (.tensor b) none = .error .valueError := by
  refine ⟨laEx [[0], [1]], relabel, laEx_valid (by decide) (by decide), relabel_keeps _, fun eigh => ?_⟩
  have hn : bsNorm (laEx [[0], [1]]) = 1 := by simp [bsNorm, laEx]
  have hv : bdiv (laEx [[0], [1]]) 1 = .ok (laEx [[0], [1]]) := by
    rw [bdiv, if_neg one_ne_zero]
    simp [BST.mapData, laEx]
  have hl : symLoop argsortI (fun n => List.replicate n (0 : ℝ)) eigh relabel ⟨1, 1, 0, 1 / 2, 1, false⟩ 1 0 (laEx [[0], [1]]) ⟨[], [], []⟩ none =
      .error .valueError := by
    rw [symLoop, hn, if_neg (by norm_num), hv]
    obtain ⟨W, hW⟩ : ∃ W : BST Int ℝ, W = ⟨[1, 0, 0, 0], (gmEx []).legs.map relabelLeg, [[0], [1]]⟩ := ⟨_, rfl⟩
    have h1 : relabel (laEx [[0], [1]]) = .ok W := by rw [hW]; rfl
    have h2 : W.contiguous argsortI (fun n => List.replicate n 0) none = .ok W := by rw [hW]; rfl
    have h3 : ∃ a, bdot (laEx [[0], [1]]).data W.data = .ok a := by rw [hW]; exact ⟨_, rfl⟩
    have h4 : ∀ a, bsubMul argsortI (fun n => List.replicate n 0) W a (laEx [[0], [1]]) = .error .valueError := by
      intro a
      obtain ⟨y, y1, y2, -⟩ := relabel_keeps (laEx [[0], [1]]) _ (laEx_valid (by decide) (by decide)) rfl
      rw [h1] at y1; cases y1
      rw [bsubMul, C50_refused _ _ _ y2 (C50_map (f := fun x => x * a) (by simp) (laEx_valid (order := [[0], [1]]) (by decide) (by decide)) (by decide)).1]
      · rfl
      · rintro ⟨-, h⟩
        have := h 0 (by rw [hW]; decide)
        rw [hW] at this
        exact absurd this (by change ¬ indexEq [relabelLeg (.raw [0, 1, 1], false)] [((.raw [0, 1, 1], false) : Leg Int)]; decide +kernel)
    obtain ⟨a, h3⟩ := h3
    simp only [bind, Except.bind, symOrth, Bool.false_eq_true, if_false]
    rw [h1]
    simp only [h2, h3, symNext, bind, Except.bind, h4, lt_irrefl, false_and, if_false]
  rw [symLanczos, if_neg (by decide), if_neg (by decide)]
  change (bdiv (laEx [[0], [1]]) (bsNorm (laEx [[0], [1]])) >>= _) = _
  rw [hn, hv]
  change (symLoop _ _ _ _ _ 1 0 (laEx [[0], [1]]) ⟨[], [], []⟩ none >>= _) = _
  rw [hl]
  rfl

/-- Twice a tensor. -/
noncomputable def doubleOp (T : BST Int ℝ) : Py (BST Int ℝ) := .ok (T.mapData fun x => 2 * x)

/-- Twice an array. -/
noncomputable def doubleD (d : NDArray ℝ) : Py (NDArray ℝ) := .ok ⟨d.shape, fun i => 2 * d.get i⟩

theorem double_dense {b : BST Int ℝ} (ho : b.order ≠ []) : DenseOp doubleOp doubleD b := by
  intro T d h1 h2 ⟨d0, h3, h4⟩
  have hoT : T.order ≠ [] := by
    intro h0
    have := congrArg List.length h2
    simp only [BST.sparseShape, h0, List.length_map, List.length_nil] at this
    exact ho (List.length_eq_zero_iff.1 this.symm)
  obtain ⟨v, e, e', g1, g2, g3, g4⟩ := C50_map (f := fun x : ℝ => 2 * x) (by simp) h1 hoT
  rw [h3] at g1; cases g1
  exact ⟨_, _, rfl, v, h2, rfl, e', g2, g3.trans h4.1, fun i hi => by rw [g4 i (g3 ▸ hi), h4.2 i (g3 ▸ hi)]⟩

theorem doubleD_acts (s : List Nat) : ActsAs s doubleD ((2 : ℝ) • LinearMap.id) := by
  intro x hx
  refine ⟨_, rfl, hx, ?_⟩
  ext k
  simp [vec]

theorem double_symm (n : Nat) : ((2 : ℝ) • (LinearMap.id : EuclideanSpace ℝ (Fin n) →ₗ[ℝ] _)).IsSymmetric := by
  intro x y
  simp [inner_smul_left, inner_smul_right]

/-- A transposed and a fused initial state. -/
example : ∃ r r' : SymResult Int ℝ,
    symLanczos argsortI (fun n => List.replicate n 0) someEigh doubleOp ⟨3, 2, 0, 1 / 2, 1, true⟩ (.tensor (gmEx [[1], [0]])) none = .ok r ∧
    symLanczos argsortI (fun n => List.replicate n 0) someEigh doubleOp ⟨3, 1, 0, 1 / 2, 1, false⟩ (.tensor (gmEx [[0, 1]])) none = .ok r' := by
  have h : ∀ order : List (List Nat), order.flatten.Perm [0, 1] → (∀ g ∈ order, g ≠ []) → order ≠ [] → ∀ o : Opts, 0 < o.delta → o.delta ≤ 1 →
      o.ndiag ≠ 0 → 0 < o.numKrylov → o.numeig ≤ o.numKrylov → (o.numeig ≤ 1 ∨ o.reorth = true) →
      ∃ r, symLanczos argsortI (fun n => List.replicate n (0 : ℝ)) someEigh doubleOp o (.tensor (gmEx order)) none = .ok r := by
    intro order h1 h2 h3 o g1 g2 g3 g4 g5 g6
    obtain ⟨d, d1, d2⟩ := C69_norm (gmEx_valid h1 h2) h3
    obtain ⟨r, -, -, hr, -⟩ := C96_ritz argsortI_ok (empty := fun n => List.replicate n (0 : ℝ)) (by simp) someEigh_ok (gmEx_valid h1 h2) h3
      (double_dense h3) ⟨d, d1, .refl d⟩ (double_symm _) (doubleD_acts _) g1 g2 g3 g4 g5 g6 (by
        rw [← norm_ne_zero_iff, ← norm_vec rfl, Mps.norm, ← sum_grid, ← d2]
        simp [bsNorm, gmEx]
        norm_num)
    exact ⟨r, hr⟩
  obtain ⟨r, hr⟩ := h [[1], [0]] (by decide) (by decide) (by decide) ⟨3, 2, 0, 1 / 2, 1, true⟩ (by norm_num) (by norm_num) (by decide) (by decide)
    (by decide) (by decide)
  obtain ⟨r', hr'⟩ := h [[0, 1]] (by decide) (by decide) (by decide) ⟨3, 1, 0, 1 / 2, 1, false⟩ (by norm_num) (by norm_num) (by decide) (by decide)
    (by decide) (by decide)
  exact ⟨r, r', hr, hr'⟩

end
end TN.Bs
