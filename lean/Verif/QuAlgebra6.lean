import Verif.QuAlgebra5
import Verif.QuProps

/-!
# The algebra of `QuOperator`s (C55): trace, scalar multiples, norm, reduced density matrices; examples
-/

set_option linter.unusedSectionVars false

namespace TN.Graph

open TN Finset

variable {R : Type} [CommSemiring R]

theorem stay_range (n : Nat) : stay n (List.range n) = [] := by
  unfold stay
  rw [List.filter_eq_nil_iff]
  intro j hj
  simpa using hj

theorem fill_range {n : Nat} (o : Nat → Nat) {k : List Nat} (hk : k.length = n) : fill n o (List.range n) k = k := by
  unfold fill
  exact assign_map_self List.nodup_range (by simpa using hk)

theorem dims_length (h : Heap R) (es : List EId) : (dims h es).length = es.length := by simp [dims]

theorem dims_nil {h h' : Heap R} {es : List EId} (hd : dims h es = dims h' []) : es = [] := by
  simpa [dims] using hd

/-- A partial trace over spaces that do not fit raises `ValueError`, and nothing happened. -/
theorem C55_partial_trace_raises (r : Run R) (cj : R → R) {h : Heap R} (gr : GraphOK h) {q : QuOp}
    {N : List NId} (x : QuNet h q N) {subs : List Nat} (hso : ∀ j ∈ subs, j < q.out.length)
    (hsi : ∀ j ∈ subs, j < q.inn.length) (hsp : dims h (edgesAt q.out subs) ≠ dims h (edgesAt q.inn subs)) :
    quPartialTrace r cj q subs h = (.error .valueError, h) := by
  unfold quPartialTrace
  have k1 : pick q.out subs h = (.ok (edgesAt q.out subs), h) := pick_run subs hso
  have k2 : pick q.inn subs h = (.ok (edgesAt q.inn subs), h) := pick_run subs hsi
  rw [M.bind_ok k1, M.bind_ok k2]
  refine M.bind_error (checkSpaces_err (graphOK_iff.1 gr) (fun e he => ?_) (fun e he => ?_) (Ne.symm hsp))
  · exact (openEdge_mem (x.mem (.inr (.inr (edgesAt_mem hsi e he))))).1
  · exact (openEdge_mem (x.mem (.inr (.inl (edgesAt_mem hso e he))))).1

/-- `trace()`: the sum of the diagonal elements. -/
theorem C55_trace {r : Run R} (fr : r.Fair) (cj : R → R) {h : Heap R} (gr : GraphOK h) {q : QuOp}
    {N : List NId} (x : QuNet h q N) (hsp : dims h q.out = dims h q.inn) :
    ∃ fuel₀ q' h' L, (∀ fuel ≥ fuel₀, quTrace { r with fuel := fuel } cj q h = (.ok (some q'), h')) ∧
      GraphOK h' ∧ Kept h h' ∧ QuNet h' q' L ∧ q'.out = [] ∧ q'.inn = [] ∧ dims h' q'.ign = dims h q.ign ∧
      ∀ g, g.length = q.ign.length →
        elem h' L q' g [] [] = sumIdx (dims h q.inn) fun k => elem h N q g k k := by
  have hlen : q.out.length = q.inn.length := by simpa [dims] using congrArg List.length hsp
  have e1 : edgesAt q.out (List.range q.inn.length) = q.out := by rw [← hlen, edgesAt_range]
  have e2 : edgesAt q.inn (List.range q.inn.length) = q.inn := edgesAt_range _
  obtain ⟨f, q', h', L, h1, h2, h3, h4, h5, h6, h7, h8⟩ := C55_partial_trace fr cj gr x
    (subs := List.range q.inn.length) List.nodup_range (fun j hj => by rw [hlen]; simpa using hj)
    (fun j hj => by simpa using hj) (by rw [e1, e2, hsp])
  rw [e1] at h8
  have s1 : stay q.out.length (List.range q.inn.length) = [] := by rw [← hlen, stay_range]
  have s2 : stay q.inn.length (List.range q.inn.length) = [] := stay_range _
  rw [s1] at h5
  rw [s2] at h6
  refine ⟨f, q', h', L, h1, h2, h3, h4, dims_nil (es := q'.out) h5, dims_nil (es := q'.inn) h6, h7, fun g lg => ?_⟩
  have := h8 g (fun _ => 0) (fun _ => 0) lg
  rw [s1, s2] at this
  rw [← hsp]
  refine this.trans (sumIdx_congr fun k hk => ?_)
  have lk : k.length = q.inn.length := by rw [hk.length, dims_length, hlen]
  rw [fill_range _ lk, hlen, fill_range _ lk]

/-- `A * B` where `A` or `B` is a scalar: the elements are the products. -/
theorem C55_mul {r : Run R} (fr : r.Fair) (cj : R → R) {h : Heap R} (gr : GraphOK h) {a b : QuOp}
    {N P : List NId} (x : QuNet h a N) (y : QuNet h b P)
    (hs : (a.out = [] ∧ a.inn = []) ∨ (b.out = [] ∧ b.inn = [])) :
    ∃ fuel₀ q h' L, (∀ fuel ≥ fuel₀, quMul { r with fuel := fuel } cj a b h = (.ok (some q), h')) ∧
      GraphOK h' ∧ Kept h h' ∧ QuNet h' q L ∧
      dims h' q.out = dims h (a.out ++ b.out) ∧ dims h' q.inn = dims h (a.inn ++ b.inn) ∧
      ∀ ga gb oa ob ia ib, ga.length = a.ign.length → gb.length = b.ign.length → oa.length = a.out.length →
        ob.length = b.out.length → ia.length = a.inn.length → ib.length = b.inn.length →
        elem h' L q (ga ++ gb) (oa ++ ob) (ia ++ ib) = elem h N a ga oa ia * elem h P b gb ob ib := by
  obtain ⟨f, q, h', L, h1, h2, h3, h4, h5, h6, -, h8⟩ := C55_tensor_product fr cj gr x y
  refine ⟨f, q, h', L, fun fuel hf => ?_, h2, h3, h4, h5, h6, h8⟩
  unfold quMul
  rw [if_pos hs]
  exact h1 fuel hf

/-- `A * B` of two operators that are no scalars raises `ValueError`. -/
theorem C55_mul_raises (r : Run R) (cj : R → R) (h : Heap R) {a b : QuOp}
    (ha : ¬ (a.out = [] ∧ a.inn = [])) (hb : ¬ (b.out = [] ∧ b.inn = [])) :
    quMul r cj a b h = (.error .valueError, h) := by
  unfold quMul
  rw [if_neg (by tauto)]
  rfl

/-- `norm()`: the sum of the products of all elements with their conjugates, which is the square of the
2-norm. -/
theorem C55_norm_partial {r : Run R} (fr : r.Fair) (cj : R →+* R) {h : Heap R} (gr : GraphOK h) {q : QuOp}
    {N : List NId} (x : QuNet h q N) :
    ∃ fuel₀ q' h' L, (∀ fuel ≥ fuel₀, quNorm { r with fuel := fuel } cj q h = (.ok (some q'), h')) ∧
      GraphOK h' ∧ Kept h h' ∧ QuNet h' q' L ∧ q'.out = [] ∧ q'.inn = [] ∧
      ∀ g g', g.length = q.ign.length → g'.length = q.ign.length →
        elem h' L q' (g ++ g') [] [] = sumIdx (dims h q.inn) fun i => sumIdx (dims h q.out) fun o =>
          cj (elem h N q g o i) * elem h N q g' o i := by
  have w := graphOK_iff.1 gr
  obtain ⟨f1, a, h1, A, a1, a2, a3, a4, a5, a6, a7, a8⟩ := C55_adjoint fr cj gr x
  have w1 := graphOK_iff.1 a2
  have x1 := a3.quNet w x
  have ho : dims h1 q.out = dims h q.out := a3.dims w w1 fun e he => x.mem (.inr (.inl he))
  have hi : dims h1 q.inn = dims h q.inn := a3.dims w w1 fun e he => x.mem (.inr (.inr he))
  have hg : dims h1 q.ign = dims h q.ign := a3.dims w w1 fun e he => x.mem (.inl he)
  obtain ⟨f2, p, h2, P, b1, b2, b3, b4, b5, b6, b7, b8⟩ := C55_matmul fr cj a2 a4 x1 (by rw [a6, ho])
  obtain ⟨f3, t, h3, T, c1, c2, c3, c4, c5, c6, c7, c8⟩ := C55_trace fr cj b2 b4 (by rw [b5, b6, a5, hi])
  have la : a.ign.length = q.ign.length := by simpa [dims] using congrArg List.length a7
  have lo : a.out.length = q.inn.length := by simpa [dims] using congrArg List.length a5
  have li : a.inn.length = q.out.length := by simpa [dims] using congrArg List.length a6
  refine ⟨max f1 (max f2 f3), t, h3, T, fun fuel hf => ?_, c2, (a3.trans b3).trans c3, c4, c5, c6, ?_⟩
  · unfold quNorm
    rw [M.bind_ok (a1 fuel (by omega))]
    simp only
    rw [M.bind_ok (b1 fuel (by omega))]
    simp only
    exact c1 fuel (by omega)
  · intro g g' l1 l2
    have lp : (g ++ g').length = p.ign.length := by
      have := congrArg List.length b7
      simp only [dims_length, List.length_append] at this ⊢
      omega
    rw [c8 _ lp, b6, hi]
    refine sumIdx_congr fun i hi' => ?_
    have l3 : i.length = q.inn.length := by rw [hi'.length, dims_length]
    rw [b8 g g' i i (by omega) l2 (by omega) l3, a6]
    refine sumIdx_congr fun o ho' => ?_
    have l4 : o.length = q.out.length := by rw [ho'.length, dims_length]
    rw [a8 g i o l1 l3 l4, a3.elem x]

/-- `projector()`: the product of the operator and its adjoint. -/
theorem C55_projector {r : Run R} (fr : r.Fair) (cj : R →+* R) {h : Heap R} (gr : GraphOK h) {q : QuOp}
    {N : List NId} (x : QuNet h q N) :
    ∃ fuel₀ q' h' L, (∀ fuel ≥ fuel₀, quProjector { r with fuel := fuel } cj q h = (.ok (some q'), h')) ∧
      GraphOK h' ∧ Kept h h' ∧ QuNet h' q' L ∧ dims h' q'.out = dims h q.out ∧ dims h' q'.inn = dims h q.out ∧
      dims h' q'.ign = dims h (q.ign ++ q.ign) ∧
      ∀ g g' o o', g.length = q.ign.length → g'.length = q.ign.length → o.length = q.out.length →
        o'.length = q.out.length →
        elem h' L q' (g ++ g') o o' = sumIdx (dims h q.inn) fun i =>
          elem h N q g o i * cj (elem h N q g' o' i) := by
  have w := graphOK_iff.1 gr
  obtain ⟨f1, a, h1, A, a1, a2, a3, a4, a5, a6, a7, a8⟩ := C55_adjoint fr cj gr x
  have w1 := graphOK_iff.1 a2
  have x1 := a3.quNet w x
  have ho : dims h1 q.out = dims h q.out := a3.dims w w1 fun e he => x.mem (.inr (.inl he))
  have hi : dims h1 q.inn = dims h q.inn := a3.dims w w1 fun e he => x.mem (.inr (.inr he))
  have hg : dims h1 q.ign = dims h q.ign := a3.dims w w1 fun e he => x.mem (.inl he)
  obtain ⟨f2, p, h2, P, b1, b2, b3, b4, b5, b6, b7, b8⟩ := C55_matmul fr cj a2 x1 a4 (by rw [a5, hi])
  have la : a.ign.length = q.ign.length := by simpa [dims] using congrArg List.length a7
  have lo : a.out.length = q.inn.length := by simpa [dims] using congrArg List.length a5
  have li : a.inn.length = q.out.length := by simpa [dims] using congrArg List.length a6
  refine ⟨max f1 f2, p, h2, P, fun fuel hf => ?_, b2, a3.trans b3, b4, b5.trans ho, b6.trans a6, ?_, ?_⟩
  · unfold quProjector
    rw [M.bind_ok (a1 fuel (by omega))]
    simp only
    exact b1 fuel (by omega)
  · rw [b7]
    simp only [dims, List.map_append] at hg a7 ⊢
    rw [hg, a7]
  · intro g g' o o' l1 l2 l3 l4
    rw [b8 g g' o o' l1 (by omega) l3 (by omega), hi]
    refine sumIdx_congr fun i hi' => ?_
    have l5 : i.length = q.inn.length := by rw [hi'.length, dims_length]
    rw [a8 g' i o' l2 l5 l4, a3.elem x]

/-- `reduced_density(subs)` of a vector: the partial trace of the projector. -/
theorem C55_reduced_density {r : Run R} (fr : r.Fair) (cj : R →+* R) {h : Heap R} (gr : GraphOK h) {q : QuOp}
    {N : List NId} (x : QuNet h q N) (hv : q.inn = []) {subs : List Nat} (hsn : subs.Nodup)
    (hso : ∀ j ∈ subs, j < q.out.length) :
    ∃ fuel₀ q' h' L, (∀ fuel ≥ fuel₀,
        quReducedDensity { r with fuel := fuel } cj q subs h = (.ok (some q'), h')) ∧
      GraphOK h' ∧ Kept h h' ∧ QuNet h' q' L ∧
      dims h' q'.out = dims h (edgesAt q.out (stay q.out.length subs)) ∧
      dims h' q'.inn = dims h (edgesAt q.out (stay q.out.length subs)) ∧
      ∀ (g g' : List Nat) (o o' : Nat → Nat), g.length = q.ign.length → g'.length = q.ign.length →
        elem h' L q' (g ++ g') ((stay q.out.length subs).map o) ((stay q.out.length subs).map o') =
          sumIdx (dims h (edgesAt q.out subs)) fun k =>
            elem h N q g (fill q.out.length o subs k) [] * cj (elem h N q g' (fill q.out.length o' subs k) []) := by
  obtain ⟨f1, p, h1, P, a1, a2, a3, a4, a5, a6, a7, a8⟩ := C55_projector fr cj gr x
  have lo : p.out.length = q.out.length := by simpa [dims] using congrArg List.length a5
  have li : p.inn.length = q.out.length := by simpa [dims] using congrArg List.length a6
  have lg : p.ign.length = q.ign.length + q.ign.length := by simpa [dims] using congrArg List.length a7
  have hdim : ∀ (es : List EId), dims h1 es = dims h q.out → ∀ js : List Nat, (∀ j ∈ js, j < q.out.length) →
      dims h1 (edgesAt es js) = dims h (edgesAt q.out js) := by
    intro es he js hj
    have hl : es.length = q.out.length := by simpa [dims] using congrArg List.length he
    simp only [dims, edgesAt, List.map_map]
    refine List.map_congr_left fun j h5 => ?_
    have h6 := hj j h5
    have := congrArg (fun l => l[j]?) he
    simp only [dims, List.getElem?_map, List.getElem?_eq_getElem (hl ▸ h6 : j < es.length),
      List.getElem?_eq_getElem h6, Option.map_some, Option.some.injEq] at this
    simp only [Function.comp, List.getD_eq_getElem es 0 (hl ▸ h6 : j < es.length), List.getD_eq_getElem q.out 0 h6]
    exact this
  obtain ⟨f2, t, h2, T, b1, b2, b3, b4, b5, b6, b7, b8⟩ := C55_partial_trace fr cj a2 a4 (subs := subs) hsn
    (fun j hj => by rw [lo]; exact hso j hj) (fun j hj => by rw [li]; exact hso j hj)
    (by rw [hdim _ a5 _ hso, hdim _ a6 _ hso])
  rw [lo] at b5
  rw [li] at b6
  refine ⟨max f1 f2, t, h2, T, fun fuel hf => ?_, b2, a3.trans b3, b4, ?_, ?_, ?_⟩
  · unfold quReducedDensity
    rw [M.bind_ok (a1 fuel (by omega))]
    simp only
    exact b1 fuel (by omega)
  · rw [b5, hdim _ a5 _ stay_lt]
  · rw [b6, hdim _ a6 _ stay_lt]
  · intro g g' o o' l1 l2
    have := b8 (g ++ g') o o' (by simp; omega)
    rw [lo, li, hdim _ a5 _ hso] at this
    rw [this]
    refine sumIdx_congr fun k _ => ?_
    rw [a8 g g' _ _ l1 l2 (by simp [fill]) (by simp [fill]), hv]
    rfl

/-! ### Concrete cases -/

theorem plainRun_fair (k : Nat) {vis : List Nat → List Nat} (hv : ∀ l, (vis l).Perm l) : (plainRun k vis).Fair :=
  ⟨fun _ => .refl _, hv, fun _ => .refl _⟩

/-- The matrix `[[1, 2], [3, 4]]`. -/
def mat1234 : NDArray Int := ⟨[2, 2], fun ix => 1 + 2 * ix.getD 0 0 + ix.getD 1 0⟩

/-- A node with the matrix and one with the vector `[3, 4]`. -/
def opHeap : Heap Int :=
  runOps [.node mat1234, .node vec34] Heap.empty

theorem opHeap_ok : GraphOK opHeap :=
  (C07_history_partial [.node mat1234, .node vec34] graphOK_empty
    ⟨trivial, trivial, trivial⟩).1

def opMat : QuOp := ⟨[0], [1], [], [0]⟩

def opVec : QuOp := ⟨[2], [], [], [1]⟩

theorem opMat_ok : QuNet opHeap opMat [0] :=
  (quOK_of (by decide) (by decide) (by decide +kernel) (by decide +kernel) rfl (by decide) (by decide +kernel)
    (by decide +kernel)).quNet

theorem opVec_ok : QuNet opHeap opVec [1] :=
  (quOK_of (by decide) (by decide) (by decide +kernel) (by decide +kernel) rfl (by decide) (by decide +kernel)
    (by decide +kernel)).quNet

/-- The product of the matrix with itself: `[[7, 10], [15, 22]]`. -/
example : ∃ fuel₀ q h' L, (∀ fuel ≥ fuel₀, quMatmul { plainRun 0 List.reverse with fuel := fuel } id opMat opMat
      opHeap = (.ok (some q), h')) ∧ QuNet h' q L ∧
    elem h' L q [] [0] [1] = 10 ∧ elem h' L q [] [1] [0] = 15 := by
  obtain ⟨f, q, h', L, h1, -, -, h2, -, -, -, h3⟩ := C55_matmul (r := plainRun 0 List.reverse)
    (plainRun_fair 0 fun l => l.reverse_perm) id opHeap_ok opMat_ok opMat_ok (by decide +kernel)
  refine ⟨f, q, h', L, h1, h2, ?_, ?_⟩
  · have := h3 [] [] [0] [1] rfl rfl rfl rfl
    exact this.trans (by decide +kernel)
  · have := h3 [] [] [1] [0] rfl rfl rfl rfl
    exact this.trans (by decide +kernel)

/-- A vector has no inputs that a matrix could act on. -/
example : quMatmul (plainRun 0 id) id opVec opMat opHeap = (.error .valueError, opHeap) :=
  C55_matmul_raises _ _ opHeap_ok opVec_ok opMat_ok (by decide +kernel)

/-- The adjoint. -/
example := C55_adjoint (r := plainRun 0 id) (plainRun_fair 0 fun _ => .refl _) (RingHom.id Int) opHeap_ok opMat_ok

/-- The trace. -/
example := C55_trace (r := plainRun 0 id) (plainRun_fair 0 fun _ => .refl _) id opHeap_ok opMat_ok (by decide +kernel)

example := C55_tensor_product (r := plainRun 0 id) (plainRun_fair 0 fun _ => .refl _) id opHeap_ok opMat_ok opVec_ok

example := C55_partial_trace (r := plainRun 0 id) (plainRun_fair 0 fun _ => .refl _) id opHeap_ok opMat_ok
  (subs := [0]) (by decide) (by decide) (by decide) (by decide +kernel)

example := C55_reduced_density (r := plainRun 0 id) (plainRun_fair 0 fun _ => .refl _) (RingHom.id Int) opHeap_ok
  opVec_ok rfl (subs := [0]) (by decide) (by decide)

example : quMul (plainRun 0 id) id opVec opMat opHeap = (.error .valueError, opHeap) :=
  C55_mul_raises _ _ _ (by decide) (by decide)

/-- **`norm()` is not the 2-norm its documentation promises**: for the vector `[3, 4]` it is 25. -/
theorem C55_norm_false : ∃ fuel₀ q h' L,
    (∀ fuel ≥ fuel₀, quNorm { plainRun 0 id with fuel := fuel } (RingHom.id Int) opVec opHeap =
      (.ok (some q), h')) ∧ QuNet h' q L ∧ q.out = [] ∧ q.inn = [] ∧ elem h' L q [] [] [] = 25 ∧
    elem opHeap [1] opVec [] [0] [] = 3 ∧ elem opHeap [1] opVec [] [1] [] = 4 := by
  obtain ⟨f, q, h', L, h1, -, -, h2, h3, h4, h5⟩ := C55_norm_partial (r := plainRun 0 id)
    (plainRun_fair 0 fun _ => .refl _) (RingHom.id Int) opHeap_ok opVec_ok
  exact ⟨f, q, h', L, h1, h2, h3, h4, (h5 [] [] rfl rfl).trans (by decide +kernel), by decide +kernel,
    by decide +kernel⟩

end TN.Graph
