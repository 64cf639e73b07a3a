import Verif.Net
import Verif.Group

/-!
# Copy tensors and `einsum`

Model of `CopyNode`'s tensor and of the einsum expression it builds
(network_components.py:829-836, 863-903) and of numpy's `einsum` (numpy_backend.py: `einsum`).
-/

set_option linter.unusedSectionVars false

namespace TN.Copy

open TN Finset

variable {R : Type}

/-! ### numpy's einsum -/

/-- The pairs of a subscript and the dimension it stands for. -/
def einsumDims (terms : List (List Nat)) (ts : List (NDArray R)) : List (Nat × Nat) :=
  ((terms.zip ts).map fun p => p.1.zip p.2.shape).flatten

/-- The dimension of a subscript. -/
def einsumDim (terms : List (List Nat)) (ts : List (NDArray R)) (l : Nat) : Nat :=
  ((einsumDims terms ts).lookup l).getD 0

/-- `backend.einsum(expression, *tensors)` for the numpy backend (numpy_backend.py, `einsum`).
Subscripts are positions in `_VALID_SUBSCRIPTS`; numpy accepts letters only, that is positions
below 52.  Broadcasting of dimensions of size one and numpy's limits on the number of operands
and of dimensions are not modelled. -/
def einsum [CommSemiring R] (terms : List (List Nat)) (out : List Nat) (ts : List (NDArray R)) :
    Py (NDArray R) :=
  if ts.isEmpty then .error .valueError
  else if ∃ l ∈ terms.flatten ++ out, 52 ≤ l then .error .valueError
  else if terms.map List.length ≠ ts.map NDArray.ndim then .error .valueError
  else if ∃ p ∈ einsumDims terms ts, p.2 ≠ einsumDim terms ts p.1 then .error .valueError
  else .ok ⟨out.map (einsumDim terms ts), fun idx =>
    sumOver (einsumDim terms ts) (terms.flatten.dedup.filter (fun l => l ∉ out))
      (prodVal (ts.zip terms)) (assign (fun _ => 0) out idx)⟩

/-! ### CopyNode -/

/-- `CopyNode.make_copy_tensor(rank, dimension)` (network_components.py:829-836): ones where
all indices are equal. -/
def makeCopyTensor [CommSemiring R] (rank dimension : Nat) : NDArray R :=
  ⟨List.replicate rank dimension, fun idx => if ∀ x ∈ idx, x = idx.headD 0 then 1 else 0⟩

/-- `_make_einsum_input_term` (network_components.py:866-877), the indices. -/
def inputIndices (shared : List Nat) : List Nat → Nat → List Nat × Nat
  | [], next => ([], next)
  | axis :: axes, next =>
    if axis ∈ shared then
      let r := inputIndices shared axes next
      (0 :: r.1, r.2)
    else
      let r := inputIndices shared axes (next + 1)
      (next :: r.1, r.2)

/-- `"".join(self._VALID_SUBSCRIPTS[i] for i in indices)`: there are 62 characters
(network_components.py:863-864). -/
def subscripts (indices : List Nat) : Py (List Nat) :=
  if ∃ i ∈ indices, 62 ≤ i then .error .indexError else .ok indices

/-- The loop of `_make_einsum_expression` (network_components.py:885-890); a partner is given by
its rank and its shared axes. -/
def inputTerms : List (Nat × List Nat) → Nat → Py (List (List Nat) × Nat)
  | [], next => .ok ([], next)
  | p :: ps, next => do
    let r := inputIndices p.2 (List.range p.1) next
    let term ← subscripts r.1
    let rest ← inputTerms ps r.2
    .ok (term :: rest.1, rest.2)

/-- `_make_einsum_expression` (network_components.py:882-893) with `_make_einsum_output_term`
(network_components.py:879-880). -/
def einsumExpression (partners : List (Nat × List Nat)) : Py (List (List Nat) × List Nat) := do
  let r ← inputTerms partners 1
  let out ← subscripts (List.range' 1 (r.2 - 1))
  .ok (r.1, out)

/-! ### The terms -/

/-- The subscripts of one tensor with the labels `es`: `0` for the labels in `S`. -/
def termOf (S : List Nat) : List Nat → Nat → List Nat
  | [], _ => []
  | e :: es, n => if e ∈ S then 0 :: termOf S es n else n :: termOf S es (n + 1)

/-- The labels that are not summed. -/
def rest (S : List Nat) (es : List Nat) : List Nat := es.filter fun e => e ∉ S

/-- The subscripts of all tensors. -/
def termsOf (S : List Nat) : List (List Nat) → Nat → List (List Nat)
  | [], _ => []
  | es :: ess, n => termOf S es n :: termsOf S ess (n + (rest S es).length)

theorem rest_cons_mem {S es : List Nat} {e : Nat} (h : e ∈ S) : rest S (e :: es) = rest S es := by
  simp [rest, h]

theorem rest_cons_not {S es : List Nat} {e : Nat} (h : e ∉ S) :
    rest S (e :: es) = e :: rest S es := by
  simp [rest, h]

theorem rest_append (S es es' : List Nat) : rest S (es ++ es') = rest S es ++ rest S es' := by
  simp [rest]

theorem termOf_length (S : List Nat) : ∀ (es : List Nat) (n : Nat),
    (termOf S es n).length = es.length
  | [], n => rfl
  | e :: es, n => by
    unfold termOf
    by_cases h : e ∈ S
    · rw [if_pos h]; simp [termOf_length S es]
    · rw [if_neg h]; simp [termOf_length S es]

theorem termOf_map {X : Type} (S : List Nat) (g : Nat → X) (f : Nat → X)
    (h0 : ∀ e ∈ S, g 0 = f e) : ∀ (es : List Nat) (n : Nat),
    (∀ j e, (rest S es)[j]? = some e → g (n + j) = f e) → (termOf S es n).map g = es.map f
  | [], n, _ => rfl
  | e :: es, n, h1 => by
    unfold termOf
    by_cases h : e ∈ S
    · rw [if_pos h, List.map_cons, List.map_cons, h0 e h,
        termOf_map S g f h0 es n (by rwa [rest_cons_mem h] at h1)]
    · rw [rest_cons_not h] at h1
      have := h1 0 e (by simp)
      rw [if_neg h, List.map_cons, List.map_cons, termOf_map S g f h0 es (n + 1) (by
        intro j e' hj
        have := h1 (j + 1) e' (by simpa using hj)
        rwa [show n + (j + 1) = n + 1 + j by omega] at this)]
      simpa using this

theorem termOf_mem (S : List Nat) : ∀ (es : List Nat) (n l : Nat), l ∈ termOf S es n ↔
    (l = 0 ∧ ∃ e ∈ es, e ∈ S) ∨ (n ≤ l ∧ l < n + (rest S es).length)
  | [], n, l => by simp [termOf, rest]
  | e :: es, n, l => by
    unfold termOf
    by_cases h : e ∈ S
    · rw [if_pos h, List.mem_cons, termOf_mem S es, rest_cons_mem h]
      simp [h]
      tauto
    · rw [if_neg h, List.mem_cons, termOf_mem S es, rest_cons_not h]
      simp [h]
      constructor
      · rintro (h | h | h)
        · omega
        · exact .inl h
        · omega
      · rintro (h | h)
        · exact .inr (.inl h)
        · by_cases h1 : l = n
          · exact .inl h1
          · right; right; omega

theorem termsOf_map {X : Type} (S : List Nat) (g : Nat → X) (f : Nat → X)
    (h0 : ∀ e ∈ S, g 0 = f e) : ∀ (ess : List (List Nat)) (n : Nat),
    (∀ j e, (rest S ess.flatten)[j]? = some e → g (n + j) = f e) →
    (termsOf S ess n).map (List.map g) = ess.map (List.map f)
  | [], n, _ => rfl
  | es :: ess, n, h1 => by
    unfold termsOf
    rw [List.flatten_cons, rest_append] at h1
    rw [List.map_cons, List.map_cons, termOf_map S g f h0 es n, termsOf_map S g f h0 ess]
    · intro j e hj
      have := h1 ((rest S es).length + j) e (by
        rw [List.getElem?_append_right (by omega)]; simpa using hj)
      rwa [← Nat.add_assoc] at this
    · intro j e hj
      refine h1 j e ?_
      rw [List.getElem?_append_left (List.getElem?_eq_some_iff.1 hj).1]
      exact hj

theorem termsOf_length (S : List Nat) : ∀ (ess : List (List Nat)) (n : Nat),
    (termsOf S ess n).map List.length = ess.map List.length
  | [], n => rfl
  | es :: ess, n => by
    simp only [termsOf, List.map_cons, termOf_length, termsOf_length S ess]

theorem termsOf_mem (S : List Nat) : ∀ (ess : List (List Nat)) (n l : Nat),
    l ∈ (termsOf S ess n).flatten ↔ (l = 0 ∧ ∃ e ∈ ess.flatten, e ∈ S) ∨
      (n ≤ l ∧ l < n + (rest S ess.flatten).length)
  | [], n, l => by simp [termsOf, rest]
  | es :: ess, n, l => by
    rw [termsOf, List.flatten_cons, List.mem_append, termOf_mem, termsOf_mem S ess,
      List.flatten_cons, rest_append, List.length_append]
    constructor
    · rintro ((⟨h, e, h1, h2⟩ | h) | (⟨h, e, h1, h2⟩ | h))
      · exact .inl ⟨h, e, List.mem_append_left _ h1, h2⟩
      · right; omega
      · exact .inl ⟨h, e, List.mem_append_right _ h1, h2⟩
      · right; omega
    · rintro (⟨h, e, h1, h2⟩ | h)
      · rcases List.mem_append.1 h1 with h1 | h1
        · exact .inl (.inl ⟨h, e, h1, h2⟩)
        · exact .inr (.inl ⟨h, e, h1, h2⟩)
      · by_cases h3 : l < n + (rest S es).length
        · left; right; omega
        · right; right; omega

theorem inputIndices_eq {S shared : List Nat} : ∀ (es : List Nat) (a n : Nat),
    (∀ k e, es[k]? = some e → (a + k ∈ shared ↔ e ∈ S)) →
    inputIndices shared (List.range' a es.length) n = (termOf S es n, n + (rest S es).length)
  | [], a, n, _ => rfl
  | e :: es, a, n, h => by
    have h0 := h 0 e (by simp)
    have h1 : ∀ k e', es[k]? = some e' → (a + 1 + k ∈ shared ↔ e' ∈ S) := by
      intro k e' hk
      have := h (k + 1) e' (by simpa using hk)
      rwa [show a + (k + 1) = a + 1 + k by omega] at this
    rw [List.length_cons, List.range'_succ]
    unfold inputIndices termOf
    rw [Nat.add_zero] at h0
    by_cases he : e ∈ S
    · rw [if_pos (h0.2 he), if_pos he, inputIndices_eq es (a + 1) n h1, rest_cons_mem he]
    · rw [if_neg (fun h => he (h0.1 h)), if_neg he, inputIndices_eq es (a + 1) (n + 1) h1,
        rest_cons_not he]
      simp; omega

/-- A tensor with labels `es`, of which those at the positions `ax` are in `S`. -/
def Shared (S : List Nat) (es ax : List Nat) : Prop :=
  ∀ k e, es[k]? = some e → (k ∈ ax ↔ e ∈ S)

theorem inputTerms_eq {S : List Nat} : ∀ (ps : List (List Nat × List Nat)) (n : Nat),
    (∀ p ∈ ps, Shared S p.1 p.2) → 0 < n →
    n + (rest S (ps.map Prod.fst).flatten).length ≤ 62 →
    inputTerms (ps.map fun p => (p.1.length, p.2)) n =
      .ok (termsOf S (ps.map Prod.fst) n, n + (rest S (ps.map Prod.fst).flatten).length)
  | [], n, _, _, _ => rfl
  | p :: ps, n, h, h0, hn => by
    have h1 := inputIndices_eq (S := S) (shared := p.2) p.1 0 n (by
      intro k e hk; simpa using h p (by simp) k e hk)
    rw [List.map_cons, List.flatten_cons, rest_append, List.length_append] at hn
    have h2 := inputTerms_eq ps (n + (rest S p.1).length) (fun q hq => h q (by simp [hq]))
      (by omega) (by omega)
    rw [List.map_cons, inputTerms, List.range_eq_range', h1]
    have h3 : subscripts (termOf S p.1 n) = .ok (termOf S p.1 n) := by
      unfold subscripts
      rw [if_neg]
      rintro ⟨i, h3, h4⟩
      rcases (termOf_mem S p.1 n i).1 h3 with h5 | h5 <;> omega
    simp only [h3, h2, bind, Except.bind, List.map_cons, termsOf, List.flatten_cons, rest_append,
      List.length_append, Nat.add_assoc]

theorem einsumExpression_eq {S : List Nat} {ps : List (List Nat × List Nat)}
    (h : ∀ p ∈ ps, Shared S p.1 p.2)
    (hn : 1 + (rest S (ps.map Prod.fst).flatten).length ≤ 62) :
    einsumExpression (ps.map fun p => (p.1.length, p.2)) =
      .ok (termsOf S (ps.map Prod.fst) 1,
        List.range' 1 (rest S (ps.map Prod.fst).flatten).length) := by
  unfold einsumExpression
  rw [inputTerms_eq ps 1 h (by omega) hn]
  have h3 : subscripts (List.range' 1 (rest S (ps.map Prod.fst).flatten).length) =
      .ok (List.range' 1 (rest S (ps.map Prod.fst).flatten).length) := by
    unfold subscripts
    rw [if_neg]
    rintro ⟨i, h3, h4⟩
    rw [List.mem_range'_1] at h3
    omega
  simp only [bind, Except.bind, Nat.add_sub_cancel_left, h3]

/-! ### The value of the einsum -/

/-- All labels of `S` at position `i`. -/
def setAll (S : List Nat) (i : Nat) (τ : Nat → Nat) (e : Nat) : Nat := if e ∈ S then i else τ e

theorem lookup_eq {l : List (Nat × Nat)} {g : Nat → Nat} (h : ∀ p ∈ l, p.2 = g p.1) {k : Nat}
    (hk : k ∈ l.map Prod.fst) : l.lookup k = some (g k) := by
  induction l with
  | nil => simp at hk
  | cons p l ih =>
    obtain ⟨a, b⟩ := p
    rw [List.lookup_cons]
    by_cases hab : k = a
    · subst hab
      have := h (k, b) (by simp)
      simp only at this
      simp [this]
    · have : (k == a) = false := by simpa using hab
      rw [this]
      refine ih (fun p hp => h p (by simp [hp])) ?_
      simpa [hab] using hk

theorem einsumDims_fst (terms : List (List Nat)) (ts : List (NDArray R))
    (h : terms.map List.length = ts.map NDArray.ndim) :
    (einsumDims terms ts).map Prod.fst = terms.flatten := by
  induction terms generalizing ts with
  | nil => rfl
  | cons a terms ih =>
    cases ts with
    | nil => simp at h
    | cons t ts =>
      simp only [List.map_cons, List.cons.injEq] at h
      have := ih ts h.2
      unfold einsumDims at this ⊢
      rw [List.zip_cons_cons, List.map_cons, List.flatten_cons, List.map_append, this,
        List.flatten_cons, List.map_fst_zip]
      exact h.1.le

theorem einsumDims_snd {terms : List (List Nat)} {ts : List (NDArray R)} {g : Nat → Nat}
    (h : terms.map (List.map g) = ts.map NDArray.shape) :
    ∀ p ∈ einsumDims terms ts, p.2 = g p.1 := by
  induction terms generalizing ts with
  | nil => intro p hp; simp [einsumDims] at hp
  | cons a terms ih =>
    cases ts with
    | nil => simp at h
    | cons t ts =>
      simp only [List.map_cons, List.cons.injEq] at h
      have := ih h.2
      unfold einsumDims at this ⊢
      rw [List.zip_cons_cons, List.map_cons, List.flatten_cons]
      intro p hp
      rcases List.mem_append.1 hp with hp | hp
      · simp only at hp
        rw [← h.1, List.zip_map_right] at hp
        obtain ⟨q, hq, rfl⟩ := List.mem_map.1 hp
        obtain ⟨x, y⟩ := q
        have h3 : x = y := by
          obtain ⟨k, hk, hk'⟩ := List.mem_iff_getElem.1 hq
          rw [List.getElem_zip] at hk'
          obtain ⟨h1, h2⟩ := Prod.mk.inj hk'
          exact h1.symm.trans h2
        simp [h3]
      · exact this p hp

theorem prodVal_zip [CommSemiring R] {ts : List (NDArray R)} {terms ess : List (List Nat)}
    {g f : Nat → Nat} (h : terms.map (List.map g) = ess.map (List.map f)) :
    prodVal (ts.zip terms) g = prodVal (ts.zip ess) f := by
  unfold prodVal
  congr 1
  induction terms generalizing ts ess with
  | nil =>
    have : ess = [] := by simpa using h.symm
    rw [this]; simp
  | cons a terms ih =>
    cases ess with
    | nil => simp at h
    | cons b ess =>
      cases ts with
      | nil => simp
      | cons t ts =>
        simp only [List.map_cons, List.cons.injEq] at h
        rw [List.zip_cons_cons, List.zip_cons_cons, List.map_cons, List.map_cons, ih h.2]
        simp only [val, h.1]

/-- The einsum over the terms of `termsOf` sums all labels in `S` together. -/
theorem einsum_terms [CommSemiring R] {net : List (NDArray R × List Nat)} {S : List Nat}
    {dim : Nat → Nat} {d : Nat} (hc : Consistent dim net) (hd : ∀ e ∈ S, dim e = d)
    (hS : ∃ e ∈ (net.map Prod.snd).flatten, e ∈ S)
    (hn : (rest S (net.map Prod.snd).flatten).length < 52) :
    ∃ t, einsum (termsOf S (net.map Prod.snd) 1)
        (List.range' 1 (rest S (net.map Prod.snd).flatten).length) (net.map Prod.fst) = .ok t ∧
      Shaped dim t (rest S (net.map Prod.snd).flatten) ∧
      ∀ τ : Nat → Nat, val t (rest S (net.map Prod.snd).flatten) τ =
        ∑ i ∈ range d, prodVal net (setAll S i τ) := by
  obtain ⟨ess, hess⟩ : ∃ x, x = net.map Prod.snd := ⟨_, rfl⟩
  obtain ⟨F, hF⟩ : ∃ x, x = rest S ess.flatten := ⟨_, rfl⟩
  rw [← hess] at hS hn ⊢
  rw [← hF] at hn ⊢
  obtain ⟨ts, hts⟩ : ∃ x, x = net.map Prod.fst := ⟨_, rfl⟩
  rw [← hts]
  have hzip : ts.zip ess = net := by rw [hts, hess]; exact (List.zip_of_prod rfl rfl).symm
  have hsh : ts.map NDArray.shape = ess.map (List.map dim) := by
    rw [hts, hess, List.map_map, List.map_map]
    exact List.map_congr_left fun p hp => hc p hp
  -- the dimension of a subscript
  obtain ⟨gd, hgd⟩ : ∃ g : Nat → Nat, g = fun l => if l = 0 then d else dim (F.getD (l - 1) 0) :=
    ⟨_, rfl⟩
  have hmapd : (termsOf S ess 1).map (List.map gd) = ts.map NDArray.shape := by
    rw [hsh]
    refine termsOf_map S gd dim (fun e he => by simp [hgd, hd e he]) ess 1 ?_
    intro j e hj
    rw [← hF] at hj
    have h1 : 1 + j ≠ 0 := by omega
    simp [hgd, List.getD_eq_getElem?_getD, hj]
  have hlen : (termsOf S ess 1).map List.length = ts.map NDArray.ndim := by
    have := congrArg (List.map List.length) hmapd
    rw [List.map_map, List.map_map] at this
    have h1 : (List.length ∘ List.map gd) = List.length := by funext l; simp
    rw [h1] at this
    exact this
  have hdims := einsumDims_snd hmapd
  have hfst := einsumDims_fst _ _ hlen
  have hdim : ∀ l ∈ (termsOf S ess 1).flatten, einsumDim (termsOf S ess 1) ts l = gd l := by
    intro l hl
    unfold einsumDim
    rw [lookup_eq hdims (by rw [hfst]; exact hl)]; rfl
  have hmem := fun l => termsOf_mem S ess 1 l
  rw [← hF] at hmem
  have h0 : (0 : Nat) ∈ (termsOf S ess 1).flatten := (hmem 0).2 (.inl ⟨rfl, hS⟩)
  have hinner : (termsOf S ess 1).flatten.dedup.filter (fun l => l ∉ List.range' 1 F.length) =
      [0] := by
    refine List.perm_singleton.1 ?_
    refine (List.perm_ext_iff_of_nodup ((List.nodup_dedup _).filter _) (by simp)).2 ?_
    intro l
    simp only [List.mem_filter, List.mem_dedup, hmem, decide_eq_true_eq, List.mem_range'_1,
      List.mem_singleton]
    constructor
    · rintro ⟨h1 | h1, h2⟩
      · exact h1.1
      · omega
    · rintro rfl
      exact ⟨.inl ⟨rfl, hS⟩, by omega⟩
  have hshape : (List.range' 1 F.length).map (einsumDim (termsOf S ess 1) ts) = F.map dim := by
    apply List.ext_getElem (by simp)
    intro k h1 h2
    have hk : k < F.length := by simpa using h2
    rw [List.getElem_map, List.getElem_map, List.getElem_range', hdim _ ((hmem _).2 (.inr (by
      omega)))]
    simp [hgd, List.getD_eq_getElem?_getD, hk]
  refine ⟨⟨(List.range' 1 F.length).map (einsumDim (termsOf S ess 1) ts),
    fun idx => sumOver (einsumDim (termsOf S ess 1) ts)
      ((termsOf S ess 1).flatten.dedup.filter (fun l => l ∉ List.range' 1 F.length))
      (prodVal (ts.zip (termsOf S ess 1))) (assign (fun _ => 0) (List.range' 1 F.length) idx)⟩,
    ?_, hshape, ?_⟩
  · unfold einsum
    rw [if_neg, if_neg, if_neg, if_neg]
    · rintro ⟨p, hp, hne⟩
      refine hne ?_
      rw [hdim p.1 (by rw [← hfst]; exact List.mem_map.2 ⟨p, hp, rfl⟩)]
      exact hdims p hp
    · simp only [ne_eq, not_not]; exact hlen
    · rintro ⟨l, hl, h52⟩
      rcases List.mem_append.1 hl with hl | hl
      · rcases (hmem l).1 hl with h1 | h1 <;> omega
      · rw [List.mem_range'_1] at hl; omega
    · have : ts ≠ [] := by
        rintro rfl
        obtain ⟨e, he, _⟩ := hS
        have : net = [] := by simpa using hts.symm
        rw [hess, this] at he
        simp at he
      simpa using this
  · intro τ
    rw [hinner]
    simp only [val, sumOver]
    rw [hdim 0 h0]
    have hd0 : gd 0 = d := by simp [hgd]
    rw [hd0]
    refine Finset.sum_congr rfl fun i _ => ?_
    rw [← hzip]
    refine prodVal_zip ?_
    refine termsOf_map S _ _ ?_ ess 1 ?_
    · intro e he
      simp [setAll, he]
    · intro j e hj
      rw [← hF] at hj
      have heS : e ∉ S := by
        have := List.mem_of_getElem? hj
        rw [hF, rest] at this
        simpa using (List.mem_filter.1 this).2
      have hjl := (List.getElem?_eq_some_iff.1 hj).1
      rw [Function.update_of_ne (by omega), setAll, if_neg heS]
      rw [assign_mem (by rw [List.mem_range'_1]; omega) List.nodup_range' (by simp)]
      have hidx : (List.range' 1 F.length).idxOf (1 + j) = j := by
        have h1 : (List.range' 1 F.length)[j]'(by simpa using hjl) = 1 + j := by
          simp [List.getElem_range']
        have h2 := (List.nodup_range' (s := 1) (n := F.length)).idxOf_getElem j
          (by simpa using hjl)
        rwa [h1] at h2
      rw [hidx, List.getD_eq_getElem?_getD, List.getElem?_map, hj]
      rfl

/-! ### The copy tensor -/

theorem sumOver_fixed [CommSemiring R] {dim : Nat → Nat} {d i : Nat} (hi : i < d)
    (f : (Nat → Nat) → R) : ∀ (S : List Nat) (τ : Nat → Nat), S.Nodup → (∀ e ∈ S, dim e = d) →
    sumOver dim S (fun σ => f σ * if ∀ e ∈ S, σ e = i then 1 else 0) τ = f (setAll S i τ)
  | [], τ, _, _ => by
    have : setAll [] i τ = τ := by funext e; simp [setAll]
    simp [sumOver, this]
  | a :: S, τ, hn, hd => by
    rw [List.nodup_cons] at hn
    rw [sumOver, hd a (by simp)]
    have key : ∀ j : Nat, sumOver dim S (fun σ => f σ * if ∀ e ∈ a :: S, σ e = i then 1 else 0)
        (Function.update τ a j) = if j = i then f (setAll (a :: S) i τ) else 0 := by
      intro j
      by_cases hj : j = i
      · subst hj
        rw [if_pos rfl]
        have hset : setAll S j (Function.update τ a j) = setAll (a :: S) j τ := by
          funext e
          simp only [setAll, List.mem_cons, Function.update_apply]
          by_cases h1 : e ∈ S <;> by_cases h2 : e = a <;> simp [h1, h2]
        rw [← hset, ← sumOver_fixed hi f S (Function.update τ a j) hn.2
          (fun e he => hd e (by simp [he]))]
        refine sumOver_congr_fixed S hn.1 ?_
        intro σ hσ
        simp [hσ, Function.update_self]
      · rw [if_neg hj]
        have : ∀ σ : Nat → Nat, σ a = j →
            (f σ * if ∀ e ∈ a :: S, σ e = i then 1 else 0) = (fun _ => (0 : R)) σ := by
          intro σ hσ
          rw [if_neg (fun h => hj (by rw [← hσ]; exact h a (by simp))), mul_zero]
        rw [sumOver_congr_fixed S hn.1 (g := fun _ => (0 : R)) (by
          intro σ hσ; exact this σ (by rw [hσ, Function.update_self]))]
        exact sumOver_zero' S _
    rw [Finset.sum_congr rfl (fun j _ => key j)]
    simp [hi]
where
  sumOver_congr_fixed {dim : Nat → Nat} {a : Nat} {f g : (Nat → Nat) → R} (S : List Nat)
      {τ : Nat → Nat} (ha : a ∉ S) (h : ∀ σ : Nat → Nat, σ a = τ a → f σ = g σ) :
      sumOver dim S f τ = sumOver dim S g τ := by
    induction S generalizing τ with
    | nil => exact h τ rfl
    | cons b S ih =>
      simp only [List.mem_cons, not_or] at ha
      simp only [sumOver]
      refine Finset.sum_congr rfl fun j _ => ih ha.2 ?_
      intro σ hσ
      exact h σ (by rw [hσ, Function.update_of_ne ha.1])
  sumOver_zero' {dim : Nat → Nat} (S : List Nat) (τ : Nat → Nat) :
      sumOver dim S (fun _ => (0 : R)) τ = 0 := by
    induction S generalizing τ with
    | nil => rfl
    | cons b S ih => simp [sumOver, ih]

/-- Summing against a copy tensor sets all its labels to one index. -/
theorem sumOver_copy [CommSemiring R] {dim : Nat → Nat} {d : Nat} (f : (Nat → Nat) → R)
    {a : Nat} {S : List Nat} (τ : Nat → Nat) (hn : (a :: S).Nodup) (hd : ∀ e ∈ a :: S, dim e = d) :
    sumOver dim (a :: S) (fun σ => f σ * if ∀ e ∈ a :: S, σ e = σ a then 1 else 0) τ =
      ∑ i ∈ range d, f (setAll (a :: S) i τ) := by
  rw [List.nodup_cons] at hn
  rw [sumOver, hd a (by simp)]
  refine Finset.sum_congr rfl fun i hi => ?_
  have hset : setAll S i (Function.update τ a i) = setAll (a :: S) i τ := by
    funext e
    simp only [setAll, List.mem_cons, Function.update_apply]
    by_cases h1 : e ∈ S <;> by_cases h2 : e = a <;> simp [h1, h2]
  rw [← hset, ← sumOver_fixed (Finset.mem_range.1 hi) f S (Function.update τ a i) hn.2
    (fun e he => hd e (by simp [he]))]
  refine sumOver_fixed.sumOver_congr_fixed S hn.1 ?_
  intro σ hσ
  rw [Function.update_self] at hσ
  simp [hσ]

end TN.Copy
