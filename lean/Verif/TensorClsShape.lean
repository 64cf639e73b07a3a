import Verif.TensorCls

/-!
# The class `Tensor` (C84): axes, shapes, products and `finalize`
-/

set_option linter.unusedSectionVars false

namespace TN.TensorCls

open TN NDArray Bcast Ncon

variable {R : Type}

/-! ### Axes -/

theorem array_transpose_spec (a : NDArray R) {perm : List Nat} (hp : perm.Perm (List.range a.ndim)) :
    ∃ r, a.transpose perm = .ok r ∧ r.shape = perm.map (fun p => a.shape.getD p 0) ∧
      ∀ i, InB a.shape i → InB r.shape (perm.map fun p => i.getD p 0) ∧
        r.get (perm.map fun p => i.getD p 0) = a.get i := by
  refine ⟨_, by rw [NDArray.transpose, if_pos hp], rfl, fun i hi => ⟨?_, ?_⟩⟩
  · rw [inB_iff_getD]
    refine ⟨by simp, fun k hk => ?_⟩
    simp only [List.length_map] at hk
    rw [List.getD_eq_getElem _ _ (by simpa using hk), List.getD_eq_getElem _ _ (by simpa using hk)]
    simp only [List.getElem_map]
    have : perm[k] < a.ndim := by simpa using hp.mem_iff.1 (List.getElem_mem hk)
    exact (inB_iff_getD.1 hi).2 _ this
  · simp only
    congr 1
    apply List.ext_getElem (by simpa [ndim] using hi.length.symm)
    intro k h1 h2
    have hk : k < a.ndim := by simpa using h1
    have hm : k ∈ perm := hp.mem_iff.2 (by simpa using hk)
    have hlt := List.idxOf_lt_length_of_mem hm
    simp only [List.getElem_map, List.getElem_range]
    rw [List.getD_eq_getElem _ _ (by simpa using hlt)]
    simp only [List.getElem_map, List.getElem_idxOf]
    exact List.getD_eq_getElem _ _ h2

/-- **C84**, `transpose` and `hconj`: axis `k` of the result is axis `perm[k]` of the tensor, `hconj`
conjugates the entries as well, and a list that is not a permutation of the axes is refused. -/
theorem C84_hconj [Star R] (t : Tensor R) (perm : List Nat) :
    (perm.Perm (List.range t.array.ndim) → ∃ r c, transpose t (some perm) = .ok r ∧ hconj t (some perm) = .ok c ∧
      r.backend = t.backend ∧ c.backend = t.backend ∧
      r.array.shape = perm.map (fun p => t.array.shape.getD p 0) ∧ c.array.shape = r.array.shape ∧
      ∀ i, InB t.array.shape i → InB r.array.shape (perm.map fun p => i.getD p 0) ∧
        r.array.get (perm.map fun p => i.getD p 0) = t.array.get i ∧
        c.array.get (perm.map fun p => i.getD p 0) = star (t.array.get i)) ∧
    (¬ perm.Perm (List.range t.array.ndim) → transpose t (some perm) = .error .valueError ∧
      hconj t (some perm) = .error .valueError) := by
  constructor
  · intro hp
    obtain ⟨r, hr, hs, hv⟩ := array_transpose_spec t.array hp
    obtain ⟨c, hc, hcs, hcv⟩ := array_transpose_spec (conjArray t.array) (perm := perm) hp
    refine ⟨⟨r, t.backend⟩, ⟨c, t.backend⟩, by simp [transpose, hr, bind, Except.bind, pure, Except.pure],
      by simp [hconj, conj, transpose, hc, bind, Except.bind, pure, Except.pure], rfl, rfl, hs, by rw [hcs, hs]; rfl,
      fun i hi => ⟨(hv i hi).1, (hv i hi).2, (hcv i hi).2⟩⟩
  · intro hp
    have h1 : t.array.transpose perm = .error .valueError := by rw [NDArray.transpose, if_neg hp]
    have h2 : (conjArray t.array).transpose perm = .error .valueError := by
      rw [NDArray.transpose, if_neg]; exact hp
    exact ⟨by simp [transpose, h1, bind, Except.bind], by simp [hconj, conj, transpose, h2, bind, Except.bind]⟩

theorem reverse_range_getD (i : List Nat) : ((List.range i.length).reverse.map fun p => i.getD p 0) = i.reverse := by
  rw [List.map_reverse]
  congr 1
  apply List.ext_getElem (by simp)
  intro k h1 h2
  simp only [List.getElem_map, List.getElem_range]
  exact List.getD_eq_getElem _ _ h2

/-- **C84**, `T`, `H` and `hconj()`: the axes are reversed, `H` and `hconj` conjugate the entries. -/
theorem C84_H [Star R] (t : Tensor R) : ∃ r c, T t = .ok r ∧ H t = .ok c ∧ hconj t none = .ok c ∧
    r.backend = t.backend ∧ c.backend = t.backend ∧
    r.array.shape = t.array.shape.reverse ∧ c.array.shape = t.array.shape.reverse ∧
    ∀ i, InB t.array.shape i → r.array.get i.reverse = t.array.get i ∧ c.array.get i.reverse = star (t.array.get i) := by
  have hp : (List.range t.array.ndim).reverse.Perm (List.range t.array.ndim) := List.reverse_perm _
  obtain ⟨r, hr, hs, hv⟩ := array_transpose_spec t.array hp
  obtain ⟨c, hc, hcs, hcv⟩ := array_transpose_spec (conjArray t.array) (perm := (List.range t.array.ndim).reverse) hp
  have hsh : ((List.range t.array.ndim).reverse.map fun p => t.array.shape.getD p 0) = t.array.shape.reverse :=
    reverse_range_getD _
  refine ⟨⟨r, t.backend⟩, ⟨c, t.backend⟩, by simp [T, transpose, hr, bind, Except.bind, pure, Except.pure],
    ?_, ?_, rfl, rfl, by rw [← hsh]; exact hs, by rw [← hsh]; exact hcs, fun i hi => ?_⟩
  · have : (conjArray t.array).ndim = t.array.ndim := rfl
    simp [H, this, hc, bind, Except.bind, pure, Except.pure]
  · have : (conjArray t.array).ndim = t.array.ndim := rfl
    simp [hconj, conj, transpose, this, hc, bind, Except.bind, pure, Except.pure]
  · have hi' := reverse_range_getD i
    rw [hi.length] at hi'
    have e1 := (hv i hi).2
    have e2 := (hcv i hi).2
    simp only [ndim] at e1 e2
    rw [hi'] at e1 e2
    exact ⟨e1, e2⟩

theorem inB_reverse {s i : List Nat} (h : InB s i) : InB s.reverse i.reverse := List.forall₂_reverse_iff.2 h

/-- **C84**, applying `H` twice gives the tensor back. -/
theorem C84_H_H [InvolutiveStar R] (t : Tensor R) : ∃ c d, H t = .ok c ∧ H c = .ok d ∧ d.backend = t.backend ∧
    d.array.Same t.array := by
  obtain ⟨_, c, -, hc, -, -, hb, -, hs, hv⟩ := C84_H t
  obtain ⟨_, d, -, hd, -, -, hb', -, hs', hv'⟩ := C84_H c
  have hsh : d.array.shape = t.array.shape := by rw [hs', hs, List.reverse_reverse]
  refine ⟨c, d, hc, hd, hb'.trans hb, hsh, fun i hi => ?_⟩
  rw [hsh] at hi
  have h1 := (hv i hi).2
  have h2 := (hv' i.reverse (by rw [hs]; exact inB_reverse hi)).2
  rw [List.reverse_reverse] at h2
  rw [h2, h1, star_star]

/-- **C84**, transposing back: `hconj` with a permutation and then with its inverse gives the tensor
back. -/
theorem C84_hconj_inverse [InvolutiveStar R] (t : Tensor R) {p q : List Nat} (hp : p.Perm (List.range t.array.ndim))
    (hq : q.length = p.length) (hinv : ∀ k < p.length, p.getD (q.getD k 0) 0 = k ∧ q.getD k 0 < p.length) :
    ∃ c d, hconj t (some p) = .ok c ∧ hconj c (some q) = .ok d ∧ d.backend = t.backend ∧ d.array.Same t.array := by
  have hpl : p.length = t.array.ndim := by simpa using hp.length_eq
  obtain ⟨_, c, -, hc, -, hb, hrs, hcs, hv⟩ := (C84_hconj t p).1 hp
  have hcs' : c.array.shape = p.map (fun x => t.array.shape.getD x 0) := by rw [hcs, hrs]
  have hcn : c.array.ndim = p.length := by simp [ndim, hcs']
  have hqp : q.Perm (List.range c.array.ndim) := by
    rw [hcn]
    have hnd : q.Nodup := by
      rw [List.nodup_iff_getElem?_ne_getElem?]
      intro i j hij hj he
      have hi' : i < p.length := by omega
      have hj' : j < p.length := by omega
      have e : q.getD i 0 = q.getD j 0 := by simp only [List.getD_eq_getElem?_getD, he]
      have := (hinv i hi').1
      rw [e, (hinv j hj').1] at this
      omega
    refine (List.Subperm.perm_of_length_le (hnd.subperm fun x hx => ?_) (by simp [hq]))
    obtain ⟨k, hk, rfl⟩ := List.mem_iff_getElem.1 hx
    have := (hinv k (by omega)).2
    rw [List.getD_eq_getElem _ _ hk] at this
    simpa using this
  obtain ⟨_, d, -, hd, -, hb', hrs', hds, hv'⟩ := (C84_hconj c q).1 hqp
  have back : ∀ l : List Nat, l.length = p.length → (q.map fun x => (p.map fun y => l.getD y 0).getD x 0) = l := by
    intro l hl
    apply List.ext_getElem (by simp [hq, hl])
    intro k h1 h2
    have hk : k < p.length := by omega
    simp only [List.getElem_map]
    have h3 := hinv k hk
    rw [List.getD_eq_getElem _ _ (by omega : k < q.length)] at h3
    rw [List.getD_eq_getElem _ _ (by simpa using h3.2)]
    simp only [List.getElem_map]
    have h4 := h3.1
    rw [List.getD_eq_getElem _ _ h3.2] at h4
    rw [h4, List.getD_eq_getElem _ _ h2]
  have hsh : d.array.shape = t.array.shape := by
    rw [hds, hrs', hcs']
    exact back _ hpl.symm
  refine ⟨c, d, hc, hd, hb'.trans hb, hsh, fun i hi => ?_⟩
  rw [hsh] at hi
  obtain ⟨h1, -, h2⟩ := hv i hi
  rw [← hcs] at h1
  obtain ⟨-, -, h3⟩ := hv' _ h1
  rw [back i (by rw [hi.length, hpl]; rfl)] at h3
  rw [h3, h2, star_star]

/-! ### Shapes -/

theorem reshape_spec (t : Tensor R) {s : List Nat} (hs : s.prod = t.array.shape.prod) :
    ∃ r, reshape t s = .ok r ∧ r.backend = t.backend ∧ r.array.shape = s ∧
      ∀ i j, InB t.array.shape i → InB s j → ravel t.array.shape i = ravel s j → r.array.get j = t.array.get i := by
  refine ⟨⟨⟨s, fun i => t.array.get (unravel t.array.shape (ravel s i))⟩, t.backend⟩,
    by simp [reshape, NDArray.reshape, hs, bind, Except.bind, pure, Except.pure], rfl, rfl, ?_⟩
  intro i j hi hj h
  simp only [← h, unravel_ravel hi]

/-- **C84**, `reshape`: the entries keep their position in the order of the rows, `ravel` and `flatten`
have one axis with all entries, and a shape with another number of entries is refused. -/
theorem C84_reshape (t : Tensor R) (s : List Nat) :
    (s.prod = t.array.shape.prod → ∃ r, reshape t s = .ok r ∧ r.backend = t.backend ∧ r.array.shape = s ∧
      ∀ i j, InB t.array.shape i → InB s j → ravel t.array.shape i = ravel s j → r.array.get j = t.array.get i) ∧
    (s.prod ≠ t.array.shape.prod → reshape t s = .error .valueError) ∧
    ∃ v, ravelT t = .ok v ∧ v.backend = t.backend ∧ v.array.shape = [t.array.shape.prod] ∧
      ∀ i, InB t.array.shape i → v.array.get [ravel t.array.shape i] = t.array.get i := by
  refine ⟨fun hs => reshape_spec t hs, fun hs => by simp [reshape, NDArray.reshape, hs, bind, Except.bind], ?_⟩
  obtain ⟨v, hv, hb, hsh, hval⟩ := reshape_spec t (s := [t.array.shape.prod]) (by simp)
  refine ⟨v, hv, hb, hsh, fun i hi => hval i _ hi (by simpa using ravel_lt hi) (by simp [ravel])⟩

/-- Drop the entries of `i` at the axes of dimension one. -/
def dropOnes (s i : List Nat) : List Nat := ((s.zip i).filter fun p => p.1 ≠ 1).map Prod.snd

theorem dropOnes_spec {s i : List Nat} (hi : InB s i) : InB (s.filter fun d => d ≠ 1) (dropOnes s i) ∧
    ravel s i = ravel (s.filter fun d => d ≠ 1) (dropOnes s i) := by
  induction s generalizing i with
  | nil => rw [inB_nil_iff] at hi; subst hi; simp [dropOnes, ravel]
  | cons d s ih =>
    obtain ⟨k, i', rfl, hk, hi'⟩ := inB_cons_iff.1 hi
    obtain ⟨h1, h2⟩ := ih hi'
    have hprod : (s.filter fun d => d ≠ 1).prod = s.prod := by
      clear h1 h2 ih hi hi'
      induction s with
      | nil => rfl
      | cons e s ihs =>
        by_cases he : e = 1
        · simpa [he] using ihs
        · simpa [he] using congrArg (e * ·) ihs
    by_cases hd : d = 1
    · subst hd
      have : k = 0 := by omega
      subst this
      have e1 : dropOnes (1 :: s) (0 :: i') = dropOnes s i' := by simp [dropOnes]
      have e2 : (1 :: s).filter (fun d => d ≠ 1) = s.filter (fun d => d ≠ 1) := by simp
      rw [e1, e2]
      exact ⟨h1, by simp only [ravel, Nat.zero_mul, Nat.zero_add]; exact h2⟩
    · have e1 : dropOnes (d :: s) (k :: i') = k :: dropOnes s i' := by simp [dropOnes, hd]
      have e2 : (d :: s).filter (fun d => d ≠ 1) = d :: s.filter (fun d => d ≠ 1) := by simp [hd]
      rw [e1, e2]
      exact ⟨by simp [hk]; simpa using h1, by simp only [ravel]; rw [hprod, h2]⟩

theorem prod_filter_ones (s : List Nat) : (s.filter fun d => d ≠ 1).prod = s.prod := by
  induction s with
  | nil => rfl
  | cons e s ihs =>
    by_cases he : e = 1
    · simpa [he] using ihs
    · simpa [he] using congrArg (e * ·) ihs

/-- **C84**, `squeeze`: it never fails, the axes of dimension one are gone and no others, and the
entries are those at the same positions of the remaining axes. -/
theorem C84_squeeze (t : Tensor R) : ∃ r, squeeze t = .ok r ∧ r.backend = t.backend ∧
    r.array.shape = t.array.shape.filter (fun d => d ≠ 1) ∧
    ∀ i, InB t.array.shape i → InB r.array.shape (dropOnes t.array.shape i) ∧
      r.array.get (dropOnes t.array.shape i) = t.array.get i := by
  obtain ⟨r, hr, hb, hs, hv⟩ := reshape_spec t (prod_filter_ones t.array.shape)
  refine ⟨r, hr, hb, hs, fun i hi => ?_⟩
  obtain ⟨h1, h2⟩ := dropOnes_spec hi
  exact ⟨hs ▸ h1, hv i _ hi h1 h2⟩

/-! ### Construction -/

/-- **C84**, the constructor: whatever comes out wraps the converted argument, an array is always
accepted, and what `convert_to_tensor` refuses is refused. -/
theorem C84_new_partial (x : Arg R) (backend : String) :
    (∀ t, newTensor x backend = .ok t → convertToTensor x = .ok t.array ∧ t.backend = backend) ∧
    (∀ a, x = .array a → ∃ t, newTensor x backend = .ok t) ∧
    (∀ e, convertToTensor x = .error e → newTensor x backend = .error e) ∧
    (x = .other → newTensor x backend = .error .typeError) := by
  refine ⟨fun t h => ?_, fun a h => ?_, fun e h => ?_, fun h => by subst h; rfl⟩
  · simp only [newTensor, py_bind_ok, py_pure_ok] at h
    obtain ⟨a, ha, _, _, rfl⟩ := h
    exact ⟨ha, rfl⟩
  · subst h; exact ⟨_, rfl⟩
  · simp [newTensor, h, bind, Except.bind]

/-- **C84**, not every argument that `convert_to_tensor` accepts can be made a `Tensor`: a Python
number is an `AttributeError`. -/
theorem C84_new_false (x : R) (backend : String) : (∃ a, convertToTensor (.number x) = .ok a) ∧
    newTensor (.number x) backend = .error .attributeError := ⟨⟨_, rfl⟩, rfl⟩

end TN.TensorCls
