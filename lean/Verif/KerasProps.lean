import Verif.Keras

/-!
# What the Keras layers compute
-/

namespace TN.Keras

open Finset NDArray

variable {R : Type} {L : Type}

/-! ## Contraction of labelled arrays -/

theorem contractL_ok [CommSemiring R] {dim : Leg → Nat} {a b : LNode R} (ha : Shaped dim a.1 a.2)
    (hb : Shaped dim b.1 b.2) (na : a.2.Nodup) (nb : b.2.Nodup) {C : List Leg} (hC : a.2.filter (· ∈ b.2) = C)
    (hne : C ≠ []) :
    ∃ t, contractL a b = .ok (t, a.2.filter (· ∉ C) ++ b.2.filter (· ∉ C)) ∧
      Shaped dim t (a.2.filter (· ∉ C) ++ b.2.filter (· ∉ C)) ∧
      ∀ σ, val t (a.2.filter (· ∉ C) ++ b.2.filter (· ∉ C)) σ =
        sumOver dim C (fun τ => val a.1 a.2 τ * val b.1 b.2 τ) σ := by
  subst hC
  obtain ⟨t, h1, h2, h3⟩ := tensordot_val ha hb (C := a.2.filter (· ∈ b.2)) (na.filter _)
    (fun l hl => List.count_eq_one_of_mem na (List.mem_of_mem_filter hl))
    (fun l hl => List.count_eq_one_of_mem nb (by simpa using (List.mem_filter.1 hl).2))
  refine ⟨t, ?_, h2, h3⟩
  rw [contractL]
  simp only [if_neg hne]
  rw [h1]
  rfl

theorem val_congr (t : NDArray R) {ls : List L} {σ τ : L → Nat} (h : ∀ l ∈ ls, σ l = τ l) : val t ls σ = val t ls τ := by
  rw [val, val, List.map_congr_left h]

theorem flat_length (t : NDArray R) : (flat t).length = t.shape.prod := by simp [flat]

theorem flat_get [Zero R] (t : NDArray R) {i : List Nat} (hi : InB t.shape i) : (flat t).getD (ravel t.shape i) 0 = t.get i := by
  have := ravel_lt hi
  rw [List.getD_eq_getElem _ _ (by simpa [flat_length] using this)]
  simp only [flat, List.getElem_map, List.getElem_range]
  rw [unravel_ravel hi]

theorem ofList_get [Zero R] (s : List Nat) (l : List R) (i : List Nat) : (ofList s l).get i = l.getD (ravel s i) 0 := rfl

theorem getD_zipWith_add [AddZeroClass R] {r b : List R} (h : b.length = r.length) (k : Nat) :
    (List.zipWith (· + ·) r b).getD k 0 = r.getD k 0 + b.getD k 0 := by
  by_cases hk : k < r.length
  · rw [List.getD_eq_getElem _ _ (by simp; omega), List.getD_eq_getElem _ _ hk, List.getD_eq_getElem _ _ (by omega)]
    simp
  · rw [List.getD_eq_default _ _ (by simp; omega), List.getD_eq_default _ _ (by omega),
      List.getD_eq_default _ _ (by omega), add_zero]

/-- The value of the bias at a position. -/
def biasAt [Zero R] (bias : Option (List R)) (k : Nat) : R := (bias.getD []).getD k 0

theorem addBias_ok [AddZeroClass R] {bias : Option (List R)} {r : List R} (h : ∀ b, bias = some b → b.length = r.length) :
    ∃ y, addBias bias r = .ok y ∧ y.length = r.length ∧ ∀ k, y.getD k 0 = r.getD k 0 + biasAt bias k := by
  cases bias with
  | none => exact ⟨r, rfl, rfl, fun k => by simp [biasAt]⟩
  | some b =>
    have hb := h b rfl
    refine ⟨List.zipWith (· + ·) r b, by unfold addBias; simp only [if_pos hb], by simp [hb], fun k => ?_⟩
    rw [getD_zipWith_add hb]
    rfl

/-! ## Rows -/

theorem mapPy_ok {α β : Type} {f : α → Py β} {g : α → β} {l : List α} (h : ∀ x ∈ l, f x = .ok (g x)) :
    mapPy f l = .ok (l.map g) := by
  induction l with
  | nil => rfl
  | cons x l ih =>
    rw [mapPy, h x (by simp), ih (fun y hy => h y (by simp [hy]))]
    rfl

theorem getD_flatten {l : List (List R)} [Zero R] {k : Nat} (h : ∀ r ∈ l, r.length = k) {i j : Nat} (hj : j < k) :
    l.flatten.getD (i * k + j) 0 = (l.getD i []).getD j 0 := by
  induction l generalizing i with
  | nil => simp
  | cons r l ih =>
    rw [List.flatten_cons]
    have hr := h r (by simp)
    cases i with
    | zero =>
      rw [List.getD_append _ _ _ _ (by omega)]
      simp
    | succ i =>
      rw [List.getD_append_right _ _ _ _ (by rw [hr]; nlinarith), hr,
        show (i + 1) * k + j - k = i * k + j by rw [Nat.add_mul]; omega, ih (fun r' h' => h r' (by simp [h']))]
      simp

theorem length_flatten_const {l : List (List R)} {k : Nat} (h : ∀ r ∈ l, r.length = k) : l.flatten.length = l.length * k := by
  induction l with
  | nil => simp
  | cons r l ih =>
    rw [List.flatten_cons, List.length_append, h r (by simp), ih (fun r' h' => h r' (by simp [h'])), List.length_cons,
      Nat.add_mul]
    omega

/-- C76: a layer works on the last axis only.  If `f` turns every vector of length `d` into one of length `out`, then the
result of `call` for an input of shape `s ++ [d]` has the shape `s ++ [out]`, and the vector at each position `i` of the
other axes is the activation of `f` of the vector of the input at `i`.  No size but that of the batch may be zero. -/
theorem C76_last_axis [Zero R] {f : List R → Py (List R)} {g : List R → List R} {act : R → R} {out b d : Nat}
    {s : List Nat} (hf : ∀ v : List R, v.length = d → f v = .ok (g v) ∧ (g v).length = out) (hd : 0 < d) (ho : 0 < out)
    (hs : 0 < s.prod) (x : NDArray R) :
    ∃ y, callLayer f act out (b :: s) d x = .ok y ∧ y.shape = b :: s ++ [out] ∧
      ∀ i, InB (b :: s) i → ∀ o < out,
        y.get (i ++ [o]) = act ((g ((List.range d).map fun k => x.get (i ++ [k]))).getD o 0) := by
  set row : Nat → List R := fun r => (List.range d).map fun k => x.get (unravel (b :: s ++ [d]) (r * d + k)) with hrow
  have hrl : ∀ r, (row r).length = d := fun r => by simp [hrow]
  have hm := mapPy_ok (f := fun r => f (row r)) (g := fun r => g (row r)) (l := List.range (b :: s).prod)
    (fun r _ => (hf _ (hrl r)).1)
  set rows := (List.range (b :: s).prod).map fun r => g (row r) with hrows
  have hlen : ∀ r ∈ rows, r.length = out := by
    intro r hr
    rw [hrows, List.mem_map] at hr
    obtain ⟨q, _, rfl⟩ := hr
    exact (hf _ (hrl q)).2
  have hfl := length_flatten_const hlen
  have hrn : rows.length = b * s.prod := by simp [hrows]
  have hk : 0 < s.prod * out := Nat.mul_pos hs ho
  have hdl : (rows.flatten.map act).length = b * (s.prod * out) := by
    rw [List.length_map, hfl, hrn, Nat.mul_assoc]
  refine ⟨ofList (b :: (s ++ [out])) (rows.flatten.map act), ?_, rfl, ?_⟩
  · rw [callLayer, if_neg (by omega)]
    rw [hm]
    show (if (List.drop 1 (b :: s)).prod * out = 0 ∨ _ then _ else _) = _
    simp only [List.drop_succ_cons, List.drop_zero]
    rw [hdl, if_neg (by rw [Nat.mul_mod_left]; omega), Nat.mul_div_cancel _ hk]
  · intro i hi o ho'
    have hr := ravel_lt hi
    have hrow' : row (ravel (b :: s) i) = (List.range d).map fun k => x.get (i ++ [k]) := by
      apply List.map_congr_left
      intro k hk
      rw [List.mem_range] at hk
      have := unravel_append (s := b :: s) (t := [d]) hr (b := k) (by simpa using hk)
      rw [show [d].prod = d by simp] at this
      rw [this, unravel_ravel hi]
      congr 2
      simp [unravel]
    rw [ofList_get, ← List.cons_append, ravel_append hi.length, show [out].prod = out by simp,
      show ravel [out] [o] = o by simp [ravel]]
    have hlt : ravel (b :: s) i * out + o < rows.flatten.length := by
      rw [hfl, hrn]
      have : ravel (b :: s) i + 1 ≤ b * s.prod := by simpa using hr
      calc ravel (b :: s) i * out + o < (ravel (b :: s) i + 1) * out := by rw [Nat.add_mul]; omega
        _ ≤ _ := Nat.mul_le_mul_right _ this
    rw [List.getD_eq_getElem _ _ (by rw [List.length_map]; exact hlt), List.getElem_map]
    congr 1
    have := getD_flatten hlen (i := ravel (b :: s) i) ho'
    rw [List.getD_eq_getElem _ _ hlt] at this
    rw [this]
    congr 1
    rw [List.getD_eq_getElem _ _ (by rw [hrn]; simpa using hr)]
    simp only [hrows, List.getElem_map, List.getElem_range]
    rw [hrow']

/-! ## DenseDecomp -/

theorem sumOver_one [AddCommMonoid R] (dim : Leg → Nat) (l : Leg) (f : (Leg → Nat) → R) (σ : Leg → Nat) :
    sumOver dim [l] f σ = ∑ i ∈ range (dim l), f (Function.update σ l i) := rfl

/-- C76: `DenseDecomp` is a dense layer whose matrix is the product of the weights `a` and `b`. -/
theorem C76_decomp [CommSemiring R] {a b : NDArray R} {d k out : Nat} (ha : a.shape = [d, k]) (hb : b.shape = [k, out])
    {bias : Option (List R)} (hbias : ∀ c, bias = some c → c.length = out) {x : List R} (hx : x.length = d) :
    ∃ y, decompVec a b bias x = .ok y ∧ y.length = out ∧
      ∀ o < out, y.getD o 0 = (∑ i ∈ range d, x.getD i 0 * ∑ j ∈ range k, a.get [i, j] * b.get [j, o]) + biasAt bias o := by
  let dim : Leg → Nat := fun l => if l = ⟨0, 0⟩ then d else if l = ⟨1, 1⟩ then k else out
  obtain ⟨t, t1, t2, t3⟩ := contractL_ok (dim := dim) (a := (a, [⟨0, 0⟩, ⟨1, 1⟩])) (b := (ofList [x.length] x, [⟨0, 0⟩]))
    (C := [⟨0, 0⟩]) (by simp [Shaped, ha, dim]) (by simp [Shaped, ofList, hx, dim]) (by simp) (by simp) (by simp)
    (by simp)
  rw [show List.filter (fun l => decide (l ∉ [(⟨0, 0⟩ : Leg)])) [⟨0, 0⟩, ⟨1, 1⟩] ++
    List.filter (fun l => decide (l ∉ [(⟨0, 0⟩ : Leg)])) [⟨0, 0⟩] = [⟨1, 1⟩] by decide] at t1 t2 t3
  obtain ⟨u, u1, u2, u3⟩ := contractL_ok (dim := dim) (a := (t, [⟨1, 1⟩])) (b := (b, [⟨1, 1⟩, ⟨2, 1⟩]))
    (C := [⟨1, 1⟩]) t2 (by simp [Shaped, hb, dim]) (by simp) (by simp) (by simp) (by simp)
  rw [show List.filter (fun l => decide (l ∉ [(⟨1, 1⟩ : Leg)])) [⟨1, 1⟩] ++
    List.filter (fun l => decide (l ∉ [(⟨1, 1⟩ : Leg)])) [⟨1, 1⟩, ⟨2, 1⟩] = [⟨2, 1⟩] by decide] at u1 u2 u3
  have us : u.shape = [out] := by rw [u2]; simp [dim]
  obtain ⟨y, y1, y2, y3⟩ := addBias_ok (bias := bias) (r := flat u) (fun c hc => by
    rw [flat_length, us, hbias c hc]; simp)
  refine ⟨y, ?_, by rw [y2, flat_length, us]; simp, fun o ho => ?_⟩
  · rw [decompVec, t1]
    show (contractL (t, _) _ >>= _) = _
    rw [u1]
    exact y1
  · rw [y3]
    congr 1
    have h1 := flat_get u (i := [o]) (by rw [us]; exact List.Forall₂.cons ho List.Forall₂.nil)
    rw [us, show ravel [out] [o] = o by simp [ravel]] at h1
    rw [h1]
    have h2 := u3 (fun _ => o)
    rw [show val u [(⟨2, 1⟩ : Leg)] (fun _ => o) = u.get [o] from rfl] at h2
    have h3 : ∀ j, t.get [j] = ∑ i ∈ range d, a.get [i, j] * x.getD i 0 := by
      intro j
      have := t3 (fun _ => j)
      rw [show val t [(⟨1, 1⟩ : Leg)] (fun _ => j) = t.get [j] from rfl, sumOver_one] at this
      rw [this]
      apply Finset.sum_congr (by simp [dim])
      intro i _
      simp [val, ofList_get, ravel]
    rw [h2, sumOver_one, show dim ⟨1, 1⟩ = k by simp [dim]]
    simp only [Finset.mul_sum]
    rw [Finset.sum_comm]
    apply Finset.sum_congr rfl
    intro j _
    rw [show val (t, [(⟨1, 1⟩ : Leg)]).1 (t, [(⟨1, 1⟩ : Leg)]).2 (Function.update (fun _ => o) ⟨1, 1⟩ j) = t.get [j] by
      simp [val], h3, Finset.sum_mul]
    apply Finset.sum_congr rfl
    intro i _
    simp only [val, List.map_cons, List.map_nil, Function.update_self,
      Function.update_of_ne (show (⟨2, 1⟩ : Leg) ≠ ⟨1, 1⟩ by decide)]
    ring

/-! ## Cases -/

/-- The matrix `[[0, 1], [10, 11], [20, 21]]` -/
def exA : NDArray ℤ := ⟨[3, 2], fun i => 10 * i.getD 0 0 + i.getD 1 0⟩

/-- The matrix `[[0, 1], [10, 11]]` -/
def exB : NDArray ℤ := ⟨[2, 2], fun i => 10 * i.getD 0 0 + i.getD 1 0⟩

example : decompVec exA exB (some [5, 7]) [1, 2, 3] = .ok [865, 1033] := by decide +kernel

/-- The layer on an input of shape `(2, 2, 3)`. -/
example : (callLayer (decompVec exA exB none) id 2 [2, 2] 3 (ofList [2, 2, 3] [1, 2, 3, 0, 0, 1, 1, 0, 0, 0, 0, 0])).map
    (fun y => (y.shape, y.get [0, 0, 0], y.get [0, 1, 1], y.get [1, 0, 1], y.get [1, 1, 0])) =
      .ok ([2, 2, 2], 860, 251, 11, 0) := by decide +kernel

end TN.Keras
