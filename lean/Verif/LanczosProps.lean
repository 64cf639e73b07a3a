import Verif.Lanczos
import Verif.MpsEnvs
import Mathlib.LinearAlgebra.FiniteDimensional.Lemmas

/-!
# C57: what the Lanczos method returns
-/

set_option linter.unusedSectionVars false

namespace TN.Lanczos

open TN NDArray Finset

variable {K : Type} [RCLike K]

/-! ### Arrays as vectors -/

theorem vec_apply (s : List Nat) (t : NDArray K) (k : Fin s.prod) : vec s t k = t.get (unravel s k) := rfl

theorem norm_vec {s : List Nat} {t : NDArray K} (h : t.shape = s) : Mps.norm t = ‖vec s t‖ := by
  unfold Mps.norm
  rw [EuclideanSpace.norm_eq, h, ← sum_range_unravel, ← Fin.sum_univ_eq_sum_range (fun k => ‖t.get (unravel s k)‖ ^ 2)]
  rfl

theorem dot_vec {s : List Nat} {a b : NDArray K} (ha : a.shape = s) (hb : b.shape = s) :
    dot a b = .ok (inner K (vec s a) (vec s b)) := by
  unfold dot
  rw [if_pos (by rw [ha, hb]), ha, ← sum_range_unravel, PiLp.inner_apply,
    ← Fin.sum_univ_eq_sum_range (fun k => star (a.get (unravel s k)) * b.get (unravel s k))]
  congr 1
  refine Finset.sum_congr rfl fun k _ => ?_
  rw [vec_apply, vec_apply, RCLike.inner_apply, mul_comm]
  rfl

theorem vec_divide {s : List Nat} {t : NDArray K} {z : ℝ} (hz : z ≠ 0) :
    ∃ q, Mps.divide t z = .ok q ∧ q.shape = t.shape ∧ vec s t = (z : K) • vec s q := by
  refine ⟨_, if_neg hz, rfl, ?_⟩
  ext k
  have hz' : (z : K) ≠ 0 := by rw [Ne, RCLike.ofReal_eq_zero]; exact hz
  show t.get (unravel s k) = (z : K) * (t.get (unravel s k) / (z : K))
  field_simp

theorem vec_subScaled (s : List Nat) (a b : NDArray K) (c : K) :
    vec s (subScaled a c b) = vec s a - c • vec s b := rfl

theorem subScaled_zero (x v : NDArray K) : subScaled x 0 v = x := by
  cases x
  simp [subScaled]

theorem reorthogonalize_id {s : List Nat} {x : NDArray K} (hx : x.shape = s) : ∀ {vs : List (NDArray K)},
    (∀ v ∈ vs, v.shape = s ∧ inner K (vec s v) (vec s x) = 0) → reorthogonalize vs x = .ok x := by
  intro vs
  induction vs with
  | nil => intro _; rfl
  | cons v vs ih =>
    intro h
    obtain ⟨h1, h2⟩ := h v (by simp)
    have e : reorthogonalize (v :: vs) x = (dot v x >>= fun c => reorthogonalize vs (subScaled x c v)) := rfl
    rw [e, dot_vec h1 hx, h2]
    refine Eq.trans ?_ (ih fun v hv => h v (by simp [hv]))
    show reorthogonalize vs (subScaled x 0 v) = _
    rw [subScaled_zero]

/-! ### The loop -/

/-- The lists of the loop satisfy the recursion. -/
structure Inv (s : List Nat) (L : EuclideanSpace K (Fin s.prod) →ₗ[K] EuclideanSpace K (Fin s.prod))
    (x : EuclideanSpace K (Fin s.prod)) (k : Krylov K) (v : NDArray K) : Prop where
  len1 : k.vecs.length = k.diag.length
  len2 : k.norms.length = k.diag.length
  shapes : ∀ t ∈ k.vecs, t.shape = s
  shape : v.shape = s
  recur : Rec L k.diag.length (fun j => vec s (k.vecs.getD j ⟨s, fun _ => 0⟩)) (fun j => k.diag.getD j 0)
    (fun j => k.norms.getD j 0) (vec s v)
  first : k.diag.length = 0 → vec s v = x
  start : 0 < k.diag.length → vec s (k.vecs.getD 0 ⟨s, fun _ => 0⟩) = x

theorem distance_nonneg (a b : List ℝ) : 0 ≤ distance a b := Real.sqrt_nonneg _

theorem getD_append_lt {α : Type} (l : List α) (a d : α) {j : Nat} (h : j < l.length) :
    (l ++ [a]).getD j d = l.getD j d := by
  rw [List.getD_append _ _ _ _ h]

theorem getD_append_eq {α : Type} (l : List α) (a d : α) {j : Nat} (h : j = l.length) :
    (l ++ [a]).getD j d = a := by
  subst h
  rw [List.getD_append_right _ _ _ _ le_rfl]; simp

theorem getLastD_eq {α : Type} (l : List α) (a d : α) (h : 0 < l.length) : l.getLastD a = l.getD (l.length - 1) d := by
  rw [List.getLastD_eq_getLast?, List.getLast?_eq_getElem?, List.getD_eq_getElem?_getD,
    List.getElem?_eq_getElem (by omega)]
  rfl

/-- One iteration up to the convergence test. -/
theorem Inv.next {s : List Nat} {L : EuclideanSpace K (Fin s.prod) →ₗ[K] EuclideanSpace K (Fin s.prod)}
    (hL : L.IsSymmetric) {x : EuclideanSpace K (Fin s.prod)} (hx : ‖x‖ = 1) {k : Krylov K} {v q w w' : NDArray K}
    (i : Inv s L x k v) (hz : Mps.norm v ≠ 0) (hq : q.shape = s) (hw : w.shape = s)
    (hqv : vec s v = ((Mps.norm v : ℝ) : K) • vec s q) (hwv : vec s w = L (vec s q))
    (hw' : w' = if 0 < k.diag.length then subScaled (subScaled w (inner K (vec s q) (vec s w)) q)
      ((Mps.norm v : ℝ) : K) (k.vecs.getLastD q) else subScaled w (inner K (vec s q) (vec s w)) q) :
    Inv s L x ⟨k.vecs ++ [q], k.diag ++ [inner K (vec s q) (vec s w)], k.norms ++ [Mps.norm v]⟩ w' := by
  have hv : vec s v ≠ 0 := by
    intro h
    apply hz
    rw [norm_vec i.shape, h, norm_zero]
  have hl1 := i.len1
  have hl2 := i.len2
  refine ⟨by simp [hl1], by simp [hl2], ?_, ?_, ?_, by simp, ?_⟩
  · intro t ht
    rcases List.mem_append.1 ht with ht | ht
    · exact i.shapes t ht
    · rw [List.mem_singleton.1 ht]; exact hq
  · rw [hw']
    split_ifs <;> exact hw
  · rw [show (k.diag ++ [inner K (vec s q) (vec s w)]).length = k.diag.length + 1 by simp]
    refine i.recur.next hL hv (x := vec s q) (by rw [← norm_vec i.shape]; exact hqv) (fun j hj => ?_) ?_
      (fun j hj => ?_) ?_ (fun j hj => ?_) ?_ ?_
    · rw [getD_append_lt _ _ _ (by omega)]
    · rw [getD_append_eq _ _ _ (by omega)]
    · rw [getD_append_lt _ _ _ (by omega)]
    · rw [getD_append_eq _ _ _ (by omega), hwv]
    · rw [getD_append_lt _ _ _ (by omega)]
    · rw [getD_append_eq _ _ _ (by omega), norm_vec i.shape]
    · rw [getD_append_eq _ _ _ (by omega), getD_append_eq _ _ _ (by omega), hw']
      by_cases h : 0 < k.diag.length
      · rw [if_pos h, if_pos h, vec_subScaled, vec_subScaled, hwv, getD_append_lt _ _ _ (by omega),
          getLastD_eq _ _ ⟨s, fun _ => 0⟩ (by omega), hl1]
      · rw [if_neg h, if_neg h, vec_subScaled, hwv, sub_zero]
  · intro _
    by_cases h : 0 < k.diag.length
    · show vec s ((k.vecs ++ [q]).getD 0 _) = x
      rw [getD_append_lt _ _ _ (by omega)]; exact i.start h
    · show vec s ((k.vecs ++ [q]).getD 0 _) = x
      rw [getD_append_eq _ _ _ (by omega)]
      have h1 := i.first (by omega)
      rw [norm_vec i.shape, h1, hx, RCLike.ofReal_one, one_smul] at hqv
      exact hqv.symm

theorem loop_ok {s : List Nat} {L : EuclideanSpace K (Fin s.prod) →ₗ[K] EuclideanSpace K (Fin s.prod)}
    (hL : L.IsSymmetric) {x : EuclideanSpace K (Fin s.prod)} (hx : ‖x‖ = 1) (eigh : Eigh K)
    {A : NDArray K → Py (NDArray K)} (hA : ActsAs s A L) {o : Opts} (hd : 0 < o.delta) (hd1 : o.delta ≤ 1)
    (hn : o.ndiag ≠ 0) : ∀ (n : Nat) (v : NDArray K) (k : Krylov K) (old : Option (List ℝ)), Inv s L x k v →
    (k.diag.length = 0 → 0 < n) →
    ∃ k' v', loop eigh A o n k.diag.length v k old = .ok k' ∧ Inv s L x k' v' ∧ 0 < k'.diag.length ∧
      k'.diag.length ≤ k.diag.length + n ∧
      (o.tol ≤ 0 → k'.diag.length < k.diag.length + n → Mps.norm v' < o.delta) := by
  intro n
  induction n with
  | zero =>
    intro v k old i h0
    refine ⟨k, v, rfl, i, ?_, le_rfl, fun _ h => absurd h (lt_irrefl _)⟩
    by_contra h
    exact absurd (h0 (by omega)) (by omega)
  | succ n ih =>
    intro v k old i _
    by_cases hb : |Mps.norm v| < o.delta
    · refine ⟨k, v, by unfold loop; rw [if_pos hb], i, ?_, by omega, fun _ _ => ?_⟩
      · by_contra h
        rw [norm_vec i.shape, i.first (by omega), hx, abs_one] at hb
        linarith
      · rwa [abs_of_nonneg (Mps.norm_nonneg v)] at hb
    · have hz : Mps.norm v ≠ 0 := by
        intro h
        rw [h, abs_zero] at hb
        exact hb hd
      obtain ⟨q, d1, d2, d3⟩ := vec_divide (s := s) (t := v) hz
      have hq : q.shape = s := d2.trans i.shape
      obtain ⟨w, a1, a2, a3⟩ := hA q hq
      have hzK : ((Mps.norm v : ℝ) : K) ≠ 0 := by rw [Ne, RCLike.ofReal_eq_zero]; exact hz
      have hre : orthStep o.reorth k.vecs q = .ok q := by
        unfold orthStep
        by_cases hr : o.reorth
        · rw [if_pos hr]
          refine reorthogonalize_id hq fun t ht => ⟨i.shapes t ht, ?_⟩
          obtain ⟨j, hj, rfl⟩ := List.mem_iff_getElem.1 ht
          have h1 := i.recur.perp j (by rw [← i.len1]; exact hj)
          rw [List.getD_eq_getElem _ _ hj, d3, inner_smul_right] at h1
          exact (mul_eq_zero.1 h1).resolve_left hzK
        · rw [if_neg hr]
      obtain ⟨w', hw'⟩ : ∃ w', w' = if 0 < k.diag.length then
          subScaled (subScaled w (inner K (vec s q) (vec s w)) q) ((Mps.norm v : ℝ) : K) (k.vecs.getLastD q)
          else subScaled w (inner K (vec s q) (vec s w)) q := ⟨_, rfl⟩
      have inv' := i.next hL hx hz hq a2 d3 a3 hw'
      obtain ⟨k', hk'⟩ : ∃ k' : Krylov K,
        k' = ⟨k.vecs ++ [q], k.diag ++ [inner K (vec s q) (vec s w)], k.norms ++ [Mps.norm v]⟩ := ⟨_, rfl⟩
      rw [← hk'] at inv'
      have hlen : k'.diag.length = k.diag.length + 1 := by rw [hk']; simp
      have hrun : loop eigh A o (n + 1) k.diag.length v k old =
          if 0 < k.diag.length ∧ o.ndiag = 0 then .error .runtimeError
          else if 0 < k.diag.length ∧ k.diag.length % o.ndiag = 0 ∧ o.numeig ≤ k'.diag.length then
            if old.any (fun e => decide (distance (eigvals eigh o.numeig k') e < o.tol)) then .ok k'
            else loop eigh A o n k'.diag.length w' k' (some (eigvals eigh o.numeig k'))
          else loop eigh A o n k'.diag.length w' k' old := by
        conv_lhs => unfold loop
        rw [if_neg hb, d1]
        simp only [bind, Except.bind]
        rw [hre]
        simp only []
        rw [a1]
        simp only []
        rw [dot_vec hq a2]
        simp only []
        rw [← hw', hlen, hk']
        simp only [List.length_append, List.length_singleton]
      rw [hrun, if_neg (fun h => hn h.2)]
      have hrec := fun old => ih w' k' old inv' (fun h => by omega)
      by_cases hc : 0 < k.diag.length ∧ k.diag.length % o.ndiag = 0 ∧ o.numeig ≤ k'.diag.length
      · rw [if_pos hc]
        by_cases ht : old.any (fun e => decide (distance (eigvals eigh o.numeig k') e < o.tol)) = true
        · rw [if_pos ht]
          refine ⟨k', w', rfl, inv', by omega, by omega, fun htol _ => ?_⟩
          rw [Option.any_eq_true] at ht
          obtain ⟨e, _, he⟩ := ht
          have := distance_nonneg (eigvals eigh o.numeig k') e
          have := of_decide_eq_true he
          linarith
        · rw [if_neg ht]
          obtain ⟨k2, v2, b1, b2, b3, b4, b5⟩ := hrec (some (eigvals eigh o.numeig k'))
          exact ⟨k2, v2, b1, b2, b3, by omega, fun h1 h2 => b5 h1 (by omega)⟩
      · rw [if_neg hc]
        obtain ⟨k2, v2, b1, b2, b3, b4, b5⟩ := hrec old
        exact ⟨k2, v2, b1, b2, b3, by omega, fun h1 h2 => b5 h1 (by omega)⟩

/-! ### The result -/

theorem tridiag_eq (k : Krylov K) :
    tridiag k = triM k.diag.length (fun j => k.diag.getD j 0) (fun j => k.norms.getD j 0) := by
  have hs : ∀ i, k.norms.tail.getD i 0 = k.norms.getD (i + 1) 0 := by
    intro i
    cases k.norms <;> simp
  ext i j
  unfold tridiag triM tri
  by_cases h1 : i = j
  · subst h1
    simp
  · have h1' : (i : Nat) ≠ j := fun h => h1 (Fin.ext h)
    rw [if_neg h1, if_neg h1']
    by_cases h2 : (i : Nat) + 1 = j
    · rw [if_pos h2, if_pos h2, if_neg (by omega), hs, h2]; simp
    · rw [if_neg h2, if_neg h2]
      by_cases h3 : (j : Nat) + 1 = i
      · rw [if_pos h3, if_pos h3, hs, h3]; simp
      · rw [if_neg h3, if_neg h3]; simp

theorem vec_combine {s : List Nat} (vecs : List (NDArray K)) (c : Nat → K) (d : Fin vecs.length → K)
    (h : ∀ j : Fin vecs.length, d j = c j) :
    vec s (combine s vecs c) = comb vecs.length (fun j => vec s (vecs.getD j ⟨s, fun _ => 0⟩)) d := by
  ext k
  unfold comb
  rw [WithLp.ofLp_sum, Finset.sum_apply, vec_apply]
  show ∑ j ∈ range vecs.length, (vecs.getD j ⟨s, fun _ => 0⟩).get (unravel s k) * c j = _
  rw [← Fin.sum_univ_eq_sum_range (fun j => (vecs.getD j ⟨s, fun _ => 0⟩).get (unravel s k) * c j)]
  refine Finset.sum_congr rfl fun j _ => ?_
  rw [h j, mul_comm]
  rfl

/-- Orthonormal vectors are at most as many as the dimension. -/
theorem Rec.le_dim {s : List Nat} {L : EuclideanSpace K (Fin s.prod) →ₗ[K] EuclideanSpace K (Fin s.prod)} {m : Nat}
    {q : Nat → EuclideanSpace K (Fin s.prod)} {α : Nat → K} {β : Nat → ℝ} {v : EuclideanSpace K (Fin s.prod)}
    (r : Rec L m q α β v) : m ≤ s.prod := by
  have h1 : Orthonormal K (fun i : Fin m => q i) := by
    rw [orthonormal_iff_ite]
    intro i j
    rw [r.ortho i i.2 j j.2]
    by_cases h : i = j
    · rw [if_pos h, if_pos (congrArg Fin.val h)]
    · rw [if_neg h, if_neg fun h' => h (Fin.ext h')]
  have h2 := h1.linearIndependent.fintype_card_le_finrank
  simpa using h2

/-- C57: for a symmetric operator and a nonzero initial vector the Lanczos method succeeds and returns the Ritz
pairs of a Krylov space of the operator; the caller's initial vector is normalised in place. -/
theorem C57_lanczos {s : List Nat} {L : EuclideanSpace K (Fin s.prod) →ₗ[K] EuclideanSpace K (Fin s.prod)}
    (hL : L.IsSymmetric) {eigh : Eigh K} (hE : EighOK eigh)
    {A : NDArray K → Py (NDArray K)} (hA : ActsAs s A L) {o : Opts} (hd : 0 < o.delta) (hd1 : o.delta ≤ 1)
    (hn : o.ndiag ≠ 0) (hk : 0 < o.numKrylov) (hk1 : o.numeig ≤ o.numKrylov) (hre : o.numeig ≤ 1 ∨ o.reorth = true)
    {x0 : NDArray K} (hs : x0.shape = s) (h0 : vec s x0 ≠ 0) :
    ∃ r m, eigshLanczos eigh A o x0 = .ok r ∧ Ritz s L (vec s x0) o m r ∧ r.initial.shape = s ∧
      vec s x0 = ((‖vec s x0‖ : ℝ) : K) • vec s r.initial := by
  have hz : Mps.norm x0 ≠ 0 := by rw [norm_vec hs]; exact norm_ne_zero_iff.2 h0
  obtain ⟨v, d1, d2, d3⟩ := vec_divide (s := s) (t := x0) hz
  have hzK : ((Mps.norm x0 : ℝ) : K) ≠ 0 := by rw [Ne, RCLike.ofReal_eq_zero]; exact hz
  have hv1 : ‖vec s v‖ = 1 := by
    have := congrArg norm d3
    rw [norm_smul, RCLike.norm_ofReal, abs_of_nonneg (Mps.norm_nonneg x0), ← norm_vec hs] at this
    exact mul_left_cancel₀ hz (this.symm.trans (mul_one _).symm)
  have i0 : Inv s L (vec s v) ⟨[], [], []⟩ v :=
    ⟨rfl, rfl, fun t ht => by simp at ht, d2.trans hs, Rec.start _ _ _ _, fun _ => rfl, fun h => by simp at h⟩
  obtain ⟨k, v', l1, i, l2, l3, l4⟩ := loop_ok hL hv1 eigh hA hd hd1 hn o.numKrylov v ⟨[], [], []⟩ none i0
    (fun _ => hk)
  have l3' : k.diag.length ≤ o.numKrylov := by simpa using l3
  have hherm := i.recur.hermitian hL
  have hu := hE _ _ hherm
  obtain ⟨m, hm⟩ : ∃ m, m = k.diag.length := ⟨_, rfl⟩
  obtain ⟨l, u, hlu⟩ : ∃ l u, eigh k.diag.length (triM k.diag.length (fun j => k.diag.getD j 0)
    (fun j => k.norms.getD j 0)) = (l, u) := ⟨_, _, rfl⟩
  rw [hlu] at hu
  simp only at hu
  have hst : ∀ n (hn : n < k.diag.length), vec s (combine s k.vecs (column u n)) =
      comb k.diag.length (fun j => vec s (k.vecs.getD j ⟨s, fun _ => 0⟩)) (fun i => u i ⟨n, hn⟩) := by
    intro n hn
    have h1 := vec_combine (s := s) k.vecs (column u n) (fun j => column u n j) (fun _ => rfl)
    rw [h1]
    have hl1 := i.len1
    unfold comb
    rw [Fin.sum_univ_eq_sum_range (fun j => column u n j • vec s (k.vecs.getD j ⟨s, fun _ => 0⟩)), hl1,
      ← Fin.sum_univ_eq_sum_range (fun j => column u n j • vec s (k.vecs.getD j ⟨s, fun _ => 0⟩))]
    refine Finset.sum_congr rfl fun j _ => ?_
    unfold column
    rw [dif_pos ⟨j.2, hn⟩]
  have hritz := i.recur.ritz l2 hu
  have hstn : ∀ n, n < k.diag.length → Mps.norm (combine s k.vecs (column u n)) = 1 := by
    intro n hn
    rw [norm_vec (s := s) rfl, hst n hn]
    have h1 := (hritz ⟨n, hn⟩ ⟨n, hn⟩).1
    rw [if_pos rfl, inner_self_eq_norm_sq_to_K] at h1
    have h2 : ‖comb k.diag.length (fun j => vec s (k.vecs.getD j ⟨s, fun _ => 0⟩)) (fun i => u i ⟨n, hn⟩)‖ ^ 2 = 1 := by
      exact_mod_cast h1
    exact (pow_eq_one_iff_of_nonneg (norm_nonneg _) two_ne_zero).1 h2
  have hdiv : ∀ n ∈ List.range (min o.numeig k.diag.length),
      Mps.divide (combine x0.shape k.vecs (column u n)) (Mps.norm (combine x0.shape k.vecs (column u n))) =
        .ok (combine s k.vecs (column u n)) := by
    intro n hn
    have hn' : n < k.diag.length := lt_of_lt_of_le (List.mem_range.1 hn) (min_le_right _ _)
    rw [hs, hstn n hn']
    unfold Mps.divide
    rw [if_neg one_ne_zero, RCLike.ofReal_one]
    congr 1
    unfold combine
    simp
  refine ⟨⟨(List.ofFn l).take o.numeig, (List.range (min o.numeig k.diag.length)).map fun n =>
    combine s k.vecs (column u n), v⟩, k.diag.length, ?_, ?_, d2.trans hs, ?_⟩
  · unfold eigshLanczos
    rw [if_neg (by omega), if_neg (by
      rintro ⟨h1, h2⟩
      rcases hre with h | h
      · omega
      · rw [h2] at h; exact absurd h (by simp)), d1]
    simp only [bind, Except.bind]
    have l1' : loop eigh A o o.numKrylov 0 v ⟨[], [], []⟩ none = .ok k := l1
    rw [l1']
    simp only []
    rw [tridiag_eq, hlu]
    simp only []
    rw [Mps.mapM_ok hdiv]
    rfl
  · have hx1 : ∃ z : K, vec s x0 = z • vec s (k.vecs.getD 0 ⟨s, fun _ => 0⟩) :=
      ⟨_, by rw [i.start l2]; exact d3⟩
    have hx2 : ∃ z : K, vec s (k.vecs.getD 0 ⟨s, fun _ => 0⟩) = z • vec s x0 :=
      ⟨((Mps.norm x0 : ℝ) : K)⁻¹, by rw [i.start l2, eq_inv_smul_iff₀ hzK]; exact d3.symm⟩
    have hgetv : ∀ (n : Nat) (t : NDArray K), ((List.range (min o.numeig k.diag.length)).map fun n =>
        combine s k.vecs (column u n))[n]? = some t → n < k.diag.length ∧ t = combine s k.vecs (column u n) := by
      intro n t h
      rw [List.getElem?_map, Option.map_eq_some_iff] at h
      obtain ⟨n', h1, h2⟩ := h
      obtain ⟨h3, h4⟩ := List.getElem?_eq_some_iff.1 h1
      rw [List.getElem_range] at h4
      subst h4
      rw [List.length_range] at h3
      exact ⟨by omega, h2.symm⟩
    have hgete : ∀ (n : Nat) (e : ℝ), ((List.ofFn l).take o.numeig)[n]? = some e →
        ∃ hn : n < k.diag.length, e = l ⟨n, hn⟩ := by
      intro n e h
      obtain ⟨h3, h4⟩ := List.getElem?_eq_some_iff.1 h
      rw [List.getElem_take, List.getElem_ofFn] at h4
      simp only [List.length_take, List.length_ofFn] at h3
      exact ⟨by omega, h4.symm⟩
    refine ⟨l2, l3', i.recur.le_dim, by simp, by simp, ?_, ?_, ?_, ?_, ?_, ?_, ?_⟩
    · rw [List.pairwise_iff_getElem]
      intro a b ha hb hab
      rw [List.getElem_take, List.getElem_take, List.getElem_ofFn, List.getElem_ofFn]
      exact hu.sorted (Fin.le_def.2 (le_of_lt hab))
    · intro t ht
      obtain ⟨n, _, rfl⟩ := List.mem_map.1 ht
      rfl
    · intro a b t t' ht ht'
      obtain ⟨ha, rfl⟩ := hgetv a t ht
      obtain ⟨hb, rfl⟩ := hgetv b t' ht'
      rw [hst a ha, hst b hb, (hritz ⟨a, ha⟩ ⟨b, hb⟩).1]
      simp
    · intro t ht
      obtain ⟨n, hn, rfl⟩ := List.mem_map.1 ht
      have hn' : n < k.diag.length := lt_of_lt_of_le (List.mem_range.1 hn) (min_le_right _ _)
      rw [hst n hn']
      unfold comb
      refine Submodule.sum_mem _ fun j _ => Submodule.smul_mem _ _ ?_
      exact krylovSpace_mono _ j.2 (i.recur.inside (vec s x0) (fun _ => hx2) j j.2)
    · intro a b t t' e ht ht' he
      obtain ⟨ha, rfl⟩ := hgetv a t ht
      obtain ⟨hb, rfl⟩ := hgetv b t' ht'
      obtain ⟨_, rfl⟩ := hgete b e he
      rw [hst a ha, hst b hb, (hritz ⟨a, ha⟩ ⟨b, hb⟩).2.2]
      simp
    · intro e he y hy
      obtain ⟨c, rfl⟩ := i.recur.span (vec s x0) (fun _ => hx1) hy
      rw [List.head?_eq_getElem?] at he
      obtain ⟨_, rfl⟩ := hgete 0 e he
      exact i.recur.lowest l2 hu c
    · intro htol hlt a t e ht he
      obtain ⟨ha, rfl⟩ := hgetv a t ht
      obtain ⟨_, rfl⟩ := hgete a e he
      rw [hst a ha, (hritz ⟨a, ha⟩ ⟨a, ha⟩).2.1, add_sub_cancel_left, norm_smul]
      have h1 := l4 htol (by simpa using hlt)
      rw [norm_vec i.shape] at h1
      have h2 := hu.entry_le ⟨k.diag.length - 1, by omega⟩ ⟨a, ha⟩
      have h3 := norm_nonneg (vec s v')
      nlinarith
  · rw [← norm_vec hs]; exact d3

end TN.Lanczos
