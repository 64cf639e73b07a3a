import Verif.ExTrotterProps

/-!
# Exact wave functions: what the evolution conserves
-/

set_option linter.unusedSectionVars false

namespace TN.Wave

open TN TN.NDArray Finset ComplexConjugate

/-! ### Sums over the indices of some of the sites -/

theorem split_sum {R : Type} [CommSemiring R] {d T : List Nat} (hn : T.Nodup) (hT : ∀ i ∈ T, i < d.length) (f : List Nat → R) :
    sumIdx d f = sumOver (fun i => d.getD i 0) ((List.range d.length).filter fun i => i ∉ T)
      (fun τ => sumIdx (T.map fun i => d.getD i 0) fun c => f (setAll ((List.range d.length).map τ) T c)) (fun _ => 0) := by
  have hd : (List.range d.length).map (fun i => d.getD i 0) = d := by
    apply List.ext_getElem (by simp)
    intro i h1 h2
    rw [List.getElem_map, List.getElem_range, List.getD_eq_getElem _ _ h2]
  have h1 : sumIdx d f = sumOver (fun i => d.getD i 0) (List.range d.length) (fun τ => f ((List.range d.length).map τ)) (fun _ => 0) := by
    rw [sumOver_eq_sumIdx, hd]
    refine sumIdx_congr fun c hc => ?_
    rw [assign_map_self List.nodup_range (by simpa using hc.length)]
  have hp : (List.range d.length).Perm (((List.range d.length).filter fun i => i ∉ T) ++ T) := by
    rw [List.perm_ext_iff_of_nodup List.nodup_range]
    · intro i
      simp only [List.mem_append, List.mem_filter, List.mem_range, decide_eq_true_eq]
      constructor
      · intro h
        by_cases hi : i ∈ T
        · exact .inr hi
        · exact .inl ⟨h, hi⟩
      · rintro (h | h)
        · exact h.1
        · exact hT i h
    · refine (List.nodup_range.filter _).append hn fun i h1 h2 => ?_
      rw [List.mem_filter, decide_eq_true_eq] at h1
      exact h1.2 h2
  rw [h1, sumOver_perm hp, sumOver_append]
  refine sumOver_congr fun τ _ _ => ?_
  rw [sumOver_eq_sumIdx]
  refine sumIdx_congr fun c hc => ?_
  have hTd : (T.map fun i => (List.range d.length).getD i default) = T := by
    conv_rhs => rw [← List.map_id T]
    refine List.map_congr_left fun i hi => ?_
    rw [List.getD_eq_getElem _ _ (by simpa using hT i hi), List.getElem_range, id]
  have := sites_assign (sites := List.range d.length) List.nodup_range hn (by simpa using hT) (by simpa using hc.length) τ (c := c)
  rw [hTd] at this
  rw [this]

/-! ### Gates that are unitary -/

/-- An operator is an isometry from its inputs to its outputs. -/
def IsoGate (op : NDArray ℂ) (s : List Nat) : Prop :=
  op.shape = s ++ s ∧ ∀ c c', InB s c → InB s c' →
    (sumIdx s fun b => conj (op.get (b ++ c)) * op.get (b ++ c')) = if c = c' then 1 else 0

theorem conj_sumIdx (s : List Nat) (f : List Nat → ℂ) : conj (sumIdx s f) = sumIdx s fun i => conj (f i) := by
  simp only [← sum_range_unravel, map_sum]

/-- The scalar product of two states. -/
noncomputable def braket (a b : NDArray ℂ) : ℂ := sumIdx a.shape fun i => conj (a.get i) * b.get i

theorem act_inner {op psi phi : NDArray ℂ} {T s : List Nat} (f : Fits op T psi) (hl : s.length = T.length)
    (u : IsoGate op s) : braket (act op T psi) (act op T phi) = braket psi phi := by
  have h1 : op.shape.take T.length = s := by rw [u.1, ← hl, List.take_left]
  have h2 : op.shape.drop T.length = s := by rw [u.1, ← hl, List.drop_left]
  have hsT : (T.map fun i => psi.shape.getD i 0) = s := by rw [← f.dim, h2]
  have hlt : ∀ i ∈ T, i < psi.shape.length := f.lt
  rw [braket, act_shape f (by rw [h1, h2]), braket, split_sum f.nodup hlt, split_sum f.nodup hlt (fun i => conj (psi.get i) * phi.get i)]
  refine sumOver_congr fun τ _ _ => ?_
  rw [hsT]
  obtain ⟨x, hx⟩ : ∃ x, x = (List.range psi.shape.length).map τ := ⟨_, rfl⟩
  rw [← hx]
  have hxl : ∀ i ∈ T, i < x.length := by rw [hx]; simpa using hlt
  have key : ∀ (a : NDArray ℂ) (b : List Nat), InB s b → (act op T a).get (setAll x T b) =
      sumIdx s fun c => op.get (b ++ c) * a.get (setAll x T c) := by
    intro a b hb
    have hbl : b.length = T.length := by rw [hb.length, hl]
    simp only [act]
    rw [h2]
    refine sumIdx_congr fun c hc => ?_
    rw [setAll_read 0 f.nodup hbl hxl, setAll_setAll f.nodup (by rw [hc.length, hl]) hxl]
  calc (sumIdx s fun b => conj ((act op T psi).get (setAll x T b)) * (act op T phi).get (setAll x T b))
      = sumIdx s fun b => sumIdx s fun c => sumIdx s fun c' =>
          (conj (op.get (b ++ c)) * op.get (b ++ c')) * (conj (psi.get (setAll x T c)) * phi.get (setAll x T c')) := by
        refine sumIdx_congr fun b hb => ?_
        rw [key psi b hb, key phi b hb, conj_sumIdx, sumIdx_mul_right]
        refine sumIdx_congr fun c _ => ?_
        rw [sumIdx_mul_left]
        refine sumIdx_congr fun c' _ => ?_
        rw [map_mul]
        ring
    _ = sumIdx s fun c => sumIdx s fun c' => (sumIdx s fun b => conj (op.get (b ++ c)) * op.get (b ++ c')) *
          (conj (psi.get (setAll x T c)) * phi.get (setAll x T c')) := by
        rw [sumIdx_comm]
        refine sumIdx_congr fun c _ => ?_
        rw [sumIdx_comm]
        refine sumIdx_congr fun c' _ => ?_
        rw [sumIdx_mul_right]
    _ = sumIdx s fun c => conj (psi.get (setAll x T c)) * phi.get (setAll x T c) := by
        refine sumIdx_congr fun c hc => ?_
        have : sumIdx s (fun c' => (sumIdx s fun b => conj (op.get (b ++ c)) * op.get (b ++ c')) *
            (conj (psi.get (setAll x T c)) * phi.get (setAll x T c'))) =
            sumIdx s fun c' => (if c = c' then 1 else 0) * (conj (psi.get (setAll x T c)) * phi.get (setAll x T c')) :=
          sumIdx_congr fun c' hc' => by rw [u.2 c c' hc hc']
        rw [this, ← sum_range_unravel, Finset.sum_eq_single (ravel s c)]
        · rw [unravel_ravel hc, if_pos rfl, one_mul]
        · intro k hk hne
          rw [if_neg, zero_mul]
          intro h'
          exact hne (by rw [h', ravel_unravel (Finset.mem_range.1 hk)])
        · intro hk
          exact absurd (Finset.mem_range.2 (ravel_lt hc)) hk

theorem sumIdx_pair {R : Type} [AddCommMonoid R] (a b : Nat) (f : List Nat → R) :
    sumIdx [a, b] f = ∑ p : Fin a × Fin b, f [p.1, p.2] := by
  rw [Fintype.sum_prod_type]
  simp only [sumIdx]
  rw [Finset.sum_range]
  refine Finset.sum_congr rfl fun i _ => ?_
  rw [Finset.sum_range]

theorem tgate_get {c : ℂ} {h : NDArray ℂ} {a b : Nat} (hs : h.shape = [a, b, a, b]) (p q : Fin a × Fin b) :
    (tgate c h).get [p.1, p.2, q.1, q.2] =
      NormedSpace.exp (Matrix.of fun p q : Fin a × Fin b => c * h.get [p.1, p.2, q.1, q.2]) p q := by
  have e0 : h.shape.getD 0 0 = a := by rw [hs]; rfl
  have e1 : h.shape.getD 1 0 = b := by rw [hs]; rfl
  show tentry (h.shape.getD 0 0) (h.shape.getD 1 0) c h p.1 p.2 q.1 q.2 = _
  rw [e0, e1, tentry, dif_pos ⟨⟨p.1.2, p.2.2⟩, q.1.2, q.2.2⟩]

/-- The term is Hermitian. -/
def Hermitian (h : NDArray ℂ) : Prop := ∀ i j k l, InB h.shape [i, j, k, l] → h.get [i, j, k, l] = conj (h.get [k, l, i, j])

theorem tgate_iso {h : NDArray ℂ} {a b : Nat} (hs : h.shape = [a, b, a, b]) (hh : Hermitian h) (dt : ℝ) :
    IsoGate (tgate (stepSpec dt false) h) [a, b] := by
  refine ⟨hs, fun c c' hc hc' => ?_⟩
  obtain ⟨c0, c, rfl, h0, hc⟩ := inB_cons_iff.1 hc
  obtain ⟨c1, c, rfl, h1, hc⟩ := inB_cons_iff.1 hc
  rw [inB_nil_iff] at hc
  subst hc
  obtain ⟨c0', c, rfl, h0', hc⟩ := inB_cons_iff.1 hc'
  obtain ⟨c1', c, rfl, h1', hc⟩ := inB_cons_iff.1 hc
  rw [inB_nil_iff] at hc
  subst hc
  obtain ⟨p, hp⟩ : ∃ p : Fin a × Fin b, p = (⟨c0, h0⟩, ⟨c1, h1⟩) := ⟨_, rfl⟩
  obtain ⟨q, hq⟩ : ∃ q : Fin a × Fin b, q = (⟨c0', h0'⟩, ⟨c1', h1'⟩) := ⟨_, rfl⟩
  have ep : [c0, c1] = [(p.1 : Nat), (p.2 : Nat)] := by rw [hp]
  have eq : [c0', c1'] = [(q.1 : Nat), (q.2 : Nat)] := by rw [hq]
  rw [ep, eq, sumIdx_pair]
  obtain ⟨M, hM⟩ : ∃ M : Matrix (Fin a × Fin b) (Fin a × Fin b) ℂ,
    M = Matrix.of fun p q : Fin a × Fin b => stepSpec dt false * h.get [p.1, p.2, q.1, q.2] := ⟨_, rfl⟩
  have hskew : M.conjTranspose = -M := by
    ext x y
    rw [Matrix.conjTranspose_apply, Matrix.neg_apply, hM, Matrix.of_apply, Matrix.of_apply,
      hh y.1 y.2 x.1 x.2 (by rw [hs]; simp), star_mul']
    simp [stepSpec]
  have hexp : (NormedSpace.exp M).conjTranspose * NormedSpace.exp M = 1 := by
    rw [← Matrix.exp_conjTranspose, hskew, Matrix.exp_neg]
    exact Matrix.nonsing_inv_mul _ ((Matrix.isUnit_iff_isUnit_det _).1 (Matrix.isUnit_exp M))
  have h2 := congrFun (congrFun hexp p) q
  rw [Matrix.mul_apply, Matrix.one_apply] at h2
  have h3 : ∀ x : Fin a × Fin b, conj ((tgate (stepSpec dt false) h).get ([(x.1 : Nat), (x.2 : Nat)] ++ [(p.1 : Nat), (p.2 : Nat)])) *
      (tgate (stepSpec dt false) h).get ([(x.1 : Nat), (x.2 : Nat)] ++ [(q.1 : Nat), (q.2 : Nat)]) =
      (NormedSpace.exp M).conjTranspose p x * NormedSpace.exp M x q := by
    intro x
    simp only [List.cons_append, List.nil_append]
    rw [tgate_get hs, tgate_get hs, ← hM, Matrix.conjTranspose_apply]
    rfl
  rw [Finset.sum_congr rfl fun x _ => h3 x, h2]
  congr 1
  rw [eq_iff_iff]
  constructor
  · rintro rfl; rfl
  · intro h
    simp only [List.cons.injEq, and_true] at h
    exact Prod.ext (Fin.ext h.1) (Fin.ext h.2)

theorem runAll_inner {d : List Nat} {l : List (NDArray ℂ × Nat)} (hl : Sq d l)
    (hu : ∀ p ∈ l, IsoGate p.1 [d.getD p.2 0, d.getD (p.2 + 1) 0]) : ∀ {psi phi : NDArray ℂ}, psi.shape = d → phi.shape = d →
    braket (runAll l psi) (runAll l phi) = braket psi phi := by
  induction l with
  | nil => intro psi phi _ _; rfl
  | cons p l ih =>
    intro psi phi h1 h2
    obtain ⟨h3, h4⟩ := hl p List.mem_cons_self
    obtain ⟨a1, a2, a3⟩ := Sq.fits h3 h4 h1
    obtain ⟨b1, b2, b3⟩ := Sq.fits h3 h4 h2
    rw [show runAll (p :: l) psi = runAll l (act p.1 (gsites p) psi) from rfl,
      show runAll (p :: l) phi = runAll l (act p.1 (gsites p) phi) from rfl,
      ih (fun q hq => hl q (List.mem_cons_of_mem _ hq)) (fun q hq => hu q (List.mem_cons_of_mem _ hq)) a3 b3]
    exact act_inner a2 (by rw [show gsites p = _ from a1]; rfl) (hu p List.mem_cons_self)

theorem bonds_mem {n i : Nat} (h : i ∈ bonds n) : i < n := by
  rw [bonds, List.mem_append, List.mem_filter, List.mem_filter, List.mem_range] at h
  rcases h with h | h <;> exact h.1

theorem tstep_sq {d : List Nat} {H : List (NDArray ℂ)} (hc : Chain d H) (c : ℂ) :
    Sq d ((bonds H.length).map fun n => (tgate c (H.getD n ⟨[], 0⟩), n)) := by
  intro p hp
  obtain ⟨n, hn, rfl⟩ := List.mem_map.1 hp
  have hn := bonds_mem hn
  refine ⟨by have := hc.1; simp only; omega, ?_⟩
  simp only [tgate]
  rw [List.getD_eq_getElem _ _ hn]
  exact hc.2 n hn

theorem tstep_shape {d : List Nat} {H : List (NDArray ℂ)} (hc : Chain d H) (c : ℂ) {psi : NDArray ℂ} (hp : psi.shape = d) :
    (tstep c H psi).shape = d := by
  have := tstep_sq hc c
  have key : ∀ {l : List (NDArray ℂ × Nat)}, Sq d l → ∀ {psi : NDArray ℂ}, psi.shape = d → (runAll l psi).shape = d := by
    intro l
    induction l with
    | nil => intro _ psi h; exact h
    | cons p l ih =>
      intro hl psi h
      obtain ⟨h3, h4⟩ := hl p List.mem_cons_self
      exact ih (fun q hq => hl q (List.mem_cons_of_mem _ hq)) (Sq.fits h3 h4 h).2.2
  exact key this hp

theorem tstep_inner {d : List Nat} {H : List (NDArray ℂ)} (hc : Chain d H) (hh : ∀ h ∈ H, Hermitian h) (dt : ℝ)
    {psi phi : NDArray ℂ} (h1 : psi.shape = d) (h2 : phi.shape = d) :
    braket (tstep (stepSpec dt false) H psi) (tstep (stepSpec dt false) H phi) = braket psi phi := by
  refine runAll_inner (tstep_sq hc _) (fun p hp => ?_) h1 h2
  obtain ⟨n, hn, rfl⟩ := List.mem_map.1 hp
  have hn := bonds_mem hn
  simp only
  rw [List.getD_eq_getElem _ _ hn]
  exact tgate_iso (hc.2 n hn) (hh _ (List.getElem_mem _)) dt

theorem braket_same {a a' b b' : NDArray ℂ} (ha : a.Same a') (hb : b.Same b') (h : a.shape = b.shape) : braket a b = braket a' b' := by
  rw [braket, braket, ← ha.1]
  refine sumIdx_congr fun i hi => ?_
  rw [ha.2 i hi, hb.2 i (h ▸ hi)]

/-- **C86.**  In real time and for Hermitian terms the evolution conserves the scalar product of every two states, whatever the
size of the step. -/
theorem C86_unitary {psi phi : NDArray ℂ} {H : List (NDArray ℂ)} (hs : phi.shape = psi.shape) (hc : Chain psi.shape H) (hne : H ≠ [])
    (hh : ∀ h ∈ H, Hermitian h) (dt : ℝ) (num : Nat) :
    ∃ r r', evolveTrotter psi H dt num false = .ok r ∧ evolveTrotter phi H dt num false = .ok r' ∧
      inner conj r.1 r'.1 = inner conj psi phi := by
  obtain ⟨r, r1, r2, r3, -⟩ := C86_evolve hc hne dt num false
  obtain ⟨r', s1, s2, s3, -⟩ := C86_evolve (hs ▸ hc) hne dt num false
  refine ⟨r, r', r1, s1, ?_⟩
  rw [inner_same (by rw [r3, s3, hs]), inner_same hs.symm]
  congr 1
  show braket r.1 r'.1 = braket psi phi
  rw [braket_same r2 s2 (by rw [r3, s3, hs])]
  clear r r1 r2 r3 r' s1 s2 s3
  have key : ∀ (k : Nat) (a b : NDArray ℂ), a.shape = psi.shape → b.shape = psi.shape →
      braket ((estep dt false H)^[k] a) ((estep dt false H)^[k] b) = braket a b := by
    intro k
    induction k with
    | zero => intro a b _ _; rfl
    | succ k ih =>
      intro a b ha hb
      have e : ∀ x, estep dt false H x = tstep (stepSpec dt false) H x := fun x => by simp [estep]
      rw [Function.iterate_succ_apply, Function.iterate_succ_apply, ih, e, e, tstep_inner hc hh dt ha hb]
      · rw [e]; exact tstep_shape hc _ ha
      · rw [e]; exact tstep_shape hc _ hb
  exact key num psi phi rfl hs

theorem swap_hermitian : Hermitian swapTerm := by
  intro i j k l _
  simp only [swapTerm, List.getD_cons_zero, List.getD_cons_succ]
  by_cases h : i = l ∧ j = k
  · rw [if_pos h, if_pos ⟨h.2.symm, h.1.symm⟩, map_one]
  · rw [if_neg h, if_neg (fun h' => h ⟨h'.2.symm, h'.1.symm⟩), map_zero]

/-- Seven steps with the exchange of neighbours. -/
example : ∃ r r', evolveTrotter spin3 [swapTerm, swapTerm] 0.1 7 false = .ok r ∧
    evolveTrotter ⟨[2, 2, 2], fun _ => 1⟩ [swapTerm, swapTerm] 0.1 7 false = .ok r' ∧
    inner conj r.1 r'.1 = inner conj spin3 ⟨[2, 2, 2], fun _ => 1⟩ := by
  have h : ∀ h ∈ [swapTerm, swapTerm], Hermitian h := by
    intro h hh
    simp only [List.mem_cons, List.not_mem_nil, or_false, or_self] at hh
    exact hh ▸ swap_hermitian
  exact C86_unitary (psi := spin3) (phi := ⟨[2, 2, 2], fun _ => 1⟩) rfl swap_chain (List.cons_ne_nil _ _) h 0.1 7

/-! ### Imaginary time -/

/-- The state is not zero. -/
def NonZero (psi : NDArray ℂ) : Prop := ∃ i, InB psi.shape i ∧ psi.get i ≠ 0

theorem act_nonzero {op op' psi : NDArray ℂ} {T s : List Nat} (f : Fits op T psi) (hl : s.length = T.length) (hs : op.shape = s ++ s)
    (hinv : ∀ a c, InB s a → InB s c → (sumIdx s fun b => op'.get (a ++ b) * op.get (b ++ c)) = if a = c then 1 else 0)
    (hz : NonZero psi) : NonZero (act op T psi) := by
  have h1 : op.shape.take T.length = s := by rw [hs, ← hl, List.take_left]
  have h2 : op.shape.drop T.length = s := by rw [hs, ← hl, List.drop_left]
  have hsT : (T.map fun i => psi.shape.getD i 0) = s := by rw [← f.dim, h2]
  have hlt : ∀ i ∈ T, i < psi.shape.length := f.lt
  obtain ⟨x, hx, hx0⟩ := hz
  by_contra hcon
  apply hx0
  have hxl : ∀ i ∈ T, i < x.length := by rw [hx.length]; exact hlt
  obtain ⟨a, ha⟩ : ∃ a, a = T.map fun i => x.getD i 0 := ⟨_, rfl⟩
  have haB : InB s a := by
    rw [← hsT, ha]
    have := inB_iff_getD.1 hx
    rw [inB_iff_getD]
    refine ⟨by simp, fun j hj => ?_⟩
    rw [List.length_map] at hj
    rw [List.getD_eq_getElem _ _ (by simpa using hj), List.getD_eq_getElem _ _ (by simpa using hj), List.getElem_map, List.getElem_map]
    exact this.2 _ (hlt _ (List.getElem_mem _))
  have hxa : setAll x T a = x := by
    symm
    refine setAll_ext f.nodup (by rw [ha]; simp) hxl (fun j hj => ?_) fun p _ => rfl
    have h3 := hxl _ (List.getElem_mem hj)
    rw [ha, List.getElem?_map, List.getElem?_eq_getElem hj, List.getElem?_eq_getElem h3, Option.map_some, List.getD_eq_getElem _ _ h3]
  have hzero : ∀ b, InB s b → (sumIdx s fun c => op.get (b ++ c) * psi.get (setAll x T c)) = 0 := by
    intro b hb
    have hbl : b.length = T.length := by rw [hb.length, hl]
    have hB : InB psi.shape (setAll x T b) := by
      refine setAll_inB f.nodup hlt hx.length (fun p hp _ => (inB_iff_getD.1 hx).2 p hp) hbl fun j hj => ?_
      have := (inB_iff_getD.1 hb).2 j (by rw [hl]; exact hj)
      rw [← hsT, List.getD_eq_getElem (T.map _) _ (by simpa using hj), List.getElem_map] at this
      exact this
    by_contra hne
    refine hcon ⟨setAll x T b, ?_, ?_⟩
    · rw [act_shape f (by rw [h1, h2])]; exact hB
    · simp only [act]
      rw [h2]
      convert hne using 1
      refine sumIdx_congr fun c hc => ?_
      rw [setAll_read 0 f.nodup hbl hxl, setAll_setAll f.nodup (by rw [hc.length, hl]) hxl]
  have : (sumIdx s fun b => op'.get (a ++ b) * sumIdx s fun c => op.get (b ++ c) * psi.get (setAll x T c)) = psi.get x := by
    calc _ = sumIdx s fun b => sumIdx s fun c => (op'.get (a ++ b) * op.get (b ++ c)) * psi.get (setAll x T c) := by
          refine sumIdx_congr fun b _ => ?_
          rw [sumIdx_mul_left]
          exact sumIdx_congr fun c _ => by ring
      _ = sumIdx s fun c => (if a = c then 1 else 0) * psi.get (setAll x T c) := by
          rw [sumIdx_comm]
          refine sumIdx_congr fun c hc => ?_
          rw [← sumIdx_mul_right, hinv a c haB hc]
      _ = psi.get x := by
          rw [← sum_range_unravel, Finset.sum_eq_single (ravel s a)]
          · rw [unravel_ravel haB, if_pos rfl, one_mul, hxa]
          · intro k hk hne
            rw [if_neg, zero_mul]
            intro h'
            exact hne (by rw [h', ravel_unravel (Finset.mem_range.1 hk)])
          · intro hk
            exact absurd (Finset.mem_range.2 (ravel_lt haB)) hk
  rw [← this]
  have h0 : (sumIdx s fun b => op'.get (a ++ b) * sumIdx s fun c => op.get (b ++ c) * psi.get (setAll x T c)) = sumIdx s fun _ => 0 :=
    sumIdx_congr fun b hb => by rw [hzero b hb, mul_zero]
  rw [h0, ← sum_range_unravel, Finset.sum_const_zero]

theorem tgate_inv {c : ℂ} {h : NDArray ℂ} {a b : Nat} (hs : h.shape = [a, b, a, b]) (x y : List Nat) (hx : InB [a, b] x)
    (hy : InB [a, b] y) :
    (sumIdx [a, b] fun z => (tgate (-c) h).get (x ++ z) * (tgate c h).get (z ++ y)) = if x = y then 1 else 0 := by
  obtain ⟨c0, x, rfl, h0, hc⟩ := inB_cons_iff.1 hx
  obtain ⟨c1, x, rfl, h1, hc⟩ := inB_cons_iff.1 hc
  rw [inB_nil_iff] at hc
  subst hc
  obtain ⟨c0', y, rfl, h0', hc⟩ := inB_cons_iff.1 hy
  obtain ⟨c1', y, rfl, h1', hc⟩ := inB_cons_iff.1 hc
  rw [inB_nil_iff] at hc
  subst hc
  obtain ⟨p, hp⟩ : ∃ p : Fin a × Fin b, p = (⟨c0, h0⟩, ⟨c1, h1⟩) := ⟨_, rfl⟩
  obtain ⟨q, hq⟩ : ∃ q : Fin a × Fin b, q = (⟨c0', h0'⟩, ⟨c1', h1'⟩) := ⟨_, rfl⟩
  have ep : [c0, c1] = [(p.1 : Nat), (p.2 : Nat)] := by rw [hp]
  have eq : [c0', c1'] = [(q.1 : Nat), (q.2 : Nat)] := by rw [hq]
  rw [ep, eq, sumIdx_pair]
  obtain ⟨M, hM⟩ : ∃ M : Matrix (Fin a × Fin b) (Fin a × Fin b) ℂ,
    M = Matrix.of fun p q : Fin a × Fin b => c * h.get [p.1, p.2, q.1, q.2] := ⟨_, rfl⟩
  have hMn : -M = Matrix.of fun p q : Fin a × Fin b => -c * h.get [p.1, p.2, q.1, q.2] := by
    ext x y
    rw [Matrix.neg_apply, hM, Matrix.of_apply, Matrix.of_apply, neg_mul]
  have hexp : NormedSpace.exp (-M) * NormedSpace.exp M = 1 := by
    rw [Matrix.exp_neg]
    exact Matrix.nonsing_inv_mul _ ((Matrix.isUnit_iff_isUnit_det _).1 (Matrix.isUnit_exp M))
  have h2 := congrFun (congrFun hexp p) q
  rw [Matrix.mul_apply, Matrix.one_apply] at h2
  have h3 : ∀ z : Fin a × Fin b, (tgate (-c) h).get ([(p.1 : Nat), (p.2 : Nat)] ++ [(z.1 : Nat), (z.2 : Nat)]) *
      (tgate c h).get ([(z.1 : Nat), (z.2 : Nat)] ++ [(q.1 : Nat), (q.2 : Nat)]) =
      NormedSpace.exp (-M) p z * NormedSpace.exp M z q := by
    intro z
    simp only [List.cons_append, List.nil_append]
    rw [tgate_get hs, tgate_get hs, ← hM, ← hMn]
  rw [Finset.sum_congr rfl fun x _ => h3 x, h2]
  congr 1
  rw [eq_iff_iff]
  constructor
  · rintro rfl; rfl
  · intro h
    simp only [List.cons.injEq, and_true] at h
    exact Prod.ext (Fin.ext h.1) (Fin.ext h.2)

theorem tstep_nonzero {d : List Nat} {H : List (NDArray ℂ)} (hc : Chain d H) (c : ℂ) {psi : NDArray ℂ} (h1 : psi.shape = d)
    (hz : NonZero psi) : NonZero (tstep c H psi) := by
  have key : ∀ (l : List (NDArray ℂ × Nat)), Sq d l → (∀ p ∈ l, ∃ op' : NDArray ℂ, ∀ a b,
      InB [d.getD p.2 0, d.getD (p.2 + 1) 0] a → InB [d.getD p.2 0, d.getD (p.2 + 1) 0] b →
      (sumIdx [d.getD p.2 0, d.getD (p.2 + 1) 0] fun z => op'.get (a ++ z) * p.1.get (z ++ b)) = if a = b then 1 else 0) →
      ∀ psi : NDArray ℂ, psi.shape = d → NonZero psi → NonZero (runAll l psi) := by
    intro l
    induction l with
    | nil => intro _ _ psi _ h; exact h
    | cons p l ih =>
      intro hl hu psi h hz
      obtain ⟨h3, h4⟩ := hl p List.mem_cons_self
      obtain ⟨a1, a2, a3⟩ := Sq.fits h3 h4 h
      obtain ⟨op', ho⟩ := hu p List.mem_cons_self
      exact ih (fun q hq => hl q (List.mem_cons_of_mem _ hq)) (fun q hq => hu q (List.mem_cons_of_mem _ hq)) _ a3
        (act_nonzero a2 (by rw [show gsites p = _ from a1]; rfl) (by rw [h4]; rfl) ho hz)
  refine key _ (tstep_sq hc c) (fun p hp => ?_) psi h1 hz
  obtain ⟨n, hn, rfl⟩ := List.mem_map.1 hp
  have hn := bonds_mem hn
  refine ⟨tgate (-c) (H[n]), fun a b ha hb => ?_⟩
  simp only at ha hb ⊢
  rw [List.getD_eq_getElem H _ hn]
  exact tgate_inv (hc.2 n hn) a b ha hb

/-- The square of the norm. -/
noncomputable def norm2 (psi : NDArray ℂ) : ℝ := sumIdx psi.shape fun i => Complex.normSq (psi.get i)

theorem norm2_pos {psi : NDArray ℂ} (h : NonZero psi) : 0 < norm2 psi := by
  obtain ⟨i, hi, h0⟩ := h
  rw [norm2, ← sum_range_unravel]
  refine Finset.sum_pos' (fun k _ => Complex.normSq_nonneg _) ⟨ravel psi.shape i, Finset.mem_range.2 (ravel_lt hi), ?_⟩
  rw [unravel_ravel hi]
  exact Complex.normSq_pos.2 h0

theorem norm2_same {a b : NDArray ℂ} (h : a.Same b) : norm2 a = norm2 b := by
  rw [norm2, norm2, ← h.1]
  exact sumIdx_congr fun i hi => by rw [h.2 i hi]

theorem norm2_normalize {psi : NDArray ℂ} (h : NonZero psi) : norm2 (normalize psi) = 1 := by
  have hp := norm2_pos h
  have h1 : norm2 (normalize psi) = sumIdx psi.shape fun i => Complex.normSq (psi.get i) * (norm2 psi)⁻¹ := by
    refine sumIdx_congr fun i _ => ?_
    simp only [normalize]
    rw [Complex.normSq_div, Complex.normSq_ofReal, ← norm2, Real.mul_self_sqrt hp.le, div_eq_mul_inv]
  rw [h1, ← sumIdx_mul_right]
  exact mul_inv_cancel₀ hp.ne'

theorem nonzero_normalize {psi : NDArray ℂ} (h : NonZero psi) : NonZero (normalize psi) := by
  have hp := norm2_pos h
  obtain ⟨i, hi, h0⟩ := h
  refine ⟨i, hi, div_ne_zero h0 ?_⟩
  rw [Complex.ofReal_ne_zero]
  exact (Real.sqrt_pos.2 hp).ne'

/-- **C86.**  In imaginary time the state that is returned, and every state given to `callback`, has norm one; the state never
becomes zero. -/
theorem C86_euclid_norm {psi : NDArray ℂ} {H : List (NDArray ℂ)} (hc : Chain psi.shape H) (hne : H ≠ []) (hz : NonZero psi) (dt : ℝ)
    {num : Nat} (hn : 0 < num) :
    ∃ r, evolveTrotter psi H dt num true = .ok r ∧ norm2 r.1 = 1 ∧ ∀ c ∈ r.2.2, norm2 c.1 = 1 := by
  have key : ∀ k, ((estep dt true H)^[k] psi).shape = psi.shape ∧ NonZero ((estep dt true H)^[k] psi) ∧
      norm2 ((estep dt true H)^[k + 1] psi) = 1 := by
    have e : ∀ x, estep dt true H x = normalize (tstep (stepSpec dt true) H x) := fun x => by simp [estep]
    intro k
    have h0 : ((estep dt true H)^[k] psi).shape = psi.shape ∧ NonZero ((estep dt true H)^[k] psi) := by
      induction k with
      | zero => exact ⟨rfl, hz⟩
      | succ k ih =>
        rw [Function.iterate_succ_apply', e]
        exact ⟨tstep_shape hc _ ih.1, nonzero_normalize (tstep_nonzero hc _ ih.1 ih.2)⟩
    refine ⟨h0.1, h0.2, ?_⟩
    rw [Function.iterate_succ_apply', e]
    exact norm2_normalize (tstep_nonzero hc _ h0.1 h0.2)
  obtain ⟨r, r1, r2, r3, r4, r5, r6⟩ := C86_evolve hc hne dt num true
  refine ⟨r, r1, ?_, fun c hcm => ?_⟩
  · rw [norm2_same r2, show num = num - 1 + 1 by omega]
    exact (key _).2.2
  · obtain ⟨i, hi, rfl⟩ := List.getElem_of_mem hcm
    obtain ⟨p, p1, p2⟩ := r6 i (by omega)
    rw [List.getElem?_eq_getElem hi, Option.some.injEq] at p1
    rw [p1]
    simp only
    rw [norm2_same p2]
    exact (key i).2.2

/-- A state that is not normalised at the beginning. -/
example : norm2 spin3 = 2 ∧ ∃ r, evolveTrotter spin3 [swapTerm, swapTerm] 0.1 3 true = .ok r ∧ norm2 r.1 = 1 := by
  refine ⟨?_, ?_⟩
  · simp [norm2, spin3, sumIdx, Finset.sum_range_succ]
    norm_num
  · obtain ⟨r, h1, h2, -⟩ := C86_euclid_norm swap_chain (by simp) ⟨[0, 0, 1], by simp [spin3], by simp [spin3]⟩ 0.1 (num := 3) (by norm_num)
    exact ⟨r, h1, h2⟩

end TN.Wave
