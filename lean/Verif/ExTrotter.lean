import Verif.ExWaveCircuit
import Mathlib.Analysis.Normed.Algebra.MatrixExponential
import Mathlib.Analysis.Complex.Basic
import Mathlib.LinearAlgebra.Matrix.Reindex

/-!
# Exact wave functions: `trotter_prepare_gates`, `evolve_trotter`, `evolve_trotter_defun`

Complex numbers are exact; `tf.linalg.expm` is the exponential of a matrix.
-/

set_option linter.unusedSectionVars false

namespace TN.Wave

open TN TN.NDArray Finset

/-- `tf.linalg.expm` -/
noncomputable def expm (m : NDArray ℂ) : Py (NDArray ℂ) :=
  match m.shape with
  | [p, q] =>
    if p = q then
      .ok ⟨[p, p], fun i => if h : i.getD 0 0 < p ∧ i.getD 1 0 < p then
        NormedSpace.exp (Matrix.of fun a b : Fin p => m.get [a, b]) ⟨_, h.1⟩ ⟨_, h.2⟩ else 0⟩
    else .error .valueError
  | _ => .error .valueError

/-- One round of the loop over the terms in `trotter_prepare_gates` (trotter.py:44-52). -/
noncomputable def prepareOne (c : ℂ) (h : NDArray ℂ) : Py (NDArray ℂ) :=
  if h.ndim ≠ 4 then .error .valueError
  else do
    let m ← h.reshape [h.shape.getD 0 0 * h.shape.getD 1 0, h.shape.getD 2 0 * h.shape.getD 3 0]
    let e ← expm ⟨m.shape, fun i => c * m.get i⟩
    e.reshape h.shape

/-- The loop over the terms (trotter.py:43-52). -/
noncomputable def prepareAll (c : ℂ) : List (NDArray ℂ) → Py (List (NDArray ℂ))
  | [] => .ok []
  | h :: H => do
    let g ← prepareOne c h
    let r ← prepareAll c H
    .ok (g :: r)

/-- The step (trotter.py:38-41). -/
noncomputable def stepOf (dt : ℝ) (euclidean : Bool) : ℂ := if euclidean then -1 * (dt : ℂ) else Complex.I * (dt : ℂ)

/-- The factor in the exponent: `i dt` in real time, `-dt` in Euclidean time. -/
noncomputable def stepSpec (dt : ℝ) : Bool → ℂ
  | true => -(dt : ℂ)
  | false => Complex.I * (dt : ℂ)

theorem stepOf_eq (dt : ℝ) (euclidean : Bool) : stepOf dt euclidean = stepSpec dt euclidean := by
  cases euclidean <;> simp [stepOf, stepSpec]

/-- `eh_even` for `r = 0` and `eh_odd` for `r = 1` (trotter.py:54-60). -/
def layerOf (eH : List (NDArray ℂ)) (N r : Nat) : List (Option (NDArray ℂ)) :=
  (List.range N).map fun n => if n % 2 = r then eH[n]? else none

/-- `trotter_prepare_gates` (trotter.py:19-62).  `H[0].dtype` raises for an empty list. -/
noncomputable def prepareGates (H : List (NDArray ℂ)) (dt : ℝ) (N : Nat) (euclidean : Bool) :
    Py (List (List (Option (NDArray ℂ)))) :=
  if H.length + 1 ≠ N then .error .valueError
  else if H = [] then .error .indexError
  else do
    let eH ← prepareAll (stepOf dt euclidean) H
    .ok [layerOf eH N 0, layerOf eH N 1]

/-- `tf.divide(psi, tf.norm(psi))` -/
noncomputable def normalize (psi : NDArray ℂ) : NDArray ℂ :=
  ⟨psi.shape, fun i => psi.get i / (Real.sqrt (sumIdx psi.shape fun j => Complex.normSq (psi.get j)) : ℂ)⟩

/-- What the evolution returns, with the arguments of the calls of `callback`. -/
abbrev Evo := NDArray ℂ × ℝ × List (NDArray ℂ × ℝ × Nat)

/-- The loop of `_evolve_trotter_gates` (wavefunctions.py:156-163). -/
noncomputable def evolveLoop (layers : List (List (Option (NDArray ℂ)))) (dt : ℝ) (euclidean : Bool) :
    Nat → Nat → Evo → Py Evo
  | 0, _, s => .ok s
  | k + 1, i, s => do
    let psi ← applyCircuit s.1 layers
    let psi := if euclidean then normalize psi else psi
    let t := s.2.1 + dt
    evolveLoop layers dt euclidean k (i + 1) (psi, t, s.2.2 ++ [(psi, t, i)])

/-- `evolve_trotter` (wavefunctions.py:116-142) -/
noncomputable def evolveTrotter (psi : NDArray ℂ) (H : List (NDArray ℂ)) (dt : ℝ) (numSteps : Nat) (euclidean : Bool) :
    Py Evo := do
  let layers ← prepareGates H dt psi.ndim euclidean
  evolveLoop layers dt euclidean numSteps 0 (psi, 0, [])

/-- The loop over the batches of `evolve_trotter_defun` (wavefunctions.py:205-210); the function that is
compiled is called without `callback`. -/
noncomputable def batchLoop (layers : List (List (Option (NDArray ℂ)))) (dt : ℝ) (euclidean : Bool) (batch : Nat) :
    Nat → Nat → Evo → Py Evo
  | 0, _, s => .ok s
  | k + 1, i, s => do
    let r ← evolveLoop layers dt euclidean batch 0 (s.1, 0, [])
    let t := s.2.1 + r.2.1
    batchLoop layers dt euclidean batch k (i + 1) (r.1, t, s.2.2 ++ [(r.1, t, (i + 1) * batch - 1)])

/-- `evolve_trotter_defun` (wavefunctions.py:168-217), for a batch size that is not zero. -/
noncomputable def evolveDefun (psi : NDArray ℂ) (H : List (NDArray ℂ)) (dt : ℝ) (numSteps : Nat) (euclidean : Bool)
    (batch : Nat) : Py Evo := do
  let layers ← prepareGates H dt psi.ndim euclidean
  let s ← batchLoop layers dt euclidean batch (numSteps / batch) 0 (psi, 0, [])
  if 0 < numSteps % batch then do
    let r ← evolveLoop layers dt euclidean (numSteps % batch) 0 (s.1, 0, [])
    .ok (r.1, s.2.1 + r.2.1, s.2.2)
  else .ok s

/-! ### Specification -/

/-- An entry of the exponential of `c` times a term, a matrix whose rows and columns are numbered by
pairs. -/
noncomputable def tentry (a b : Nat) (c : ℂ) (h : NDArray ℂ) (x0 x1 x2 x3 : Nat) : ℂ :=
  if hx : (x0 < a ∧ x1 < b) ∧ x2 < a ∧ x3 < b then
    NormedSpace.exp (Matrix.of fun p q : Fin a × Fin b => c * h.get [p.1, p.2, q.1, q.2])
      (⟨_, hx.1.1⟩, ⟨_, hx.1.2⟩) (⟨_, hx.2.1⟩, ⟨_, hx.2.2⟩) else 0

/-- The exponential of `c` times a term, as an operator on two sites. -/
noncomputable def tgate (c : ℂ) (h : NDArray ℂ) : NDArray ℂ where
  shape := h.shape
  get x := tentry (h.shape.getD 0 0) (h.shape.getD 1 0) c h (x.getD 0 0) (x.getD 1 0) (x.getD 2 0) (x.getD 3 0)

/-- The terms belong to a chain of sites with the dimensions `d`. -/
def Chain (d : List Nat) (H : List (NDArray ℂ)) : Prop :=
  H.length + 1 = d.length ∧ ∀ n (hn : n < H.length), H[n].shape = [d.getD n 0, d.getD (n + 1) 0, d.getD n 0, d.getD (n + 1) 0]

/-- First the bonds with even numbers, then the others. -/
def bonds (n : Nat) : List Nat := (List.range n).filter (fun i => i % 2 = 0) ++ (List.range n).filter (fun i => i % 2 = 1)

/-- One step of the evolution. -/
noncomputable def tstep (c : ℂ) (H : List (NDArray ℂ)) (psi : NDArray ℂ) : NDArray ℂ :=
  runAll ((bonds H.length).map fun n => (tgate c (H.getD n ⟨[], 0⟩), n)) psi

/-! ### The gates -/

theorem exp_reindex {m n : Type*} [Fintype m] [DecidableEq m] [Fintype n] [DecidableEq n] (e : m ≃ n) (A : Matrix m m ℂ) :
    NormedSpace.exp (Matrix.reindex e e A) = Matrix.reindex e e (NormedSpace.exp A) := by
  have h := open scoped Matrix.Norms.Operator in
    NormedSpace.map_exp (Matrix.reindexAlgEquiv ℂ ℂ e) (by
      rw [Matrix.coe_reindexAlgEquiv]
      exact Continuous.matrix_reindex continuous_id e e) A
  rw [Matrix.coe_reindexAlgEquiv] at h
  exact h.symm

theorem prepareOne_ok {c : ℂ} {h : NDArray ℂ} {a b : Nat} (hs : h.shape = [a, b, a, b]) :
    ∃ g, prepareOne c h = .ok g ∧ g.Same (tgate c h) := by
  have hnd : ¬ h.ndim ≠ 4 := by simp [NDArray.ndim, hs]
  refine ⟨⟨h.shape, fun i => (if hh : (unravel [a * b, a * b] (ravel h.shape i)).getD 0 0 < a * b ∧
      (unravel [a * b, a * b] (ravel h.shape i)).getD 1 0 < a * b then
        NormedSpace.exp (Matrix.of fun x y : Fin (a * b) => c * h.get (unravel h.shape (ravel [a * b, a * b] [x, y])))
          ⟨_, hh.1⟩ ⟨_, hh.2⟩ else 0)⟩, ?_, rfl, ?_⟩
  · rw [prepareOne, if_neg hnd]
    simp only [hs, NDArray.reshape, List.getD_cons_zero, List.getD_cons_succ]
    rw [if_pos (by simp; ring)]
    simp only [expm, bind, Except.bind, if_true]
    rw [if_pos (by simp; ring)]
  · intro i hi
    simp only at hi
    rw [hs] at hi
    obtain ⟨i0, i, rfl, h0, hi⟩ := inB_cons_iff.1 hi
    obtain ⟨i1, i, rfl, h1, hi⟩ := inB_cons_iff.1 hi
    obtain ⟨i2, i, rfl, h2, hi⟩ := inB_cons_iff.1 hi
    obtain ⟨i3, i, rfl, h3, hi⟩ := inB_cons_iff.1 hi
    rw [inB_nil_iff] at hi
    subst hi
    have rav : ∀ x0 x1 x2 x3 : Nat, ravel [a * b, a * b] [x1 + b * x0, x3 + b * x2] = ravel [a, b, a, b] [x0, x1, x2, x3] := by
      intro x0 x1 x2 x3
      simp only [ravel, List.prod_cons, List.prod_nil]
      ring
    have lt : ∀ {x y : Nat}, x < a → y < b → y + b * x < a * b := by
      intro x y hx hy
      calc y + b * x < b + b * x := by omega
        _ = (x + 1) * b := by ring
        _ ≤ a * b := Nat.mul_le_mul_right _ hx
    have hun : unravel [a * b, a * b] (ravel [a, b, a, b] [i0, i1, i2, i3]) = [i1 + b * i0, i3 + b * i2] := by
      rw [← rav, unravel_ravel (by simp [lt h0 h1, lt h2 h3])]
    have hM : (Matrix.of fun x y : Fin (a * b) => c * h.get (unravel h.shape (ravel [a * b, a * b] [x, y]))) =
        Matrix.reindex finProdFinEquiv finProdFinEquiv
          (Matrix.of fun p q : Fin a × Fin b => c * h.get [p.1, p.2, q.1, q.2]) := by
      ext x y
      obtain ⟨p, rfl⟩ := finProdFinEquiv.surjective x
      obtain ⟨q, rfl⟩ := finProdFinEquiv.surjective y
      rw [Matrix.reindex_apply, Matrix.submatrix_apply, Equiv.symm_apply_apply, Equiv.symm_apply_apply, Matrix.of_apply,
        Matrix.of_apply, finProdFinEquiv_apply_val, finProdFinEquiv_apply_val, rav, hs, unravel_ravel (by simp)]
    have e0 : h.shape.getD 0 0 = a := by rw [hs]; rfl
    have e1 : h.shape.getD 1 0 = b := by rw [hs]; rfl
    have hR : (tgate c h).get [i0, i1, i2, i3] = tentry a b c h i0 i1 i2 i3 := by
      show tentry (h.shape.getD 0 0) (h.shape.getD 1 0) c h i0 i1 i2 i3 = _
      rw [e0, e1]
    rw [hR, tentry, hM, exp_reindex]
    simp only [hs, hun, List.getD_cons_zero, List.getD_cons_succ]
    rw [dif_pos ⟨lt h0 h1, lt h2 h3⟩, dif_pos ⟨⟨h0, h1⟩, h2, h3⟩]
    have f0 : (⟨i1 + b * i0, lt h0 h1⟩ : Fin (a * b)) = finProdFinEquiv (⟨i0, h0⟩, ⟨i1, h1⟩) := by ext; simp
    have f1 : (⟨i3 + b * i2, lt h2 h3⟩ : Fin (a * b)) = finProdFinEquiv (⟨i2, h2⟩, ⟨i3, h3⟩) := by ext; simp
    rw [f0, f1, Matrix.reindex_apply, Matrix.submatrix_apply, Equiv.symm_apply_apply, Equiv.symm_apply_apply]

/-! ### Steps -/

theorem setAll_inB {s d c : List Nat} {T : List Nat} (hT : T.Nodup) (hlt : ∀ i ∈ T, i < d.length)
    (hl : s.length = d.length) (hs : ∀ p < d.length, p ∉ T → s.getD p 0 < d.getD p 0) (hx : c.length = T.length)
    (hc : ∀ j (hj : j < T.length), c.getD j 0 < d.getD (T[j]) 0) : InB d (setAll s T c) := by
  rw [inB_iff_getD]
  refine ⟨by rw [setAll_length, hl], fun p hp => ?_⟩
  by_cases h : p ∈ T
  · obtain ⟨j, hj, rfl⟩ := List.getElem_of_mem h
    rw [List.getD_eq_getElem?_getD, setAll_getElem?_mem hT hx hj (by rw [hl]; exact hlt _ h), ← List.getD_eq_getElem?_getD]
    exact hc j hj
  · rw [List.getD_eq_getElem?_getD, setAll_getElem?_not h, ← List.getD_eq_getElem?_getD]
    exact hs p hp h

theorem act_same {R : Type} [CommSemiring R] {op op' psi psi' : NDArray R} {T : List Nat} (ho : op.Same op') (hp : psi.Same psi')
    (f : Fits op T psi) : (act op T psi).Same (act op' T psi') := by
  have hk := f.ndim
  have hlen : op.shape.length = 2 * T.length := hk
  refine ⟨by simp only [act]; rw [ho.1, hp.1], fun s hs => ?_⟩
  have hs' : InB (setAll psi.shape T (op.shape.take T.length)) s := hs
  obtain ⟨hl, hlt⟩ := inB_iff_getD.1 hs'
  rw [setAll_length] at hl hlt
  have htl : (op.shape.take T.length).length = T.length := by rw [List.length_take]; omega
  simp only [act]
  rw [← ho.1]
  refine sumIdx_congr fun c hc => ?_
  have hcl : c.length = T.length := by rw [hc.length, List.length_drop]; omega
  congr 1
  · apply ho.2
    rw [← List.take_append_drop T.length op.shape]
    refine inB_append ?_ hc
    rw [inB_iff_getD]
    refine ⟨by rw [List.length_map, htl], fun j hj => ?_⟩
    rw [htl] at hj
    have h1 := f.lt _ (List.getElem_mem hj)
    have h2 := hlt T[j] h1
    rw [List.getD_eq_getElem _ _ (by simpa using hj), List.getElem_map]
    rw [List.getD_eq_getElem?_getD (l := setAll _ _ _), setAll_getElem?_mem f.nodup htl hj h1, ← List.getD_eq_getElem?_getD] at h2
    exact h2
  · apply hp.2
    refine setAll_inB f.nodup f.lt hl (fun p hp hpT => ?_) hcl fun j hj => ?_
    · have h2 := hlt p hp
      rw [List.getD_eq_getElem?_getD (l := setAll _ _ _), setAll_getElem?_not hpT, ← List.getD_eq_getElem?_getD] at h2
      exact h2
    · have h2 := (inB_iff_getD.1 hc).2 j (by rw [List.length_drop]; omega)
      have h3 : (T.map fun i => psi.shape.getD i 0).getD j 0 = psi.shape.getD T[j] 0 := by
        rw [List.getD_eq_getElem _ _ (by simpa using hj), List.getElem_map]
      rw [f.dim, h3] at h2
      exact h2

theorem fits_same {R : Type} {op op' psi psi' : NDArray R} {T : List Nat} (ho : op.shape = op'.shape) (hp : psi.shape = psi'.shape)
    (f : Fits op T psi) : Fits op' T psi' :=
  ⟨f.pos, by rw [← f.ndim]; simp [NDArray.ndim, ho], f.nodup, fun i hi => by have := f.lt i hi; simpa [NDArray.ndim, ← hp] using this,
    by rw [← ho, ← hp]; exact f.dim⟩

/-- Circuits of two site gates on a chain that keep the dimensions. -/
def Sq (d : List Nat) (l : List (NDArray ℂ × Nat)) : Prop :=
  ∀ p ∈ l, p.2 + 1 < d.length ∧ p.1.shape = [d.getD p.2 0, d.getD (p.2 + 1) 0, d.getD p.2 0, d.getD (p.2 + 1) 0]

theorem Sq.fits {d : List Nat} {g : NDArray ℂ} {n : Nat} (h1 : n + 1 < d.length)
    (h2 : g.shape = [d.getD n 0, d.getD (n + 1) 0, d.getD n 0, d.getD (n + 1) 0]) {psi : NDArray ℂ} (hp : psi.shape = d) :
    gsites (g, n) = [n, n + 1] ∧ Fits g (gsites (g, n)) psi ∧ (act g (gsites (g, n)) psi).shape = d := by
  have hnd : g.ndim = 4 := by simp [NDArray.ndim, h2]
  have hg : gsites (g, n) = [n, n + 1] := by simp [gsites, hnd, List.range']
  have f : Fits g (gsites (g, n)) psi := by
    rw [hg]
    refine ⟨by simp, by simp [hnd], by simp, ?_, ?_⟩
    · intro i hi
      rw [NDArray.ndim, hp]
      simp only [List.mem_cons, List.not_mem_nil, or_false] at hi
      omega
    · rw [h2, hp]; rfl
  refine ⟨hg, f, ?_⟩
  rw [act_shape f, hp]
  rw [hg, h2]
  rfl

theorem Sq.run {d : List Nat} : ∀ {l : List (NDArray ℂ × Nat)}, Sq d l → ∀ {psi : NDArray ℂ}, psi.shape = d →
    AllFit l psi ∧ (runAll l psi).shape = d := by
  intro l
  induction l with
  | nil => intro _ psi hp; exact ⟨trivial, hp⟩
  | cons p l ih =>
    intro h psi hp
    obtain ⟨h1, h2⟩ := h p (by simp)
    obtain ⟨_, f, hs⟩ := Sq.fits h1 h2 hp
    obtain ⟨i1, i2⟩ := ih (fun q hq => h q (by simp [hq])) hs
    exact ⟨⟨f, i1⟩, i2⟩

theorem Sq.same {d : List Nat} : ∀ {l l' : List (NDArray ℂ × Nat)}, Sq d l →
    List.Forall₂ (fun p q => p.1.Same q.1 ∧ p.2 = q.2) l l' → ∀ {psi psi' : NDArray ℂ}, psi.shape = d → psi.Same psi' →
    (runAll l psi).Same (runAll l' psi') := by
  intro l l' h hf
  induction hf with
  | nil => intro psi psi' _ hs; exact hs
  | @cons p q l l' hpq _ ih =>
    intro psi psi' hp hs
    obtain ⟨h1, h2⟩ := h p (by simp)
    obtain ⟨_, f, hsh⟩ := Sq.fits h1 h2 hp
    have hg : gsites q = gsites p := by rw [gsites, gsites, ← hpq.2, NDArray.ndim, NDArray.ndim, hpq.1.1]
    rw [runAll, runAll, hg]
    exact ih (fun r hr => h r (by simp [hr])) hsh (act_same hpq.1 hs f)

theorem prepareAll_ok {c : ℂ} : ∀ {H : List (NDArray ℂ)}, (∀ h ∈ H, ∃ a b, h.shape = [a, b, a, b]) →
    ∃ eH, prepareAll c H = .ok eH ∧ List.Forall₂ (fun g h => g.Same (tgate c h)) eH H := by
  intro H
  induction H with
  | nil => intro _; exact ⟨[], rfl, .nil⟩
  | cons h H ih =>
    intro hH
    obtain ⟨a, b, hs⟩ := hH h (by simp)
    obtain ⟨g, h1, h2⟩ := prepareOne_ok (c := c) hs
    obtain ⟨eH, h3, h4⟩ := ih fun x hx => hH x (by simp [hx])
    refine ⟨g :: eH, ?_, .cons h2 h4⟩
    rw [prepareAll, h1]
    show (prepareAll c H >>= _) = _
    rw [h3]
    rfl

theorem placed_layer (eH : List (NDArray ℂ)) {N : Nat} (hN : eH.length + 1 = N) (r : Nat) :
    placed N (layerOf eH N r) = ((List.range eH.length).filter (fun i => i % 2 = r)).map fun n => (eH.getD n ⟨[], 0⟩, n) := by
  have h1 : placed N (layerOf eH N r) = (List.range N).filterMap fun n =>
      if n % 2 = r then (eH[n]?).map fun g => (g, n) else none := by
    rw [placed]
    refine List.filterMap_congr fun n hn => ?_
    rw [List.mem_range] at hn
    rw [layerOf, List.getD_eq_getElem _ _ (by simpa using hn), List.getElem_map, List.getElem_range]
    split_ifs <;> rfl
  rw [h1, ← hN, List.range_succ, List.filterMap_append]
  have h2 : List.filterMap (fun n => if n % 2 = r then (eH[n]?).map fun g => (g, n) else none) [eH.length] = [] := by
    simp
  rw [h2, List.append_nil, ← List.filterMap_eq_map, ← List.filterMap_eq_filter, List.filterMap_filterMap]
  refine List.filterMap_congr fun n hn => ?_
  rw [List.mem_range] at hn
  by_cases h : n % 2 = r
  · simp [h, List.getElem?_eq_getElem hn, Option.guard]
  · simp [h, Option.guard]

/-- **C86.**  A step of `evolve_trotter` applies the exponentials of the terms, first the ones of the even bonds, then
the others; each acts on its two sites. -/
theorem C86_trotter_step {d : List Nat} {H : List (NDArray ℂ)} (hc : Chain d H) (hne : H ≠ []) (dt : ℝ) (euclidean : Bool) :
    ∃ layers, prepareGates H dt d.length euclidean = .ok layers ∧
      ∀ psi psi' : NDArray ℂ, psi.shape = d → psi.Same psi' → ∃ out, applyCircuit psi layers = .ok out ∧
        out.Same (tstep (stepSpec dt euclidean) H psi') ∧ out.shape = d := by
  rw [← stepOf_eq]
  obtain ⟨hlen, hsh⟩ := hc
  obtain ⟨eH, h1, h2⟩ := prepareAll_ok (c := stepOf dt euclidean) (H := H) (fun h hh => by
    obtain ⟨n, hn, rfl⟩ := List.getElem_of_mem hh
    exact ⟨_, _, hsh n hn⟩)
  have hl := h2.length_eq
  have heq : ∀ n (hn : n < H.length), (eH.getD n ⟨[], 0⟩).Same (tgate (stepOf dt euclidean) (H.getD n ⟨[], 0⟩)) := by
    intro n hn
    rw [List.getD_eq_getElem _ _ (by omega), List.getD_eq_getElem _ _ hn]
    exact h2.get (by omega) hn
  refine ⟨[layerOf eH d.length 0, layerOf eH d.length 1], ?_, fun psi psi' hp hs => ?_⟩
  · rw [prepareGates, if_neg (by omega), if_neg hne, h1]
    rfl
  · have hfl : [layerOf eH d.length 0, layerOf eH d.length 1].flatMap (placed d.length) =
        (bonds H.length).map fun n => (eH.getD n ⟨[], 0⟩, n) := by
      rw [List.flatMap_cons, List.flatMap_cons, List.flatMap_nil, List.append_nil, placed_layer eH (by omega),
        placed_layer eH (by omega), ← List.map_append, hl, bonds]
    have hb : ∀ n ∈ bonds H.length, n < H.length := by
      intro n hn
      simp only [bonds, List.mem_append, List.mem_filter, List.mem_range] at hn
      omega
    have hsq : Sq d ((bonds H.length).map fun n => (eH.getD n ⟨[], 0⟩, n)) := by
      intro p hpm
      obtain ⟨n, hn, rfl⟩ := List.mem_map.1 hpm
      have hn' := hb n hn
      refine ⟨by simp only; omega, ?_⟩
      simp only
      rw [(heq n hn').1]
      show (H.getD n _).shape = _
      rw [List.getD_eq_getElem _ _ hn', hsh n hn']
    have hnd : psi.ndim = d.length := by rw [NDArray.ndim, hp]
    obtain ⟨r1, r2⟩ := hsq.run hp
    have hlay : ∀ r n g, (layerOf eH d.length r).getD n none = some g → n < eH.length ∧ n % 2 = r ∧ g.ndim = 4 := by
      intro r n g hg
      rw [layerOf, List.getD_eq_getElem?_getD, List.getElem?_map] at hg
      by_cases hn : n < d.length
      · rw [List.getElem?_eq_getElem (by simpa using hn), List.getElem_range] at hg
        simp only [Option.map_some, Option.getD_some] at hg
        split_ifs at hg with hm
        obtain ⟨hn2, rfl⟩ := List.getElem?_eq_some_iff.1 hg
        refine ⟨hn2, hm, ?_⟩
        have := (heq n (by omega)).1
        rw [List.getD_eq_getElem _ _ hn2] at this
        rw [NDArray.ndim, this]
        show (H.getD n _).shape.length = 4
        rw [List.getD_eq_getElem _ _ (by omega), hsh n (by omega)]
        rfl
      · rw [List.getElem?_eq_none (by simpa using hn)] at hg
        simp at hg
    have hsep : ∀ gates ∈ [layerOf eH d.length 0, layerOf eH d.length 1], Separate psi.ndim gates := by
      intro gates hg n g h1 n' h2 h3 h4
      have : ∃ r, gates = layerOf eH d.length r := by
        simp only [List.mem_cons, List.not_mem_nil, or_false] at hg
        rcases hg with rfl | rfl
        · exact ⟨0, rfl⟩
        · exact ⟨1, rfl⟩
      obtain ⟨r, rfl⟩ := this
      obtain ⟨-, a1, a2⟩ := hlay r n g h1
      rcases hx : (layerOf eH d.length r).getD n' none with _ | g'
      · rfl
      · obtain ⟨-, b1, -⟩ := hlay r n' g' hx
        omega
    obtain ⟨out, o1, o2⟩ := C86_circuit hsep (by rw [hnd, hfl]; exact r1)
    rw [hnd, hfl] at o2
    refine ⟨out, o1, o2.trans ?_, o2.1.trans r2⟩
    refine hsq.same ?_ hp hs
    rw [List.forall₂_map_left_iff, List.forall₂_map_right_iff, List.forall₂_same]
    exact fun n hn => ⟨heq n (hb n hn), rfl⟩

end TN.Wave
