import Verif.ExNet
import Mathlib.Analysis.SpecialFunctions.Complex.Circle
import Mathlib.Algebra.BigOperators.Field
import Mathlib.Tactic.IntervalCases
import Mathlib.Tactic.FieldSimp
import Mathlib.Tactic.Ring

/-!
# examples/fft/fft.py

Model of `add_fft` (fft.py:8-50).  A network is a list of arrays with the names of their edges.
Connecting an open edge to an axis of a new node is modelled by giving the axis the name of the
edge.  The inputs are distinct edges: an edge that is listed twice is not modelled.
-/

set_option linter.unusedSectionVars false

namespace TN.Ex

open TN Finset Complex

/-! ### Model -/

/-- `hadamard` (fft.py:23). -/
noncomputable def hadamard : NDArray ℂ :=
  ⟨[2, 2], fun idx => (if idx = [1, 1] then -1 else 1) / (Real.sqrt 2 : ℂ)⟩

/-- `cz(p)` (fft.py:25-28): the entry at row `2 a + b` and column `2 c + d` of the four by four
matrix. -/
noncomputable def cz (p : Nat) : NDArray ℂ :=
  ⟨[2, 2, 2, 2], fun idx =>
    let row := 2 * idx.getD 0 0 + idx.getD 1 0
    let col := 2 * idx.getD 2 0 + idx.getD 3 0
    if row = 3 ∧ col = 3 then exp (-1 * I * Real.pi / 2 ^ p)
    else if row = col then 1 else 0⟩

/-- The loop of `inline_stitch` (fft.py:33-38): returns the edges at the first axes of the new
node and the new state.  `connect` raises `ValueError` when the dimensions differ. -/
def stitchLoop (net : List (NDArray ℂ × List Nat)) (shape : List Nat) (next : Nat) :
    List Nat → Nat → List Nat → List Nat → Py (List Nat × List Nat)
  | [], _, state, ins => .ok (ins, state)
  | t :: ts, k, state, ins =>
    let incoming := state.getD t 0
    if ldim net incoming ≠ shape.getD k 0 then .error .valueError
    else stitchLoop net shape next ts (k + 1) (state.set t (next + k)) (ins ++ [incoming])

/-- `inline_stitch(targets, tensor, name)` (fft.py:30-38).  The edges of the new node have the
names `next, next + 1, …`, those of its first half are replaced by the edges they are connected
to. -/
def inlineStitch (s : St ℂ) (targets : List Nat) (tensor : NDArray ℂ) : Py (St ℂ) := do
  let r ← stitchLoop s.net tensor.shape s.next targets 0 s.state []
  .ok ⟨s.net ++ [(tensor, r.1 ++ (List.range targets.length).map (s.next + ·))], r.2,
    s.next + targets.length⟩

/-- The inner loop over `j` (fft.py:45-46), with the values that are left. -/
noncomputable def fftInner (i : Nat) : List Nat → St ℂ → Py (St ℂ)
  | [], s => .ok s
  | j :: js, s => do
    let s ← inlineStitch s [i - j, i] (cz j)
    fftInner i js s

/-- The outer loop over `i` (fft.py:44-47), with the values that are left. -/
noncomputable def fftOuter : List Nat → St ℂ → Py (St ℂ)
  | [], s => .ok s
  | i :: is, s => do
    let s ← fftInner i (List.range' 1 i) s
    let s ← inlineStitch s [i] hadamard
    fftOuter is s

/-- `add_fft(inputs)` (fft.py:8-50): the network afterwards and the edges that it returns. -/
noncomputable def addFft (net : List (NDArray ℂ × List Nat)) (next : Nat) (inputs : List Nat) :
    Py (List (NDArray ℂ × List Nat) × List Nat) :=
  if ∃ e ∈ inputs, ¬ Dangling net e then .error .valueError
  else do
    let s ← fftOuter (List.range inputs.length) ⟨net, inputs, next⟩
    .ok (s.net, s.state.reverse)

/-! ### Specification -/

/-- The number with the binary digits `l`, the most significant first. -/
def ofBits (l : List Nat) : Nat := l.foldl (fun acc x => 2 * acc + x) 0

/-- The last `n` binary digits of `X`, the most significant first. -/
def bits (n X : Nat) : List Nat := (List.range n).map fun k => X / 2 ^ (n - 1 - k) % 2

/-! ### Proofs -/

theorem hadamard_get {c d : Nat} (hc : c < 2) (hd : d < 2) :
    hadamard.get [c, d] = exp (-(2 * Real.pi * I) * (c * d : ℕ) / 2) / (Real.sqrt 2 : ℂ) := by
  have h : exp (-(2 * Real.pi * I) / 2) = -1 := by
    rw [show -(2 * (Real.pi : ℂ) * I) / 2 = -(Real.pi * I) by ring, exp_neg, exp_pi_mul_I]
    norm_num
  interval_cases c <;> interval_cases d <;> simp [hadamard, h]

theorem cz_get {p a b c d : Nat} (ha : a < 2) (hb : b < 2) (hc : c < 2) (hd : d < 2) :
    (cz p).get [a, b, c, d] =
      if a = c ∧ b = d then exp (-(2 * Real.pi * I) * (a * b : ℕ) / 2 ^ (p + 1)) else 0 := by
  have h : exp (-(I * Real.pi) / 2 ^ p) = exp (-(2 * Real.pi * I) / 2 ^ (p + 1)) := by
    congr 1
    rw [pow_succ]
    field_simp
  interval_cases a <;> interval_cases b <;> interval_cases c <;> interval_cases d <;>
    simp [cz, h]

variable {dim : Nat → Nat}

theorem inlineStitch_one {s : St ℂ} (h : Inv dim s) {t : NDArray ℂ} (ht : t.shape = [2, 2])
    {i : Nat} (hi : i < s.state.length) :
    inlineStitch s [i] t =
      .ok ⟨s.net ++ [(t, [s.state[i], s.next])], s.state.set i s.next, s.next + 1⟩ := by
  have hin : s.state[i] ∈ s.state := List.getElem_mem hi
  have h1 : ldim s.net s.state[i] = 2 := by
    rw [ldim_eq h.cons (h.dangling _ hin).mem, h.two _ hin]
  have h2 : s.state.getD i 0 = s.state[i] := by simp [hi]
  simp only [inlineStitch, stitchLoop, h2, h1, ht]
  simp [bind, Except.bind, List.range_succ]

theorem inlineStitch_two {s : St ℂ} (h : Inv dim s) {t : NDArray ℂ}
    (ht : t.shape = [2, 2, 2, 2]) {i j : Nat} (hi : i < s.state.length) (hj : j < s.state.length)
    (hij : i ≠ j) :
    inlineStitch s [i, j] t =
      .ok ⟨s.net ++ [(t, [s.state[i], s.state[j], s.next, s.next + 1])],
        (s.state.set i s.next).set j (s.next + 1), s.next + 2⟩ := by
  have hin : s.state[i] ∈ s.state := List.getElem_mem hi
  have hjn : s.state[j] ∈ s.state := List.getElem_mem hj
  have h1 : ldim s.net s.state[i] = 2 := by
    rw [ldim_eq h.cons (h.dangling _ hin).mem, h.two _ hin]
  have h1' : ldim s.net s.state[j] = 2 := by
    rw [ldim_eq h.cons (h.dangling _ hjn).mem, h.two _ hjn]
  have h2 : s.state.getD i 0 = s.state[i] := by simp [hi]
  have h3 : (s.state.set i (s.next + 0)).getD j 0 = s.state[j] := by
    simp [hj, List.getElem_set_ne hij]
  simp only [inlineStitch, stitchLoop, h2, h1, ht, h3, h1']
  simp [bind, Except.bind, List.range_succ]

/-- What is known of the state after some steps. -/
def Good (dim σ : Nat → Nat) (s0 : St ℂ) (Φ : (Nat → Nat) → ℂ) (s : St ℂ) : Prop :=
  Inv dim s ∧ Grown s0 s ∧ Amp σ s Φ

/-- The phase that the inner loop multiplies with. -/
noncomputable def twiddle (i : Nat) (js : List Nat) (b : Nat → Nat) : ℂ :=
  (js.map fun j => exp (-(2 * Real.pi * I) * (b (i - j) * b i : ℕ) / 2 ^ (j + 1))).prod

theorem Amp.congr {σ : Nat → Nat} {s : St ℂ} {Φ Ψ : (Nat → Nat) → ℂ} (h : Amp σ s Φ)
    (he : ∀ b, (∀ k, k < s.state.length → b k < 2) → Φ b = Ψ b) : Amp σ s Ψ :=
  fun b τ hf => (h b τ hf).trans (he b hf.1)

theorem good_cz {σ : Nat → Nat} {s0 s : St ℂ} {i j : Nat} (hj : 0 < j) (hji : j ≤ i)
    {Φ : (Nat → Nat) → ℂ} (hi : i < s.state.length) (h : Good dim σ s0 Φ s) :
    ∃ s', inlineStitch s [i - j, i] (cz j) = .ok s' ∧ s'.state.length = s.state.length ∧
      Good dim σ s0
        (fun b => Φ b * exp (-(2 * Real.pi * I) * (b (i - j) * b i : ℕ) / 2 ^ (j + 1))) s' ∧ Grown s s' := by
  obtain ⟨hI, hG, hA⟩ := h
  have hi' : i - j < s.state.length := by omega
  have hne : i - j ≠ i := by omega
  have hadd := hI.add_two (t := cz j) rfl hi' hi hne
  refine ⟨_, inlineStitch_two hI rfl hi' hi hne, by simp, ⟨hadd.1, hG.trans hadd.2, ?_⟩, hadd.2⟩
  refine (Amp.add_two hI (t := cz j) rfl hi' hi hne hA).congr fun b hb => ?_
  simp only [List.length_set] at hb
  have h1 := hb _ hi'
  have h2 := hb _ hi
  rw [Finset.sum_eq_single (b (i - j)), Finset.sum_eq_single (b i)]
  · rw [cz_get h1 h2 h1 h2, if_pos ⟨rfl, rfl⟩, Function.update_eq_self, Function.update_eq_self]
  · intro d hd hne'
    rw [cz_get h1 (by simpa using hd) h1 h2, if_neg (fun h => hne' h.2), mul_zero]
  · intro h'; exact absurd (Finset.mem_range.2 h2) h'
  · intro c hc hne'
    refine Finset.sum_eq_zero fun d hd => ?_
    rw [cz_get (by simpa using hc) (by simpa using hd) h1 h2, if_neg (fun h => hne' h.1), mul_zero]
  · intro h'; exact absurd (Finset.mem_range.2 h1) h'

theorem fftInner_ok {σ : Nat → Nat} {s0 : St ℂ} {i : Nat} (js : List Nat)
    (hjs : ∀ j ∈ js, 0 < j ∧ j ≤ i) {Φ : (Nat → Nat) → ℂ} {s : St ℂ} (hi : i < s.state.length)
    (h : Good dim σ s0 Φ s) :
    ∃ s', fftInner i js s = .ok s' ∧ s'.state.length = s.state.length ∧
      Good dim σ s0 (fun b => Φ b * twiddle i js b) s' ∧ Grown s s' := by
  induction js generalizing s Φ with
  | nil => exact ⟨s, rfl, rfl, by simpa [twiddle] using h, Grown.refl _⟩
  | cons j js ih =>
    obtain ⟨s1, h1, h2, h3, hg⟩ := good_cz (hjs j (by simp)).1 (hjs j (by simp)).2 hi h
    obtain ⟨s2, h4, h5, h6, hg'⟩ := ih (fun x hx => hjs x (by simp [hx])) (by omega) h3
    refine ⟨s2, by simp only [fftInner, h1, bind, Except.bind, h4], by omega, ?_, hg.trans hg'⟩
    simpa [twiddle, mul_assoc] using h6

/-- The number with the digits `b 0, …, b (m - 1)`, the least significant first. -/
def low (b : Nat → Nat) (m : Nat) : Nat := ∑ k ∈ range m, b k * 2 ^ k

theorem twiddle_eq (i : Nat) (b : Nat → Nat) (c : Nat) :
    twiddle i (List.range' 1 i) (Function.update b i c) *
        exp (-(2 * Real.pi * I) * (c * b i : ℕ) / 2) =
      exp (-(2 * Real.pi * I) * (c * low b (i + 1) : ℕ) / 2 ^ (i + 1)) := by
  have hs : ∀ n, n ≤ i → twiddle i (List.range' 1 n) (Function.update b i c) =
      exp (-(2 * Real.pi * I) * c * ∑ j ∈ range n, (b (i - (j + 1)) : ℂ) / 2 ^ (j + 2)) := by
    intro n hn
    induction n with
    | zero => simp [twiddle]
    | succ n ih =>
      have := ih (by omega)
      rw [twiddle] at this ⊢
      rw [List.range'_concat, List.map_append, List.prod_append, this, Finset.sum_range_succ,
        mul_add, exp_add]
      congr 1
      have hne : i - (1 + 1 * n) ≠ i := by omega
      simp only [List.map_cons, List.map_nil, List.prod_cons, List.prod_nil, mul_one,
        Function.update_self, Function.update_of_ne hne]
      congr 1
      rw [show i - (1 + 1 * n) = i - (n + 1) by omega, show 1 + 1 * n + 1 = n + 2 by omega]
      push_cast
      ring
  rw [hs i (le_refl _), ← exp_add]
  congr 1
  have hl : (low b (i + 1) : ℂ) / 2 ^ (i + 1) =
      (∑ j ∈ range i, (b (i - (j + 1)) : ℂ) / 2 ^ (j + 2)) + b i / 2 := by
    rw [low, Finset.sum_range_succ, ← Finset.sum_range_reflect]
    push_cast
    rw [add_div, Finset.sum_div]
    congr 1
    · refine Finset.sum_congr rfl fun j hj => ?_
      rw [Finset.mem_range] at hj
      rw [show i - 1 - j = i - (j + 1) by omega]
      have : (2 : ℂ) ^ (i + 1) = 2 ^ (i - (j + 1)) * 2 ^ (j + 2) := by
        rw [← pow_add]; congr 1; omega
      rw [this]
      field_simp
    · rw [pow_succ]; field_simp
  have hl2 : -(2 * (Real.pi : ℂ) * I) * (c * low b (i + 1) : ℕ) / 2 ^ (i + 1) =
      -(2 * Real.pi * I) * c * ((low b (i + 1) : ℂ) / 2 ^ (i + 1)) := by push_cast; ring
  rw [hl2, hl]
  push_cast
  ring

/-- The first `m` values are the digits of `X`. -/
def setBits (b : Nat → Nat) (m X : Nat) : Nat → Nat :=
  fun k => if k < m then X / 2 ^ (m - 1 - k) % 2 else b k

theorem setBits_succ (b : Nat → Nat) (m X c : Nat) (hc : c < 2) :
    setBits b (m + 1) (2 * X + c) = setBits (Function.update b m c) m X := by
  funext k
  simp only [setBits]
  by_cases h1 : k < m
  · rw [if_pos h1, if_pos (by omega)]
    have : m + 1 - 1 - k = (m - 1 - k) + 1 := by omega
    rw [this, pow_succ', ← Nat.div_div_eq_div_mul, show (2 * X + c) / 2 = X by omega]
  · rw [if_neg h1]
    by_cases h2 : k = m
    · subst h2
      simp only [Nat.add_sub_cancel, Nat.sub_self, pow_zero, Nat.div_one, Function.update_self]
      rw [if_pos (by omega)]
      omega
    · rw [if_neg (by omega), Function.update_of_ne h2]

theorem sum_range_double (f : Nat → ℂ) (N : Nat) :
    ∑ x ∈ range (2 * N), f x = ∑ X ∈ range N, ∑ c ∈ range 2, f (2 * X + c) := by
  induction N with
  | zero => simp
  | succ N ih =>
    rw [show 2 * (N + 1) = 2 * N + 1 + 1 by ring, Finset.sum_range_succ, Finset.sum_range_succ, ih,
      Finset.sum_range_succ]
    simp [Finset.sum_range_succ, add_assoc]

/-- The values after the first `m` steps of the outer loop. -/
noncomputable def psi (ψ : (Nat → Nat) → ℂ) (m : Nat) (b : Nat → Nat) : ℂ :=
  (1 / (Real.sqrt 2 : ℂ)) ^ m * ∑ X ∈ range (2 ^ m),
    exp (-(2 * Real.pi * I) * (X * low b m : ℕ) / 2 ^ m) * ψ (setBits b m X)

theorem psi_succ (ψ : (Nat → Nat) → ℂ) (m : Nat) (b : Nat → Nat) (hb : b m < 2) :
    ∑ c ∈ range 2, psi ψ m (Function.update b m c) *
        twiddle m (List.range' 1 m) (Function.update b m c) * hadamard.get [c, b m] =
      psi ψ (m + 1) b := by
  have hlow : ∀ c, low (Function.update b m c) m = low b m := fun c => by
    refine Finset.sum_congr rfl fun k hk => ?_
    rw [Finset.mem_range] at hk
    rw [Function.update_of_ne (by omega)]
  have h1 : ∀ c ∈ range 2, psi ψ m (Function.update b m c) *
        twiddle m (List.range' 1 m) (Function.update b m c) * hadamard.get [c, b m] =
      (1 / (Real.sqrt 2 : ℂ)) ^ (m + 1) * ∑ X ∈ range (2 ^ m),
        exp (-(2 * Real.pi * I) * ((2 * X + c) * low b (m + 1) : ℕ) / 2 ^ (m + 1)) *
          ψ (setBits b (m + 1) (2 * X + c)) := by
    intro c hc
    rw [Finset.mem_range] at hc
    rw [hadamard_get hc hb, mul_assoc, ← mul_div_assoc, twiddle_eq, psi, hlow, Finset.mul_sum,
      Finset.sum_mul, Finset.mul_sum]
    refine Finset.sum_congr rfl fun X _ => ?_
    rw [setBits_succ _ _ _ _ hc]
    have he : exp (-(2 * Real.pi * I) * ((2 * X + c) * low b (m + 1) : ℕ) / 2 ^ (m + 1)) =
        exp (-(2 * Real.pi * I) * (X * low b m : ℕ) / 2 ^ m) *
          exp (-(2 * Real.pi * I) * (c * low b (m + 1) : ℕ) / 2 ^ (m + 1)) := by
      rw [← exp_add]
      rw [exp_eq_exp_iff_exists_int]
      refine ⟨-(X * b m : ℕ), ?_⟩
      have h2 : (low b (m + 1) : ℂ) = low b m + b m * 2 ^ m := by
        rw [low, Finset.sum_range_succ, ← low]; push_cast; ring
      push_cast
      rw [h2, pow_succ]
      field_simp
      ring
    rw [he, pow_succ]
    ring
  rw [Finset.sum_congr rfl h1, ← Finset.mul_sum, Finset.sum_comm, psi,
    show (2 : ℕ) ^ (m + 1) = 2 * 2 ^ m by ring, sum_range_double]

theorem fftOuter_ok {σ : Nat → Nat} {s0 : St ℂ} {ψ : (Nat → Nat) → ℂ} (n m : Nat) {s : St ℂ}
    (hn : m + n = s.state.length) (h : Good dim σ s0 (psi ψ m) s)
    (hf : ∀ k < m, s0.next ≤ s.state.getD k 0) :
    ∃ s', fftOuter (List.range' m n) s = .ok s' ∧ Good dim σ s0 (psi ψ (m + n)) s' ∧
      ∀ k < m + n, s0.next ≤ s'.state.getD k 0 := by
  induction n generalizing m s with
  | zero => exact ⟨s, rfl, h, hf⟩
  | succ n ih =>
    obtain ⟨s1, h1, h2, ⟨hI, hG, hA⟩, hG1⟩ := fftInner_ok (i := m) (List.range' 1 m)
      (by intro j hj; rw [List.mem_range'_1] at hj; omega) (by omega) h
    have hm : m < s1.state.length := by omega
    have hadd := hI.add_one (t := hadamard) rfl hm
    have hG2 := hG1.trans hadd.2
    have hs0 : s0.next ≤ s.next := h.2.1.next
    obtain ⟨s2, h3, h4, h5⟩ := ih (m + 1) (s := ⟨_, _, _⟩) (by simp; omega)
      ⟨hadd.1, hG.trans hadd.2, (Amp.add_one hI (t := hadamard) rfl hm hA).congr fun b hb => by
        rw [psi_succ]
        exact hb m (by simpa using hm)⟩
      (by
        intro k hk
        by_cases hkm : k = m
        · subst hkm
          have := hG.next
          simp only [List.getD_eq_getElem?_getD, List.getElem?_set_self hm, Option.getD_some]
          exact this
        · rcases hG2.fresh k (by omega) with h6 | h6
          · exact hs0.trans h6
          · rw [h6]; exact hf k (by omega))
    refine ⟨s2, ?_, by rw [← Nat.add_assoc, Nat.add_right_comm]; exact h4,
      by rw [← Nat.add_assoc, Nat.add_right_comm]; exact h5⟩
    rw [List.range'_succ]
    simp only [fftOuter, h1, bind, Except.bind, inlineStitch_one hI (t := hadamard) rfl hm, h3]

theorem ofBits_append (l : List Nat) (x : Nat) : ofBits (l ++ [x]) = 2 * ofBits l + x := by
  simp [ofBits]

theorem ofBits_reverse (l : List Nat) : ofBits l.reverse = low (fun k => l.getD k 0) l.length := by
  induction l with
  | nil => rfl
  | cons a l ih =>
    rw [List.reverse_cons, ofBits_append, ih, low, low, List.length_cons, Finset.sum_range_succ']
    simp only [List.getD_cons_succ, List.getD_cons_zero, pow_zero, mul_one, pow_succ, mul_comm 2,
      ← mul_assoc, Finset.sum_mul]

/-- The digits are those of the number. -/
theorem ofBits_bits (n X : Nat) (h : X < 2 ^ n) : ofBits (bits n X) = X := by
  induction n generalizing X with
  | zero => simp at h; subst h; rfl
  | succ n ih =>
    have h1 : bits (n + 1) X = bits n (X / 2) ++ [X % 2] := by
      rw [bits, List.range_succ, List.map_append, bits]
      congr 1
      · refine List.map_congr_left fun k hk => ?_
        rw [List.mem_range] at hk
        rw [show n + 1 - 1 - k = (n - 1 - k) + 1 by omega, pow_succ', Nat.div_div_eq_div_mul]
      · simp
    rw [h1, ofBits_append, ih _ (by rw [pow_succ] at h; omega)]
    omega

/-- `add_fft` adds nodes to the network such that the tensor of the network is the discrete
Fourier transform of the tensor before: `2^n` values, read with the most significant bit at the
first edge, both at the inputs and at the outputs.  Other open edges stay as they are. -/
theorem C82_add_fft {net : List (NDArray ℂ × List Nat)} {next : Nat} {inputs : List Nat}
    (hc : Consistent dim net) (hlt : ∀ e ∈ flatL net, e < next)
    (hd : ∀ e ∈ inputs, Dangling net e) (h2 : ∀ e ∈ inputs, dim e = 2) (hnd : inputs.Nodup) :
    ∃ net' outs, addFft net next inputs = .ok (net', outs) ∧ net <+: net' ∧
      outs.length = inputs.length ∧ outs.Nodup ∧
      (∀ e ∈ outs, Dangling net' e ∧ next ≤ e ∧ ldim net' e = 2) ∧
      (∀ e < next, e ∉ inputs → (flatL net').count e = (flatL net).count e) ∧
      ∀ σ, (∀ e ∈ outs, σ e < 2) →
        netVal net' σ = (1 / (Real.sqrt 2 : ℂ)) ^ inputs.length *
          ∑ X ∈ range (2 ^ inputs.length),
            exp (-(2 * Real.pi * I) * (X * ofBits (outs.map σ) : ℕ) / 2 ^ inputs.length) *
              netVal net (assign σ inputs (bits inputs.length X)) := by
  set d' : Nat → Nat := fun e => if e < next then dim e else 2 with hd'
  have hin_lt : ∀ e ∈ inputs, e < next := fun e he => hlt e (hd e he).mem
  have hc' : Consistent d' net := by
    intro p hp
    rw [Shaped, hc p hp]
    refine List.map_congr_left fun e he => ?_
    simp [hd', hlt e (mem_flatL.2 ⟨p, hp, he⟩)]
  have hI : Inv d' (⟨net, inputs, next⟩ : St ℂ) :=
    ⟨hc', hlt, hd, fun e he => by simp [hd', hin_lt e he, h2 e he], hnd,
      fun e he => by dsimp only at he; simp [hd', Nat.not_lt.2 he]⟩
  have hstart : ∀ σ, Good d' σ ⟨net, inputs, next⟩
      (psi (fun b => netVal net (assign σ inputs ((List.range inputs.length).map b))) 0)
      ⟨net, inputs, next⟩ := by
    intro σ
    refine ⟨hI, Grown.refl _, fun b τ ⟨_, h4, h5⟩ => ?_⟩
    have h6 : setBits b 0 0 = b := by funext k; simp [setBits]
    simp only [psi, pow_zero, Finset.range_one, Finset.sum_singleton, low, one_mul, Nat.zero_mul,
      Nat.cast_zero, mul_zero, zero_div, exp_zero, h6]
    refine netVal_congr hc' fun e he _ => ?_
    by_cases hes : e ∈ inputs
    · rw [assign_mem hes hnd (by simp)]
      have hk := List.idxOf_lt_length_of_mem hes
      have := h4 _ hk
      simp only [List.getElem_idxOf] at this
      rw [this]
      simp [hk]
    · rw [assign_not_mem hes]
      exact h5 e (hlt e he) hes
  have hrun : ∀ σ, ∃ s', fftOuter (List.range inputs.length) ⟨net, inputs, next⟩ = .ok s' ∧
      Good d' σ ⟨net, inputs, next⟩
        (psi (fun b => netVal net (assign σ inputs ((List.range inputs.length).map b)))
          inputs.length) s' ∧ ∀ k < inputs.length, next ≤ s'.state.getD k 0 := by
    intro σ
    have := fftOuter_ok inputs.length 0 (by simp) (hstart σ) (by simp)
    rwa [Nat.zero_add, ← List.range_eq_range'] at this
  obtain ⟨s', hs', ⟨hI', hG', _⟩, hnew⟩ := hrun (fun _ => 0)
  have hlen : s'.state.length = inputs.length := hG'.len
  have hnx : ∀ e ∈ s'.state, next ≤ e := by
    intro e he
    obtain ⟨k, hk, rfl⟩ := List.getElem_of_mem he
    have := hnew k (by omega)
    simpa [hk] using this
  refine ⟨s'.net, s'.state.reverse, ?_, hG'.pre, by simpa using hlen, by simpa using hI'.nodup, ?_,
    fun e he hne => (hG'.kept e he hne).1, ?_⟩
  · rw [addFft, if_neg (by push Not; exact hd), hs']; rfl
  · intro e he
    rw [List.mem_reverse] at he
    exact ⟨hI'.dangling e he, hnx e he, by
      rw [ldim_eq hI'.cons (hI'.dangling e he).mem, hI'.two e he]⟩
  · intro σ hσ
    obtain ⟨s'', h7, ⟨_, _, hA⟩, _⟩ := hrun σ
    rw [hs', Except.ok.injEq] at h7
    subst h7
    rw [hA (fun k => (s'.state.map σ).getD k 0) σ ⟨?_, ?_, fun _ _ _ => rfl⟩, psi]
    · congr 1
      rw [← List.map_reverse.symm, ofBits_reverse, List.length_map, hlen]
      refine Finset.sum_congr rfl fun X _ => ?_
      congr 3
      refine List.map_congr_left fun k hk => ?_
      rw [List.mem_range] at hk
      simp [setBits, hk]
    · intro k hk
      simp only [List.getD_eq_getElem?_getD, List.getElem?_map, List.getElem?_eq_getElem hk,
        Option.map_some, Option.getD_some]
      exact hσ _ (by simp)
    · intro k hk
      simp [hk]

/-- A node with three axes, two of which are transformed in the other order. -/
example := C82_add_fft (dim := fun e => if e = 9 then 3 else 2)
  (net := [(⟨[2, 2, 3], fun idx => (idx.getD 0 0 + 2 * idx.getD 1 0 + 7 * idx.getD 2 0 : ℕ)⟩,
    [5, 7, 9])]) (next := 10) (inputs := [7, 5])
  (by intro p hp; rw [List.mem_singleton] at hp; subst hp; rfl)
  (by simp [flatL]) (by simp [flatL, Dangling]) (by simp) (by simp)

/-- Edges that are connected are rejected. -/
theorem C82_rejects {net : List (NDArray ℂ × List Nat)} {next : Nat} {inputs : List Nat} {e : Nat}
    (he : e ∈ inputs) (h : (flatL net).count e = 2) :
    addFft net next inputs = .error .valueError := by
  rw [addFft, if_pos ⟨e, he, by rw [Dangling]; omega⟩]

example := C82_rejects (net := [(⟨[2, 2], fun _ => 1⟩, [4, 4])]) (next := 5) (inputs := [4])
  (e := 4) (by simp) (by simp [flatL])

end TN.Ex
