import Verif.DmrgStep

/-!
# DMRG: the local problem of two sites

Two neighbouring sites are treated as one site by means of the trivial left tensor `isoT`: every tensor of rank
four is the product of `isoT` and a tensor of rank three.
-/

set_option linter.unusedSectionVars false

namespace TN.Dmrg

open TN NDArray Finset Ncon Mps Mpo

variable {K : Type} [RCLike K]

/-- The left tensor that passes on its left bond and its site as one bond. -/
def isoT (m p : Nat) : NDArray K :=
  ⟨[m, p, m * p], fun i => if i.getD 0 0 * p + i.getD 1 0 = i.getD 2 0 then 1 else 0⟩

/-- A tensor of rank four with the first two axes joined. -/
def joinT (m p q r : Nat) (x : NDArray K) : NDArray K :=
  ⟨[m * p, q, r], fun i => x.get [i.getD 0 0 / p, i.getD 0 0 % p, i.getD 1 0, i.getD 2 0]⟩

theorem sum_pairs {M : Type} [AddCommMonoid M] (m p : Nat) (f : Nat → Nat → M) :
    ∑ y ∈ range (m * p), f (y / p) (y % p) = ∑ a ∈ range m, ∑ i ∈ range p, f a i := by
  rw [← Finset.sum_product']
  rcases Nat.eq_zero_or_pos p with rfl | hp
  · simp
  refine Finset.sum_nbij' (fun y => (y / p, y % p)) (fun z => z.1 * p + z.2) ?_ ?_ ?_ ?_ ?_
  · intro y hy
    rw [Finset.mem_range] at hy
    rw [Finset.mem_product, Finset.mem_range, Finset.mem_range]
    exact ⟨Nat.div_lt_of_lt_mul (by rwa [Nat.mul_comm]), Nat.mod_lt _ hp⟩
  · rintro ⟨a, i⟩ h
    rw [Finset.mem_product, Finset.mem_range, Finset.mem_range] at h
    rw [Finset.mem_range]
    simp only at h ⊢
    calc a * p + i < a * p + p := by omega
      _ = (a + 1) * p := by ring
      _ ≤ m * p := Nat.mul_le_mul_right _ h.1
  · intro y _
    exact Nat.div_add_mod' y p
  · rintro ⟨a, i⟩ h
    rw [Finset.mem_product, Finset.mem_range, Finset.mem_range] at h
    simp only at h ⊢
    rw [Nat.add_comm, Nat.add_mul_div_right _ _ hp, Nat.add_mul_mod_self_right, Nat.div_eq_of_lt h.2,
      Nat.mod_eq_of_lt h.2, Nat.zero_add]
  · intro y _; rfl

theorem pair_div {p a i : Nat} (hi : i < p) : (a * p + i) / p = a := by
  rw [Nat.add_comm, Nat.add_mul_div_right _ _ (by omega), Nat.div_eq_of_lt hi, Nat.zero_add]

theorem pair_mod {p a i : Nat} (hi : i < p) : (a * p + i) % p = i := by
  rw [Nat.add_comm, Nat.add_mul_mod_self_right, Nat.mod_eq_of_lt hi]

theorem pair_lt {m p a i : Nat} (ha : a < m) (hi : i < p) : a * p + i < m * p :=
  calc a * p + i < a * p + p := by omega
    _ = (a + 1) * p := by ring
    _ ≤ m * p := Nat.mul_le_mul_right _ ha

theorem joinT_get {m p q r : Nat} {x : NDArray K} {a i : Nat} (hi : i < p) (j b : Nat) :
    (joinT m p q r x).get [a * p + i, j, b] = x.get [a, i, j, b] := by
  show x.get [(a * p + i) / p, (a * p + i) % p, j, b] = _
  rw [pair_div hi, pair_mod hi]

theorem isoT_get {m p a i y : Nat} : (isoT (K := K) m p).get [a, i, y] = if a * p + i = y then 1 else 0 := rfl

/-- Summing against `isoT` over the joined bond. -/
theorem isoT_sum {m p a i : Nat} (ha : a < m) (hi : i < p) (f : Nat → K) :
    ∑ y ∈ range (m * p), (isoT (K := K) m p).get [a, i, y] * f y = f (a * p + i) := by
  rw [Finset.sum_eq_single (a * p + i)]
  · simp [isoT_get]
  · intro y _ hy
    rw [isoT_get, if_neg (Ne.symm hy), zero_mul]
  · intro h
    exact absurd (Finset.mem_range.2 (pair_lt ha hi)) h

/-- Summing against `isoT` over the left bond and the site. -/
theorem isoT_sum' {m p y : Nat} (hy : y < m * p) (f : Nat → Nat → K) :
    ∑ a ∈ range m, ∑ i ∈ range p, (isoT (K := K) m p).get [a, i, y] * f a i = f (y / p) (y % p) := by
  rw [← sum_pairs m p fun a i => (isoT (K := K) m p).get [a, i, y] * f a i, Finset.sum_eq_single y]
  · rw [isoT_get, Nat.div_add_mod', if_pos rfl, one_mul]
  · intro z _ hz
    rw [isoT_get, Nat.div_add_mod', if_neg hz, zero_mul]
  · intro h
    exact absurd (Finset.mem_range.2 hy) h

theorem isoT_leftIso (m p : Nat) : LeftIso (isoT (K := K) m p) := by
  refine ⟨m, p, m * p, rfl, fun x hx y hy => ?_⟩
  have : ∀ a ∈ range m, ∀ i ∈ range p, star ((isoT (K := K) m p).get [a, i, x]) * (isoT (K := K) m p).get [a, i, y] =
      (isoT (K := K) m p).get [a, i, y] * (if a * p + i = x then 1 else 0) := by
    intro a _ i _
    rw [isoT_get, isoT_get]
    split_ifs <;> simp
  rw [Finset.sum_congr rfl fun a ha => Finset.sum_congr rfl fun i hi => this a ha i hi,
    isoT_sum' hy fun a i => if a * p + i = x then 1 else 0, Nat.div_add_mod']
  by_cases h : x = y
  · simp [h]
  · rw [if_neg h, if_neg (Ne.symm h)]

theorem norm_joinT {m p q r : Nat} {x : NDArray K} (hx : x.shape = [m, p, q, r]) :
    Mps.norm (joinT m p q r x) = Mps.norm x := by
  unfold Mps.norm
  congr 1
  rw [hx]
  simp only [sumIdx, joinT]
  exact sum_pairs m p fun a i => ∑ j ∈ range q, ∑ b ∈ range r, ‖x.get [a, i, j, b]‖ ^ 2

/-- The left environment with one more site `isoT`. -/
noncomputable def envT (L W : NDArray K) (u t m p : Nat) : NDArray K :=
  ⟨[t, m * p, m * p], fun i => ∑ w ∈ range u, L.get [w, i.getD 1 0 / p, i.getD 2 0 / p] *
    W.get [w, i.getD 0 0, i.getD 2 0 % p, i.getD 1 0 % p]⟩

theorem envT_ok {L W : NDArray K} {pre Wp : List (NDArray K)} {d : List Nat} {u m p t : Nat}
    (hL : LeftEnv L pre Wp d u m) (hW : W.shape = [u, t, p, p]) :
    LeftEnv (envT L W u t m p) (pre ++ [isoT m p]) (Wp ++ [W]) (d ++ [p]) t (m * p) := by
  refine ⟨hL.bonds.append (bonds_one rfl), hL.mpo.append (opBonds_one hW), rfl, fun v hv y hy y' hy' => ?_⟩
  rw [part_append hL.bonds hL.mpo hL.bonds [p] one_pos one_pos one_pos]
  show (∑ w ∈ range u, L.get [w, y / p, y' / p] * W.get [w, v, y' % p, y % p]) = _
  refine Finset.sum_congr rfl fun w hw => ?_
  have h1 : ∀ z ∈ range m, ∀ z' ∈ range m, part pre Wp pre d 0 0 0 w z z' *
      part [isoT m p] [W] [isoT m p] [p] w z z' v y y' = ∑ o ∈ range p, ∑ i ∈ range p,
        L.get [w, z, z'] * (star ((isoT (K := K) m p).get [z', o, y']) * W.get [w, v, o, i] *
          (isoT (K := K) m p).get [z, i, y]) := by
    intro z hz z' hz'
    rw [part_one rfl hW rfl _ _ _ hv hy hy', ← hL.get w (Finset.mem_range.1 hw) z (Finset.mem_range.1 hz) z'
      (Finset.mem_range.1 hz'), site, Finset.mul_sum]
    exact Finset.sum_congr rfl fun o _ => by rw [Finset.mul_sum]
  rw [Finset.sum_congr rfl fun z hz => Finset.sum_congr rfl fun z' hz' => h1 z hz z' hz']
  have h2 : ∀ z ∈ range m, ∑ z' ∈ range m, ∑ o ∈ range p, ∑ i ∈ range p,
        L.get [w, z, z'] * (star ((isoT (K := K) m p).get [z', o, y']) * W.get [w, v, o, i] *
          (isoT (K := K) m p).get [z, i, y]) =
      ∑ i ∈ range p, (isoT (K := K) m p).get [z, i, y] * (L.get [w, z, y' / p] * W.get [w, v, y' % p, i]) := by
    intro z _
    have h3 : ∀ z' o, (∑ i ∈ range p, L.get [w, z, z'] * (star ((isoT (K := K) m p).get [z', o, y']) *
        W.get [w, v, o, i] * (isoT (K := K) m p).get [z, i, y])) =
        (isoT (K := K) m p).get [z', o, y'] * ∑ i ∈ range p, (isoT (K := K) m p).get [z, i, y] *
          (L.get [w, z, z'] * W.get [w, v, o, i]) := by
      intro z' o
      rw [Finset.mul_sum]
      refine Finset.sum_congr rfl fun i _ => ?_
      have : star ((isoT (K := K) m p).get [z', o, y']) = (isoT (K := K) m p).get [z', o, y'] := by
        rw [isoT_get]; split_ifs <;> simp
      rw [this]
      ring
    rw [Finset.sum_congr rfl fun z' _ => Finset.sum_congr rfl fun o _ => h3 z' o]
    exact isoT_sum' hy' fun z' o => ∑ i ∈ range p, (isoT (K := K) m p).get [z, i, y] *
      (L.get [w, z, z'] * W.get [w, v, o, i])
  rw [Finset.sum_congr rfl h2]
  exact (isoT_sum' hy fun z i => L.get [w, z, y' / p] * W.get [w, v, y' % p, i]).symm

theorem bondMatvec_ok (E : Kern K) {L W V R x : NDArray K} {u t n m p q k : Nat} (hL : L.shape = [u, m, m])
    (hW : W.shape = [u, t, p, p]) (hV : V.shape = [t, n, q, q]) (hR : R.shape = [n, k, k])
    (hx : x.shape = [m, p, q, k]) :
    ∃ y, bondMatvec E L W V R x = .ok y ∧ y.shape = [m, p, q, k] ∧
      ∀ a < m, ∀ o < p, ∀ j < q, ∀ b < k, y.get [a, o, j, b] =
      ∑ a' ∈ range m, ∑ i ∈ range p, ∑ j' ∈ range q, ∑ b' ∈ range k,
        heff (envT L W u t m p) V R t n (a * p + o) j b (a' * p + i) j' b' * x.get [a', i, j', b'] := by
  obtain ⟨y, h1, h2, h3⟩ := nconInt_spec E.so (ts := [L, x, W, V, R])
    (l := [[3, 1, -1], [1, 2, 5, 6], [3, 4, -2, 2], [4, 7, -3, 5], [7, 6, -4]])
    (closed := [1, 2, 5, 6, 4, 7, 3]) (out := [-1, -2, -3, -4])
    (dim := fun x => if x = -1 then m else if x = -2 then p else if x = -3 then q else if x = -4 then k
      else if x = 1 then m else if x = 2 then p else if x = 5 then q else if x = 6 then k else if x = 3 then u
      else if x = 4 then t else n)
    (by simp) rfl (by
      intro q hq
      simp only [List.zip_cons_cons, List.zip_nil_right, List.mem_cons, List.not_mem_nil, or_false] at hq
      rcases hq with rfl | rfl | rfl | rfl | rfl
      · exact hL
      · exact hx
      · exact hW
      · exact hV
      · exact hR) (by decide)
  refine ⟨y, h1, h2, fun a ha o ho j hj b hb => ?_⟩
  rw [h3 [a, o, j, b] (.cons ha (inB_three ho hj hb))]
  refine Finset.sum_congr rfl fun a' _ => Finset.sum_congr rfl fun i hi => Finset.sum_congr rfl fun j' _ =>
    Finset.sum_congr rfl fun b' _ => ?_
  rw [heff, Finset.sum_mul]
  refine Finset.sum_congr rfl fun w _ => ?_
  rw [Finset.sum_mul]
  refine Finset.sum_congr rfl fun v _ => ?_
  have e : (envT L W u t m p).get [w, a' * p + i, a * p + o] = ∑ z ∈ range u, L.get [z, a', a] * W.get [z, w, o, i] := by
    show (∑ z ∈ range u, L.get [z, (a' * p + i) / p, (a * p + o) / p] *
      W.get [z, w, (a * p + o) % p, (a' * p + i) % p]) = _
    rw [pair_div ho, pair_mod ho, pair_div (Finset.mem_range.1 hi), pair_mod (Finset.mem_range.1 hi)]
  rw [e, Finset.sum_mul, Finset.sum_mul, Finset.sum_mul]
  refine Finset.sum_congr rfl fun z _ => ?_
  show L.get [z, a', a] * (x.get [a', i, j', b'] * (W.get [z, w, o, i] * (V.get [w, v, j, j'] *
    (R.get [v, b', b] * 1)))) = _
  ring

end TN.Dmrg
