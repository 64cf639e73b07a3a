import Verif.Dmrg
import Verif.MpsEnv

/-!
# DMRG: matrix elements as products of transfer matrices
-/

set_option linter.unusedSectionVars false

namespace TN.Dmrg

open TN NDArray Finset Ncon Mps Mpo

variable {K : Type} [RCLike K]

/-- The matrix element between two parts of states, with the bonds of the operator, the ket and the bra fixed at
both ends. -/
noncomputable def part (bra Ws ket : List (NDArray K)) (ds : List Nat) (v x x' w y y' : Nat) : K :=
  sumIdx ds fun os => sumIdx ds fun is => star (amp bra x' os y') * mpoElem Ws v os is w * amp ket x is y

/-- The part of one site. -/
noncomputable def site (B W A : NDArray K) (p : Nat) (v x x' w y y' : Nat) : K :=
  ∑ o ∈ range p, ∑ i ∈ range p, star (B.get [x', o, y']) * W.get [v, w, o, i] * A.get [x, i, y]

theorem sand_eq (bra Ws ket : List (NDArray K)) (ds : List Nat) : sand bra Ws ket ds = part bra Ws ket ds 0 0 0 0 0 0 :=
  rfl

theorem part_nil (v x x' w y y' : Nat) : part ([] : List (NDArray K)) [] [] [] v x x' w y y' =
    delta x' y' * delta v w * delta x y := by
  simp only [part, sumIdx, amp, mpoElem, delta]
  by_cases h : x' = y' <;> simp [h]

theorem mpoElem_cons {W : NDArray K} {Ws : List (NDArray K)} {v u p q : Nat} (hW : W.shape = [v, u, p, q])
    (a o i : Nat) (os is : List Nat) (b : Nat) :
    mpoElem (W :: Ws) a (o :: os) (i :: is) b = ∑ c ∈ range u, W.get [a, c, o, i] * mpoElem Ws c os is b := by
  simp [mpoElem, hW]

theorem part_cons {B W A : NDArray K} {bra Ws ket : List (NDArray K)} {l l' v m m' u p : Nat}
    (hB : B.shape = [l', p, m']) (hW : W.shape = [v, u, p, p]) (hA : A.shape = [l, p, m]) (ds : List Nat)
    (a x x' w y y' : Nat) :
    part (B :: bra) (W :: Ws) (A :: ket) (p :: ds) a x x' w y y' =
      ∑ c ∈ range u, ∑ z ∈ range m, ∑ z' ∈ range m', site B W A p a x x' c z z' * part bra Ws ket ds c z z' w y y' := by
  have h1 : part (B :: bra) (W :: Ws) (A :: ket) (p :: ds) a x x' w y y' =
      ∑ o ∈ range p, sumIdx ds fun os => ∑ i ∈ range p, sumIdx ds fun is =>
        ∑ c ∈ range u, ∑ z ∈ range m, ∑ z' ∈ range m', (star (B.get [x', o, z']) * W.get [a, c, o, i] * A.get [x, i, z]) *
          (star (amp bra z' os y') * mpoElem Ws c os is w * amp ket z is y) := by
    unfold part
    refine Finset.sum_congr rfl fun o _ => sumIdx_congr fun os _ => Finset.sum_congr rfl fun i _ =>
      sumIdx_congr fun is _ => ?_
    show star (amp (B :: bra) x' (o :: os) y') * mpoElem (W :: Ws) a (o :: os) (i :: is) w *
      amp (A :: ket) x (i :: is) y = _
    rw [amp_cons hB, mpoElem_cons hW, amp_cons hA, star_sum, Finset.sum_mul_sum, Finset.sum_comm, Finset.sum_mul]
    refine Finset.sum_congr rfl fun c _ => ?_
    rw [Finset.sum_mul_sum, Finset.sum_comm]
    refine Finset.sum_congr rfl fun z _ => Finset.sum_congr rfl fun z' _ => ?_
    rw [star_mul']
    ring
  rw [h1]
  simp only [sumIdx_sum]
  have h2 : ∀ c z z', site B W A p a x x' c z z' * part bra Ws ket ds c z z' w y y' =
      ∑ o ∈ range p, ∑ i ∈ range p, sumIdx ds fun os => sumIdx ds fun is =>
        (star (B.get [x', o, z']) * W.get [a, c, o, i] * A.get [x, i, z]) *
          (star (amp bra z' os y') * mpoElem Ws c os is w * amp ket z is y) := by
    intro c z z'
    unfold site part
    rw [Finset.sum_mul]
    refine Finset.sum_congr rfl fun o _ => ?_
    rw [Finset.sum_mul]
    refine Finset.sum_congr rfl fun i _ => ?_
    rw [sumIdx_mul_left]
    refine sumIdx_congr fun os _ => ?_
    rw [sumIdx_mul_left]
  simp only [h2]
  have h3 : ∀ F : Nat → Nat → Nat → Nat → Nat → K,
      ∑ o ∈ range p, ∑ i ∈ range p, ∑ c ∈ range u, ∑ z ∈ range m, ∑ z' ∈ range m', F o i c z z' =
      ∑ c ∈ range u, ∑ z ∈ range m, ∑ z' ∈ range m', ∑ o ∈ range p, ∑ i ∈ range p, F o i c z z' := by
    intro F
    have e1 : ∀ o, ∑ i ∈ range p, ∑ c ∈ range u, ∑ z ∈ range m, ∑ z' ∈ range m', F o i c z z' =
        ∑ c ∈ range u, ∑ z ∈ range m, ∑ z' ∈ range m', ∑ i ∈ range p, F o i c z z' := by
      intro o
      rw [Finset.sum_comm]
      refine Finset.sum_congr rfl fun c _ => ?_
      rw [Finset.sum_comm]
      refine Finset.sum_congr rfl fun z _ => ?_
      rw [Finset.sum_comm]
    simp only [e1]
    rw [Finset.sum_comm]
    refine Finset.sum_congr rfl fun c _ => ?_
    rw [Finset.sum_comm]
    refine Finset.sum_congr rfl fun z _ => ?_
    rw [Finset.sum_comm]
  exact h3 fun o i c z z' => sumIdx ds fun os => sumIdx ds fun is =>
        (star (B.get [x', o, z']) * W.get [a, c, o, i] * A.get [x, i, z]) *
          (star (amp bra z' os y') * mpoElem Ws c os is w * amp ket z is y)

/-- Two parts in a row. -/
theorem part_append {bra2 Ws2 ket2 : List (NDArray K)} : ∀ {bra Ws ket : List (NDArray K)} {l l' v m m' u : Nat}
    {d : List Nat}, Bonds bra l' d m' → OpBonds Ws v d u → Bonds ket l d m → ∀ (e : List Nat) {a x x' : Nat},
    a < v → x < l → x' < l' → ∀ (w y y' : Nat), part (bra ++ bra2) (Ws ++ Ws2) (ket ++ ket2) (d ++ e) a x x' w y y' =
      ∑ c ∈ range u, ∑ z ∈ range m, ∑ z' ∈ range m', part bra Ws ket d a x x' c z z' *
        part bra2 Ws2 ket2 e c z z' w y y' := by
  intro bra
  induction bra with
  | nil =>
    intro Ws ket l l' v m m' u d hb hW hk e a x x' ha hx hx' w y y'
    obtain ⟨rfl, rfl⟩ := hb
    cases Ws with
    | cons W Ws => obtain ⟨p, u, ds', h, _⟩ := hW; cases h
    | nil =>
      cases ket with
      | cons A ket => obtain ⟨p, u, ds', h, _⟩ := hk; cases h
      | nil =>
        obtain ⟨_, rfl⟩ := hW
        obtain ⟨_, rfl⟩ := hk
        simp only [List.nil_append, part_nil]
        rw [Finset.sum_eq_single a, Finset.sum_eq_single x, Finset.sum_eq_single x']
        · simp [delta]
        · intro b _ hb; simp [delta, Ne.symm hb]
        · intro h; exact absurd (Finset.mem_range.2 hx') h
        · intro b _ hb; refine Finset.sum_eq_zero fun b' _ => ?_; simp [delta, Ne.symm hb]
        · intro h; exact absurd (Finset.mem_range.2 hx) h
        · intro b _ hb; refine Finset.sum_eq_zero fun b' _ => Finset.sum_eq_zero fun b'' _ => ?_; simp [delta, Ne.symm hb]
        · intro h; exact absurd (Finset.mem_range.2 ha) h
  | cons B bra ih =>
    intro Ws ket l l' v m m' u d hb hW hk e a x x' ha hx hx' w y y'
    obtain ⟨p, m1', d', rfl, hB, hb⟩ := hb
    cases Ws with
    | nil => obtain ⟨h, _⟩ := hW; cases h
    | cons W Ws =>
      cases ket with
      | nil => obtain ⟨h, _⟩ := hk; cases h
      | cons A ket =>
        obtain ⟨_, u1, _, h, hWs, hW⟩ := hW
        cases h
        obtain ⟨_, m1, _, h, hA, hk⟩ := hk
        cases h
        simp only [List.cons_append]
        rw [part_cons hB hWs hA]
        simp only [part_cons hB hWs hA]
        have h1 : ∀ c ∈ range u1, ∀ z ∈ range m1, ∀ z' ∈ range m1', site B W A p a x x' c z z' *
            part (bra ++ bra2) (Ws ++ Ws2) (ket ++ ket2) (d' ++ e) c z z' w y y' =
            ∑ c2 ∈ range u, ∑ z2 ∈ range m, ∑ z2' ∈ range m', site B W A p a x x' c z z' *
              (part bra Ws ket d' c z z' c2 z2 z2' * part bra2 Ws2 ket2 e c2 z2 z2' w y y') := by
          intro c hc z hz z' hz'
          rw [ih hb hW hk e (Finset.mem_range.1 hc) (Finset.mem_range.1 hz) (Finset.mem_range.1 hz'), Finset.mul_sum]
          refine Finset.sum_congr rfl fun c2 _ => ?_
          rw [Finset.mul_sum]
          refine Finset.sum_congr rfl fun z2 _ => ?_
          rw [Finset.mul_sum]
        rw [Finset.sum_congr rfl fun c hc => Finset.sum_congr rfl fun z hz => Finset.sum_congr rfl fun z' hz' =>
          h1 c hc z hz z' hz']
        have h3 : ∀ F : Nat → Nat → Nat → Nat → Nat → Nat → K,
            ∑ c ∈ range u1, ∑ z ∈ range m1, ∑ z' ∈ range m1', ∑ c2 ∈ range u, ∑ z2 ∈ range m, ∑ z2' ∈ range m',
              F c z z' c2 z2 z2' = ∑ c2 ∈ range u, ∑ z2 ∈ range m, ∑ z2' ∈ range m',
              ∑ c ∈ range u1, ∑ z ∈ range m1, ∑ z' ∈ range m1', F c z z' c2 z2 z2' := by
          intro F
          have e3 : ∀ (r1 : Nat) (G : Nat → Nat → Nat → Nat → K), ∑ c ∈ range r1, ∑ c2 ∈ range u, ∑ z2 ∈ range m,
              ∑ z2' ∈ range m', G c c2 z2 z2' = ∑ c2 ∈ range u, ∑ z2 ∈ range m, ∑ z2' ∈ range m', ∑ c ∈ range r1,
              G c c2 z2 z2' := by
            intro r1 G
            rw [Finset.sum_comm]
            refine Finset.sum_congr rfl fun c _ => ?_
            rw [Finset.sum_comm]
            refine Finset.sum_congr rfl fun z _ => ?_
            rw [Finset.sum_comm]
          simp only [e3]
        rw [h3]
        refine Finset.sum_congr rfl fun c2 _ => Finset.sum_congr rfl fun z2 _ => Finset.sum_congr rfl fun z2' _ => ?_
        simp only [Finset.sum_mul]
        refine Finset.sum_congr rfl fun c _ => Finset.sum_congr rfl fun z _ => Finset.sum_congr rfl fun z' _ => ?_
        ring

theorem part_one {B W A : NDArray K} {l l' v m m' u p : Nat}
    (hB : B.shape = [l', p, m']) (hW : W.shape = [v, u, p, p]) (hA : A.shape = [l, p, m])
    (a x x' : Nat) {w y y' : Nat} (hw : w < u) (hy : y < m) (hy' : y' < m') :
    part [B] [W] [A] [p] a x x' w y y' = site B W A p a x x' w y y' := by
  rw [part_cons hB hW hA, Finset.sum_eq_single w, Finset.sum_eq_single y, Finset.sum_eq_single y']
  · simp [part_nil, delta]
  · intro b _ hb; simp [part_nil, delta, hb]
  · intro h; exact absurd (Finset.mem_range.2 hy') h
  · intro b _ hb; refine Finset.sum_eq_zero fun b' _ => ?_; simp [part_nil, delta, hb]
  · intro h; exact absurd (Finset.mem_range.2 hy) h
  · intro b _ hb; refine Finset.sum_eq_zero fun b' _ => Finset.sum_eq_zero fun b'' _ => ?_; simp [part_nil, delta, hb]
  · intro h; exact absurd (Finset.mem_range.2 hw) h

theorem sand_congr {bra bra' Ws ket ket' : List (NDArray K)} {ds : List Nat} {r s : K}
    (h : ∀ is, InB ds is → amp bra 0 is 0 = r * amp bra' 0 is 0)
    (h' : ∀ is, InB ds is → amp ket 0 is 0 = s * amp ket' 0 is 0) :
    sand bra Ws ket ds = star r * s * sand bra' Ws ket' ds := by
  unfold sand
  rw [sumIdx_mul_left]
  refine sumIdx_congr fun os hos => ?_
  rw [sumIdx_mul_left]
  refine sumIdx_congr fun is his => ?_
  rw [h os hos, h' is his, star_mul']
  ring

/-- A Hermitian operator gives conjugate matrix elements. -/
theorem sand_star {bra Ws ket : List (NDArray K)} {ds : List Nat} (h : Hermitian Ws ds) :
    star (sand bra Ws ket ds) = sand ket Ws bra ds := by
  unfold sand
  rw [sumIdx_comm]
  have e : ∀ f : List Nat → K, star (sumIdx ds f) = sumIdx ds fun i => star (f i) := by
    intro f
    rw [← sum_range_unravel, ← sum_range_unravel, star_sum]
  rw [e]
  refine sumIdx_congr fun os hos => ?_
  rw [e]
  refine sumIdx_congr fun is his => ?_
  rw [star_mul', star_mul', star_star, h is os his hos]
  ring

end TN.Dmrg
