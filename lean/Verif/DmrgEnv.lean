import Verif.DmrgSand
import Verif.LanczosProps2

/-!
# DMRG: environments and the local eigenproblem
-/

set_option linter.unusedSectionVars false

namespace TN.Dmrg

open TN NDArray Finset Ncon Mps Mpo

variable {K : Type} [RCLike K]

/-- `L` is the environment made of the sites in `pre`. -/
structure LeftEnv (L : NDArray K) (pre Wp : List (NDArray K)) (d : List Nat) (u m : Nat) : Prop where
  bonds : Bonds pre 1 d m
  mpo : OpBonds Wp 1 d u
  shape : L.shape = [u, m, m]
  get : ∀ w < u, ∀ a < m, ∀ a' < m, L.get [w, a, a'] = part pre Wp pre d 0 0 0 w a a'

/-- `R` is the environment made of the sites in `post`. -/
structure RightEnv (R : NDArray K) (post Wq : List (NDArray K)) (e : List Nat) (u m : Nat) : Prop where
  bonds : Bonds post m e 1
  mpo : OpBonds Wq u e 1
  shape : R.shape = [u, m, m]
  get : ∀ w < u, ∀ b < m, ∀ b' < m, R.get [w, b, b'] = part post Wq post e w b b' 0 0 0

theorem OpBonds.append {xs ys : List (NDArray K)} : ∀ {l m : Nat} {d e : List Nat} {r : Nat},
    OpBonds xs l d m → OpBonds ys m e r → OpBonds (xs ++ ys) l (d ++ e) r := by
  induction xs with
  | nil => rintro l m d e r ⟨rfl, rfl⟩ h; exact h
  | cons A xs ih =>
    rintro l m d e r ⟨p, k, ds', rfl, h1, h2⟩ h
    exact ⟨p, k, ds' ++ e, rfl, h1, ih h2 h⟩

theorem OpBonds.split {xs ys : List (NDArray K)} : ∀ {l : Nat} {ds : List Nat} {r : Nat},
    OpBonds (xs ++ ys) l ds r → ∃ d e m, ds = d ++ e ∧ OpBonds xs l d m ∧ OpBonds ys m e r := by
  induction xs with
  | nil => intro l ds r h; exact ⟨[], ds, l, rfl, ⟨rfl, rfl⟩, h⟩
  | cons A xs ih =>
    rintro l ds r ⟨p, k, ds', rfl, h1, h2⟩
    obtain ⟨d, e, m, rfl, h3, h4⟩ := ih h2
    exact ⟨p :: d, e, m, rfl, ⟨p, k, d, rfl, h1, h3⟩, h4⟩

theorem OpBonds.length {ts : List (NDArray K)} : ∀ {l : Nat} {ds : List Nat} {r : Nat},
    OpBonds ts l ds r → ds.length = ts.length := by
  induction ts with
  | nil => rintro l ds r ⟨rfl, _⟩; rfl
  | cons A ts ih =>
    rintro l ds r ⟨p, k, ds', rfl, _, h⟩
    simp [ih h]

theorem bonds_one {A : NDArray K} {m p k : Nat} (hA : A.shape = [m, p, k]) : Bonds [A] m [p] k :=
  ⟨p, k, [], rfl, hA, rfl, rfl⟩

theorem opBonds_one {W : NDArray K} {u t p : Nat} (hW : W.shape = [u, t, p, p]) : OpBonds [W] u [p] t :=
  ⟨p, t, [], rfl, hW, rfl, rfl⟩

theorem addLeft_ok (E : Kern K) {L A W : NDArray K} {pre Wp : List (NDArray K)} {d : List Nat} {u m p k t : Nat}
    (hL : LeftEnv L pre Wp d u m) (hA : A.shape = [m, p, k]) (hW : W.shape = [u, t, p, p]) :
    ∃ L', addLeft E L A W = .ok L' ∧ LeftEnv L' (pre ++ [A]) (Wp ++ [W]) (d ++ [p]) t k := by
  obtain ⟨L', h1, h2, h3⟩ := nconInt_spec E.so (ts := [L, A, W, conjT A])
    (l := [[2, 1, 5], [1, 3, -2], [2, -1, 4, 3], [5, 4, -3]])
    (closed := [2, 1, 5, 4, 3]) (out := [-1, -2, -3])
    (dim := fun x => if x = -1 then t else if x = -2 then k else if x = -3 then k else if x = 2 then u
      else if x = 1 then m else if x = 5 then m else p)
    (by simp) rfl (by
      intro q hq
      simp only [List.zip_cons_cons, List.zip_nil_right, List.mem_cons, List.not_mem_nil, or_false] at hq
      rcases hq with rfl | rfl | rfl | rfl
      · exact hL.shape
      · exact hA
      · exact hW
      · exact hA) (by decide)
  refine ⟨L', h1, hL.bonds.append (bonds_one hA), hL.mpo.append (opBonds_one hW), h2, fun w hw y hy y' hy' => ?_⟩
  rw [h3 [w, y, y'] (inB_three hw hy hy'), part_append hL.bonds hL.mpo hL.bonds [p] one_pos one_pos one_pos]
  refine Finset.sum_congr rfl fun c hc => Finset.sum_congr rfl fun z hz => Finset.sum_congr rfl fun z' hz' => ?_
  rw [part_one hA hW hA _ _ _ hw hy hy', ← hL.get c (Finset.mem_range.1 hc) z (Finset.mem_range.1 hz) z'
    (Finset.mem_range.1 hz'), site, Finset.mul_sum]
  refine Finset.sum_congr rfl fun o _ => ?_
  rw [Finset.mul_sum]
  refine Finset.sum_congr rfl fun i _ => ?_
  show L.get [c, z, z'] * (A.get [z, i, y] * (W.get [c, w, o, i] * (star (A.get [z', o, y']) * 1))) = _
  ring

theorem addRight_ok (E : Kern K) {R A W : NDArray K} {post Wq : List (NDArray K)} {e : List Nat} {u m p k t : Nat}
    (hR : RightEnv R post Wq e u m) (hA : A.shape = [k, p, m]) (hW : W.shape = [t, u, p, p]) :
    ∃ R', addRight E R A W = .ok R' ∧ RightEnv R' (A :: post) (W :: Wq) (p :: e) t k := by
  obtain ⟨R', h1, h2, h3⟩ := nconInt_spec E.so (ts := [R, A, W, conjT A])
    (l := [[2, 1, 5], [-2, 3, 1], [-1, 2, 4, 3], [-3, 4, 5]])
    (closed := [2, 1, 5, 4, 3]) (out := [-1, -2, -3])
    (dim := fun x => if x = -1 then t else if x = -2 then k else if x = -3 then k else if x = 2 then u
      else if x = 1 then m else if x = 5 then m else p)
    (by simp) rfl (by
      intro q hq
      simp only [List.zip_cons_cons, List.zip_nil_right, List.mem_cons, List.not_mem_nil, or_false] at hq
      rcases hq with rfl | rfl | rfl | rfl
      · exact hR.shape
      · exact hA
      · exact hW
      · exact hA) (by decide)
  refine ⟨R', h1, ⟨p, m, e, rfl, hA, hR.bonds⟩, ⟨p, u, e, rfl, hW, hR.mpo⟩, h2, fun w hw y hy y' hy' => ?_⟩
  rw [h3 [w, y, y'] (inB_three hw hy hy'), part_cons hA hW hA]
  refine Finset.sum_congr rfl fun c hc => Finset.sum_congr rfl fun z hz => Finset.sum_congr rfl fun z' hz' => ?_
  rw [← hR.get c (Finset.mem_range.1 hc) z (Finset.mem_range.1 hz) z' (Finset.mem_range.1 hz'), site, Finset.sum_mul]
  refine Finset.sum_congr rfl fun o _ => ?_
  rw [Finset.sum_mul]
  refine Finset.sum_congr rfl fun i _ => ?_
  show R.get [c, z, z'] * (A.get [y, i, z] * (W.get [w, c, o, i] * (star (A.get [y', o, z']) * 1))) = _
  ring

/-- The effective Hamiltonian of one site. -/
noncomputable def heff (L W R : NDArray K) (u t a o b a' i b' : Nat) : K :=
  ∑ w ∈ range u, ∑ v ∈ range t, L.get [w, a', a] * W.get [w, v, o, i] * R.get [v, b', b]

theorem siteMatvec_ok (E : Kern K) {L W R x : NDArray K} {u t m p k : Nat} (hL : L.shape = [u, m, m])
    (hW : W.shape = [u, t, p, p]) (hR : R.shape = [t, k, k]) (hx : x.shape = [m, p, k]) :
    ∃ y, siteMatvec E L W R x = .ok y ∧ y.shape = [m, p, k] ∧ ∀ a < m, ∀ o < p, ∀ b < k, y.get [a, o, b] =
      ∑ a' ∈ range m, ∑ i ∈ range p, ∑ b' ∈ range k, heff L W R u t a o b a' i b' * x.get [a', i, b'] := by
  obtain ⟨y, h1, h2, h3⟩ := nconInt_spec E.so (ts := [L, x, W, R])
    (l := [[3, 1, -1], [1, 2, 4], [3, 5, -2, 2], [5, 4, -3]])
    (closed := [1, 2, 4, 3, 5]) (out := [-1, -2, -3])
    (dim := fun x => if x = -1 then m else if x = -2 then p else if x = -3 then k else if x = 3 then u
      else if x = 1 then m else if x = 2 then p else if x = 4 then k else t)
    (by simp) rfl (by
      intro q hq
      simp only [List.zip_cons_cons, List.zip_nil_right, List.mem_cons, List.not_mem_nil, or_false] at hq
      rcases hq with rfl | rfl | rfl | rfl
      · exact hL
      · exact hx
      · exact hW
      · exact hR) (by decide)
  refine ⟨y, h1, h2, fun a ha o ho b hb => ?_⟩
  rw [h3 [a, o, b] (inB_three ha ho hb)]
  refine Finset.sum_congr rfl fun a' _ => Finset.sum_congr rfl fun i _ => Finset.sum_congr rfl fun b' _ => ?_
  rw [heff, Finset.sum_mul]
  refine Finset.sum_congr rfl fun w _ => ?_
  rw [Finset.sum_mul]
  refine Finset.sum_congr rfl fun v _ => ?_
  show L.get [w, a', a] * (x.get [a', i, b'] * (W.get [w, v, o, i] * (R.get [v, b', b] * 1))) = _
  ring

/-- The matrix element between two states that differ at one site only. -/
theorem sand_site {L W R x y : NDArray K} {pre post Wp Wq : List (NDArray K)} {d e : List Nat} {u t m p k : Nat}
    (hL : LeftEnv L pre Wp d u m) (hR : RightEnv R post Wq e t k) (hW : W.shape = [u, t, p, p])
    (hx : x.shape = [m, p, k]) (hy : y.shape = [m, p, k]) :
    sand (pre ++ y :: post) (Wp ++ W :: Wq) (pre ++ x :: post) (d ++ p :: e) =
      ∑ a ∈ range m, ∑ o ∈ range p, ∑ b ∈ range k, ∑ a' ∈ range m, ∑ i ∈ range p, ∑ b' ∈ range k,
        star (y.get [a, o, b]) * (heff L W R u t a o b a' i b' * x.get [a', i, b']) := by
  rw [sand_eq, part_append hL.bonds hL.mpo hL.bonds (p :: e) one_pos one_pos one_pos]
  have h1 : ∀ w ∈ range u, ∀ a' ∈ range m, ∀ a ∈ range m,
      part pre Wp pre d 0 0 0 w a' a * part (y :: post) (W :: Wq) (x :: post) (p :: e) w a' a 0 0 0 =
      ∑ v ∈ range t, ∑ b' ∈ range k, ∑ b ∈ range k, ∑ o ∈ range p, ∑ i ∈ range p,
        star (y.get [a, o, b]) * (L.get [w, a', a] * W.get [w, v, o, i] * R.get [v, b', b] * x.get [a', i, b']) := by
    intro w hw a' ha' a ha
    rw [part_cons hy hW hx, ← hL.get w (Finset.mem_range.1 hw) a' (Finset.mem_range.1 ha') a (Finset.mem_range.1 ha),
      Finset.mul_sum]
    refine Finset.sum_congr rfl fun v hv => ?_
    rw [Finset.mul_sum]
    refine Finset.sum_congr rfl fun b' hb' => ?_
    rw [Finset.mul_sum]
    refine Finset.sum_congr rfl fun b hb => ?_
    rw [← hR.get v (Finset.mem_range.1 hv) b' (Finset.mem_range.1 hb') b (Finset.mem_range.1 hb), site,
      Finset.sum_mul, Finset.mul_sum]
    refine Finset.sum_congr rfl fun o _ => ?_
    rw [Finset.sum_mul, Finset.mul_sum]
    refine Finset.sum_congr rfl fun i _ => ?_
    ring
  rw [Finset.sum_congr rfl fun w hw => Finset.sum_congr rfl fun a' ha' => Finset.sum_congr rfl fun a ha =>
    h1 w hw a' ha' a ha]
  have h2 : ∀ a o b a' i b', star (y.get [a, o, b]) * (heff L W R u t a o b a' i b' * x.get [a', i, b']) =
      ∑ w ∈ range u, ∑ v ∈ range t, star (y.get [a, o, b]) *
        (L.get [w, a', a] * W.get [w, v, o, i] * R.get [v, b', b] * x.get [a', i, b']) := by
    intro a o b a' i b'
    rw [heff, Finset.sum_mul, Finset.mul_sum]
    refine Finset.sum_congr rfl fun w _ => ?_
    rw [Finset.sum_mul, Finset.mul_sum]
  simp only [h2]
  obtain ⟨F, hF⟩ : ∃ F : Nat → Nat → Nat → Nat → Nat → Nat → Nat → Nat → K, F = fun w a' a v b' b o i =>
    star (y.get [a, o, b]) * (L.get [w, a', a] * W.get [w, v, o, i] * R.get [v, b', b] * x.get [a', i, b']) := ⟨_, rfl⟩
  have key : ∑ w ∈ range u, ∑ a' ∈ range m, ∑ a ∈ range m, ∑ v ∈ range t, ∑ b' ∈ range k, ∑ b ∈ range k,
      ∑ o ∈ range p, ∑ i ∈ range p, F w a' a v b' b o i =
      ∑ a ∈ range m, ∑ o ∈ range p, ∑ b ∈ range k, ∑ a' ∈ range m, ∑ i ∈ range p, ∑ b' ∈ range k,
        ∑ w ∈ range u, ∑ v ∈ range t, F w a' a v b' b o i := by
    simp only [← Finset.sum_product']
    refine Finset.sum_nbij' (fun q => (q.2.2.1, q.2.2.2.2.2.2.1, q.2.2.2.2.2.1, q.2.1, q.2.2.2.2.2.2.2,
      q.2.2.2.2.1, q.1, q.2.2.2.1)) (fun q => (q.2.2.2.2.2.2.1, q.2.2.2.1, q.1, q.2.2.2.2.2.2.2, q.2.2.2.2.2.1,
      q.2.2.1, q.2.1, q.2.2.2.2.1)) ?_ ?_ ?_ ?_ ?_
    · intro q hq
      simp only [Finset.mem_product] at hq ⊢
      tauto
    · intro q hq
      simp only [Finset.mem_product] at hq ⊢
      tauto
    · intro q _; rfl
    · intro q _; rfl
    · intro q _; rfl
  rw [hF] at key
  exact key

end TN.Dmrg
