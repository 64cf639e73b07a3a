import Verif.DmrgEnv

/-!
# DMRG: the local eigenproblem
-/

set_option linter.unusedSectionVars false

namespace TN.Dmrg

open TN NDArray Finset Ncon Mps Mpo

variable {K : Type} [RCLike K]

/-- The form that belongs to a kernel. -/
noncomputable def form (s : List Nat) (H : List Nat → List Nat → K) (y x : NDArray K) : K :=
  sumIdx s fun i => sumIdx s fun j => star (y.get i) * (H i j * x.get j)

theorem form_vec (s : List Nat) (H : List Nat → List Nat → K) (y x : NDArray K) :
    inner K (Lanczos.vec s y) (Matrix.toEuclideanLin
      (Matrix.of fun i j : Fin s.prod => H (unravel s i) (unravel s j)) (Lanczos.vec s x)) = form s H y x := by
  have e : ∀ f : List Nat → K, sumIdx s f = ∑ k : Fin s.prod, f (unravel s k) := by
    intro f
    rw [← sum_range_unravel, ← Fin.sum_univ_eq_sum_range (fun k => f (unravel s k))]
  unfold form
  simp only [e]
  rw [PiLp.inner_apply]
  refine Finset.sum_congr rfl fun i _ => ?_
  rw [← Finset.mul_sum]
  exact mul_comm _ _

/-- A function on arrays that multiplies by a Hermitian kernel. -/
theorem local_acts {s : List Nat} {A : NDArray K → Py (NDArray K)} {H : List Nat → List Nat → K}
    (hA : ∀ x : NDArray K, x.shape = s → ∃ y, A x = .ok y ∧ y.shape = s ∧
      ∀ i, InB s i → y.get i = sumIdx s fun j => H i j * x.get j)
    (hH : ∀ i j, InB s i → InB s j → star (H i j) = H j i) :
    (Matrix.toEuclideanLin (Matrix.of fun i j : Fin s.prod => H (unravel s i) (unravel s j))).IsSymmetric ∧
      Lanczos.ActsAs s A (Matrix.toEuclideanLin
        (Matrix.of fun i j : Fin s.prod => H (unravel s i) (unravel s j))) := by
  constructor
  · rw [Matrix.isSymmetric_toEuclideanLin_iff]
    ext i j
    exact hH _ _ (unravel_inB j.2) (unravel_inB i.2)
  · intro x hx
    obtain ⟨y, h1, h2, h3⟩ := hA x hx
    refine ⟨y, h1, h2, ?_⟩
    ext k
    rw [Lanczos.vec_apply, h3 _ (unravel_inB k.2), ← sum_range_unravel,
      ← Fin.sum_univ_eq_sum_range (fun j => H (unravel s k) (unravel s j) * x.get (unravel s j))]
    rfl

/-- The options that `eigsh_lanczos` accepts. -/
structure Lopts.OK (o : Lopts) : Prop where
  krylov : 0 < o.numKrylov
  delta : 0 < o.delta
  delta_le : o.delta ≤ 1
  ndiag : o.ndiag ≠ 0

theorem ground_ok (E : Kern K) (hE : Lanczos.EighOK E.eigh) {o : Lopts} (ho : o.OK) {s : List Nat}
    {A : NDArray K → Py (NDArray K)} {H : List Nat → List Nat → K}
    (hA : ∀ x : NDArray K, x.shape = s → ∃ y, A x = .ok y ∧ y.shape = s ∧
      ∀ i, InB s i → y.get i = sumIdx s fun j => H i j * x.get j)
    (hH : ∀ i j, InB s i → InB s j → star (H i j) = H j i) {x : NDArray K} (hx : x.shape = s) (h0 : norm x ≠ 0) :
    ∃ e t, ground E A o x = .ok (e, t) ∧ t.shape = s ∧ norm t = 1 ∧ form s H t t = (e : K) ∧
      e * norm x ^ 2 ≤ RCLike.re (form s H x x) := by
  obtain ⟨l1, l2⟩ := local_acts hA hH
  have hv : Lanczos.vec s x ≠ 0 := by
    rw [Lanczos.norm_vec hx] at h0
    exact norm_ne_zero_iff.1 h0
  obtain ⟨r, e, t, g1, g2, g3, g4, g5, g6, g7⟩ := Lanczos.C57_ground l1 hE l2 (o := o.full) ho.delta ho.delta_le
    ho.ndiag ho.krylov rfl hx hv
  have hn : norm t = 1 := by rw [Lanczos.norm_vec g4, g5]
  have hg : ∀ i, t.get i / ((norm t : ℝ) : K) = t.get i := by intro i; rw [hn]; simp
  have ht : (⟨t.shape, fun i => t.get i / ((Mps.norm t : ℝ) : K)⟩ : NDArray K) = t := by
    simp only [hg]
  refine ⟨e, t, ?_, g4, hn, ?_, ?_⟩
  · unfold ground
    rw [g1]
    simp only [bind, Except.bind, g2, g3]
    unfold divide
    rw [if_neg (by rw [hn]; exact one_ne_zero), ht]
    rfl
  · rw [form_vec] at g6
    exact g6
  · rw [form_vec, ← Lanczos.norm_vec hx] at g7
    exact g7

theorem sumIdx_eq_single {s : List Nat} {i : List Nat} (hi : InB s i) {f : List Nat → K}
    (h : ∀ j, InB s j → j ≠ i → f j = 0) : sumIdx s f = f i := by
  rw [← sum_range_unravel, Finset.sum_eq_single (ravel s i)]
  · rw [unravel_ravel hi]
  · intro k hk hne
    refine h _ (unravel_inB (Finset.mem_range.1 hk)) fun h' => hne ?_
    rw [← h', ravel_unravel (Finset.mem_range.1 hk)]
  · intro hk
    exact absurd (Finset.mem_range.2 (ravel_lt hi)) hk

/-- The array with a single one. -/
def basis (s i : List Nat) : NDArray K := ⟨s, fun j => if j = i then 1 else 0⟩

theorem form_basis {s : List Nat} (H : List Nat → List Nat → K) {i j : List Nat} (hi : InB s i) (hj : InB s j) :
    form s H (basis s i) (basis s j) = H i j := by
  unfold form
  rw [sumIdx_eq_single hi, sumIdx_eq_single hj]
  · simp [basis]
  · intro k _ hk
    simp [basis, hk]
  · intro k _ hk
    rw [sumIdx_eq_single hj]
    · simp [basis, hk]
    · intro l _ hl
      simp [basis, hl]

/-- The kernel of the effective Hamiltonian of one site. -/
noncomputable def heffL (L W R : NDArray K) (u t : Nat) (i j : List Nat) : K :=
  heff L W R u t (i.getD 0 0) (i.getD 1 0) (i.getD 2 0) (j.getD 0 0) (j.getD 1 0) (j.getD 2 0)

theorem form_site {L W R x y : NDArray K} {pre post Wp Wq : List (NDArray K)} {d e : List Nat} {u t m p k : Nat}
    (hL : LeftEnv L pre Wp d u m) (hR : RightEnv R post Wq e t k) (hW : W.shape = [u, t, p, p])
    (hx : x.shape = [m, p, k]) (hy : y.shape = [m, p, k]) :
    form [m, p, k] (heffL L W R u t) y x =
      sand (pre ++ y :: post) (Wp ++ W :: Wq) (pre ++ x :: post) (d ++ p :: e) := by
  rw [sand_site hL hR hW hx hy]
  rfl

/-- The local ground state of one site: its energy is that of the whole state with the tensor put in. -/
theorem ground_site (E : Kern K) (hE : Lanczos.EighOK E.eigh) {o : Lopts} (ho : o.OK) {L W R x : NDArray K}
    {pre post Wp Wq : List (NDArray K)} {d e : List Nat} {u t m p k : Nat}
    (hL : LeftEnv L pre Wp d u m) (hR : RightEnv R post Wq e t k) (hW : W.shape = [u, t, p, p])
    (hH : Hermitian (Wp ++ W :: Wq) (d ++ p :: e)) (hx : x.shape = [m, p, k]) (h0 : norm x ≠ 0) :
    ∃ ε g, ground E (siteMatvec E L W R) o x = .ok (ε, g) ∧ g.shape = [m, p, k] ∧ norm g = 1 ∧
      sand (pre ++ g :: post) (Wp ++ W :: Wq) (pre ++ g :: post) (d ++ p :: e) = (ε : K) ∧
      ε * norm x ^ 2 ≤ RCLike.re (sand (pre ++ x :: post) (Wp ++ W :: Wq) (pre ++ x :: post) (d ++ p :: e)) := by
  obtain ⟨ε, g, h1, h2, h3, h4, h5⟩ := ground_ok E hE ho (s := [m, p, k]) (A := siteMatvec E L W R)
    (H := heffL L W R u t) (fun x hx => by
      obtain ⟨y, y1, y2, y3⟩ := siteMatvec_ok E hL.shape hW hR.shape hx
      refine ⟨y, y1, y2, fun i hi => ?_⟩
      obtain ⟨a, b, c, rfl, ha, hb, hc⟩ : ∃ a b c, i = [a, b, c] ∧ a < m ∧ b < p ∧ c < k := by
        cases hi with | cons ha hi => cases hi with | cons hb hi => cases hi with | cons hc hi => cases hi with
        | nil => exact ⟨_, _, _, rfl, ha, hb, hc⟩
      rw [y3 a ha b hb c hc]
      rfl) (fun i j hi hj => by
      rw [← form_basis (heffL L W R u t) hi hj, ← form_basis (heffL L W R u t) hj hi, form_site hL hR hW rfl rfl, form_site hL hR hW rfl rfl,
        sand_star hH]) hx h0
  refine ⟨ε, g, h1, h2, h3, ?_, ?_⟩
  · rw [← h4, form_site hL hR hW h2 h2]
  · rwa [form_site hL hR hW hx hx] at h5

end TN.Dmrg
