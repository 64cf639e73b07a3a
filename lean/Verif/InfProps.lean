import Verif.InfDrop

/-!
# The canonical form of an infinite MPS
-/

set_option linter.unusedSectionVars false

namespace TN.Inf

open TN NDArray Finset Ncon Mps Matrix
open scoped ComplexOrder

variable {K : Type} [RCLike K]

/-! ### Specification -/

/-- The connector matrix; a missing one stands for the identity. -/
def connMat (n : Nat) : Option (NDArray K) → Matrix (Fin n) (Fin n) K
  | none => 1
  | some C => toMat n n C

/-- The matrix that the whole state repeats: that of the cell times the connector. -/
def period (st : Full K) (n : Nat) (is : List Nat) : Matrix (Fin n) (Fin n) K :=
  cell st.tensors n n is * connMat n st.connector

/-- The Schmidt form: every tensor, the last one taken with the connector, is a left isometry, the cell
with the connector on its left is a right isometry, and the connector is the inverse of a diagonal matrix
of decreasing positive numbers whose squares add up to one. -/
structure SchmidtForm (so : SetOrder) (st : Full K) (n : Nat) (ds : List Nat) : Prop where
  bonds : Bonds st.tensors n ds n
  center : st.center = some (st.tensors.length - 1)
  left : ∀ site < st.tensors.length, ∃ A, getTensor so st site = .ok A ∧ LeftIso A
  right : sumIdx ds (fun is => (connMat n st.connector * cell st.tensors n n is) *
    (connMat n st.connector * cell st.tensors n n is)ᴴ) = 1
  schmidt : ∃ C lam, st.connector = some C ∧ C.shape = [n, n] ∧ (∀ i, 0 < lam i) ∧ Antitone lam ∧
    ∑ i, lam i ^ 2 = 1 ∧ toMat n n C = diagonal fun i => (((lam i)⁻¹ : ℝ) : K)

/-! ### The second half of `canonicalize` -/

theorem getTensor_last (so : SetOrder) {ts : List (NDArray K)} {B : NDArray K} (hB : ts[ts.length - 1]? = some B)
    {m p n : Nat} (hs : B.shape = [m, p, n]) {conn : Option (NDArray K)}
    (hc : ∀ C, conn = some C → C.shape = [n, n]) (c : Option Nat) :
    ∃ T, getTensor so ⟨ts, c, conn⟩ ((ts.length : Int) - 1) = .ok T ∧ T.shape = [m, p, n] ∧
      ∀ i < p, slice T m n i = slice B m n i * connMat n conn := by
  have hlen : 0 < ts.length := by
    rcases ts with _ | ⟨X, ts⟩
    · simp at hB
    · simp
  unfold getTensor
  dsimp only
  rw [if_neg (by omega), if_neg (by omega), show ((ts.length : Int) - 1).toNat = ts.length - 1 by omega, hB]
  cases conn with
  | none => exact ⟨B, rfl, hs, fun i _ => by simp [connMat]⟩
  | some C =>
    obtain ⟨T, h1, h2, h3⟩ := rest_mat so hs (hc C rfl)
    exact ⟨T, by simp only [if_true, h1], h2, h3⟩

theorem norm_vec {s : NDArray K} {n : Nat} (hs : s.shape = [n]) {lam : Fin n → ℝ}
    (h : ∀ i : Fin n, s.get [(i : Nat)] = (lam i : K)) : Mps.norm s = Real.sqrt (∑ i, lam i ^ 2) := by
  unfold Mps.norm
  rw [hs]
  congr 1
  simp only [sumIdx]
  rw [Finset.sum_range]
  refine Finset.sum_congr rfl fun i _ => ?_
  rw [h i, RCLike.norm_ofReal, sq_abs]

/-- The matrices a run of `finish` works with. -/
structure Finished (so : SetOrder) (ts : List (NDArray K)) (conn : Option (NDArray K)) (q : Roots K) (n : Nat)
    (ds : List Nat) (st' : Full K) (z : ℝ) (U V : Matrix (Fin n) (Fin n) K) (lam : Fin n → ℝ) (s : ℝ) : Prop where
  gauge : Gauge (toMat n n q.l) (toMat n n q.li) (toMat n n q.r) (toMat n n q.ri) U V lam
  anti : Antitone lam
  zpos : 0 < z
  znorm : z = Real.sqrt (∑ i, lam i ^ 2)
  bonds : Bonds st'.tensors n ds n
  center : st'.center = some (st'.tensors.length - 1)
  len : st'.tensors.length = ts.length
  spos : 0 < s
  cells : ∀ is, InB ds is → regauge (toMat n n q.li) (toMat n n q.ri) U V lam (cell ts n n is * connMat n conn) =
    (s : K) • cell st'.tensors n n is
  iso : ∀ i < ts.length - 1, ∃ A, st'.tensors[i]? = some A ∧ LeftIso A
  last : ∃ B, st'.tensors[ts.length - 1]? = some B ∧ Mps.norm B = 1
  conn : ∃ C, st'.connector = some C ∧ C.shape = [n, n] ∧ toMat n n C = (z : K) • lamInv lam

theorem finish_ok {E : Kern K} (hE : KernOK E) {ts : List (NDArray K)} {n : Nat} (hn : 0 < n) {ds : List Nat}
    (hb : Bonds ts n ds n) (hne : ts ≠ []) (hz : Nonzero ts n ds n) {q : Roots K} {L R : Matrix (Fin n) (Fin n) K}
    (hq : RootsOK L R q) {conn : Option (NDArray K)} (hc : ∀ C, conn = some C → C.shape = [n, n])
    {Ci : Matrix (Fin n) (Fin n) K} (hCi : connMat n conn * Ci = 1) {o : Opts K} {tmp u s v w : NDArray K}
    (htmp : nconInt E.so [q.l, q.r] [[-1, 1], [1, -2]] = .ok tmp)
    (hsvd : Decomp.svd E.svd tmp 1 o.D o.thr true = .ok (u, s, v, w)) (hs : s.shape = [n]) :
    ∃ st' z U V lam s, finish E o conn ts q = .ok (st', z) ∧ Finished E.so ts conn q n ds st' z U V lam s := by
  have : Nonempty (Fin n) := ⟨⟨0, hn⟩⟩
  obtain ⟨t', t1, t2, t3⟩ := matmul_mat E.so hq.ls hq.rs
  obtain rfl : t' = tmp := Except.ok.inj (t1.symm.trans htmp)
  obtain ⟨k, k1, k2, k3, k4⟩ := svd_square hE.svd t2 hsvd
  rw [hs] at k2
  simp only [List.cons.injEq, and_true] at k2
  subst k2
  obtain ⟨lam, l1, l2, l3, l4, l5, l6⟩ := k4 rfl
  have hg : Gauge (toMat n n q.l) (toMat n n q.li) (toMat n n q.r) (toMat n n q.ri) (toMat n n u) (toMat n n v) lam :=
    { xl := hq.ll, xr := hq.lr, yl := hq.rl, yr := hq.rr, ul := l4, ur := mul_eq_one_comm.1 l4
      vl := mul_eq_one_comm.1 l5, vr := l5, svd := by rw [← t3, l6], nonneg := l1 }
  obtain ⟨lamT, hlamT⟩ : ∃ lamT, lamT = diagflat s := ⟨_, rfl⟩
  have hls : lamT.shape = [n, n] := by rw [hlamT]; exact diagflat_shape hs
  have hlm : toMat n n lamT = diagonal fun i => (lam i : K) := by
    rw [hlamT, toMat_diagflat]
    congr 1
    funext i
    exact l3 i
  -- the first tensor
  obtain ⟨A, p, m, hA, hAs⟩ : ∃ A p m, ts[0]? = some A ∧ A.shape = [n, p, m] := by
    cases ts with
    | nil => exact absurd rfl hne
    | cons A ts =>
      obtain ⟨p, m, _, _, h, _⟩ := hb
      exact ⟨A, p, m, rfl, h⟩
  obtain ⟨A', a1, a2, a3⟩ := first_mat E.so hls k3 hq.ris hAs
  obtain ⟨b1, b2⟩ := cell_set_first hb hA hAs a2 a3
  obtain ⟨ts1, hts1⟩ : ∃ ts1, ts1 = ts.set 0 A' := ⟨_, rfl⟩
  rw [← hts1] at b1 b2
  have hlen1 : ts1.length = ts.length := by rw [hts1, List.length_set]
  have hpos : 0 < ts.length := List.length_pos_iff.2 hne
  -- the last tensor
  obtain ⟨B, m', p', c1, c2⟩ := exists_last b1 (by rw [← List.length_pos_iff, hlen1]; exact hpos)
  obtain ⟨T, d1, d2, d3⟩ := getTensor_last E.so c1 c2 hc (some 0)
  obtain ⟨B', e1, e2, e3⟩ := last_mat E.so d2 hq.lis k1 hls
  obtain ⟨f1, f2⟩ := cell_set_last b1 c1 c2 e2 (M := connMat n conn * (toMat n n q.li * toMat n n u * toMat n n lamT))
    (fun i hi => by rw [e3 i hi, d3 i hi]; simp only [Matrix.mul_assoc])
  obtain ⟨ts2, hts2⟩ : ∃ ts2, ts2 = ts1.set (ts1.length - 1) B' := ⟨_, rfl⟩
  rw [← hts2] at f1 f2
  have hlen2 : ts2.length = ts.length := by rw [hts2, List.length_set, hlen1]
  have hcell : ∀ is, InB ds is → cell ts2 n n is =
      regauge (toMat n n q.li) (toMat n n q.ri) (toMat n n u) (toMat n n v) lam (cell ts n n is * connMat n conn) := by
    intro is his
    rw [f2 is his, b2 is his, hlm]
    unfold regauge
    simp only [Matrix.mul_assoc]
  -- the state does not vanish
  have hnz : Nonzero ts2 n ds n := by
    obtain ⟨a, ha, is, his, b, hb', hab⟩ := hz
    by_contra h0
    have h1 : cell ts2 n n is = 0 := by
      ext x y
      by_contra hxy
      exact h0 ⟨x, x.2, is, his, y, y.2, hxy⟩
    rw [hcell is his] at h1
    have h2 := (hg.similar (cell ts n n is * connMat n conn)).1
    rw [h1, Matrix.zero_mul] at h2
    obtain ⟨_, g2, g3⟩ := hg.similar (cell ts n n is * connMat n conn)
    have h3 : cell ts n n is * connMat n conn = 0 := by
      have : (toMat n n q.li * toMat n n u) * ((toMat n n u)ᴴ * toMat n n q.l * (cell ts n n is * connMat n conn) *
          (toMat n n q.li * toMat n n u)) * ((toMat n n u)ᴴ * toMat n n q.l) =
          ((toMat n n q.li * toMat n n u) * ((toMat n n u)ᴴ * toMat n n q.l)) * (cell ts n n is * connMat n conn) *
          ((toMat n n q.li * toMat n n u) * ((toMat n n u)ᴴ * toMat n n q.l)) := by
        simp only [Matrix.mul_assoc]
      rw [← h2, g3, Matrix.one_mul, Matrix.mul_one, Matrix.mul_zero, Matrix.zero_mul] at this
      exact this.symm
    have h4 : cell ts n n is = 0 := by
      rw [← Matrix.mul_one (cell ts n n is), ← hCi, ← Matrix.mul_assoc, h3, Matrix.zero_mul]
    exact hab (congrFun (congrFun h4 ⟨a, ha⟩) ⟨b, hb'⟩)
  -- the sweep
  obtain ⟨s2, z2, p1, p2, p3, f, p4, _, p5⟩ := position_exact hE.qr (st := ⟨ts2, some 0⟩) (c := 0) rfl
    (by rw [hlen2]; exact hpos) f1 (site := (ts2.length : Int) - 1) (by omega) (by dsimp only; omega) true (fun _ => hnz)
  obtain ⟨j, j1, j2, j3, j4, _, _, j7, _⟩ := position_canonical hE.qr hE.svd (st := ⟨ts2, some 0⟩) (c := 0) rfl f1 p1
  obtain ⟨C0, o1, o2, o3⟩ := position_center p1
  have hlen3 : s2.tensors.length = ts.length := by rw [← p3.length, hb.length]
  -- the connector
  have hzp : 0 < Mps.norm s := by
    rw [norm_vec hs l3]
    refine Real.sqrt_pos.2 (Finset.sum_pos (fun i _ => ?_) Finset.univ_nonempty)
    have := hg.pos i
    positivity
  obtain ⟨lamN, hlamN⟩ : ∃ lamN : NDArray K, lamN = ⟨lamT.shape, fun i => lamT.get i / (Mps.norm s : K)⟩ := ⟨_, rfl⟩
  have hd : divide lamT (Mps.norm s) = .ok lamN := by rw [divide, if_neg hzp.ne', hlamN]
  have hlamM : toMat n n lamN = ((Mps.norm s)⁻¹ : ℝ) • diagonal fun i => (lam i : K) := by
    rw [← hlm]
    ext i j
    rw [toMat_apply, hlamN, Matrix.smul_apply, toMat_apply, RCLike.real_smul_eq_coe_mul]
    push_cast
    rw [div_eq_inv_mul]
  have hinv : toMat n n lamN * ((Mps.norm s : K) • lamInv lam) = 1 := by
    rw [hlamM, ← RCLike.real_smul_eq_coe_smul (K := K), Matrix.smul_mul, Matrix.mul_smul, hg.lam_inv.1, smul_smul,
      inv_mul_cancel₀ hzp.ne', one_smul]
  obtain ⟨C, i1, i2, i3⟩ := hE.inv.1 n lamN _ (by rw [hlamN]; exact hls) hinv
  refine ⟨⟨s2.tensors, some (ts2.length - 1), some C⟩, Mps.norm s, toMat n n u, toMat n n v, lam, f, ?_, hg, l2, hzp,
    norm_vec hs l3, p3, ?_, hlen3, p4, fun is his => ?_, fun i hi => j7 i (Nat.zero_le _) ?_, ⟨C0, ?_, ?_⟩,
    C, rfl, i2, i3⟩
  · unfold finish
    simp only [htmp, hsvd, bind, Except.bind, ← hlamT, tensorAt, hA, a1, ← hts1, d1, e1, ← hts2, p1, hd, i1, pure,
      Except.pure]
  · show some (ts2.length - 1) = some (s2.tensors.length - 1)
    rw [hlen2, hlen3]
  · rw [← hcell is his]
    ext a b
    exact p5 a a.2 is his b
  · omega
  · rw [← o1]
    congr 1
    omega
  · simp only [if_true] at o2
    exact mul_right_cancel₀ (o3 rfl) (o2.trans (one_mul _).symm)

/-- If the connector of the result has the old bond dimension, no singular value was dropped. -/
theorem finish_full {E : Kern K} (hE : KernOK E) {ts : List (NDArray K)} {n : Nat} {q : Roots K}
    {L R : Matrix (Fin n) (Fin n) K} (hq : RootsOK L R q) {conn : Option (NDArray K)} {o : Opts K} {st' : Full K}
    {z : ℝ} (h : finish E o conn ts q = .ok (st', z)) {C : NDArray K} (hC : st'.connector = some C)
    (hCs : C.shape = [n, n]) : ∃ tmp u s v w, nconInt E.so [q.l, q.r] [[-1, 1], [1, -2]] = .ok tmp ∧
      Decomp.svd E.svd tmp 1 o.D o.thr true = .ok (u, s, v, w) ∧ s.shape = [n] := by
  obtain ⟨tmp, t1, t2, t3⟩ := matmul_mat E.so hq.ls hq.rs
  unfold finish at h
  simp only [t1, bind, Except.bind] at h
  rcases h1 : Decomp.svd E.svd tmp 1 o.D o.thr true with e | ⟨u, s, v, w⟩
  · rw [h1] at h; simp at h
  rw [h1] at h
  simp only at h
  obtain ⟨k, k1, k2, k3, -⟩ := svd_square hE.svd t2 h1
  refine ⟨tmp, u, s, v, w, t1, h1, ?_⟩
  rcases h2 : tensorAt ts 0 with e | A
  · rw [h2] at h; simp at h
  rw [h2] at h
  simp only at h
  rcases h3 : nconInt E.so [diagflat s, v, q.ri, A] [[-1, 1], [1, 2], [2, 3], [3, -2, -3]] with e | A'
  · rw [h3] at h; simp at h
  rw [h3] at h
  simp only at h
  rcases h4 : getTensor E.so ⟨ts.set 0 A', some 0, conn⟩ (((ts.set 0 A').length : Int) - 1) with e | B
  · rw [h4] at h; simp at h
  rw [h4] at h
  simp only at h
  rcases h5 : nconInt E.so [B, q.li, u, diagflat s] [[-1, -2, 1], [1, 2], [2, 3], [3, -3]] with e | B'
  · rw [h5] at h; simp at h
  rw [h5] at h
  simp only at h
  split at h
  · simp at h
  · rename_i x hx
    rcases h6 : divide (diagflat s) (Mps.norm s) with e | lamN
    · rw [h6] at h; simp at h
    rw [h6] at h
    simp only at h
    rcases h7 : E.inv lamN with e | c
    · rw [h7] at h; simp at h
    rw [h7] at h
    simp only [pure, Except.pure, Except.ok.injEq, Prod.mk.injEq] at h
    obtain ⟨rfl, _⟩ := h
    simp only [Option.some.injEq] at hC
    subst hC
    have h8 := hE.inv.2 _ _ h7
    have h9 : lamN.shape = [k, k] := by
      unfold divide at h6
      split_ifs at h6
      cases h6
      exact diagflat_shape k2
    rw [hCs, h9] at h8
    simp only [List.cons.injEq, and_true] at h8
    rw [k2, h8.1]

/-! ### C64 -/

/-- The cell and the options `canonicalize` is called with. -/
structure Request (E : Kern K) (st : Full K) (o : Opts K) (n : Nat) (ds : List Nat) (e : ℝ)
    (L R Ci : Matrix (Fin n) (Fin n) K) : Prop where
  dim : 0 < n
  bonds : Bonds st.tensors n ds n
  ne : st.tensors ≠ []
  center : ∀ c, st.center = some c → c < st.tensors.length
  conn : ∀ C, st.connector = some C → C.shape = [n, n]
  inv : connMat n st.connector * Ci = 1
  irred : Irreducible st.tensors n ds e L R
  left : Starts E n o.left
  right : Starts E n o.right
  cutL : AboveCutoff (o.cutoff.getD E.eps) L
  cutR : AboveCutoff (o.cutoff.getD E.eps) R

theorem canonicalize_ok {E : Kern K} (hE : KernOK E) {st : Full K} {o : Opts K} {n : Nat} {ds : List Nat} {e : ℝ}
    {L R Ci : Matrix (Fin n) (Fin n) K} (h : Request E st o n ds e L R Ci) {st' : Full K} {z : ℝ}
    (hrun : canonicalize E st o = .ok (st', z)) {C : NDArray K} (hC : st'.connector = some C) (hCs : C.shape = [n, n]) :
    ∃ ts q U V lam s, Bonds ts n ds n ∧ Irreducible ts n ds 1 L R ∧ RootsOK L R q ∧
      (∃ a : ℝ, 0 < a ∧ ∀ is, InB ds is → cell st.tensors n n is = (a : K) • cell ts n n is) ∧
      Finished E.so ts st.connector q n ds st' z U V lam s := by
  obtain ⟨ts, q, r1, r2, r3, r4, r5⟩ := roots_ok hE h.bonds h.ne h.dim h.center h.irred h.left h.right h.cutL h.cutR
  unfold canonicalize at hrun
  simp only [r1, bind, Except.bind] at hrun
  have hne : ts ≠ [] := by
    rw [← List.length_pos_iff, ← r2.length, h.bonds.length, List.length_pos_iff]
    exact h.ne
  obtain ⟨tmp, u, s, v, w, t1, t2, t3⟩ := finish_full hE r4 hrun hC hCs
  obtain ⟨st'', z', U, V, lam, f, f1, f2⟩ := finish_ok hE h.dim r2 hne (r3.nonzero h.dim) r4 h.conn h.inv t1 t2 t3
  rw [hrun] at f1
  simp only [Except.ok.injEq, Prod.mk.injEq] at f1
  obtain ⟨rfl, rfl⟩ := f1
  exact ⟨ts, q, U, V, lam, f, r2, r3, r4, r5, f2⟩

/-- **C64.** Nothing is dropped, and no error is raised, if `D` allows for it and the eigenvectors of the
transfer matrix stay above the threshold. -/
theorem C64_total {E : Kern K} (hE : KernOK E) {st : Full K} {o : Opts K} {n : Nat} {ds : List Nat} {e : ℝ}
    {L R Ci : Matrix (Fin n) (Fin n) K} (h : Request E st o n ds e L R Ci) (hD : ∀ d, o.D = some d → n ≤ d)
    (hthr : ∀ x, o.thr = some x → AboveCutoff x L ∧ AboveCutoff x R) : ∃ st' z C, canonicalize E st o = .ok (st', z) ∧
      st'.connector = some C ∧ C.shape = [n, n] := by
  obtain ⟨ts, q, r1, r2, r3, r4, r5⟩ := roots_ok hE h.bonds h.ne h.dim h.center h.irred h.left h.right h.cutL h.cutR
  have hne : ts ≠ [] := by
    rw [← List.length_pos_iff, ← r2.length, h.bonds.length, List.length_pos_iff]
    exact h.ne
  obtain ⟨tmp, t1, t2, t3⟩ := matmul_mat E.so r4.ls r4.rs
  obtain ⟨u, s, v, w, s1, s2⟩ := svd_full hE.svd t2 h.dim hD (fun x hx U V lam hU hV hlam hM i j => by
    obtain ⟨b, hb0, hb⟩ := r4.left
    obtain ⟨b', hb0', hb'⟩ := r4.right
    exact ratio_above { xl := r4.ll, xr := r4.lr, yl := r4.rl, yr := r4.rr, ul := hU, ur := mul_eq_one_comm.1 hU
                        vl := mul_eq_one_comm.1 hV, vr := hV, svd := by rw [← t3, hM], nonneg := hlam }
      hb0 hb0' hb hb' h.irred.left h.irred.right (hthr x hx).1 (hthr x hx).2 i j)
  obtain ⟨st', z, U, V, lam, f, f1, f2⟩ := finish_ok hE h.dim r2 hne (r3.nonzero h.dim) r4 h.conn h.inv t1 s1 s2
  obtain ⟨C, c1, c2, _⟩ := f2.conn
  refine ⟨st', z, C, ?_, c1, c2⟩
  unfold canonicalize
  simp only [r1, bind, Except.bind, f1]

/-- **C64.** `canonicalize` keeps the infinite state: with the connectors, the matrices of the new cell are
those of the old one up to one positive factor and one change of basis.  No singular value is dropped when
the bond dimension of the result is the old one. -/
theorem C64_same_state {E : Kern K} (hE : KernOK E) {st : Full K} {o : Opts K} {n : Nat} {ds : List Nat} {e : ℝ}
    {L R Ci : Matrix (Fin n) (Fin n) K} (h : Request E st o n ds e L R Ci) {st' : Full K} {z : ℝ}
    (hrun : canonicalize E st o = .ok (st', z)) {C : NDArray K} (hC : st'.connector = some C) (hCs : C.shape = [n, n]) :
    ∃ (c : ℝ) (W Wi : Matrix (Fin n) (Fin n) K), 0 < c ∧ W * Wi = 1 ∧ Wi * W = 1 ∧
      ∀ is, InB ds is → period st' n is = (c : K) • (W * period st n is * Wi) := by
  obtain ⟨ts, q, U, V, lam, s, r2, r3, r4, ⟨a, ha, hcell⟩, f⟩ := canonicalize_ok hE h hrun hC hCs
  obtain ⟨C', c1, c2, c3⟩ := f.conn
  obtain ⟨_, g2, g3⟩ := f.gauge.similar 1
  refine ⟨z / (s * a), Uᴴ * toMat n n q.l, toMat n n q.li * U, div_pos f.zpos (mul_pos f.spos ha), g2, g3,
    fun is his => ?_⟩
  have hsK : (s : K) ≠ 0 := by exact_mod_cast f.spos.ne'
  have haK : (a : K) ≠ 0 := by exact_mod_cast ha.ne'
  have h1 : cell st'.tensors n n is = ((s : K))⁻¹ • regauge (toMat n n q.li) (toMat n n q.ri) U V lam
      (cell ts n n is * connMat n st.connector) := by
    rw [f.cells is his, smul_smul, inv_mul_cancel₀ hsK, one_smul]
  unfold period
  rw [c1, show connMat n (some C') = toMat n n C' from rfl, c3, h1, Matrix.smul_mul, Matrix.mul_smul,
    (f.gauge.similar _).1, hcell is his, Matrix.smul_mul, Matrix.mul_smul, Matrix.smul_mul, smul_smul, smul_smul]
  congr 1
  push_cast
  field_simp

/-- A connector that is a positive multiple of the identity does no harm. -/
theorem schmidt_form {E : Kern K} (hE : KernOK E) {st : Full K} {o : Opts K} {n : Nat} {ds : List Nat} {e : ℝ}
    {L R Ci : Matrix (Fin n) (Fin n) K} (h : Request E st o n ds e L R Ci) {γ : ℝ} (hγ : 0 < γ)
    (hconn : connMat n st.connector = (γ : K) • (1 : Matrix (Fin n) (Fin n) K)) {st' : Full K}
    {z : ℝ} (hrun : canonicalize E st o = .ok (st', z)) {C : NDArray K} (hC : st'.connector = some C)
    (hCs : C.shape = [n, n]) : SchmidtForm E.so st' n ds := by
  obtain ⟨ts, q, U, V, lam, s0, r2, r3, r4, _, f⟩ := canonicalize_ok hE h hrun hC hCs
  obtain ⟨C', c1, c2, c3⟩ := f.conn
  rw [hC] at c1
  simp only [Option.some.injEq] at c1
  subst c1
  obtain ⟨s, hs⟩ : ∃ s, s = s0 / γ := ⟨_, rfl⟩
  have hspos : 0 < s := by rw [hs]; exact div_pos f.spos hγ
  have hγK : (γ : K) ≠ 0 := by exact_mod_cast hγ.ne'
  have hcells : ∀ is, InB ds is → regauge (toMat n n q.li) (toMat n n q.ri) U V lam (cell ts n n is) =
      (s : K) • cell st'.tensors n n is := by
    intro is his
    have h1 := f.cells is his
    rw [hconn, Matrix.mul_smul, Matrix.mul_one] at h1
    have h2 : regauge (toMat n n q.li) (toMat n n q.ri) U V lam ((γ : K) • cell ts n n is) =
        (γ : K) • regauge (toMat n n q.li) (toMat n n q.ri) U V lam (cell ts n n is) := by
      unfold regauge
      rw [Matrix.mul_smul, Matrix.smul_mul]
    rw [h2] at h1
    rw [hs, RCLike.ofReal_div, div_eq_inv_mul, ← smul_smul, ← h1, smul_smul, inv_mul_cancel₀ hγK, one_smul]
  have hsK : (s : K) ≠ 0 := by exact_mod_cast hspos.ne'
  have hcell' : ∀ is, InB ds is → cell st'.tensors n n is =
      ((s : K))⁻¹ • regauge (toMat n n q.li) (toMat n n q.ri) U V lam (cell ts n n is) := by
    intro is his
    rw [hcells is his, smul_smul, inv_mul_cancel₀ hsK, one_smul]
  obtain ⟨ρ, hρ⟩ : ∃ ρ : ℝ, ρ = z / s := ⟨_, rfl⟩
  have hρ0 : 0 < ρ := by rw [hρ]; exact div_pos f.zpos hspos
  -- the left isometry of the whole cell
  have hleft : sumIdx ds (fun is => (cell st'.tensors n n is * toMat n n C)ᴴ * (cell st'.tensors n n is * toMat n n C)) =
      ((ρ ^ 2 : ℝ) : K) • 1 := by
    obtain ⟨b, hb0, hb⟩ := r4.left
    have h1 := f.gauge.leftIso (s := range ds.prod) (A := fun k => cell ts n n (unravel ds k)) (e := 1) (by
      have := r3.eigL
      rw [cellPull_eq] at this
      rw [hb, pull_smul, this, smul_comm])
    rw [sum_range_unravel ds fun is => (regauge (toMat n n q.li) (toMat n n q.ri) U V lam (cell ts n n is) * lamInv lam)ᴴ *
      (regauge (toMat n n q.li) (toMat n n q.ri) U V lam (cell ts n n is) * lamInv lam)] at h1
    rw [RCLike.ofReal_one, one_smul] at h1
    rw [← h1, ← sumIdx_smul]
    refine sumIdx_congr fun is his => ?_
    rw [hcell' is his, c3]
    simp only [Matrix.smul_mul, Matrix.mul_smul, Matrix.conjTranspose_smul, smul_smul]
    congr 1
    rw [hρ]
    simp
    field_simp
  have hright : sumIdx ds (fun is => (toMat n n C * cell st'.tensors n n is) * (toMat n n C * cell st'.tensors n n is)ᴴ) =
      ((ρ ^ 2 : ℝ) : K) • 1 := by
    obtain ⟨b, hb0, hb⟩ := r4.right
    have h1 := f.gauge.rightIso (s := range ds.prod) (A := fun k => cell ts n n (unravel ds k)) (e := 1) (by
      have := r3.eigR
      rw [cellPush_eq] at this
      rw [hb, push_eq_pull, pull_smul, ← push_eq_pull, this, smul_comm])
    rw [sum_range_unravel ds fun is => (lamInv lam * regauge (toMat n n q.li) (toMat n n q.ri) U V lam (cell ts n n is)) *
      (lamInv lam * regauge (toMat n n q.li) (toMat n n q.ri) U V lam (cell ts n n is))ᴴ] at h1
    rw [RCLike.ofReal_one, one_smul] at h1
    rw [← h1, ← sumIdx_smul]
    refine sumIdx_congr fun is his => ?_
    rw [hcell' is his, c3]
    simp only [Matrix.smul_mul, Matrix.mul_smul, Matrix.conjTranspose_smul, smul_smul]
    congr 1
    rw [hρ]
    simp
    field_simp
  -- the last site
  have hpos : 0 < st'.tensors.length := by
    rw [← f.bonds.length, h.bonds.length, List.length_pos_iff]
    exact h.ne
  obtain ⟨B, m, p, k, hsite⟩ := f.bonds.exists_site (s := st'.tensors.length - 1) (by omega)
  obtain ⟨B', b1, b2⟩ := f.last
  rw [← f.len] at b1
  obtain rfl : B' = B := by
    have := hsite.get
    rw [b1] at this
    simpa using this
  have hdrop : st'.tensors.drop (st'.tensors.length - 1 + 1) = [] := List.drop_eq_nil_of_le (by omega)
  have hdropd : ds.drop (st'.tensors.length - 1 + 1) = [] := List.drop_eq_nil_of_le (by rw [f.bonds.length]; omega)
  obtain rfl : k = n := by
    have := hsite.right
    rw [hdrop, hdropd] at this
    exact this.2
  have hall : AllLeft (st'.tensors.take (st'.tensors.length - 1)) := by
    intro A hA
    rw [List.mem_take_iff_getElem] at hA
    obtain ⟨i, hi, rfl⟩ := hA
    obtain ⟨A', g1, g2⟩ := f.iso i (by rw [← f.len]; omega)
    rw [List.getElem?_eq_getElem (by omega)] at g1
    simp only [Option.some.injEq] at g1
    rw [g1]
    exact g2
  have htake : st'.tensors.take (st'.tensors.length - 1) ++ [B'] = st'.tensors := by
    rw [← hsite.takeT]
    exact List.take_of_length_le (by omega)
  have htaked : ds.take (st'.tensors.length - 1) ++ [p] = ds := by
    rw [← hsite.takeD]
    exact List.take_of_length_le (by rw [f.bonds.length]; omega)
  have hlast := cell_last hsite.left hall hsite.shape
  rw [htake, htaked] at hlast
  -- the norm of the last tensor fixes the factor
  have hgram : (toMat k k C)ᴴ * (∑ i ∈ range p, (slice B' m k i)ᴴ * slice B' m k i) * toMat k k C = ((ρ ^ 2 : ℝ) : K) • 1 := by
    rw [← hlast, sumIdx_matMul, ← hleft]
    refine sumIdx_congr fun is _ => ?_
    rw [Matrix.conjTranspose_mul]
    simp only [Matrix.mul_assoc]
  have hzK : (z : K) ≠ 0 := by exact_mod_cast f.zpos.ne'
  obtain ⟨lh, hlh⟩ : ∃ lh : Fin k → ℝ, lh = fun i => lam i / z := ⟨_, rfl⟩
  have hlhp : ∀ i, 0 < lh i := fun i => by rw [hlh]; exact div_pos (f.gauge.pos i) f.zpos
  have hCd : toMat k k C = diagonal fun i => (((lh i)⁻¹ : ℝ) : K) := by
    rw [c3, lamInv, ← Matrix.diagonal_smul]
    congr 1
    funext i
    rw [hlh, Pi.smul_apply, smul_eq_mul, ← RCLike.ofReal_mul]
    congr 1
    rw [inv_div, div_eq_mul_inv]
  have hlsum : ∑ i, lh i ^ 2 = 1 := by
    rw [hlh]
    simp only [div_pow]
    rw [← Finset.sum_div, f.znorm, Real.sq_sqrt (Finset.sum_nonneg fun _ _ => sq_nonneg _), div_self]
    have := f.zpos
    rw [f.znorm, Real.sqrt_pos] at this
    exact this.ne'
  have hdinv : diagonal (fun i => (lh i : K)) * toMat k k C = 1 ∧ toMat k k C * diagonal (fun i => (lh i : K)) = 1 := by
    have : toMat k k C * diagonal (fun i => (lh i : K)) = 1 := by
      rw [hCd, Matrix.diagonal_mul_diagonal, ← Matrix.diagonal_one]
      congr 1
      funext i
      rw [← RCLike.ofReal_mul, inv_mul_cancel₀ (hlhp i).ne', RCLike.ofReal_one]
    exact ⟨mul_eq_one_comm.1 this, this⟩
  have hCh : (toMat k k C)ᴴ = toMat k k C := by rw [hCd, star_diag]
  have hgram2 : ∑ i ∈ range p, (slice B' m k i)ᴴ * slice B' m k i = diagonal fun i => ((ρ ^ 2 * lh i ^ 2 : ℝ) : K) := by
    have h1 : diagonal (fun i => (lh i : K)) * ((toMat k k C)ᴴ * (∑ i ∈ range p, (slice B' m k i)ᴴ * slice B' m k i) *
        toMat k k C) * diagonal (fun i => (lh i : K)) = (diagonal (fun i => (lh i : K)) * toMat k k C) *
        (∑ i ∈ range p, (slice B' m k i)ᴴ * slice B' m k i) * (toMat k k C * diagonal (fun i => (lh i : K))) := by
      rw [hCh]
      simp only [Matrix.mul_assoc]
    rw [hgram, hdinv.1, hdinv.2, Matrix.one_mul, Matrix.mul_one] at h1
    rw [← h1, Matrix.mul_smul, Matrix.mul_one, Matrix.smul_mul, Matrix.diagonal_mul_diagonal, ← Matrix.diagonal_smul]
    congr 1
    funext i
    rw [Pi.smul_apply, smul_eq_mul]
    push_cast
    ring
  have hρ1 : ρ ^ 2 = 1 := by
    have h1 := congrArg Matrix.trace hgram2
    rw [Matrix.trace_diagonal, ← RCLike.ofReal_sum, ← Finset.mul_sum, hlsum, mul_one] at h1
    rw [← RCLike.ofReal_inj (K := K), ← h1, RCLike.ofReal_one, ← RCLike.ofReal_one (K := K),
      show (1 : ℝ) = Mps.norm B' ^ 2 by rw [b2]; norm_num, Mps.norm_sq, hsite.shape, Matrix.trace_sum]
    simp only [sumIdx]
    push_cast
    rw [Finset.sum_comm]
    refine Finset.sum_congr rfl fun i _ => ?_
    rw [Matrix.trace, Finset.sum_comm, Finset.sum_range]
    refine Finset.sum_congr rfl fun b _ => ?_
    rw [Matrix.diag_apply, Matrix.mul_apply, Finset.sum_range]
    refine Finset.sum_congr rfl fun a _ => ?_
    rw [Matrix.conjTranspose_apply, RCLike.star_def, RCLike.conj_mul]
    rfl
  rw [hρ1, RCLike.ofReal_one, one_smul] at hleft hright hgram
  refine ⟨f.bonds, f.center, fun site hsl => ?_, ?_, C, lh, hC, hCs, hlhp, ?_, hlsum, hCd⟩
  · by_cases hlt : site = st'.tensors.length - 1
    · obtain ⟨T, t1, t2, t3⟩ := getTensor_last E.so (ts := st'.tensors) b1 hsite.shape (conn := some C)
        (fun C' hC' => by simp only [Option.some.injEq] at hC'; rw [← hC']; exact hCs) st'.center
      refine ⟨T, ?_, (leftIso_slice t2).2 ?_⟩
      · rw [← t1, ← hC, hlt]
        congr 1
        omega
      · rw [← hgram, Matrix.mul_sum, Matrix.sum_mul]
        refine Finset.sum_congr rfl fun i hi => ?_
        rw [t3 i (Finset.mem_range.1 hi), Matrix.conjTranspose_mul, connMat]
        simp only [Matrix.mul_assoc]
    · obtain ⟨A, g1, g2⟩ := f.iso site (by rw [← f.len]; omega)
      refine ⟨A, ?_, g2⟩
      unfold getTensor
      rw [if_neg (by omega), if_neg (by omega), Int.toNat_natCast, g1, hC]
      simp only
      rw [if_neg (by omega)]
  · rw [hC]
    exact hright
  · intro i j hij
    rw [hlh]
    exact div_le_div_of_nonneg_right (f.anti hij) f.zpos.le

/-- **C64.** Without a connector `canonicalize` brings the state to Schmidt form, unless singular values are
dropped. -/
theorem C64_schmidt_form {E : Kern K} (hE : KernOK E) {st : Full K} {o : Opts K} {n : Nat} {ds : List Nat} {e : ℝ}
    {L R : Matrix (Fin n) (Fin n) K} (h : Request E st o n ds e L R 1) (hconn : st.connector = none) {st' : Full K}
    {z : ℝ} (hrun : canonicalize E st o = .ok (st', z)) {C : NDArray K} (hC : st'.connector = some C)
    (hCs : C.shape = [n, n]) : SchmidtForm E.so st' n ds :=
  schmidt_form hE h one_pos (by rw [hconn, connMat, RCLike.ofReal_one, one_smul]) hrun hC hCs

end TN.Inf
