import Verif.DmrgBond
import Verif.DmrgOne

/-!
# DMRG: one local optimisation of two sites
-/

set_option linter.unusedSectionVars false

namespace TN.Dmrg

open TN NDArray Finset Ncon Mps Mpo

variable {K : Type} [RCLike K]

/-- The kernel of the effective Hamiltonian of two sites. -/
noncomputable def heffB (L V R : NDArray K) (t n p : Nat) (i j : List Nat) : K :=
  heff L V R t n (i.getD 0 0 * p + i.getD 1 0) (i.getD 2 0) (i.getD 3 0) (j.getD 0 0 * p + j.getD 1 0) (j.getD 2 0)
    (j.getD 3 0)

theorem form_bond (L V R x y : NDArray K) (t n m p q k : Nat) :
    form [m, p, q, k] (heffB L V R t n p) y x = form [m * p, q, k] (heffL L V R t n) (joinT m p q k y) (joinT m p q k x) := by
  have h1 : ∀ (z a i : Nat) (j b : Nat), (∑ z' ∈ range (m * p), ∑ j' ∈ range q, ∑ b' ∈ range k,
      star (y.get [a, i, j, b]) * (heff L V R t n z j b z' j' b' * x.get [z' / p, z' % p, j', b'])) =
      ∑ a' ∈ range m, ∑ i' ∈ range p, ∑ j' ∈ range q, ∑ b' ∈ range k,
        star (y.get [a, i, j, b]) * (heff L V R t n z j b (a' * p + i') j' b' * x.get [a', i', j', b']) := by
    intro z a i j b
    rw [← sum_pairs m p fun a' i' => ∑ j' ∈ range q, ∑ b' ∈ range k,
        star (y.get [a, i, j, b]) * (heff L V R t n z j b (a' * p + i') j' b' * x.get [a', i', j', b'])]
    simp only [Nat.div_add_mod']
  show (∑ a ∈ range m, ∑ i ∈ range p, ∑ j ∈ range q, ∑ b ∈ range k, ∑ a' ∈ range m, ∑ i' ∈ range p, ∑ j' ∈ range q,
    ∑ b' ∈ range k, star (y.get [a, i, j, b]) * (heff L V R t n (a * p + i) j b (a' * p + i') j' b' *
      x.get [a', i', j', b'])) = ∑ z ∈ range (m * p), ∑ j ∈ range q, ∑ b ∈ range k, ∑ z' ∈ range (m * p),
        ∑ j' ∈ range q, ∑ b' ∈ range k, star (y.get [z / p, z % p, j, b]) * (heff L V R t n z j b z' j' b' *
          x.get [z' / p, z' % p, j', b'])
  simp only [h1]
  rw [← sum_pairs m p fun a i => ∑ j ∈ range q, ∑ b ∈ range k, ∑ a' ∈ range m, ∑ i' ∈ range p, ∑ j' ∈ range q,
    ∑ b' ∈ range k, star (y.get [a, i, j, b]) * (heff L V R t n (a * p + i) j b (a' * p + i') j' b' *
      x.get [a', i', j', b'])]
  simp only [Nat.div_add_mod']

/-- The local ground state of two sites. -/
theorem ground_bond (E : Kern K) (hE : Lanczos.EighOK E.eigh) {o : Lopts} (ho : o.OK) {L W V R x : NDArray K}
    {pre post Wp Wq : List (NDArray K)} {d e : List Nat} {u t n m p q k : Nat}
    (hL : LeftEnv L pre Wp d u m) (hR : RightEnv R post Wq e n k) (hW : W.shape = [u, t, p, p])
    (hV : V.shape = [t, n, q, q])
    (hH : Hermitian (Wp ++ W :: V :: Wq) (d ++ p :: q :: e)) (hx : x.shape = [m, p, q, k]) (h0 : Mps.norm x ≠ 0) :
    ∃ ε g, ground E (bondMatvec E L W V R) o x = .ok (ε, g) ∧ g.shape = [m, p, q, k] ∧ Mps.norm g = 1 ∧
      sand (pre ++ isoT m p :: joinT m p q k g :: post) (Wp ++ W :: V :: Wq)
        (pre ++ isoT m p :: joinT m p q k g :: post) (d ++ p :: q :: e) = (ε : K) ∧
      ε * Mps.norm x ^ 2 ≤ RCLike.re (sand (pre ++ isoT m p :: joinT m p q k x :: post) (Wp ++ W :: V :: Wq)
        (pre ++ isoT m p :: joinT m p q k x :: post) (d ++ p :: q :: e)) := by
  have hL' := envT_ok hL hW
  have fs : ∀ y x : NDArray K, form [m, p, q, k] (heffB (envT L W u t m p) V R t n p) y x =
      sand (pre ++ isoT m p :: joinT m p q k y :: post) (Wp ++ W :: V :: Wq)
        (pre ++ isoT m p :: joinT m p q k x :: post) (d ++ p :: q :: e) := by
    intro y x
    rw [form_bond, form_site hL' hR hV rfl rfl]
    simp only [List.append_assoc, List.cons_append, List.nil_append]
  obtain ⟨ε, g, h1, h2, h3, h4, h5⟩ := ground_ok E hE ho (s := [m, p, q, k]) (A := bondMatvec E L W V R)
    (H := heffB (envT L W u t m p) V R t n p) (fun x hx => by
      obtain ⟨y, y1, y2, y3⟩ := bondMatvec_ok E hL.shape hW hV hR.shape hx
      refine ⟨y, y1, y2, fun i hi => ?_⟩
      obtain ⟨a, b, c, f, rfl, ha, hb, hc, hf⟩ : ∃ a b c f, i = [a, b, c, f] ∧ a < m ∧ b < p ∧ c < q ∧ f < k := by
        cases hi with | cons ha hi => cases hi with | cons hb hi => cases hi with | cons hc hi => cases hi with
        | cons hf hi => cases hi with | nil => exact ⟨_, _, _, _, rfl, ha, hb, hc, hf⟩
      rw [y3 a ha b hb c hc f hf]
      rfl) (fun i j hi hj => by
      rw [← form_basis (heffB (envT L W u t m p) V R t n p) hi hj,
        ← form_basis (heffB (envT L W u t m p) V R t n p) hj hi, fs, fs, sand_star hH]) hx h0
  exact ⟨ε, g, h1, h2, h3, by rw [← h4, fs], by rwa [fs] at h5⟩

/-- The product of two neighbouring tensors. -/
theorem ncon_pair (so : SetOrder) {A B : NDArray K} {m p k q r : Nat} (hA : A.shape = [m, p, k])
    (hB : B.shape = [k, q, r]) :
    ∃ x, nconInt so [A, B] [[-1, -2, 1], [1, -3, -4]] = .ok x ∧ x.shape = [m, p, q, r] ∧
      ∀ a < m, ∀ i < p, ∀ j < q, ∀ b < r, x.get [a, i, j, b] = ∑ c ∈ range k, A.get [a, i, c] * B.get [c, j, b] := by
  obtain ⟨x, h1, h2, h3⟩ := nconInt_spec so (ts := [A, B]) (l := [[-1, -2, 1], [1, -3, -4]])
    (closed := [1]) (out := [-1, -2, -3, -4])
    (dim := fun x => if x = -1 then m else if x = 1 then k else if x = -2 then p else if x = -3 then q else r)
    (by simp) rfl (by
      intro z hz
      simp only [List.zip_cons_cons, List.zip_nil_right, List.mem_cons, List.not_mem_nil, or_false] at hz
      rcases hz with rfl | rfl
      · exact hA
      · exact hB) (by decide)
  refine ⟨x, h1, h2, fun a ha i hi j hj b hb => ?_⟩
  rw [h3 [a, i, j, b] (.cons ha (inB_three hi hj hb))]
  refine Finset.sum_congr rfl fun c _ => ?_
  show A.get [a, i, c] * (B.get [c, j, b] * 1) = _
  rw [mul_one]

/-- A product of two tensors is the product of `isoT` and the joined tensor. -/
theorem sameProduct_join {A B x : NDArray K} {m p k q r : Nat} (hA : A.shape = [m, p, k]) (hB : B.shape = [k, q, r])
    (hx : ∀ a < m, ∀ i < p, ∀ j < q, ∀ b < r, x.get [a, i, j, b] = ∑ c ∈ range k, A.get [a, i, c] * B.get [c, j, b]) :
    SameProduct (1 : K) A B (isoT m p) (joinT m p q r x) := by
  refine ⟨m, p, k, q, r, m * p, hA, hB, rfl, rfl, fun a ha i hi j hj b hb => ?_⟩
  rw [isoT_sum ha hi fun y => (joinT m p q r x).get [y, j, b], joinT_get hi, hx a ha i hi j hj b hb, one_mul]

/-- The sites `c` and `c + 1` with the environments on both sides. -/
structure Bond (d : Sim K) (Ws : List (NDArray K)) (ds : List Nat) (c : Nat) (L A W B V R : NDArray K)
    (m p k q r u t n : Nat) : Prop where
  findL : d.left.find (c : Int) = .ok L
  findR : d.right.find ((c : Int) + 1) = .ok R
  siteA : Site d.mps.tensors 1 ds 1 c A m p k
  siteB : Site d.mps.tensors 1 ds 1 (c + 1) B k q r
  opW : OpSite Ws 1 ds 1 c W u p t
  opV : OpSite Ws 1 ds 1 (c + 1) V t q n
  left : LeftEnv L (d.mps.tensors.take c) (Ws.take c) (ds.take c) u m
  right : RightEnv R (d.mps.tensors.drop (c + 1 + 1)) (Ws.drop (c + 1 + 1)) (ds.drop (c + 1 + 1)) n r

theorem Inv.bond {d : Sim K} {Ws : List (NDArray K)} {ds : List Nat} {c0 c : Nat} (h : Inv d Ws ds c0) (h1 : c ≤ c0)
    (h2 : c0 ≤ c + 1) (hc : c + 1 < d.mps.tensors.length) :
    ∃ L A W B V R m p k q r u t n, Bond d Ws ds c L A W B V R m p k q r u t n := by
  obtain ⟨L, u, m, l1, l2⟩ := h.left c h1
  obtain ⟨R, n, r, r1, r2⟩ := h.right (c + 1) h2 hc
  obtain ⟨A, W, p, k, t, B, V, k', q, t', a1, b1, a2, b2⟩ := h.local' (by omega) l2 hc r2
  obtain rfl : k = k' := by
    obtain ⟨_, _, m0, _, _, w1, w2⟩ := h.bonds.at a1.get a2.get
    rw [a1.shape] at w1
    rw [a2.shape] at w2
    simp only [List.cons.injEq, and_true] at w1 w2
    omega
  obtain rfl : t = t' := by
    have e1 : OpBonds (Ws.take (c + 1)) 1 (ds.take (c + 1)) t := by
      rw [b1.takeT, a1.takeD]
      exact b1.left.append (opBonds_one b1.shape)
    exact e1.unique b2.left
  refine ⟨L, A, W, B, V, R, m, p, k, q, r, u, t, n, l1, ?_, a1, a2, b1, b2, l2, r2⟩
  rw [← r1]
  push_cast
  rfl

theorem set_two {α : Type} {l : List α} {c : Nat} (hc : c + 1 < l.length) (x y : α) :
    (l.set c x).set (c + 1) y = l.take c ++ x :: y :: l.drop (c + 1 + 1) := by
  rw [List.set_eq_take_append_cons_drop, if_pos (by simpa using hc), List.set_eq_take_append_cons_drop,
    if_pos (by omega)]
  have e1 : (l.take c ++ x :: l.drop (c + 1)).take (c + 1) = l.take c ++ [x] := by
    rw [List.take_append, List.length_take, min_eq_left (by omega), List.take_take, min_eq_right (by omega)]
    have : c + 1 - c = 1 := by omega
    rw [this]
    rfl
  have e2 : (l.take c ++ x :: l.drop (c + 1)).drop (c + 1 + 1) = l.drop (c + 1 + 1) := by
    rw [List.drop_append, List.length_take, min_eq_left (by omega), List.drop_eq_nil_of_le (by rw [List.length_take]; omega)]
    have : c + 1 + 1 - c = 2 := by omega
    rw [this]
    simp
  rw [e1, e2]
  simp

/-- Putting two tensors into a canonical state, with the left one isometric. -/
theorem canonical_two {ts : List (NDArray K)} {c0 c : Nat} (h : Canonical ts c0) (h1 : c ≤ c0)
    (h2 : c0 ≤ c + 1) {X Y : NDArray K} (hX : LeftIso X) : Canonical ((ts.set c X).set (c + 1) Y) (c + 1) := by
  intro n A hA
  by_cases hn : n = c + 1
  · exact ⟨fun _ => by omega, fun _ => by omega⟩
  rw [List.getElem?_set_ne (Ne.symm hn)] at hA
  by_cases hn' : n = c
  · subst hn'
    rw [List.getElem?_set] at hA
    simp only [if_true] at hA
    split_ifs at hA
    cases hA
    exact ⟨fun _ => hX, fun _ => by omega⟩
  · rw [List.getElem?_set_ne (Ne.symm hn')] at hA
    exact ⟨fun hlt => (h n A hA).1 (by omega), fun hlt => (h n A hA).2 (by omega)⟩

theorem canonical_two' {ts : List (NDArray K)} {c0 c : Nat} (h : Canonical ts c0) (h1 : c ≤ c0)
    (h2 : c0 ≤ c + 1) {X Y : NDArray K} (hY : RightIso Y) : Canonical ((ts.set c X).set (c + 1) Y) c := by
  intro n A hA
  by_cases hn : n = c
  · exact ⟨fun _ => by omega, fun _ => by omega⟩
  by_cases hn' : n = c + 1
  · subst hn'
    rw [List.getElem?_set] at hA
    simp only [if_true] at hA
    split_ifs at hA
    cases hA
    exact ⟨fun _ => by omega, fun _ => hY⟩
  · rw [List.getElem?_set_ne (Ne.symm hn'), List.getElem?_set_ne (Ne.symm hn)] at hA
    exact ⟨fun hlt => (h n A hA).1 (by omega), fun hlt => (h n A hA).2 (by omega)⟩

/-- The optimisation of two sites: the new tensor of rank four makes the state a better one. -/
theorem Inv.bondOptimum (E : Kern K) (hE : Lanczos.EighOK E.eigh) {o : Lopts} (ho : o.OK) {d : Sim K}
    {Ws : List (NDArray K)} {ds : List Nat} {c0 c : Nat} (h : Inv d Ws ds c0) (h1 : c ≤ c0) (h2 : c0 ≤ c + 1)
    (hH : Hermitian Ws ds) (hz : normSq d.mps.tensors 1 ds 1 ≠ 0) {L A W B V R : NDArray K} {m p k q r u t n : Nat}
    (hb : Bond d Ws ds c L A W B V R m p k q r u t n) :
    ∃ x ε g, nconInt E.so [A, B] [[-1, -2, 1], [1, -3, -4]] = .ok x ∧
      ground E (bondMatvec E L W V R) o x = .ok (ε, g) ∧ g.shape = [m, p, q, r] ∧ Mps.norm g = 1 ∧
      Bonds ((d.mps.tensors.set c (isoT m p)).set (c + 1) (joinT m p q r g)) 1 ds 1 ∧
      Better Ws d.mps.tensors ((d.mps.tensors.set c (isoT m p)).set (c + 1) (joinT m p q r g)) ds ε := by
  have hc : c + 1 < d.mps.tensors.length := (List.getElem?_eq_some_iff.1 hb.siteB.get).1
  obtain ⟨x, x1, x2, x3⟩ := ncon_pair E.so hb.siteA.shape hb.siteB.shape
  have hsp := sameProduct_join hb.siteA.shape hb.siteB.shape x3
  have hbo : ∀ y : NDArray K, Bonds ((d.mps.tensors.set c (isoT m p)).set (c + 1) (joinT m p q r y)) 1 ds 1 := fun y =>
    h.bonds.set hb.siteA.get hb.siteB.get ⟨m, p, k, q, r, m * p, hb.siteA.shape, hb.siteB.shape, rfl, rfl⟩
  have hcan : ∀ y : NDArray K, Canonical ((d.mps.tensors.set c (isoT m p)).set (c + 1) (joinT m p q r y)) (c + 1) :=
    fun y => canonical_two h.canon h1 h2 (isoT_leftIso m p)
  have hget : ∀ y : NDArray K, ((d.mps.tensors.set c (isoT m p)).set (c + 1) (joinT m p q r y))[c + 1]? =
      some (joinT m p q r y) := fun y => List.getElem?_set_self (by simpa using hc)
  have hamp : ∀ is, InB ds is → amp d.mps.tensors 0 is 0 =
      1 * amp ((d.mps.tensors.set c (isoT m p)).set (c + 1) (joinT m p q r x)) 0 is 0 := fun is his =>
    amp_set h.bonds hb.siteA.get hb.siteB.get hsp one_pos his 0
  have hn : normSq d.mps.tensors 1 ds 1 = Mps.norm x ^ 2 := by
    rw [normSq_amp 1 hamp, (hcan x).normSq (hget x) (hbo x), norm_joinT x2]
    simp
  have h0 : Mps.norm x ≠ 0 := by
    intro h0
    rw [hn, h0] at hz
    simp at hz
  have eW : Ws = Ws.take c ++ W :: V :: Ws.drop (c + 1 + 1) := by
    rw [← hb.opV.dropT, ← hb.opW.dropT, List.take_append_drop]
  have eD : ds = ds.take c ++ p :: q :: ds.drop (c + 1 + 1) := by
    rw [← hb.siteB.dropD, ← hb.siteA.dropD, List.take_append_drop]
  obtain ⟨ε, g, g1, g2, g3, g4, g5⟩ := ground_bond E hE ho hb.left hb.right hb.opW.shape hb.opV.shape
    (by rw [← eW, ← eD]; exact hH) x2 h0
  rw [← set_two hc, ← eW, ← eD] at g4
  rw [← set_two hc, ← eW, ← eD, ← hn] at g5
  refine ⟨x, ε, g, x1, g1, g2, g3, hbo g, ?_, g4, ?_⟩
  · rw [(hcan g).normSq (hget g) (hbo g), norm_joinT g2, g3, one_pow]
  · have := sand_congr (Ws := Ws) hamp hamp
    rw [this]
    simpa using g5

end TN.Dmrg
