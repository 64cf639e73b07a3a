import Verif.MpsEnv

/-!
# The dictionaries of environments are the reduced density matrices
-/

set_option linter.unusedSectionVars false

namespace TN.Mps

open TN NDArray Finset Ncon

variable {K : Type} [RCLike K]

theorem Bonds.unique {ts : List (NDArray K)} : ∀ {l : Nat} {ds : List Nat} {r r' : Nat},
    Bonds ts l ds r → Bonds ts l ds r' → r = r' := by
  induction ts with
  | nil => rintro l ds r r' ⟨_, rfl⟩ ⟨_, rfl⟩; rfl
  | cons A ts ih =>
    rintro l ds r r' ⟨p, m, d, rfl, h1, h2⟩ ⟨p', m', d', h3, h4, h5⟩
    rw [h1] at h4
    simp only [List.cons.injEq, and_true] at h3 h4
    obtain ⟨rfl, rfl⟩ := h3
    obtain ⟨_, _, rfl⟩ := h4
    exact ih h2 h5

/-- A site of a state: its tensor and what is left and right of it. -/
structure Site (ts : List (NDArray K)) (l : Nat) (ds : List Nat) (r s : Nat) (A : NDArray K) (m p k : Nat) :
    Prop where
  get : ts[s]? = some A
  shape : A.shape = [m, p, k]
  left : Bonds (ts.take s) l (ds.take s) m
  right : Bonds (ts.drop (s + 1)) k (ds.drop (s + 1)) r
  takeT : ts.take (s + 1) = ts.take s ++ [A]
  takeD : ds.take (s + 1) = ds.take s ++ [p]
  dropT : ts.drop s = A :: ts.drop (s + 1)
  dropD : ds.drop s = p :: ds.drop (s + 1)

theorem Bonds.cut {ts : List (NDArray K)} {l : Nat} {ds : List Nat} {r : Nat} (hb : Bonds ts l ds r) {s : Nat}
    (hs : s ≤ ts.length) : ∃ m, Bonds (ts.take s) l (ds.take s) m ∧ Bonds (ts.drop s) m (ds.drop s) r := by
  rw [← List.take_append_drop s ts] at hb
  obtain ⟨d, e, m, rfl, h1, h2⟩ := hb.split
  have hd := h1.length
  rw [List.length_take, min_eq_left hs] at hd
  refine ⟨m, ?_, ?_⟩
  · rw [List.take_left' hd]; exact h1
  · rw [List.drop_left' hd]; exact h2

theorem Bonds.exists_site {ts : List (NDArray K)} {l : Nat} {ds : List Nat} {r : Nat} (hb : Bonds ts l ds r)
    {s : Nat} (hs : s < ts.length) : ∃ A m p k, Site ts l ds r s A m p k := by
  obtain ⟨m, h1, h2⟩ := hb.cut (Nat.le_of_lt hs)
  have hds : s < ds.length := by rw [hb.length]; exact hs
  rw [List.drop_eq_getElem_cons hs, List.drop_eq_getElem_cons hds] at h2
  obtain ⟨p, k, e, h3, h4, h5⟩ := h2
  simp only [List.cons.injEq] at h3
  obtain ⟨hp, rfl⟩ := h3
  refine ⟨ts[s], m, p, k, List.getElem?_eq_getElem hs, h4, h1, h5, ?_, ?_, List.drop_eq_getElem_cons hs, ?_⟩
  · rw [List.take_succ_eq_append_getElem hs]
  · rw [List.take_succ_eq_append_getElem hds, hp]
  · rw [List.drop_eq_getElem_cons hds, hp]

theorem Site.bonds_take {ts : List (NDArray K)} {l : Nat} {ds : List Nat} {r s : Nat} {A : NDArray K}
    {m p k : Nat} (h : Site ts l ds r s A m p k) : Bonds (ts.take (s + 1)) l (ds.take (s + 1)) k := by
  rw [h.takeT, h.takeD]
  exact h.left.append ⟨p, k, [], rfl, h.shape, rfl, rfl⟩

theorem Site.bonds_drop {ts : List (NDArray K)} {l : Nat} {ds : List Nat} {r s : Nat} {A : NDArray K}
    {m p k : Nat} (h : Site ts l ds r s A m p k) : Bonds (ts.drop s) m (ds.drop s) r := by
  rw [h.dropT, h.dropD]
  exact ⟨p, k, _, rfl, h.shape, h.right⟩

/-- `L` is the reduced density matrix of the part left of site `s`. -/
def GoodL (ts : List (NDArray K)) (l : Nat) (ds : List Nat) (s : Nat) (L : NDArray K) : Prop :=
  ∃ m, Bonds (ts.take s) l (ds.take s) m ∧ IsL L (ts.take s) (ts.take s) l (ds.take s) m

/-- `R` is the reduced density matrix of the part that starts at site `s`. -/
def GoodR (ts : List (NDArray K)) (ds : List Nat) (r s : Nat) (R : NDArray K) : Prop :=
  ∃ m, Bonds (ts.drop s) m (ds.drop s) r ∧ IsR R (ts.drop s) (ts.drop s) m (ds.drop s) r

theorem leftGram_allLeft {ts : List (NDArray K)} {l : Nat} {ds : List Nat} {r : Nat} (hb : Bonds ts l ds r) :
    ∀ s ≤ ts.length, AllLeft (ts.take s) → ∀ m, Bonds (ts.take s) l (ds.take s) m → ∀ x < m, ∀ y < m,
    leftGram (ts.take s) (ts.take s) l (ds.take s) x y = delta x y := by
  intro s
  induction s with
  | zero =>
    rintro _ _ m ⟨_, rfl⟩ x hx y hy
    exact leftGram_nil _ _ _ hx
  | succ s ih =>
    intro hs hl m hm x hx y hy
    obtain ⟨A, m', p, k, h⟩ := hb.exists_site (s := s) (by omega)
    obtain rfl := h.bonds_take.unique hm
    rw [h.takeT] at hl
    rw [h.takeT, h.takeD, leftGram_snoc h.left h.left h.shape h.shape hx hy]
    rw [Finset.sum_congr rfl fun a ha => Finset.sum_congr rfl fun a' ha' => Finset.sum_congr rfl fun i _ => by
      rw [ih (by omega) (fun B hB => hl B (by simp [hB])) m' h.left a (Finset.mem_range.1 ha) a'
        (Finset.mem_range.1 ha')]]
    have := transfer_leftIso h.shape (hl A (by simp)) hx hy
    rw [transfer] at this
    simpa [h.shape] using this

/-! ### The left environments -/

theorem eye_goodL {ts : List (NDArray K)} {l : Nat} {ds : List Nat} {r : Nat} (hb : Bonds ts l ds r)
    {s : Nat} {A : NDArray K} {m p k : Nat} (h : Site ts l ds r s A m p k) (hl : AllLeft (ts.take s)) :
    GoodL ts l ds s (eyeT K (A.shape.getD 0 0)) := by
  have hs := (List.getElem?_eq_some_iff.1 h.get).1
  refine ⟨m, h.left, ?_⟩
  rw [h.shape, List.getD_cons_zero]
  refine ⟨rfl, fun x hx y hy => ?_⟩
  rw [leftGram_allLeft hb s (by omega) hl m h.left x hx y hy]
  simp [eyeT, delta, eq_comm]

theorem first_goodL (E : Env K) {ts : List (NDArray K)} {l : Nat} {ds : List Nat} {r : Nat}
    (hb : Bonds ts l ds r) {s : Nat} {A : NDArray K} {m p k : Nat} (h : Site ts l ds r s A m p k)
    (hl : AllLeft (ts.take s)) :
    ∃ L, nconInt E.so [A, conjT A] [[1, 2, -1], [1, 2, -2]] = .ok L ∧ GoodL ts l ds (s + 1) L := by
  have hs := (List.getElem?_eq_some_iff.1 h.get).1
  obtain ⟨t, h1, h2, h3⟩ := nconInt_spec E.so (ts := [A, conjT A]) (l := [[1, 2, -1], [1, 2, -2]])
    (closed := [1, 2]) (out := [-1, -2])
    (dim := fun x => if x = 1 then m else if x = 2 then p else k)
    (by simp) rfl (by
      intro p hp
      simp only [List.zip_cons_cons, List.zip_nil_right, List.mem_cons, List.not_mem_nil, or_false] at hp
      rcases hp with rfl | rfl
      · exact h.shape
      · exact h.shape) (by decide)
  refine ⟨t, h1, k, h.bonds_take, h2, fun x hx y hy => ?_⟩
  rw [h3 [y, x] (inB_two hy hx), h.takeT, h.takeD, leftGram_snoc h.left h.left h.shape h.shape hx hy]
  rw [Finset.sum_congr rfl fun a ha => Finset.sum_congr rfl fun a' ha' => Finset.sum_congr rfl fun i _ => by
    rw [leftGram_allLeft hb s (by omega) hl m h.left a (Finset.mem_range.1 ha) a' (Finset.mem_range.1 ha')]]
  simp only [← Finset.mul_sum]
  rw [sum_delta]
  refine Finset.sum_congr rfl fun a _ => Finset.sum_congr rfl fun i _ => ?_
  show A.get [a, i, y] * ((conjT A).get [a, i, x] * 1) = _
  rw [conjT_get]
  ring

theorem step_goodL (E : Env K) {ts : List (NDArray K)} {l : Nat} {ds : List Nat} {r s : Nat}
    {A L : NDArray K} {m p k : Nat} (h : Site ts l ds r s A m p k) (hL : GoodL ts l ds s L) :
    ∃ L', transferL E A L = .ok L' ∧ GoodL ts l ds (s + 1) L' := by
  obtain ⟨m', hm', hL⟩ := hL
  obtain rfl := h.left.unique hm'
  obtain ⟨L', h1, h2⟩ := transferL_ok E h.left h.left h.shape hL
  refine ⟨L', h1, k, h.bonds_take, ?_⟩
  rw [h.takeT, h.takeD]
  exact h2

theorem leftLoop_ok (E : Env K) {ts : List (NDArray K)} {l : Nat} {ds : List Nat} {r : Nat}
    (hb : Bonds ts l ds r) : ∀ (k s : Nat) (L : NDArray K), s + k ≤ ts.length → GoodL ts l ds s L →
    ∃ d, leftLoop E ts s k L = .ok d ∧ (∀ x ∈ d, ∃ j : Nat, x.1 = j ∧ GoodL ts l ds j x.2) ∧
      ∀ j : Nat, s < j → j ≤ s + k → (j : Int) ∈ d.map Prod.fst := by
  intro k
  induction k with
  | zero => intro s L _ _; exact ⟨[], rfl, by simp, fun j _ _ => by omega⟩
  | succ k ih =>
    intro s L hs hL
    obtain ⟨A, m, p, k', h⟩ := hb.exists_site (s := s) (by omega)
    obtain ⟨L', h1, h2⟩ := step_goodL E h hL
    obtain ⟨d, h3, h4, h5⟩ := ih (s + 1) L' (by omega) h2
    refine ⟨(((s + 1 : Nat) : Int), L') :: d, ?_, ?_, fun j hj hj' => ?_⟩
    · simp only [leftLoop, tensorAt, h.get, bind, Except.bind, h1, h3]
      rfl
    · intro x hx
      rcases List.mem_cons.1 hx with rfl | hx
      · exact ⟨s + 1, rfl, h2⟩
      · exact h4 x hx
    · rw [List.map_cons, List.mem_cons]
      by_cases hjs : j = s + 1
      · exact Or.inl (by rw [hjs])
      · exact Or.inr (h5 j (by omega) (by omega))

theorem find_ok {d : Envs K} {s : Int} (h : s ∈ d.map Prod.fst) : ∃ L, d.find s = .ok L ∧ (s, L) ∈ d := by
  induction d with
  | nil => simp at h
  | cons x d ih =>
    obtain ⟨k, v⟩ := x
    by_cases hk : s = k
    · subst hk
      exact ⟨v, by simp [Envs.find, List.lookup], by simp⟩
    · rw [List.map_cons, List.mem_cons] at h
      obtain ⟨L, h1, h2⟩ := ih (h.resolve_left hk)
      refine ⟨L, ?_, by simp [h2]⟩
      have : (s == k) = false := by simpa using hk
      unfold Envs.find at h1 ⊢
      rw [List.lookup, this]
      exact h1

theorem mapM_ok {α β : Type} {f : α → Py β} {g : α → β} {l : List α} (h : ∀ x ∈ l, f x = .ok (g x)) :
    l.mapM f = .ok (l.map g) := by
  induction l with
  | nil => rfl
  | cons x l ih =>
    rw [List.mapM_cons, h x (by simp), ih fun y hy => h y (by simp [hy])]
    rfl

theorem le_foldr_max {l : List Int} {x : Int} (h : x ∈ l) : x ≤ l.foldr max 0 := by
  induction l with
  | nil => simp at h
  | cons y l ih =>
    rcases List.mem_cons.1 h with rfl | h
    · exact le_max_left _ _
    · exact (ih h).trans (le_max_right _ _)

theorem foldr_max_le {l : List Int} {b : Int} (hb : 0 ≤ b) (h : ∀ x ∈ l, x ≤ b) : l.foldr max 0 ≤ b := by
  induction l with
  | nil => exact hb
  | cons y l ih => exact max_le (h y (by simp)) (ih fun x hx => h x (by simp [hx]))

theorem foldr_min_le {l : List Int} {x b : Int} (h : x ∈ l) : l.foldr min b ≤ x := by
  induction l with
  | nil => simp at h
  | cons y l ih =>
    rcases List.mem_cons.1 h with rfl | h
    · exact min_le_left _ _
    · exact (min_le_right _ _).trans (ih h)

theorem le_foldr_min {l : List Int} {a b : Int} (hb : a ≤ b) (h : ∀ x ∈ l, a ≤ x) : a ≤ l.foldr min b := by
  induction l with
  | nil => exact hb
  | cons y l ih => exact le_min (h y (by simp)) (ih fun x hx => h x (by simp [hx]))

theorem leftFar_ok (E : Env K) {ts : List (NDArray K)} {l : Nat} {ds : List Nat} {r : Nat}
    (hb : Bonds ts l ds r) {c n2 : Nat} (hc : c < ts.length) (hn : n2 ≤ ts.length)
    (hl : AllLeft (ts.take c)) :
    ∃ d, leftFar E ts c n2 = .ok d ∧ (∀ x ∈ d, ∃ j : Nat, x.1 = j ∧ GoodL ts l ds j x.2) ∧
      ∀ j : Nat, c < j → j ≤ n2 → (j : Int) ∈ d.map Prod.fst := by
  unfold leftFar
  by_cases h : n2 > c
  · rw [if_pos h]
    obtain ⟨A, m, p, k, hs⟩ := hb.exists_site hc
    obtain ⟨L, h1, h2⟩ := first_goodL E hb hs hl
    obtain ⟨d, h3, h4, h5⟩ := leftLoop_ok E hb (n2 - (c + 1)) (c + 1) L (by omega) h2
    refine ⟨(((c + 1 : Nat) : Int), L) :: d, ?_, ?_, fun j hj hj' => ?_⟩
    · simp only [tensorAt, hs.get, bind, Except.bind, h1, h3]
      rfl
    · intro x hx
      rcases List.mem_cons.1 hx with rfl | hx
      · exact ⟨c + 1, rfl, h2⟩
      · exact h4 x hx
    · rw [List.map_cons, List.mem_cons]
      by_cases hjs : j = c + 1
      · exact Or.inl (by rw [hjs])
      · exact Or.inr (h5 j (by omega) (by omega))
  · rw [if_neg h]
    exact ⟨[], rfl, by simp, fun j _ _ => by omega⟩

/-- The recorded centre, if there is one, is right. -/
def CenterOK (st : State K) : Prop :=
  ∀ c, st.center = some c → c < st.tensors.length ∧ Canonical st.tensors c

theorem CenterOK.left {st : State K} (h : CenterOK st) : AllLeft (st.tensors.take (st.center.getD 0)) := by
  rcases hc : st.center with _ | c
  · intro A hA; simp at hA
  · intro A hA
    obtain ⟨n, hn, rfl⟩ := List.mem_iff_getElem.1 hA
    simp only [Option.getD_some, List.length_take] at hn
    rw [List.getElem_take]
    exact ((h c hc).2 n _ (List.getElem?_eq_getElem (by omega))).1 (by omega)

theorem CenterOK.right {st : State K} (h : CenterOK st) (hne : 0 < st.tensors.length) :
    AllRight (st.tensors.drop (st.center.getD (st.tensors.length - 1) + 1)) := by
  rcases hc : st.center with _ | c
  · intro A hA
    rw [Option.getD_none, Nat.sub_add_cancel hne, List.drop_length] at hA
    cases hA
  · intro A hA
    obtain ⟨n, hn, rfl⟩ := List.mem_iff_getElem.1 hA
    simp only [Option.getD_some, List.length_drop] at hn
    rw [List.getElem_drop]
    exact ((h c hc).2 (c + 1 + n) _ (List.getElem?_eq_getElem (by omega))).2 (by omega)

/-- **C40**, environments: `left_envs[s]` is the reduced density matrix of the sites left of `s`. -/
theorem C40_left_envs (E : Env K) {st : State K} {l : Nat} {ds : List Nat} {r : Nat}
    (hb : Bonds st.tensors l ds r) (hne : 0 < st.tensors.length) (hc : CenterOK st) {sites : List Int}
    (hs : ∀ s ∈ sites, 0 ≤ s ∧ s ≤ st.tensors.length) :
    ∃ ls, leftEnvs E st sites = .ok ls ∧ ∀ s ∈ sites, ∃ L, ls.find s = .ok L ∧
      GoodL st.tensors l ds s.toNat L := by
  by_cases hsn : sites = []
  · subst hsn
    exact ⟨[], by simp [leftEnvs], by simp⟩
  obtain ⟨c, hcc⟩ : ∃ c, c = st.center.getD 0 := ⟨_, rfl⟩
  have hcl : c < st.tensors.length := by
    rcases h : st.center with _ | c'
    · rw [hcc, h]; exact hne
    · rw [hcc, h]; exact (hc c' h).1
  have hleft := hc.left
  rw [← hcc] at hleft
  have hmax : (sites.foldr max 0).toNat ≤ st.tensors.length := by
    have := foldr_max_le (b := (st.tensors.length : Int)) (by omega) fun x hx => (hs x hx).2
    omega
  obtain ⟨far, f1, f2, f3⟩ := leftFar_ok E hb hcl hmax hleft
  have hget : ∀ s ∈ sites.filter (fun s : Int => decide (s ≤ (c : Int))),
      (do let A ← tensorAt st.tensors s.toNat; pure (s, eyeT K (A.shape.getD 0 0)) : Py (Int × NDArray K)) =
      .ok (s, eyeT K (((st.tensors[s.toNat]?).getD ⟨[], fun _ => 0⟩).shape.getD 0 0)) := by
    intro s hs'
    rw [List.mem_filter, decide_eq_true_eq] at hs'
    have : s.toNat < st.tensors.length := by have := hs s hs'.1; omega
    simp only [tensorAt, List.getElem?_eq_getElem this]
    rfl
  refine ⟨(sites.filter (fun s : Int => decide (s ≤ (c : Int)))).map (fun s =>
    (s, eyeT K (((st.tensors[s.toNat]?).getD ⟨[], fun _ => 0⟩).shape.getD 0 0))) ++
      far.filter (fun x => decide (x.1 ∈ sites)), ?_, fun s hss => ?_⟩
  · unfold leftEnvs
    rw [if_neg hsn]
    simp only [← hcc]
    rw [if_neg (not_not.2 fun s h => (hs s h).2), if_neg (not_not.2 fun s h => (hs s h).1), mapM_ok hget]
    simp only [bind, Except.bind, f1]
    rfl
  · obtain ⟨h0, h1⟩ := hs s hss
    have hmem : ∀ x ∈ (sites.filter (fun s : Int => decide (s ≤ (c : Int)))).map (fun s =>
        (s, eyeT K (((st.tensors[s.toNat]?).getD ⟨[], fun _ => 0⟩).shape.getD 0 0))) ++
        far.filter (fun x => decide (x.1 ∈ sites)), GoodL st.tensors l ds x.1.toNat x.2 := by
      intro x hx
      rcases List.mem_append.1 hx with hx | hx
      · obtain ⟨s', hs', rfl⟩ := List.mem_map.1 hx
        rw [List.mem_filter, decide_eq_true_eq] at hs'
        have hlt : s'.toNat < st.tensors.length := by have := hs s' hs'.1; omega
        obtain ⟨A, m, p, k, h⟩ := hb.exists_site hlt
        simp only [h.get, Option.getD_some]
        refine eye_goodL hb h fun A hA => hleft A ?_
        exact List.take_subset_take_left _ (by have := hs s' hs'.1; omega) hA
      · obtain ⟨j, hj, hg⟩ := f2 x (List.mem_filter.1 hx).1
        rw [hj, Int.toNat_natCast]
        exact hg
    have hkey : s ∈ ((sites.filter (fun s : Int => decide (s ≤ (c : Int)))).map (fun s =>
        (s, eyeT K (((st.tensors[s.toNat]?).getD ⟨[], fun _ => 0⟩).shape.getD 0 0))) ++
        far.filter (fun x => decide (x.1 ∈ sites))).map Prod.fst := by
      rw [List.map_append, List.mem_append]
      by_cases hsc : s ≤ c
      · left
        rw [List.map_map]
        exact List.mem_map.2 ⟨s, List.mem_filter.2 ⟨hss, by simpa using hsc⟩, rfl⟩
      · right
        have := le_foldr_max hss
        have h := f3 s.toNat (by omega) (by omega)
        rw [Int.toNat_of_nonneg h0] at h
        obtain ⟨x, hx, hxs⟩ := List.mem_map.1 h
        exact List.mem_map.2 ⟨x, List.mem_filter.2 ⟨hx, by simpa [hxs] using hss⟩, hxs⟩
    obtain ⟨L, h1, h2⟩ := find_ok hkey
    exact ⟨L, h1, hmem _ h2⟩

/-! ### The right environments -/

theorem eye_goodR {ts : List (NDArray K)} {l : Nat} {ds : List Nat} {r : Nat}
    {s : Nat} {A : NDArray K} {m p k : Nat} (h : Site ts l ds r s A m p k) (hr : AllRight (ts.drop (s + 1))) :
    GoodR ts ds r (s + 1) (eyeT K (A.shape.getD 2 0)) := by
  refine ⟨k, h.right, ?_⟩
  rw [h.shape]
  refine ⟨rfl, fun x hx y hy => ?_⟩
  rw [gram_allRight h.right hr hx hy]
  simp [eyeT, delta, eq_comm]

theorem first_goodR (E : Env K) {ts : List (NDArray K)} {l : Nat} {ds : List Nat} {r : Nat}
    {s : Nat} {A : NDArray K} {m p k : Nat} (h : Site ts l ds r s A m p k)
    (hr : AllRight (ts.drop (s + 1))) :
    ∃ R, nconInt E.so [A, conjT A] [[-1, 2, 1], [-2, 2, 1]] = .ok R ∧ GoodR ts ds r s R := by
  obtain ⟨t, h1, h2, h3⟩ := nconInt_spec E.so (ts := [A, conjT A]) (l := [[-1, 2, 1], [-2, 2, 1]])
    (closed := [2, 1]) (out := [-1, -2])
    (dim := fun x => if x = 1 then k else if x = 2 then p else m)
    (by simp) rfl (by
      intro p hp
      simp only [List.zip_cons_cons, List.zip_nil_right, List.mem_cons, List.not_mem_nil, or_false] at hp
      rcases hp with rfl | rfl
      · exact h.shape
      · exact h.shape) (by decide)
  refine ⟨t, h1, m, h.bonds_drop, h2, fun x hx y hy => ?_⟩
  rw [h3 [y, x] (inB_two hy hx), h.dropT, h.dropD, gram_cons h.shape h.shape]
  refine Finset.sum_congr rfl fun i _ => ?_
  have : ∀ c ∈ range k, ∀ c' ∈ range k, star (A.get [x, i, c]) * A.get [y, i, c'] *
      gram (ts.drop (s + 1)) (ts.drop (s + 1)) (ds.drop (s + 1)) r c c' =
      delta c c' * (star (A.get [x, i, c]) * A.get [y, i, c']) := by
    intro c hc c' hc'
    rw [gram_allRight h.right hr (Finset.mem_range.1 hc) (Finset.mem_range.1 hc')]
    ring
  rw [Finset.sum_congr rfl fun c hc => Finset.sum_congr rfl (this c hc), sum_delta]
  refine Finset.sum_congr rfl fun c _ => ?_
  show A.get [y, i, c] * ((conjT A).get [x, i, c] * 1) = _
  rw [conjT_get]
  ring

theorem step_goodR (E : Env K) {ts : List (NDArray K)} {l : Nat} {ds : List Nat} {r s : Nat}
    {A R : NDArray K} {m p k : Nat} (h : Site ts l ds r s A m p k) (hR : GoodR ts ds r (s + 1) R) :
    ∃ R', transferR E A R = .ok R' ∧ GoodR ts ds r s R' := by
  obtain ⟨k', hk', hR⟩ := hR
  have hkk : k = k' := by
    have h1 := hR.1
    by_cases hlt : s + 1 < ts.length
    · obtain ⟨B, m', p', k'', hB⟩ : ∃ B m' p' k'', Site (ts.drop (s + 1)) k (ds.drop (s + 1)) r 0 B m' p' k'' :=
        h.right.exists_site (by simp; omega)
      obtain ⟨C, m'', p'', k''', hC⟩ : ∃ B m' p' k'', Site (ts.drop (s + 1)) k' (ds.drop (s + 1)) r 0 B m' p' k'' :=
        hk'.exists_site (by simp; omega)
      have e1 := hB.left
      have e2 := hC.left
      obtain ⟨_, rfl⟩ := e1
      obtain ⟨_, rfl⟩ := e2
      have := hB.get.symm.trans hC.get
      cases this
      have := hB.shape.symm.trans hC.shape
      simp only [List.cons.injEq] at this
      exact this.1
    · have hd : ts.drop (s + 1) = [] := List.drop_of_length_le (by omega)
      have e1 := h.right
      rw [hd] at e1 hk'
      exact e1.2.trans hk'.2.symm
  subst hkk
  obtain ⟨R', h1, h2⟩ := transferR_ok E h.shape hR
  refine ⟨R', h1, m, h.bonds_drop, ?_⟩
  rw [h.dropT, h.dropD]
  exact h2

theorem rightLoop_ok (E : Env K) {ts : List (NDArray K)} {l : Nat} {ds : List Nat} {r : Nat}
    (hb : Bonds ts l ds r) : ∀ (k s : Nat) (R : NDArray K), k ≤ s → s ≤ ts.length → GoodR ts ds r s R →
    ∃ d, rightLoop E ts s k R = .ok d ∧ (∀ x ∈ d, ∃ j : Nat, x.1 = (j : Int) - 1 ∧ GoodR ts ds r j x.2) ∧
      ∀ j : Nat, j < s → s ≤ j + k → (j : Int) - 1 ∈ d.map Prod.fst := by
  intro k
  induction k with
  | zero => intro s R _ _ _; exact ⟨[], rfl, by simp, fun j _ _ => by omega⟩
  | succ k ih =>
    intro s R hk hs hR
    obtain ⟨s, rfl⟩ : ∃ s', s = s' + 1 := ⟨s - 1, by omega⟩
    obtain ⟨A, m, p, k', h⟩ := hb.exists_site (s := s) (by omega)
    obtain ⟨R', h1, h2⟩ := step_goodR E h hR
    obtain ⟨d, h3, h4, h5⟩ := ih s R' (by omega) (by omega) h2
    refine ⟨(((s + 1 : Nat) : Int) - 2, R') :: d, ?_, ?_, fun j hj hj' => ?_⟩
    · simp only [rightLoop, tensorAt, Nat.add_sub_cancel, h.get, bind, Except.bind, h1, h3]
      rfl
    · intro x hx
      rcases List.mem_cons.1 hx with rfl | hx
      · exact ⟨s, by simp; omega, h2⟩
      · exact h4 x hx
    · rw [List.map_cons, List.mem_cons]
      by_cases hjs : j = s
      · exact Or.inl (by rw [hjs]; push_cast; omega)
      · exact Or.inr (h5 j (by omega) (by omega))

theorem rightFar_ok (E : Env K) {ts : List (NDArray K)} {l : Nat} {ds : List Nat} {r : Nat}
    (hb : Bonds ts l ds r) {c : Nat} {n1 : Int} (hc : c < ts.length)
    (hr : AllRight (ts.drop (c + 1))) :
    ∃ d, rightFar E ts c n1 = .ok d ∧ (∀ x ∈ d, ∃ j : Nat, x.1 = (j : Int) - 1 ∧ GoodR ts ds r j x.2) ∧
      ∀ j : Nat, j ≤ c → n1 + 1 ≤ j → (j : Int) - 1 ∈ d.map Prod.fst := by
  unfold rightFar
  by_cases h : n1 < c
  · rw [if_pos h]
    obtain ⟨A, m, p, k, hs⟩ := hb.exists_site hc
    obtain ⟨R, h1, h2⟩ := first_goodR E hs hr
    obtain ⟨d, h3, h4, h5⟩ := rightLoop_ok E hb (c - (n1 + 1).toNat) c R (by omega) (by omega) h2
    refine ⟨((c : Int) - 1, R) :: d, ?_, ?_, fun j hj hj' => ?_⟩
    · simp only [tensorAt, hs.get, bind, Except.bind, h1, h3]
      rfl
    · intro x hx
      rcases List.mem_cons.1 hx with rfl | hx
      · exact ⟨c, rfl, h2⟩
      · exact h4 x hx
    · rw [List.map_cons, List.mem_cons]
      by_cases hjs : j = c
      · exact Or.inl (by rw [hjs])
      · exact Or.inr (h5 j (by omega) (by omega))
  · rw [if_neg h]
    exact ⟨[], rfl, by simp, fun j _ _ => by omega⟩

/-- **C40**, environments: `right_envs[s]` is the reduced density matrix of the sites right of `s`. -/
theorem C40_right_envs (E : Env K) {st : State K} {l : Nat} {ds : List Nat} {r : Nat}
    (hb : Bonds st.tensors l ds r) (hne : 0 < st.tensors.length) (hc : CenterOK st) {sites : List Int}
    (hs : ∀ s ∈ sites, -1 ≤ s ∧ s < st.tensors.length) :
    ∃ rs, rightEnvs E st sites = .ok rs ∧ ∀ s ∈ sites, ∃ R, rs.find s = .ok R ∧
      GoodR st.tensors ds r (s + 1).toNat R := by
  by_cases hsn : sites = []
  · subst hsn
    exact ⟨[], by simp [rightEnvs], by simp⟩
  obtain ⟨c, hcc⟩ : ∃ c, c = st.center.getD (st.tensors.length - 1) := ⟨_, rfl⟩
  have hcl : c < st.tensors.length := by
    rcases h : st.center with _ | c'
    · rw [hcc, h, Option.getD_none]; omega
    · rw [hcc, h]; exact (hc c' h).1
  have hright := hc.right hne
  rw [← hcc] at hright
  have hmin : -1 ≤ sites.foldr min (st.tensors.length : Int) :=
    le_foldr_min (by omega) fun x hx => (hs x hx).1
  obtain ⟨far, f1, f2, f3⟩ := rightFar_ok E (n1 := sites.foldr min (st.tensors.length : Int)) hb hcl hright
  have hget : ∀ s ∈ sites.filter (fun s : Int => decide ((c : Int) ≤ s)),
      (do let A ← tensorAt st.tensors s.toNat; pure (s, eyeT K (A.shape.getD 2 0)) : Py (Int × NDArray K)) =
      .ok (s, eyeT K (((st.tensors[s.toNat]?).getD ⟨[], fun _ => 0⟩).shape.getD 2 0)) := by
    intro s hs'
    rw [List.mem_filter, decide_eq_true_eq] at hs'
    have : s.toNat < st.tensors.length := by have := hs s hs'.1; omega
    simp only [tensorAt, List.getElem?_eq_getElem this]
    rfl
  refine ⟨(sites.filter (fun s : Int => decide ((c : Int) ≤ s))).map (fun s =>
    (s, eyeT K (((st.tensors[s.toNat]?).getD ⟨[], fun _ => 0⟩).shape.getD 2 0))) ++
      far.filter (fun x => decide (x.1 ∈ sites)), ?_, fun s hss => ?_⟩
  · unfold rightEnvs
    rw [if_neg hsn]
    simp only [← hcc]
    rw [if_neg (not_not.2 fun s h => (hs s h).2), if_neg (not_not.2 fun s h => (hs s h).1), mapM_ok hget]
    simp only [bind, Except.bind, f1]
    rfl
  · obtain ⟨h0, h1⟩ := hs s hss
    have hmem : ∀ x ∈ (sites.filter (fun s : Int => decide ((c : Int) ≤ s))).map (fun s =>
        (s, eyeT K (((st.tensors[s.toNat]?).getD ⟨[], fun _ => 0⟩).shape.getD 2 0))) ++
        far.filter (fun x => decide (x.1 ∈ sites)), GoodR st.tensors ds r (x.1 + 1).toNat x.2 := by
      intro x hx
      rcases List.mem_append.1 hx with hx | hx
      · obtain ⟨s', hs', rfl⟩ := List.mem_map.1 hx
        rw [List.mem_filter, decide_eq_true_eq] at hs'
        have hlt : s'.toNat < st.tensors.length := by have := hs s' hs'.1; omega
        obtain ⟨A, m, p, k, h⟩ := hb.exists_site hlt
        simp only [h.get, Option.getD_some]
        have he : (s' + 1).toNat = s'.toNat + 1 := by omega
        rw [he]
        refine eye_goodR h fun A hA => hright A ?_
        have hsub : st.tensors.drop (s'.toNat + 1) = (st.tensors.drop (c + 1)).drop (s'.toNat - c) := by
          rw [List.drop_drop]
          congr 1
          omega
        rw [hsub] at hA
        exact List.mem_of_mem_drop hA
      · obtain ⟨j, hj, hg⟩ := f2 x (List.mem_filter.1 hx).1
        rw [hj, Int.sub_add_cancel, Int.toNat_natCast]
        exact hg
    have hkey : s ∈ ((sites.filter (fun s : Int => decide ((c : Int) ≤ s))).map (fun s =>
        (s, eyeT K (((st.tensors[s.toNat]?).getD ⟨[], fun _ => 0⟩).shape.getD 2 0))) ++
        far.filter (fun x => decide (x.1 ∈ sites))).map Prod.fst := by
      rw [List.map_append, List.mem_append]
      by_cases hsc : (c : Int) ≤ s
      · left
        rw [List.map_map]
        exact List.mem_map.2 ⟨s, List.mem_filter.2 ⟨hss, by simpa using hsc⟩, rfl⟩
      · right
        have := foldr_min_le (b := (st.tensors.length : Int)) hss
        have h := f3 (s + 1).toNat (by omega) (by omega)
        have he : (((s + 1).toNat : Nat) : Int) - 1 = s := by omega
        rw [he] at h
        obtain ⟨x, hx, hxs⟩ := List.mem_map.1 h
        exact List.mem_map.2 ⟨x, List.mem_filter.2 ⟨hx, by simpa [hxs] using hss⟩, hxs⟩
    obtain ⟨R, h1, h2⟩ := find_ok hkey
    exact ⟨R, h1, hmem _ h2⟩

end TN.Mps
