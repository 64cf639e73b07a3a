import Verif.ExWaveProps

/-!
# Exact wave functions: `apply_circuit`
-/

set_option linter.unusedSectionVars false

namespace TN.Wave

open TN TN.NDArray Finset

variable {R : Type}

/-! ### Specification -/

/-- The gates of a layer with their first sites, from left to right; entries beyond the last site
are not looked at. -/
def placed (N : Nat) (gates : List (Option (NDArray R))) : List (NDArray R × Nat) :=
  (List.range N).filterMap fun n => (gates.getD n none).map fun g => (g, n)

/-- The sites of a gate. -/
def gsites (p : NDArray R × Nat) : List Nat := List.range' p.2 (p.1.ndim / 2)

/-- The gates are applied one after the other. -/
def runAll [CommSemiring R] : List (NDArray R × Nat) → NDArray R → NDArray R
  | [], psi => psi
  | p :: l, psi => runAll l (act p.1 (gsites p) psi)

/-- Every gate fits when its turn comes. -/
def AllFit [CommSemiring R] : List (NDArray R × Nat) → NDArray R → Prop
  | [], _ => True
  | p :: l, psi => Fits p.1 (gsites p) psi ∧ AllFit l (act p.1 (gsites p) psi)

/-- No gate begins at a site of another gate of the layer that begins further left. -/
def Separate (N : Nat) (gates : List (Option (NDArray R))) : Prop :=
  ∀ n g, gates.getD n none = some g → ∀ n' < N, n < n' → n' < n + g.ndim / 2 → gates.getD n' none = none

/-! ### Proof -/

theorem runAll_append [CommSemiring R] (a b : List (NDArray R × Nat)) (psi : NDArray R) :
    runAll (a ++ b) psi = runAll b (runAll a psi) := by
  induction a generalizing psi with
  | nil => rfl
  | cons p a ih => exact ih _

theorem allFit_append [CommSemiring R] (a b : List (NDArray R × Nat)) (psi : NDArray R) :
    AllFit (a ++ b) psi ↔ AllFit a psi ∧ AllFit b (runAll a psi) := by
  induction a generalizing psi with
  | nil => simp [AllFit, runAll]
  | cons p a ih => rw [List.cons_append, AllFit, AllFit, ih, runAll, and_assoc]

theorem reduceB_append [CommSemiring R] (n : LN R) (a b : List (LN R)) :
    reduceB n (a ++ b) = reduceB n a >>= fun x => reduceB x b := by
  induction a generalizing n with
  | nil => rfl
  | cons p a ih =>
    simp only [List.cons_append, reduceB]
    rcases contractB n p with e | m
    · rfl
    · exact ih m

theorem sites_range' {N k n : Nat} (h : n + k ≤ N) : (List.range k).map (site N n) = List.range' n k := by
  apply List.ext_getElem (by simp)
  intro i h1 h2
  have hi : i < k := by simpa using h1
  rw [List.getElem_map, List.getElem_range, List.getElem_range', site, Int.emod_eq_of_lt (by omega) (by omega)]
  omega

/-- The part of a layer from the site `a` on. -/
def placedFrom (gates : List (Option (NDArray R))) (ns : List Nat) : List (NDArray R × Nat) :=
  ns.filterMap fun n => (gates.getD n none).map fun g => (g, n)

theorem layer_sep {gates : List (Option (NDArray R))} {len : Nat} : ∀ {a skip : Nat} {sites : List Ed} {nodes : List (LN R)}
    {next : Nat} {r : List Ed × List (LN R) × Nat}, layerLoop gates (List.range' a len) skip sites nodes next = .ok r →
    (∀ n < a + len, a ≤ n → n < a + skip → gates.getD n none = none) ∧
    ∀ n g, a ≤ n → gates.getD n none = some g → ∀ n' < a + len, n < n' → n' < n + g.ndim / 2 → gates.getD n' none = none := by
  induction len with
  | zero =>
    intro a skip sites nodes next r h
    exact ⟨fun n h1 h2 => by omega, fun n g h1 h2 n' h3 h4 => by omega⟩
  | succ len ih =>
    intro a skip sites nodes next r h
    rw [List.range'_succ] at h
    simp only [layerLoop] at h
    have lift : (∀ n < a + 1 + len, a + 1 ≤ n → n < a + skip → gates.getD n none = none) →
        (0 < skip → gates.getD a none = none) →
        ∀ n < a + (len + 1), a ≤ n → n < a + skip → gates.getD n none = none := by
      intro h1 h2 n h3 h4 h5
      by_cases hna : n = a
      · subst hna; exact h2 (by omega)
      · exact h1 n (by omega) (by omega) h5
    rcases hg : gates.getD a none with _ | g
    · rw [hg] at h
      cases skip with
      | zero =>
        obtain ⟨i1, i2⟩ := ih h
        refine ⟨fun n h1 h2 h3 => by omega, fun n g h1 h2 n' h3 h4 h5 => ?_⟩
        by_cases hna : n = a
        · subst hna; rw [hg] at h2; cases h2
        · exact i2 n g (by omega) h2 n' (by omega) h4 h5
      | succ skip =>
        obtain ⟨i1, i2⟩ := ih h
        refine ⟨lift (fun n h1 h2 h3 => i1 n h1 h2 (by omega)) fun _ => hg, fun n g h1 h2 n' h3 h4 h5 => ?_⟩
        by_cases hna : n = a
        · subst hna; rw [hg] at h2; cases h2
        · exact i2 n g (by omega) h2 n' (by omega) h4 h5
    · rw [hg] at h
      cases skip with
      | zero =>
        simp only at h
        rcases hn : applyOpNetwork sites g (a : Int) false next with e | r'
        · rw [hn] at h; exact absurd h (by rintro ⟨⟩)
        rw [hn] at h
        obtain ⟨i1, i2⟩ := ih h
        refine ⟨fun n h1 h2 h3 => by omega, fun n g' h1 h2 n' h3 h4 h5 => ?_⟩
        by_cases hna : n = a
        · subst hna
          rw [hg] at h2
          cases h2
          exact i1 n' (by omega) (by omega) (by omega)
        · exact i2 n g' (by omega) h2 n' (by omega) h4 h5
      | succ skip => exact absurd h (by rintro ⟨⟩)

section
variable [CommSemiring R]

theorem layer_ok {gates : List (Option (NDArray R))} {len : Nat} : ∀ {a skip : Nat} {sites : List Ed} {nodes : List (LN R)}
    {next : Nat} {n : LN R} {psi : NDArray R}, Repr n sites psi → (∀ e ∈ sites, e.id < next) → a + len = psi.ndim →
    (∀ m < a + len, a ≤ m → m < a + skip → gates.getD m none = none) →
    (∀ m g, a ≤ m → gates.getD m none = some g → ∀ n' < a + len, m < n' → n' < m + g.ndim / 2 → gates.getD n' none = none) →
    AllFit (placedFrom gates (List.range' a len)) psi →
    ∃ sites' added next' n', layerLoop gates (List.range' a len) skip sites nodes next = .ok (sites', nodes ++ added, next') ∧
      reduceB n added = .ok n' ∧ Repr n' sites' (runAll (placedFrom gates (List.range' a len)) psi) ∧
      (∀ e ∈ sites', e.id < next') ∧ (runAll (placedFrom gates (List.range' a len)) psi).ndim = psi.ndim := by
  induction len with
  | zero =>
    intro a skip sites nodes next n psi hr hid ha hskip hsep hfit
    exact ⟨sites, [], next, n, by simp [layerLoop], rfl, hr, hid, rfl⟩
  | succ len ih =>
    intro a skip sites nodes next n psi hr hid ha hskip hsep hfit
    rw [List.range'_succ, placedFrom, List.filterMap_cons] at hfit
    rw [List.range'_succ, placedFrom, List.filterMap_cons]
    simp only [layerLoop]
    rcases hg : gates.getD a none with _ | g
    · rw [hg] at hfit
      obtain ⟨sites', added, next', n', i1, i2⟩ := ih (a := a + 1) (skip := skip - 1) (nodes := nodes) hr hid (by omega)
        (fun m h1 h2 h3 => hskip m (by omega) (by omega) (by omega))
        (fun m g h1 h2 n' h3 h4 h5 => hsep m g (by omega) h2 n' (by omega) h4 h5) hfit
      refine ⟨sites', added, next', n', ?_, i2⟩
      cases skip with
      | zero => exact i1
      | succ skip => exact i1
    · rw [hg] at hfit
      have h0 : skip = 0 := by
        by_contra hne
        have := hskip a (by omega) (le_refl _) (by omega)
        rw [this] at hg; cases hg
      subst h0
      obtain ⟨hf, hfit⟩ := hfit
      simp only [gsites] at hf hfit
      have hpos := hf.pos
      have hk := hf.ndim
      rw [List.length_range'] at hpos hk
      have hlt := hf.lt (a + (g.ndim / 2 - 1)) (by rw [List.mem_range'_1]; omega)
      have hT : (List.range (g.ndim / 2)).map (site sites.length (a : Int)) = List.range' a (g.ndim / 2) := by
        rw [hr.len]; exact sites_range' (by omega)
      have h1 := applyOpNetwork_ok (op := g) (n1 := a) (pbc := false) (sites := sites) (next := next) hr.shape
        (by rw [hT]; exact hf) (fun m hm => ⟨fun h => (by cases h), fun _ => by rw [hr.len]; omega⟩)
      rw [hT] at h1
      have gt := gate_new (op := g) (T := List.range' a (g.ndim / 2)) (sites := sites) (next := next) (by simp; omega) hid
      rw [List.length_range'] at gt
      obtain ⟨n1, h2, h3⟩ := (gate_step hr hf gt).1
      have hT2 : ∀ i ∈ List.range' a (g.ndim / 2), i < sites.length := fun i hi => by rw [hr.len]; exact hf.lt i hi
      have hnd : (act g (List.range' a (g.ndim / 2)) psi).ndim = psi.ndim := by
        rw [← h3.len, setAll_length, hr.len]
      obtain ⟨sites', added, next', n', i1, i2, i3, i4, i5⟩ := ih (a := a + 1) (skip := g.ndim / 2 - 1)
        (nodes := nodes ++ [(g, outsOf g (g.ndim / 2) next ++ (List.range' a (g.ndim / 2)).map fun i => sites.getD i default)])
        (next := next + g.ndim) h3
        (fun e he => by
          rw [mem_setAll hf.nodup (by simp [outsOf]) hT2] at he
          rcases he with he | ⟨p, -, he⟩
          · simp only [outsOf, List.mem_map, List.mem_range] at he
            obtain ⟨m, hm, rfl⟩ := he
            show next + m < next + g.ndim
            omega
          · have := hid e (List.mem_of_getElem? he)
            omega)
        (by rw [hnd]; omega)
        (fun m h4 h5 h6 => hsep a g (le_refl _) hg m (by omega) (by omega) (by omega))
        (fun m g h1 h2 n' h3 h4 h5 => hsep m g (by omega) h2 n' (by omega) h4 h5) hfit
      refine ⟨sites', (g, outsOf g (g.ndim / 2) next ++ (List.range' a (g.ndim / 2)).map fun i => sites.getD i default) :: added,
        next', n', ?_, ?_, i3, i4, i5.trans hnd⟩
      · simp only
        rw [h1]
        show layerLoop _ _ _ _ _ _ = _
        rw [i1]
        simp
      · rw [reduceB, h2]
        exact i2

theorem layers_ok {N : Nat} : ∀ {layers : List (List (Option (NDArray R)))} {sites : List Ed} {nodes : List (LN R)}
    {next : Nat} {n : LN R} {psi : NDArray R}, Repr n sites psi → (∀ e ∈ sites, e.id < next) → psi.ndim = N →
    (∀ gates ∈ layers, Separate N gates) → AllFit (layers.flatMap (placed N)) psi →
    ∃ sites' added next' n', layersLoop N layers sites nodes next = .ok (sites', nodes ++ added, next') ∧
      reduceB n added = .ok n' ∧ Repr n' sites' (runAll (layers.flatMap (placed N)) psi) := by
  intro layers
  induction layers with
  | nil =>
    intro sites nodes next n psi hr hid hN hsep hfit
    exact ⟨sites, [], next, n, by simp [layersLoop], rfl, hr⟩
  | cons gates layers ih =>
    intro sites nodes next n psi hr hid hN hsep hfit
    rw [List.flatMap_cons, allFit_append] at hfit
    have hpl : placed N gates = placedFrom gates (List.range' 0 N) := by rw [placed, placedFrom, List.range_eq_range']
    rw [hpl] at hfit
    obtain ⟨s1, add1, next1, n1, h1, h2, h3, h4, h5⟩ := layer_ok (len := N) (a := 0) (skip := 0) (nodes := nodes) hr hid
      (by omega) (fun m _ _ h => by omega) (fun m g _ hg n' hn' h1 h2 => hsep gates (by simp) m g hg n' (by omega) h1 h2) hfit.1
    obtain ⟨s2, add2, next2, n2, k1, k2, k3⟩ := ih (nodes := nodes ++ add1) h3 h4 (by rw [h5, hN])
      (fun g hg => hsep g (by simp [hg])) hfit.2
    refine ⟨s2, add1 ++ add2, next2, n2, ?_, ?_, ?_⟩
    · rw [layersLoop, List.range_eq_range', h1]
      show layersLoop _ _ _ _ _ = _
      rw [k1, List.append_assoc]
    · rw [reduceB_append, h2]
      exact k2
    · rw [List.flatMap_cons, runAll_append, hpl]
      exact k3

/-- **C86.**  A circuit whose gates do not overlap within a layer and fit is applied gate by gate,
layer after layer. -/
theorem C86_circuit {psi : NDArray R} {layers : List (List (Option (NDArray R)))}
    (hsep : ∀ gates ∈ layers, Separate psi.ndim gates) (hfit : AllFit (layers.flatMap (placed psi.ndim)) psi) :
    ∃ out, applyCircuit psi layers = .ok out ∧ out.Same (runAll (layers.flatMap (placed psi.ndim)) psi) := by
  obtain ⟨s, add, next, n, h1, h2, h3⟩ := layers_ok (nodes := []) (repr_new psi 0)
    (fun e he => by have := newEdges_id he; simpa using this) rfl hsep hfit
  obtain ⟨t, h4, h5⟩ := h3.reorder
  refine ⟨t, ?_, h5⟩
  rw [applyCircuit]
  simp only [h1]
  show (reduceB _ _ >>= _) = _
  rw [List.nil_append, h2]
  exact h4

end

theorem layers_sep {N : Nat} : ∀ {layers : List (List (Option (NDArray R)))} {sites : List Ed} {nodes : List (LN R)}
    {next : Nat} {r : List Ed × List (LN R) × Nat}, layersLoop N layers sites nodes next = .ok r →
    ∀ gates ∈ layers, Separate N gates := by
  intro layers
  induction layers with
  | nil => simp
  | cons gates layers ih =>
    intro sites nodes next r h
    rw [layersLoop] at h
    rcases hl : layerLoop gates (List.range N) 0 sites nodes next with e | r'
    · rw [hl] at h; exact absurd h (by rintro ⟨⟩)
    rw [hl] at h
    intro g hg
    rcases List.mem_cons.1 hg with rfl | hg
    · rw [List.range_eq_range'] at hl
      intro n g' h1 n' h2 h3 h4
      exact (layer_sep hl).2 n g' (Nat.zero_le _) h1 n' (by omega) h3 h4
    · exact ih h g hg

section
variable [CommSemiring R]

theorem applyOpNetwork_inv {op psi : NDArray R} {n1 : Int} {pbc : Bool} {sites : List Ed} {next : Nat}
    {r : List Ed × LN R} (h : applyOpNetwork sites op n1 pbc next = .ok r) (hsh : psi.shape = sites.map Ed.dim)
    (hpos : 0 < op.ndim) (heven : op.ndim = 2 * (op.ndim / 2))
    (hnd : (∀ m < op.ndim / 2, Rng sites.length n1 pbc m) → ((List.range (op.ndim / 2)).map (site sites.length n1)).Nodup) :
    Fits op ((List.range (op.ndim / 2)).map (site sites.length n1)) psi ∧ ∀ m < op.ndim / 2, Rng sites.length n1 pbc m := by
  rw [applyOpNetwork] at h
  rcases hc : connectLoop op (op.ndim / 2) n1 pbc (fun m => (⟨next + m, op.shape.getD m 0⟩ : Ed))
    (List.range (op.ndim / 2)) sites with e | r'
  · simp only [hc] at h; exact absurd h (by rintro ⟨⟩)
  obtain ⟨i1, -, i3, -⟩ := connectLoop_inv hc
  have hrng := fun m (hm : m < op.ndim / 2) => i1 m (List.mem_range.2 hm)
  have hN : sites.length = psi.ndim := by rw [NDArray.ndim, hsh, List.length_map]
  refine ⟨⟨by simp; omega, by simpa using heven, hnd hrng, ?_, ?_⟩, hrng⟩
  · intro i hi
    obtain ⟨m, hm, rfl⟩ := List.mem_map.1 hi
    rw [← hN]
    exact ((pyIdx_target _ _ _ _).1 (i1 m hm)).2
  · rw [List.length_map, List.length_range, List.map_map]
    have hlen : op.shape.length = op.ndim := rfl
    apply List.ext_getElem
    · simp only [List.length_drop, List.length_map, List.length_range]
      omega
    · intro m h1 h2
      have hm : m < op.ndim / 2 := by simpa using h2
      have h3 := i3 (hnd hrng) m (List.mem_range.2 hm)
      have h4 := ((pyIdx_target _ _ _ _).1 (hrng m hm)).2
      rw [List.getD_eq_getElem _ _ (by omega)] at h3
      rw [List.getElem_drop, h3, List.getElem_map, List.getElem_range, Function.comp_apply, hsh,
        List.getD_eq_getElem _ _ h4, List.getD_eq_getElem _ _ (by rw [List.length_map]; exact h4), List.getElem_map]

theorem layer_fit {gates : List (Option (NDArray R))}
    (heven : ∀ m g, gates.getD m none = some g → 0 < g.ndim ∧ g.ndim = 2 * (g.ndim / 2)) {len : Nat} :
    ∀ {a skip : Nat} {sites : List Ed} {nodes : List (LN R)} {next : Nat} {n : LN R} {psi : NDArray R}
      {r : List Ed × List (LN R) × Nat}, Repr n sites psi → (∀ e ∈ sites, e.id < next) → a + len = psi.ndim →
      layerLoop gates (List.range' a len) skip sites nodes next = .ok r →
      AllFit (placedFrom gates (List.range' a len)) psi := by
  induction len with
  | zero =>
    intro a skip sites nodes next n psi r hr hid ha h
    trivial
  | succ len ih =>
    intro a skip sites nodes next n psi r hr hid ha h
    rw [List.range'_succ] at h
    simp only [layerLoop] at h
    rw [List.range'_succ, placedFrom, List.filterMap_cons]
    rcases hg : gates.getD a none with _ | g
    · rw [hg] at h
      cases skip with
      | zero => exact ih hr hid (by omega) h
      | succ skip => exact ih hr hid (by omega) h
    · rw [hg] at h
      cases skip with
      | succ skip => exact absurd h (by rintro ⟨⟩)
      | zero =>
        simp only at h
        obtain ⟨e1, e2⟩ := heven a g hg
        rcases hn : applyOpNetwork sites g (a : Int) false next with e | r'
        · rw [hn] at h; exact absurd h (by rintro ⟨⟩)
        rw [hn] at h
        have hle : (∀ m < g.ndim / 2, Rng sites.length (a : Int) false m) → a + g.ndim / 2 ≤ sites.length := by
          intro hr'
          have := (hr' (g.ndim / 2 - 1) (by omega)).2 rfl
          omega
        obtain ⟨hf, hrng⟩ := applyOpNetwork_inv hn hr.shape e1 e2 (fun hr' => by
          rw [sites_range' (hle hr')]
          exact List.nodup_range')
        have h1 := applyOpNetwork_ok (next := next) hr.shape hf hrng
        rw [hn] at h1
        injection h1 with h1
        rw [sites_range' (hle hrng)] at hf h1
        have gt := gate_new (op := g) (T := List.range' a (g.ndim / 2)) (sites := sites) (next := next) (by simp; omega) hid
        rw [List.length_range'] at gt
        obtain ⟨n1, h2, h3⟩ := (gate_step hr hf gt).1
        have hT2 : ∀ i ∈ List.range' a (g.ndim / 2), i < sites.length := fun i hi => by rw [hr.len]; exact hf.lt i hi
        have hnd : (act g (List.range' a (g.ndim / 2)) psi).ndim = psi.ndim := by
          rw [← h3.len, setAll_length, hr.len]
        refine ⟨hf, ?_⟩
        rw [h1] at h
        refine ih h3 ?_ (by simp only [gsites]; rw [hnd]; omega) h
        intro e he
        rw [mem_setAll hf.nodup (by simp [outsOf]) hT2] at he
        rcases he with he | ⟨p, -, he⟩
        · simp only [outsOf, List.mem_map, List.mem_range] at he
          obtain ⟨m, hm, rfl⟩ := he
          show next + m < next + g.ndim
          omega
        · have := hid e (List.mem_of_getElem? he)
          omega

theorem layers_fit {N : Nat} : ∀ {layers : List (List (Option (NDArray R)))} {sites : List Ed} {nodes : List (LN R)}
    {next : Nat} {n : LN R} {psi : NDArray R} {r : List Ed × List (LN R) × Nat},
    (∀ gates ∈ layers, ∀ m g, gates.getD m none = some g → 0 < g.ndim ∧ g.ndim = 2 * (g.ndim / 2)) →
    Repr n sites psi → (∀ e ∈ sites, e.id < next) → psi.ndim = N →
    layersLoop N layers sites nodes next = .ok r → AllFit (layers.flatMap (placed N)) psi := by
  intro layers
  induction layers with
  | nil => intros; trivial
  | cons gates layers ih =>
    intro sites nodes next n psi r heven hr hid hN h
    have hsep := layers_sep h
    rw [layersLoop] at h
    rcases hl : layerLoop gates (List.range N) 0 sites nodes next with e | r'
    · rw [hl] at h; exact absurd h (by rintro ⟨⟩)
    rw [hl] at h
    rw [List.range_eq_range'] at hl
    have hpl : placed N gates = placedFrom gates (List.range' 0 N) := by rw [placed, placedFrom, List.range_eq_range']
    have hf := layer_fit (heven gates (by simp)) hr hid (by omega) hl
    obtain ⟨s1, add1, next1, n1, h1, h2, h3, h4, h5⟩ := layer_ok (len := N) (a := 0) (skip := 0) (nodes := nodes) hr hid
      (by omega) (fun m _ _ h => by omega) (fun m g _ hg n' hn' h1 h2 => hsep gates (by simp) m g hg n' (by omega) h1 h2) hf
    rw [List.flatMap_cons, allFit_append, hpl]
    refine ⟨hf, ?_⟩
    rw [hl] at h1
    injection h1 with h1
    rw [h1] at h
    exact ih (fun g hg => heven g (by simp [hg])) h3 h4 (by rw [h5, hN]) h

/-- The operator of the example on the sites 0 and 1 of three and then on 1 and 2; a gate on one site beside. -/
def exState : NDArray ℤ := ⟨[2, 2, 2], fun i => i.getD 0 0 + 10 * i.getD 1 0 + 100 * i.getD 2 0⟩

@[inherit_doc exState]
def exGate : NDArray ℤ := ⟨[3, 2], fun i => i.getD 0 0 + i.getD 1 0⟩

@[inherit_doc exState]
def exOp' : NDArray ℤ := ⟨[2, 2, 2, 3], fun i => i.getD 0 0 + i.getD 1 0 * i.getD 3 0⟩

theorem ex_separate : ∀ gates ∈ [[some exOp, none, some exGate], [none, some exOp']], Separate 3 gates := by
  intro gates hg n g h n' h1 h2 h3
  simp only [List.mem_cons, List.not_mem_nil, or_false] at hg
  rcases hg with rfl | rfl
  · rcases n with _ | _ | _ | n
    · simp only [List.getD_cons_zero, Option.some.injEq] at h
      subst h
      have : n' = 1 := by simp [exOp, NDArray.ndim] at h3; omega
      subst this
      rfl
    · simp at h
    · simp only [List.getD_cons_succ, List.getD_cons_zero, Option.some.injEq] at h
      omega
    · simp at h
  · rcases n with _ | _ | n
    · simp at h
    · have : n' = 2 := by omega
      subst this
      rfl
    · simp at h

example : ∃ out, applyCircuit exState [[some exOp, none, some exGate], [none, some exOp']] = .ok out ∧ out.shape = [2, 2, 2] := by
  obtain ⟨out, h1, h2⟩ := C86_circuit (psi := exState) ex_separate
    ⟨⟨by decide, by decide, by decide, by decide, by decide⟩, ⟨by decide, by decide, by decide, by decide, by decide⟩,
      ⟨by decide, by decide, by decide, by decide, by decide⟩, trivial⟩
  exact ⟨out, h1, by rw [h2.1]; decide⟩

/-- **C86.**  For gates with an even number of axes, not zero: `apply_circuit` succeeds exactly if the
gates do not overlap and fit. -/
theorem C86_circuit_iff {psi : NDArray R} {layers : List (List (Option (NDArray R)))}
    (heven : ∀ gates ∈ layers, ∀ m g, gates.getD m none = some g → 0 < g.ndim ∧ g.ndim = 2 * (g.ndim / 2)) :
    (∃ out, applyCircuit psi layers = .ok out) ↔
      (∀ gates ∈ layers, Separate psi.ndim gates) ∧ AllFit (layers.flatMap (placed psi.ndim)) psi := by
  constructor
  · rintro ⟨out, ha⟩
    rw [applyCircuit] at ha
    rcases hl : layersLoop psi.ndim layers (newEdges psi 0) [] psi.ndim with e | r
    · rw [hl] at ha; exact absurd ha (by rintro ⟨⟩)
    · exact ⟨layers_sep hl, layers_fit heven (repr_new psi 0)
        (fun e he => by have := newEdges_id he; simpa using this) rfl hl⟩
  · rintro ⟨h1, h2⟩
    obtain ⟨out, h, _⟩ := C86_circuit h1 h2
    exact ⟨out, h⟩

end

/-- **C86.**  A circuit with overlapping gates in a layer is refused. -/
theorem C86_circuit_overlap [CommSemiring R] {psi : NDArray R} {layers : List (List (Option (NDArray R)))}
    (h : ∃ gates ∈ layers, ¬ Separate psi.ndim gates) : ∃ e, applyCircuit psi layers = .error e := by
  rcases ha : applyCircuit psi layers with e | out
  · exact ⟨e, rfl⟩
  · obtain ⟨gates, h1, h2⟩ := h
    rw [applyCircuit] at ha
    rcases hl : layersLoop psi.ndim layers (newEdges psi 0) [] psi.ndim with e | r
    · rw [hl] at ha; exact absurd ha (by rintro ⟨⟩)
    · exact absurd (layers_sep hl gates h1) h2

/-- Two gates on two sites beside each other overlap; a gate that does not fit is refused too. -/
example : (∃ e, applyCircuit exState [[some exOp, some exOp]] = .error e) ∧
    ¬ ∃ out, applyCircuit exState [[none, some exOp']] = .ok out := by
  refine ⟨C86_circuit_overlap ⟨_, List.mem_singleton_self _, fun h => ?_⟩, fun h => ?_⟩
  · have := h 0 exOp rfl 1 (by decide) (by decide) (by decide)
    simp at this
  · rw [C86_circuit_iff] at h
    · exact absurd h.2.1.dim (by decide)
    · intro gates hg m g h
      rw [List.mem_singleton] at hg
      subst hg
      rcases m with _ | _ | m
      · simp at h
      · simp only [List.getD_cons_succ, List.getD_cons_zero, Option.some.injEq] at h
        subst h
        decide
      · simp at h

end TN.Wave
