import Verif.NconProps

/-!
# Calls of `ncon` with fixed integer labels

The matrix product state code calls `ncon` with literal label lists.  `nconInt_spec` gives the value
of such a call; its side conditions on the labels are decided by computation.
-/

namespace TN.Ncon

open TN NDArray

variable {R : Type} [CommSemiring R]

/-- `ncon.ncon(tensors, labels)` with integer labels and default orders. -/
def nconInt (so : SetOrder) (ts : List (NDArray R)) (l : List (List Int)) : Py (NDArray R) :=
  ncon so ts (l.map (·.map Lab.num)) none none true

/-- An ordinary network: every positive label occurs twice, every negative label once; `closed` lists
the positive labels, `out` the negative ones in descending order. -/
def Ordinary (l : List (List Int)) (closed out : List Int) : Prop :=
  (∀ x ∈ l.flatten, x ≠ 0 ∧ l.flatten.count x = if x < 0 then 1 else 2) ∧
  closed.Nodup ∧ out.Nodup ∧ out.Pairwise (fun a b => b < a) ∧
  (∀ x ∈ closed, x ∈ l.flatten ∧ 0 < x) ∧ (∀ x ∈ out, x ∈ l.flatten ∧ x < 0) ∧
  ∀ x ∈ l.flatten, x ∈ closed ∨ x ∈ out

instance (l : List (List Int)) (closed out : List Int) : Decidable (Ordinary l closed out) := by
  unfold Ordinary; infer_instance

theorem num_inj : Function.Injective Lab.num := fun _ _ h => Lab.num.inj h

theorem flatMap_num (l : List (List Int)) :
    (l.map (·.map Lab.num)).flatMap id = l.flatten.map Lab.num := by
  rw [List.flatMap_id, List.map_flatten]

theorem nconInt_spec (so : SetOrder) {ts : List (NDArray R)} {l : List (List Int)}
    {closed out : List Int} {dim : Int → Nat} (hne : ts ≠ []) (hlen : ts.length = l.length)
    (hdim : ∀ p ∈ ts.zip l, p.1.shape = p.2.map dim) (hok : Ordinary l closed out) :
    ∃ r, nconInt so ts l = .ok r ∧ r.shape = out.map dim ∧
      ∀ i, InB (out.map dim) i → r.get i = sumIdx (closed.map dim) (fun c =>
        ((ts.zip l).map (fun p => p.1.get (p.2.map (posOf out i closed c)))).prod) := by
  obtain ⟨h1, h2, h3, h4, h5, h6, h7⟩ := hok
  obtain ⟨dim', hd'⟩ : ∃ dim' : Lab → Nat, ∀ x, dim' (.num x) = dim x :=
    ⟨fun a => match a with | .num x => dim x | .str _ => 0, fun _ => rfl⟩
  have hdim' : ∀ p ∈ ts.zip (l.map (·.map Lab.num)), p.1.shape = p.2.map dim' := by
    intro p hp
    rw [List.zip_map_right, List.mem_map] at hp
    obtain ⟨q, hq, rfl⟩ := hp
    simp only [Prod.map, id, List.map_map]
    rw [hdim q hq]
    exact List.map_congr_left fun x _ => (hd' x).symm
  have hcount : ∀ x : Int, (l.flatten.map Lab.num).count (.num x) = l.flatten.count x :=
    fun x => List.count_map_of_injective _ _ num_inj x
  have hv : ValidRequest (l.map (·.map Lab.num)) (ts.map NDArray.shape) none none := by
    refine ⟨by simp [hlen], ?_, ?_, by simp, by simp, ?_⟩
    · intro p hp
      rw [← List.zip_swap, List.zip_map_left, List.map_map, List.mem_map] at hp
      obtain ⟨q, hq, rfl⟩ := hp
      simp [hdim' q hq]
    · intro x hx
      rw [flatMap_num, List.mem_map] at hx
      obtain ⟨y, hy, rfl⟩ := hx
      exact (h1 y hy).1
    · intro p hp q hq x hx y hy hxy _
      have key : ∀ p ∈ (l.map (·.map Lab.num)).zip (ts.map NDArray.shape), ∀ x ∈ p.1.zip p.2,
          x.2 = dim' x.1 := by
        intro p hp x hx
        rw [← List.zip_swap, List.zip_map_left, List.map_map, List.mem_map] at hp
        obtain ⟨q, hq, rfl⟩ := hp
        simp only [Function.comp, Prod.map, Prod.swap, id, hdim' q hq] at hx
        rw [List.zip_map_right, List.mem_map] at hx
        obtain ⟨z, hz, rfl⟩ := hx
        obtain ⟨z1, z2⟩ := z
        have : z1 = z2 := by
          have := List.mem_iff_getElem.1 hz
          obtain ⟨k, hk, hk'⟩ := this
          simp at hk'
          exact hk'.1.symm.trans hk'.2
        simp [this]
      rw [key p hp x hx, key q hq y hy, hxy]
  obtain ⟨r, hr⟩ := C03_ordinary_network so hne hv (by simp) (by simp) (by
    intro x hx
    rw [flatMap_num] at hx ⊢
    obtain ⟨y, hy, rfl⟩ := List.mem_map.1 hx
    rw [hcount, (h1 y hy).2]
    simp [Lab.isOpen])
  obtain ⟨g1, g2⟩ := ordinary_conditions (ts := ts) (ls := l.map (·.map Lab.num)) (by simp [hlen]) (by
    intro x hx
    rw [flatMap_num] at hx ⊢
    obtain ⟨y, hy, rfl⟩ := List.mem_map.1 hx
    rw [hcount, (h1 y hy).2]
    simp [Lab.isOpen])
  have ho : OutputOrder ((l.map (·.map Lab.num)).flatMap id) none (out.map Lab.num) := by
    refine ⟨⟨h3.map num_inj, fun x => ?_⟩, ?_⟩
    · rw [flatMap_num]
      constructor
      · intro hx
        obtain ⟨y, hy, rfl⟩ := List.mem_map.1 hx
        exact ⟨List.mem_map_of_mem (h6 y hy).1, by simp [Lab.isOpen, (h6 y hy).2]⟩
      · rintro ⟨hx, hop⟩
        obtain ⟨y, hy, rfl⟩ := List.mem_map.1 hx
        simp only [Lab.isOpen, decide_eq_true_eq] at hop
        rcases h7 y hy with h | h
        · have := (h5 y h).2; omega
        · exact List.mem_map_of_mem h
    · rw [List.pairwise_map]
      exact h4
  have hcl : Enumerates (closed.map Lab.num)
      (fun x => x ∈ (l.map (·.map Lab.num)).flatMap id ∧ x.isOpen = false) := by
    refine ⟨h2.map num_inj, fun x => ?_⟩
    rw [flatMap_num]
    constructor
    · intro hx
      obtain ⟨y, hy, rfl⟩ := List.mem_map.1 hx
      refine ⟨List.mem_map_of_mem (h5 y hy).1, ?_⟩
      have := (h5 y hy).2
      simp [Lab.isOpen]; omega
    · rintro ⟨hx, hop⟩
      obtain ⟨y, hy, rfl⟩ := List.mem_map.1 hx
      simp only [Lab.isOpen, decide_eq_false_iff_not] at hop
      rcases h7 y hy with h | h
      · exact List.mem_map_of_mem h
      · exact absurd (h6 y h).2 hop
  obtain ⟨e1, e2⟩ := C04_axis_order so hr g1 hdim' ho
  have e3 := (e2 _ hcl).2
  have hmap : ∀ z : List Int, (z.map Lab.num).map dim' = z.map dim := fun z => by
    rw [List.map_map]; exact List.map_congr_left fun x _ => hd' x
  rw [hmap] at e1
  simp only [hmap] at e3
  refine ⟨r, hr, e1, fun i hi => ?_⟩
  rw [e3 i hi]
  refine sumIdx_congr fun c _ => ?_
  congr 1
  rw [List.zip_map_right, List.map_map]
  refine List.map_congr_left fun p _ => ?_
  simp only [Function.comp, Prod.map, id, List.map_map]
  congr 1
  refine List.map_congr_left fun x _ => ?_
  simp only [posOf, Function.comp]
  have hmem : ∀ z : List Int, (Lab.num x ∈ z.map Lab.num) ↔ x ∈ z := fun z =>
    List.mem_map_of_injective num_inj
  have hidx : ∀ z : List Int, (z.map Lab.num).idxOf (Lab.num x) = z.idxOf x := by
    intro z
    induction z with
    | nil => rfl
    | cons a z ih =>
      by_cases hax : a = x
      · subst hax; simp
      · rw [List.map_cons, List.idxOf_cons_ne _ hax, List.idxOf_cons_ne _ (fun h => hax (num_inj h)), ih]
  simp only [hmem, hidx]

end TN.Ncon
