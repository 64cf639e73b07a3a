import Verif.NconCheck
import Mathlib.Tactic.IntervalCases

/-!
# Properties of `ncon` (C01–C06)

The theorems are about `TN.Ncon.ncon`, the model of `ncon_interface.ncon`.  `so : SetOrder`
stands for the arbitrary iteration orders of Python sets; every theorem holds for all of
them.  `Enumerates`, `ValidRequest`, `OutputOrder`, `NoInnerRepeats` are in `NconSpec`,
`IsEinsum` in `Einsum`.
-/

set_option linter.unusedSectionVars false

namespace TN.Ncon

open NDArray

variable {R : Type} [CommSemiring R]

/-- Axes with the same open label have the same dimension.  (`ncon` checks this for closed
labels only.) -/
def OpenDimsAgree (ts : List (NDArray R)) (ls : List (List Lab)) : Prop :=
  ∀ p ∈ ts.zip ls, ∀ q ∈ ts.zip ls, ∀ x ∈ p.1.shape.zip p.2, ∀ y ∈ q.1.shape.zip q.2,
    x.2 = y.2 → x.2.isOpen = true → x.1 = y.1

/-- If dimensions agree there is one dimension per label. -/
theorem exists_dim {ts : List (NDArray R)} {ls : List (List Lab)} {con out : Option (List Lab)}
    (hv : ValidRequest ls (ts.map NDArray.shape) con out) (ho : OpenDimsAgree ts ls) :
    ∃ dim : Lab → Nat, ∀ p ∈ ts.zip ls, p.1.shape = p.2.map dim := by
  classical
  have hlen : ts.length = ls.length := by simpa using hv.count.symm
  have hz : ∀ p ∈ ts.zip ls, (p.2, p.1.shape) ∈ ls.zip (ts.map NDArray.shape) := by
    intro p hp
    rw [List.zip_map_right]
    refine List.mem_map.2 ⟨(p.2, p.1), ?_, rfl⟩
    rw [← List.zip_swap]
    exact List.mem_map.2 ⟨p, hp, rfl⟩
  have hswap : ∀ (a : List Nat) (b : List Lab) (x : Nat × Lab), x ∈ a.zip b →
      (x.2, x.1) ∈ b.zip a := by
    intro a b x hx
    rw [← List.zip_swap]
    exact List.mem_map.2 ⟨x, hx, rfl⟩
  let P : Lab → Nat → Prop := fun l d => ∃ p ∈ ts.zip ls, (d, l) ∈ p.1.shape.zip p.2
  have huniq : ∀ l d d', P l d → P l d' → d = d' := by
    rintro l d d' ⟨p, hp, hx⟩ ⟨q, hq, hy⟩
    by_cases hl : l.isOpen = true
    · exact ho p hp q hq _ hx _ hy rfl hl
    · exact hv.dims_eq _ (hz p hp) _ (hz q hq) _ (hswap _ _ _ hx) _ (hswap _ _ _ hy) rfl
        (by simpa using hl)
  refine ⟨fun l => if h : ∃ d, P l d then h.choose else 0, fun p hp => ?_⟩
  have hr := hv.rank _ (hz p hp)
  simp only at hr
  have : ∀ (sh : List Nat) (lb : List Lab), lb.length = sh.length →
      (∀ x ∈ sh.zip lb, x ∈ p.1.shape.zip p.2) →
      sh = lb.map (fun l => if h : ∃ d, P l d then h.choose else 0) := by
    intro sh
    induction sh with
    | nil => intro lb h _; rw [List.length_eq_zero_iff.1 h]; rfl
    | cons d sh ih =>
      intro lb h hz'
      cases lb with
      | nil => simp at h
      | cons l lb =>
        have hP : P l d := ⟨p, hp, hz' (d, l) (by simp)⟩
        have hex : ∃ d, P l d := ⟨d, hP⟩
        rw [List.map_cons, dif_pos hex, huniq l _ d hex.choose_spec hP,
          ← ih lb (by simpa using h) (fun x hx => hz' x (by simp [hx]))]
  exact this _ _ hr (fun x hx => hx)

/-- There is only one output order. -/
theorem OutputOrder.unique {fl : List Lab} {out : Option (List Lab)} {o o' : List Lab}
    (h : OutputOrder fl out o) (h' : OutputOrder fl out o') : o = o' := by
  have key : (Enumerates o (fun l => l ∈ fl ∧ l.isOpen = true) ∧ o.Pairwise Before) →
      (Enumerates o' (fun l => l ∈ fl ∧ l.isOpen = true) ∧ o'.Pairwise Before) → o = o' := by
    rintro ⟨h1, h2⟩ ⟨h1', h2'⟩
    have hp : o.Perm o' := (List.perm_ext_iff_of_nodup h1.1 h1'.1).2 (fun x => by
      rw [h1.2, h1'.2])
    refine hp.eq_of_pairwise ?_ h2 h2'
    intro a b _ _ hab hba
    cases a <;> cases b <;> simp only [Before] at hab hba
    · omega
    · exact absurd (hab.trans hba) (lt_irrefl _)
  match out with
  | none => exact key h h'
  | some [] => exact key h h'
  | some (x :: xs) =>
    simp only [OutputOrder] at h h'
    rw [h, h']

theorem ncon_nil (so : SetOrder) {ls : List (List Lab)} {con out : Option (List Lab)}
    {r : NDArray R} (h : ncon so [] ls con out true = .ok r) : False := by
  have hv := valid_of_ncon_ok h
  have hl : ls = [] := List.length_eq_zero_iff.1 (by simpa using hv.count)
  subst hl
  rw [ncon_eq so true hv] at h
  have hc : conUsed [] con = [] := by
    have := conUsed_enum hv
    exact List.eq_nil_iff_forall_not_mem.2 fun x hx => by simpa using ((this.2 x).1 hx).1
  have ho : outUsed [] out = [] := by
    have := outUsed_enum hv
    exact List.eq_nil_iff_forall_not_mem.2 fun x hx => by simpa using ((this.2 x).1 hx).1
  simp only [List.flatMap_nil, hc, ho, List.map_nil] at h
  unfold jittableNcon at h
  simp only [List.zip_nil_left, pyMap, List.map_nil, List.filter_nil, List.flatMap_nil, bind,
    Except.bind] at h
  rw [loop_eq] at h
  simp [step, finish] at h

/-- Common form: a valid request gives the Einstein sum or a `ValueError`. -/
theorem ncon_value (so : SetOrder) {ts : List (NDArray R)} {ls : List (List Lab)}
    {con out : Option (List Lab)} {dim : Lab → Nat} (check : Bool) (hne : ts ≠ [])
    (hv : ValidRequest ls (ts.map NDArray.shape) (eff con) (eff out))
    (hdim : ∀ p ∈ ts.zip ls, p.1.shape = p.2.map dim) (hrep : NoInnerRepeats ls) :
    (∃ r, ncon so ts ls con out check = .ok r ∧ ∀ closed,
      Enumerates closed (fun l => l ∈ ls.flatMap id ∧ l.isOpen = false) →
      IsEinsum dim (ts.zip ls) closed (outUsed (ls.flatMap id) out) r) ∨
    ncon so ts ls con out check = .error .valueError := by
  rw [ncon_eq_net so check hv]
  rcases jittable_ok_or_value so (wellLabelled hv hdim hrep hne) with ⟨r, h1, h2, h3⟩ | h
  · exact Or.inl ⟨r, h1, fun closed hcl => isEinsum_of_engine hv h2 h3 hcl⟩
  · exact Or.inr h

/-- **C01.** Whenever `ncon` returns a tensor, it is the Einstein sum of the labelled
tensors: the axes are the output labels, and the entry at `i` is the sum over all values of
the closed labels of the product of the matching entries. -/
theorem C01_ncon_is_einsum (so : SetOrder) {ts : List (NDArray R)} {ls : List (List Lab)}
    {con out : Option (List Lab)} {r : NDArray R}
    (h : ncon so ts ls con out true = .ok r)
    (hrep : NoInnerRepeats ls) (hopen : OpenDimsAgree ts ls) :
    ∃ dim : Lab → Nat, (∀ p ∈ ts.zip ls, p.1.shape = p.2.map dim) ∧
    ∃ o, OutputOrder (ls.flatMap id) out o ∧
    ∀ closed, Enumerates closed (fun l => l ∈ ls.flatMap id ∧ l.isOpen = false) →
      IsEinsum dim (ts.zip ls) closed o r := by
  have hv := valid_of_ncon_ok h
  have hne : ts ≠ [] := by rintro rfl; exact ncon_nil so h
  obtain ⟨dim, hdim⟩ := exists_dim hv hopen
  refine ⟨dim, hdim, _, outputOrder_used _ _, fun closed hcl => ?_⟩
  rcases ncon_value so true hne hv hdim hrep with ⟨r', h1, h2⟩ | h1
  · rw [h] at h1
    cases h1
    exact h2 closed hcl
  · rw [h] at h1
    cases h1

/-- **C01**, failure side: on such networks the only possible exception is `ValueError`; a
wrong tensor or another exception is impossible. -/
theorem C01_value_or_valueError (so : SetOrder) {ts : List (NDArray R)} {ls : List (List Lab)}
    {con out : Option (List Lab)} (hne : ts ≠ [])
    (hv : ValidRequest ls (ts.map NDArray.shape) con out)
    (hrep : NoInnerRepeats ls) (hopen : OpenDimsAgree ts ls)
    (hc : con ≠ some []) (ho : out ≠ some []) (check : Bool) :
    (∃ r, ncon so ts ls con out check = .ok r) ∨
      ncon so ts ls con out check = .error .valueError := by
  obtain ⟨dim, hdim⟩ := exists_dim hv hopen
  have e1 : eff con = con := by simp [eff, hc]
  have e2 : eff out = out := by simp [eff, ho]
  have hv' : ValidRequest ls (ts.map NDArray.shape) (eff con) (eff out) := by rwa [e1, e2]
  rcases ncon_value so check hne hv' hdim hrep with ⟨r, h1, _⟩ | h1
  · exact Or.inl ⟨r, h1⟩
  · exact Or.inr h1

/-- **C02.** Two successful calls that differ only in the contraction order (and in the set
iteration order of the interpreter) return equal tensors. -/
theorem C02_con_order_independent (so so' : SetOrder) {ts : List (NDArray R)}
    {ls : List (List Lab)} {con con' out : Option (List Lab)} {r r' : NDArray R}
    (h : ncon so ts ls con out true = .ok r) (h' : ncon so' ts ls con' out true = .ok r')
    (hrep : NoInnerRepeats ls) (hopen : OpenDimsAgree ts ls) : Same r r' := by
  have hv := valid_of_ncon_ok h
  have hv' := valid_of_ncon_ok h'
  have hne : ts ≠ [] := by rintro rfl; exact ncon_nil so h
  obtain ⟨dim, hdim⟩ := exists_dim hv hopen
  have hcl := conUsed_enum hv
  rcases ncon_value so true hne hv hdim hrep with ⟨r1, h1, h2⟩ | h1
  · rcases ncon_value so' true hne hv' hdim hrep with ⟨r1', h1', h2'⟩ | h1'
    · rw [h] at h1; rw [h'] at h1'
      cases h1; cases h1'
      exact (h2 _ hcl).same (h2' _ hcl)
    · rw [h'] at h1'; cases h1'
  · rw [h] at h1; cases h1

/-- **C03.** `ncon` succeeds on every well-formed network in which each closed label occurs
at most twice, and the closed labels that occur once all sit on one tensor; in particular
on every ordinary network, and for every permutation of the closed labels. -/
theorem C03_ncon_total (so : SetOrder) {ts : List (NDArray R)} {ls : List (List Lab)}
    {con out : Option (List Lab)} (hne : ts ≠ [])
    (hv : ValidRequest ls (ts.map NDArray.shape) con out)
    (hrep : NoInnerRepeats ls) (hopen : OpenDimsAgree ts ls)
    (hc : con ≠ some []) (ho : out ≠ some [])
    (htwo : ∀ l ∈ ls.flatMap id, l.isOpen = false → (ls.flatMap id).count l ≤ 2)
    (hone : ∀ t ∈ ls, ∀ l ∈ t, l.isOpen = false → (ls.flatMap id).count l = 1 →
      ∀ l' ∈ ls.flatMap id, l'.isOpen = false → (ls.flatMap id).count l' = 1 → l' ∈ t) :
    ∃ r, ncon so ts ls con out true = .ok r := by
  obtain ⟨dim, hdim⟩ := exists_dim hv hopen
  have e1 : eff con = con := by simp [eff, hc]
  have e2 : eff out = out := by simp [eff, ho]
  have hv' : ValidRequest ls (ts.map NDArray.shape) (eff con) (eff out) := by rwa [e1, e2]
  have hlen : ts.length = ls.length := by simpa using hv.count.symm
  have h0 : Lab.num 0 ∉ ls.flatMap id := fun hx => hv.allowed _ hx rfl
  have hinj : ∀ a ∈ ls.flatMap id, ∀ b ∈ ls.flatMap id,
      canon (ls.flatMap id) a = canon (ls.flatMap id) b → a = b :=
    fun a ha b hb h => canon_inj h0 ha hb h
  have hin : ∀ t ∈ ls, ∀ l ∈ t, l ∈ ls.flatMap id := fun t ht l hl => by
    rw [List.mem_flatMap]; exact ⟨t, ht, hl⟩
  have hclosed : ∀ l ∈ ls.flatMap id, 0 < canon (ls.flatMap id) l → l.isOpen = false := by
    intro l hl hpos
    by_contra hne
    have := canon_lt hl (by simpa using hne)
    omega
  rw [ncon_eq_net so true hv']
  refine jittable_ok so (wellLabelled hv' hdim hrep hne) ?_ ?_
  · rw [flat_canonNet hlen]
    intro l hl hpos
    obtain ⟨x, hx, rfl⟩ := List.mem_map.1 hl
    rw [count_map_injOn hinj (fun y hy => hy) hx]
    exact htwo x hx (hclosed x hx hpos)
  · rw [flat_canonNet hlen]
    intro p hp l hl hpos h1 l' hpos' h1'
    obtain ⟨q, hq, rfl⟩ := List.mem_map.1 hp
    have hq2 := (List.of_mem_zip hq).2
    obtain ⟨x, hx, rfl⟩ := List.mem_map.1 hl
    have hxf := hin q.2 hq2 x hx
    have hl' : l' ∈ (ls.flatMap id).map (canon (ls.flatMap id)) :=
      List.count_pos_iff.1 (by omega)
    obtain ⟨y, hy, rfl⟩ := List.mem_map.1 hl'
    rw [count_map_injOn hinj (fun y hy => hy) hxf] at h1
    rw [count_map_injOn hinj (fun y hy => hy) hy] at h1'
    exact List.mem_map.2 ⟨y, hone q.2 hq2 x hx (hclosed x hxf hpos) h1 y hy
      (hclosed y hy hpos') h1', rfl⟩

theorem count_le_flat {ls : List (List Lab)} {t : List Lab} (ht : t ∈ ls) (l : Lab) :
    t.count l ≤ (ls.flatMap id).count l := by
  induction ls with
  | nil => simp at ht
  | cons a ls ih =>
    rw [List.flatMap_cons, List.count_append]
    rcases List.mem_cons.1 ht with rfl | h
    · simp
    · have := ih h; omega

/-- In an ordinary network no label is repeated in a bad way. -/
theorem ordinary_conditions {ts : List (NDArray R)} {ls : List (List Lab)}
    (hlen : ts.length = ls.length)
    (hcnt : ∀ l ∈ ls.flatMap id,
      (ls.flatMap id).count l = if l.isOpen = true then 1 else 2) :
    NoInnerRepeats ls ∧ OpenDimsAgree ts ls := by
  have hin : ∀ t ∈ ls, ∀ l ∈ t, l ∈ ls.flatMap id := fun t ht l hl => by
    rw [List.mem_flatMap]; exact ⟨t, ht, hl⟩
  constructor
  · intro t ht l hl
    have h1 := hcnt l (hin t ht l hl)
    have h2 := count_le_flat ht l
    have h3 : 0 < t.count l := List.count_pos_iff.2 hl
    by_cases h : l.isOpen = true
    · rw [if_pos h] at h1; left; omega
    · rw [if_neg h] at h1
      have h' : l.isOpen = false := by simpa using h
      by_cases h4 : t.count l = 1
      · exact Or.inl h4
      · exact Or.inr ⟨h', by omega, by omega⟩
  · -- an open label occurs at one place only
    have key : ∀ (zs : List (NDArray R × List Lab)) (l : Lab),
        ((zs.map Prod.snd).flatMap id).count l ≤ 1 →
        ∀ p ∈ zs, ∀ q ∈ zs, ∀ x ∈ p.1.shape.zip p.2, ∀ y ∈ q.1.shape.zip q.2,
        x.2 = l → y.2 = l → x.1 = y.1 := by
      have one : ∀ (sh : List Nat) (lb : List Lab) (l : Lab), lb.count l ≤ 1 →
          ∀ x ∈ sh.zip lb, ∀ y ∈ sh.zip lb, x.2 = l → y.2 = l → x.1 = y.1 := by
        intro sh
        induction sh with
        | nil => intro lb l _ x hx; simp at hx
        | cons d sh ih =>
          intro lb l hcl x hx y hy hxl hyl
          cases lb with
          | nil => simp at hx
          | cons a lb =>
            rw [List.zip_cons_cons] at hx hy
            rw [List.count_cons] at hcl
            rcases List.mem_cons.1 hx with rfl | hx'
            · rcases List.mem_cons.1 hy with rfl | hy'
              · rfl
              · have hxl' : a = l := hxl
                have : 0 < lb.count l := List.count_pos_iff.2 (hyl ▸ (List.of_mem_zip hy').2)
                simp [hxl'] at hcl
                omega
            · rcases List.mem_cons.1 hy with rfl | hy'
              · have hyl' : a = l := hyl
                have : 0 < lb.count l := List.count_pos_iff.2 (hxl ▸ (List.of_mem_zip hx').2)
                simp [hyl'] at hcl
                omega
              · exact ih lb l (by omega) x hx' y hy' hxl hyl
      intro zs
      induction zs with
      | nil => intro l _ p hp; simp at hp
      | cons z zs ih =>
        intro l hcl p hp q hq x hx y hy hxl hyl
        rw [List.map_cons, List.flatMap_cons, List.count_append] at hcl
        simp only [id] at hcl
        have hxc : 0 < p.2.count l := List.count_pos_iff.2 (hxl ▸ (List.of_mem_zip hx).2)
        have hyc : 0 < q.2.count l := List.count_pos_iff.2 (hyl ▸ (List.of_mem_zip hy).2)
        have hle : ∀ p ∈ zs, p.2.count l ≤ ((zs.map Prod.snd).flatMap id).count l :=
          fun p hp => count_le_flat (List.mem_map.2 ⟨p, hp, rfl⟩) l
        rcases List.mem_cons.1 hp with rfl | hp'
        · rcases List.mem_cons.1 hq with rfl | hq'
          · exact one _ _ l (by omega) x hx y hy hxl hyl
          · have := hle q hq'; omega
        · rcases List.mem_cons.1 hq with rfl | hq'
          · have := hle p hp'; omega
          · exact ih l (by omega) p hp' q hq' x hx y hy hxl hyl
    intro p hp q hq x hx y hy hxy hop
    refine key (ts.zip ls) x.2 ?_ p hp q hq x hx y hy rfl hxy.symm
    rw [zip_snd hlen]
    have hxf : x.2 ∈ ls.flatMap id := hin p.2 (List.of_mem_zip hp).2 _ (List.of_mem_zip hx).2
    have := hcnt x.2 hxf
    rw [if_pos hop] at this
    omega

/-- **C03**, as in the property list: closed labels occur exactly twice and open labels
exactly once. -/
theorem C03_ordinary_network (so : SetOrder) {ts : List (NDArray R)} {ls : List (List Lab)}
    {con out : Option (List Lab)} (hne : ts ≠ [])
    (hv : ValidRequest ls (ts.map NDArray.shape) con out)
    (hc : con ≠ some []) (ho : out ≠ some [])
    (hcnt : ∀ l ∈ ls.flatMap id,
      (ls.flatMap id).count l = if l.isOpen = true then 1 else 2) :
    ∃ r, ncon so ts ls con out true = .ok r := by
  have hlen : ts.length = ls.length := by simpa using hv.count.symm
  have hin : ∀ t ∈ ls, ∀ l ∈ t, l ∈ ls.flatMap id := fun t ht l hl => by
    rw [List.mem_flatMap]; exact ⟨t, ht, hl⟩
  obtain ⟨h1, h2⟩ := ordinary_conditions hlen hcnt
  refine C03_ncon_total so hne hv h1 h2 hc ho ?_ ?_
  · intro l hl h
    rw [hcnt l hl, h]
    simp
  · intro t ht l hl h h1
    rw [hcnt l (hin t ht l hl), h] at h1
    simp at h1

/-- **C04.** The axes of the result are the labels in the documented order, or exactly
`out_order`; the order is unique. -/
theorem C04_axis_order (so : SetOrder) {ts : List (NDArray R)} {ls : List (List Lab)}
    {con out : Option (List Lab)} {r : NDArray R}
    (h : ncon so ts ls con out true = .ok r)
    (hrep : NoInnerRepeats ls) {dim : Lab → Nat}
    (hdim : ∀ p ∈ ts.zip ls, p.1.shape = p.2.map dim) {o : List Lab}
    (ho : OutputOrder (ls.flatMap id) out o) :
    r.shape = o.map dim ∧ ∀ closed,
      Enumerates closed (fun l => l ∈ ls.flatMap id ∧ l.isOpen = false) →
      IsEinsum dim (ts.zip ls) closed o r := by
  have hv := valid_of_ncon_ok h
  have hne : ts ≠ [] := by rintro rfl; exact ncon_nil so h
  rw [ho.unique (outputOrder_used _ _)]
  rcases ncon_value so true hne hv hdim hrep with ⟨r', h1, h2⟩ | h1
  · rw [h] at h1
    cases h1
    exact ⟨(h2 _ (conUsed_enum hv)).1, h2⟩
  · rw [h] at h1
    cases h1

/-- **C04**, two output orders: the result for `out_order = o'` is the result for the
order `o` with its axes permuted accordingly. -/
theorem C04_out_order_permutes (so so' : SetOrder) {ts : List (NDArray R)}
    {ls : List (List Lab)} {con con' out out' : Option (List Lab)} {r r' : NDArray R}
    (h : ncon so ts ls con out true = .ok r) (h' : ncon so' ts ls con' out' true = .ok r')
    (hrep : NoInnerRepeats ls) (hopen : OpenDimsAgree ts ls) {o o' : List Lab}
    (ho : OutputOrder (ls.flatMap id) out o) (ho' : OutputOrder (ls.flatMap id) out' o')
    {pos : Lab → Nat} (hpos : InB r.shape (o.map pos)) :
    InB r'.shape (o'.map pos) ∧ r'.get (o'.map pos) = r.get (o.map pos) := by
  have hv := valid_of_ncon_ok h
  have hv' := valid_of_ncon_ok h'
  obtain ⟨dim, hdim⟩ := exists_dim hv hopen
  have h1 := C04_axis_order so h hrep hdim ho
  have h1' := C04_axis_order so' h' hrep hdim ho'
  have he : Enumerates o (fun l => l ∈ ls.flatMap id ∧ l.isOpen = true) := by
    rw [ho.unique (outputOrder_used _ _)]; exact outUsed_enum hv
  have he' : Enumerates o' (fun l => l ∈ ls.flatMap id ∧ l.isOpen = true) := by
    rw [ho'.unique (outputOrder_used _ _)]; exact outUsed_enum hv'
  have hcl := conUsed_enum hv
  have hb : ∀ l ∈ o, pos l < dim l := by
    rw [h1.1] at hpos
    rwa [inB_map] at hpos
  have hb' : ∀ l ∈ o', pos l < dim l := fun l hl => hb l ((he.2 l).2 ((he'.2 l).1 hl))
  have hin' : InB r'.shape (o'.map pos) := by rw [h1'.1, inB_map]; exact hb'
  refine ⟨hin', ?_⟩
  have E := (h1.2 _ hcl).2 (o.map pos) (by rw [← h1.1]; exact hpos)
  have E' := (h1'.2 _ hcl).2 (o'.map pos) (by rw [← h1'.1]; exact hin')
  rw [E, E']
  refine sumIdx_congr fun c _ => ?_
  congr 1
  refine List.map_congr_left fun p _ => ?_
  congr 1
  refine List.map_congr_left fun l hl => ?_
  unfold posOf
  have hiff : l ∈ o ↔ l ∈ o' := by rw [he.2, he'.2]
  by_cases hm : l ∈ o
  · rw [if_pos hm, if_pos (hiff.1 hm)]
    have g : ∀ (k : List Lab), l ∈ k → (k.map pos).getD (k.idxOf l) 0 = pos l := by
      intro k hk
      have := List.idxOf_lt_length_of_mem hk
      rw [List.getD_eq_getElem _ _ (by simpa using this), List.getElem_map,
        List.getElem_idxOf]
    rw [g o hm, g o' (hiff.1 hm)]
  · rw [if_neg hm, if_neg (fun h => hm (hiff.2 h))]

/-- **C05.** `_check_network` accepts exactly the well-formed requests. -/
theorem C05_check_network_exact {ls : List (List Lab)} {dims : List (List Nat)}
    {con out : Option (List Lab)} :
    checkNetwork ls dims con out = .ok () ↔ ValidRequest ls dims con out :=
  checkNetwork_iff

/-- **C05**, effect on `ncon`: a tensor comes back only for a well-formed request (with an
empty `con_order`/`out_order` meaning none was given). -/
theorem C05_ncon_ok_valid (so : SetOrder) {ts : List (NDArray R)} {ls : List (List Lab)}
    {con out : Option (List Lab)} {r : NDArray R} (h : ncon so ts ls con out true = .ok r) :
    ValidRequest ls (ts.map NDArray.shape)
      (if con = some [] then none else con) (if out = some [] then none else out) :=
  valid_of_ncon_ok h

end TN.Ncon
