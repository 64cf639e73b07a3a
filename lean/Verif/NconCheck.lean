import Verif.NconSpec
import Verif.NconCanon

/-!
# Proofs about the label checks and the call of the engine
-/

set_option linter.unusedSectionVars false

namespace TN.Ncon

open NDArray

section check

variable {fl : List Lab}

theorem isOpen_empty : Lab.isOpen (.str "") = false := by decide

theorem not_isAlnum_empty : isAlnum "" = false := by decide

/-- Sorted closed labels of `_get_cont_out_labels`. -/
def contOf (fl : List Lab) : List Lab :=
  (getContOutLabels fl).1.map Lab.num ++ (getContOutLabels fl).2.1.map Lab.str

def outOf (fl : List Lab) : List Lab :=
  (getContOutLabels fl).2.2.1.map Lab.num ++ (getContOutLabels fl).2.2.2.map Lab.str

theorem mem_contOf {l : Lab} : l ∈ contOf fl ↔ l ∈ fl ∧ l.isOpen = false := by
  unfold contOf getContOutLabels
  cases l with
  | num i =>
    simp only [List.mem_append, List.mem_map, reduceCtorEq, and_false, exists_false, or_false,
      Lab.num.injEq, exists_eq_right, (sortInt_perm _).mem_iff, List.mem_filter,
      mem_intLabels, Lab.isOpen, decide_eq_true_eq, decide_eq_false_iff_not, not_lt]
  | str s =>
    simp only [List.mem_append, List.mem_map, reduceCtorEq, and_false, exists_false, false_or,
      Lab.str.injEq, exists_eq_right, (sortStr_perm _).mem_iff,
      List.mem_filter, mem_strLabels, Bool.not_eq_eq_eq_not, Bool.not_true]

theorem mem_outOf {l : Lab} : l ∈ outOf fl ↔ l ∈ fl ∧ l.isOpen = true := by
  unfold outOf getContOutLabels
  cases l with
  | num i =>
    simp only [List.mem_append, List.mem_map, reduceCtorEq, and_false, exists_false, or_false,
      Lab.num.injEq, exists_eq_right, List.mem_reverse, (sortInt_perm _).mem_iff, List.mem_filter,
      mem_intLabels, Lab.isOpen]
  | str s =>
    simp only [List.mem_append, List.mem_map, reduceCtorEq, and_false, exists_false, false_or,
      Lab.str.injEq, exists_eq_right, (sortStr_perm _).mem_iff,
      List.mem_filter, mem_strLabels]

theorem contOf_nodup (fl : List Lab) : (contOf fl).Nodup := by
  unfold contOf getContOutLabels
  rw [List.nodup_append]
  refine ⟨List.Nodup.map num_injective ?_, List.Nodup.map str_injective ?_, ?_⟩
  · rw [(sortInt_perm _).nodup_iff]
    exact (List.nodup_dedup _).filter _
  · rw [(sortStr_perm _).nodup_iff]
    exact (List.nodup_dedup _).filter _
  · intro a ha b hb hab
    obtain ⟨i, _, rfl⟩ := List.mem_map.1 ha
    obtain ⟨s, _, rfl⟩ := List.mem_map.1 hb
    cases hab

theorem outOf_nodup (fl : List Lab) : (outOf fl).Nodup := by
  unfold outOf getContOutLabels
  rw [List.nodup_append]
  refine ⟨List.Nodup.map num_injective ?_, List.Nodup.map str_injective ?_, ?_⟩
  · rw [List.nodup_reverse, (sortInt_perm _).nodup_iff]
    exact (List.nodup_dedup _).filter _
  · rw [(sortStr_perm _).nodup_iff]
    exact (List.nodup_dedup _).filter _
  · intro a ha b hb hab
    obtain ⟨i, _, rfl⟩ := List.mem_map.1 ha
    obtain ⟨s, _, rfl⟩ := List.mem_map.1 hb
    cases hab

theorem all_count_one {l : List Lab} : l.all (fun x => l.count x == 1) = true ↔ l.Nodup := by
  rw [List.all_eq_true, List.nodup_iff_count_le_one]
  constructor
  · intro h x
    by_cases hx : x ∈ l
    · have := h x hx
      simp only [beq_iff_eq] at this
      omega
    · rw [List.count_eq_zero.2 hx]; omega
  · intro h x hx
    have h1 := h x
    have h2 : 0 < l.count x := List.count_pos_iff.2 hx
    simp only [beq_iff_eq]
    omega

/-- A duplicate-free list of the right length inside a duplicate-free list enumerates it. -/
theorem enumerates_of_length {c k : List Lab} {P : Lab → Prop} (hk : k.Nodup)
    (hkP : ∀ x, x ∈ k ↔ P x) (hc : c.Nodup) (hsub : ∀ x ∈ c, P x) (hlen : c.length = k.length) :
    Enumerates c P := by
  refine ⟨hc, fun x => ⟨hsub x, fun hx => ?_⟩⟩
  have hs : c.Subperm k := List.subperm_of_subset hc (fun y hy => (hkP y).2 (hsub y hy))
  have hp : c.Perm k := hs.perm_of_length_le (by omega)
  exact hp.mem_iff.2 ((hkP x).2 hx)

theorem length_of_enumerates {c k : List Lab} {P : Lab → Prop} (hk : k.Nodup)
    (hkP : ∀ x, x ∈ k ↔ P x) (hc : Enumerates c P) : c.length = k.length :=
  ((List.perm_ext_iff_of_nodup hc.1 hk).2 (fun x => by rw [hc.2, hkP])).length_eq

theorem checkCon_iff {con : List Lab} : checkCon fl (contOf fl) con = true ↔
    Enumerates con (fun l => l ∈ fl ∧ l.isOpen = false) := by
  unfold checkCon
  simp only [Bool.and_eq_true, beq_iff_eq, all_count_one]
  simp only [List.all_eq_true, Bool.not_eq_eq_eq_not, Bool.not_true, List.contains_iff_mem]
  constructor
  · rintro ⟨⟨⟨h1, h2⟩, h3⟩, h4⟩
    exact enumerates_of_length (contOf_nodup fl) (fun x => mem_contOf) h2
      (fun x hx => ⟨h4 x hx, h1 x hx⟩) h3
  · intro h
    exact ⟨⟨⟨fun x hx => ((h.2 x).1 hx).2, h.1⟩,
      length_of_enumerates (contOf_nodup fl) (fun x => mem_contOf) h⟩,
      fun x hx => ((h.2 x).1 hx).1⟩

theorem checkOut_iff (h0 : Lab.num 0 ∉ fl) {out : List Lab} :
    checkOut fl (outOf fl) out = true ↔
    Enumerates out (fun l => l ∈ fl ∧ l.isOpen = true) := by
  unfold checkOut
  simp only [Bool.and_eq_true, beq_iff_eq, all_count_one]
  simp only [List.all_eq_true, List.contains_iff_mem]
  constructor
  · rintro ⟨⟨⟨h1, h2⟩, h3⟩, h4⟩
    refine enumerates_of_length (outOf_nodup fl) (fun x => mem_outOf) h2 ?_ h3
    intro x hx
    refine ⟨h4 x hx, ?_⟩
    have := h1 x hx
    cases x with
    | num i =>
      simp only [decide_eq_true_eq] at this
      have hne : i ≠ 0 := fun h => h0 (h ▸ h4 _ hx)
      simp only [Lab.isOpen, decide_eq_true_eq]
      omega
    | str s => exact this
  · intro h
    refine ⟨⟨⟨fun x hx => ?_, h.1⟩,
      length_of_enumerates (outOf_nodup fl) (fun x => mem_outOf) h⟩,
      fun x hx => ((h.2 x).1 hx).1⟩
    have := ((h.2 x).1 hx).2
    cases x with
    | num i =>
      simp only [Lab.isOpen, decide_eq_true_eq] at this ⊢
      omega
    | str s => exact this

theorem mem_labelDims {ls : List (List Lab)} {dims : List (List Nat)} {l : Lab} {d : Nat} :
    d ∈ labelDims ls dims l ↔ ∃ p ∈ ls.zip dims, ∃ x ∈ p.1.zip p.2, x.1 = l ∧ x.2 = d := by
  unfold labelDims
  simp only [List.mem_flatMap, List.mem_filterMap]
  constructor
  · rintro ⟨p, hp, x, hx, h⟩
    split at h
    · exact ⟨p, hp, x, hx, ‹_›, by simpa using h⟩
    · simp at h
  · rintro ⟨p, hp, x, hx, h1, h2⟩
    exact ⟨p, hp, x, hx, by rw [if_pos h1, h2]⟩

theorem dedup_length_le_one {l : List Nat} :
    l.dedup.length ≤ 1 ↔ ∀ a ∈ l, ∀ b ∈ l, a = b := by
  constructor
  · intro h a ha b hb
    have ha' := List.mem_dedup.2 ha
    have hb' := List.mem_dedup.2 hb
    match hd : l.dedup, h with
    | [], _ => rw [hd] at ha'; simp at ha'
    | [x], _ =>
      rw [hd] at ha' hb'
      simp at ha' hb'
      rw [ha', hb']
    | _ :: _ :: _, h => simp at h
  · intro h
    match hd : l.dedup with
    | [] => simp
    | [x] => simp
    | x :: y :: t =>
      exfalso
      have hn := List.nodup_dedup l
      rw [hd] at hn
      have hx : x ∈ l := List.mem_dedup.1 (by rw [hd]; simp)
      have hy : y ∈ l := List.mem_dedup.1 (by rw [hd]; simp)
      have := h x hx y hy
      subst this
      simp at hn

theorem alnum_iff (hstr : Lab.str "" ∉ fl) :
    ((getContOutLabels fl).2.1 ++ (getContOutLabels fl).2.2.2.map Lab.body).all isAlnum = true ↔
    ∀ s, Lab.str s ∈ fl → isAlnum (Lab.body s) = true := by
  unfold getContOutLabels
  simp only [List.all_eq_true, List.mem_append, List.mem_map, (sortStr_perm _).mem_iff,
    List.mem_filter, mem_strLabels]
  constructor
  · intro h s hs
    by_cases ho : Lab.isOpen (.str s) = true
    · exact h _ (Or.inr ⟨s, ⟨hs, ho⟩, rfl⟩)
    · have hb : Lab.body s = s := by simp [Lab.body, ho]
      rw [hb]
      exact h s (Or.inl ⟨hs, by simpa using ho⟩)
  · rintro h s (⟨h1, h2⟩ | ⟨t, ⟨h1, h2⟩, rfl⟩)
    · have := h s h1
      have hb : Lab.body s = s := by
        simp only [Bool.not_eq_eq_eq_not, Bool.not_true] at h2
        simp [Lab.body, h2]
      rwa [hb] at this
    · exact h t h1

theorem checkNetwork_iff {ls : List (List Lab)} {dims : List (List Nat)}
    {con out : Option (List Lab)} :
    checkNetwork ls dims con out = .ok () ↔ ValidRequest ls dims con out := by
  set fl := ls.flatMap id with hfl
  have hc0 : ((getContOutLabels fl).1.count 0 > 0) ↔ Lab.num 0 ∈ fl := by
    rw [gt_iff_lt, List.count_pos_iff]
    simp only [getContOutLabels, (sortInt_perm _).mem_iff, List.mem_filter, mem_intLabels]
    simp
  constructor
  · intro h
    unfold checkNetwork at h
    simp only [← hfl] at h
    split_ifs at h with h1 h2 h3 h4 h5 h6 h7 h8
    simp only [not_not] at h1 h2 h4 h6 h7 h8
    have h0 : Lab.num 0 ∉ fl := fun hx => h5 (hc0.2 hx)
    have hstr : Lab.str "" ∉ fl := by simpa using h3
    refine ⟨h1, ?_, ?_, ?_, ?_, ?_⟩
    · intro p hp
      rw [List.all_eq_true] at h2
      have := h2 p hp
      simp only [beq_iff_eq] at this
      exact this.symm
    · intro l hl
      cases l with
      | num i =>
        intro hi
        exact h0 (hi ▸ hl)
      | str s => exact (alnum_iff hstr).1 h4 s hl
    · intro c hc
      subst hc
      exact checkCon_iff.1 h6
    · intro o ho
      subst ho
      exact (checkOut_iff h0).1 h7
    · intro p hp q hq x hx y hy hxy hcl
      rw [List.all_eq_true] at h8
      have hm : x.1 ∈ contOf fl := by
        rw [mem_contOf]
        refine ⟨?_, hcl⟩
        rw [hfl, List.mem_flatMap]
        exact ⟨p.1, (List.of_mem_zip hp).1, (List.of_mem_zip hx).1⟩
      have := h8 x.1 hm
      simp only [decide_eq_true_eq] at this
      rw [dedup_length_le_one] at this
      exact this _ (mem_labelDims.2 ⟨p, hp, x, hx, rfl, rfl⟩) _
        (mem_labelDims.2 ⟨q, hq, y, hy, hxy.symm, rfl⟩)
  · intro h
    have h0 : Lab.num 0 ∉ fl := fun hx => h.allowed _ hx rfl
    have hstr : Lab.str "" ∉ fl := by
      intro hx
      have := h.allowed _ hx
      simp only [Lab.Allowed, Lab.body, isOpen_empty] at this
      revert this
      decide
    unfold checkNetwork
    simp only [← hfl]
    rw [if_neg (not_not.2 h.count), if_neg, if_neg, if_neg, if_neg, if_neg, if_neg, if_neg]
    · rw [not_not, List.all_eq_true]
      intro l hl
      simp only [decide_eq_true_eq]
      rw [dedup_length_le_one]
      intro a ha b hb
      obtain ⟨p, hp, x, hx, rfl, rfl⟩ := mem_labelDims.1 ha
      obtain ⟨q, hq, y, hy, hxy, rfl⟩ := mem_labelDims.1 hb
      have : x.1 ∈ contOf fl := hl
      exact h.dims_eq p hp q hq x hx y hy hxy.symm (mem_contOf.1 this).2
    · rw [not_not]
      cases out with
      | none => rfl
      | some o => exact (checkOut_iff h0).2 (h.out_enum o rfl)
    · rw [not_not]
      cases con with
      | none => rfl
      | some c => exact checkCon_iff.2 (h.con_enum c rfl)
    · intro hx
      exact h0 (hc0.1 hx)
    · rw [not_not, alnum_iff hstr]
      intro s hs
      exact h.allowed _ hs
    · simpa using hstr
    · rw [not_not, List.all_eq_true]
      intro p hp
      simp only [beq_iff_eq]
      exact (h.rank p hp).symm

end check

/-- An empty list counts as no list (ncon_interface.py:611-614). -/
def eff (o : Option (List Lab)) : Option (List Lab) := if o = some [] then none else o

/-- The output labels actually used. -/
def outUsed (fl : List Lab) (o : Option (List Lab)) : List Lab :=
  (eff o).getD (negKeys fl).reverse

/-- The contraction order actually used. -/
def conUsed (fl : List Lab) (o : Option (List Lab)) : List Lab :=
  (eff o).getD (posKeys fl)

theorem outputOrder_used (fl : List Lab) (o : Option (List Lab)) :
    OutputOrder fl o (outUsed fl o) := by
  have hdef : Enumerates (negKeys fl).reverse (fun l => l ∈ fl ∧ l.isOpen = true) ∧
      (negKeys fl).reverse.Pairwise Before := by
    refine ⟨⟨List.nodup_reverse.2 (negKeys_nodup fl), fun x => by
      rw [List.mem_reverse, mem_negKeys]⟩, ?_⟩
    unfold negKeys
    rw [List.reverse_append, List.pairwise_append]
    refine ⟨?_, ?_, ?_⟩
    · rw [← List.map_reverse, List.pairwise_map, List.pairwise_reverse]
      have h1 := sortInt_sorted ((intLabels fl).filter (fun i => i < 0))
      have h2 : (sortInt ((intLabels fl).filter (fun i => i < 0))).Nodup := by
        rw [(sortInt_perm _).nodup_iff]
        exact (List.nodup_dedup _).filter _
      refine (h1.and h2).imp ?_
      rintro a b ⟨hab, hne⟩
      simp only [Before]
      omega
    · rw [← List.map_reverse, List.pairwise_map, List.reverse_reverse]
      have h1 := sortStr_sorted ((strLabels fl).filter (fun s => Lab.isOpen (.str s)))
      have h2 : (sortStr ((strLabels fl).filter (fun s => Lab.isOpen (.str s)))).Nodup := by
        rw [(sortStr_perm _).nodup_iff]
        exact (List.nodup_dedup _).filter _
      refine (h1.and h2).imp ?_
      rintro a b ⟨hab, hne⟩
      exact lt_of_le_of_ne hab hne
    · intro a ha b hb
      simp only [List.mem_reverse, List.mem_map] at ha hb
      obtain ⟨i, _, rfl⟩ := ha
      obtain ⟨s, _, rfl⟩ := hb
      trivial
  match o with
  | none => exact hdef
  | some [] => exact hdef
  | some (x :: xs) => rfl

section call

variable {R : Type} [CommSemiring R]

theorem outUsed_enum {ls : List (List Lab)} {dims : List (List Nat)} {con out : Option (List Lab)}
    (hv : ValidRequest ls dims (eff con) (eff out)) :
    Enumerates (outUsed (ls.flatMap id) out) (fun l => l ∈ ls.flatMap id ∧ l.isOpen = true) := by
  unfold outUsed
  match h : eff out with
  | none =>
    exact ⟨List.nodup_reverse.2 (negKeys_nodup _), fun x => by
      rw [Option.getD_none, List.mem_reverse, mem_negKeys]⟩
  | some o => exact hv.out_enum o h

theorem conUsed_enum {ls : List (List Lab)} {dims : List (List Nat)} {con out : Option (List Lab)}
    (hv : ValidRequest ls dims (eff con) (eff out)) :
    Enumerates (conUsed (ls.flatMap id) con) (fun l => l ∈ ls.flatMap id ∧ l.isOpen = false) := by
  have h0 : Lab.num 0 ∉ ls.flatMap id := fun hx => hv.allowed _ hx rfl
  unfold conUsed
  match h : eff con with
  | none =>
    refine ⟨posKeys_nodup _, fun x => ?_⟩
    rw [Option.getD_none, mem_posKeys]
    constructor
    · rintro ⟨h1, h2, _⟩; exact ⟨h1, h2⟩
    · rintro ⟨h1, h2⟩; exact ⟨h1, h2, fun h => h0 (h ▸ h1)⟩
  | some o => exact hv.con_enum o h

/-- `ncon` on a valid request calls the engine with the mapped labels. -/
theorem ncon_eq (so : SetOrder) {ts : List (NDArray R)} {ls : List (List Lab)}
    {con out : Option (List Lab)} (check : Bool)
    (hv : ValidRequest ls (ts.map NDArray.shape) (eff con) (eff out)) :
    ncon so ts ls con out check = jittableNcon so ts ((ls.flatMap id).map (canon (ls.flatMap id)))
      (ls.map List.length) ((conUsed (ls.flatMap id) con).map (canon (ls.flatMap id)))
      ((outUsed (ls.flatMap id) out).map (canon (ls.flatMap id))) := by
  set fl := ls.flatMap id with hfl
  have h0 : Lab.num 0 ∉ fl := fun hx => hv.allowed _ hx rfl
  have hstr : Lab.str "" ∉ fl := by
    intro hx
    have := hv.allowed _ hx
    simp only [Lab.Allowed, Lab.body, isOpen_empty] at this
    revert this
    decide
  have hlen : ts.length = ls.length := by simpa using hv.count.symm
  have hmap : pyMap (lookupAll fl) ls = .ok (ls.map (fun l => l.map (canon fl))) := by
    have : ∀ ls' : List (List Lab), (∀ l ∈ ls', ∀ x ∈ l, x ∈ fl) →
        pyMap (lookupAll fl) ls' = .ok (ls'.map (fun l => l.map (canon fl))) := by
      intro ls' h
      induction ls' with
      | nil => rfl
      | cons a ls' ih =>
        simp [pyMap, lookupAll_ok h0 (h a (by simp)), ih (fun l hl => h l (by simp [hl]))]
    apply this
    intro l hl x hx
    rw [hfl, List.mem_flatMap]
    exact ⟨l, hl, hx⟩
  have hflatC : (ls.map (fun l => l.map (canon fl))).flatMap id = fl.map (canon fl) := by
    rw [hfl, List.map_flatMap, List.flatMap_map]
    rfl
  have hchk := checkNetwork_iff.2 hv
  have houtE := outUsed_enum hv
  have hconE := conUsed_enum hv
  rw [← hfl] at houtE hconE
  have hout0 : eff out = none →
      (sortInt ((fl.map (canon fl)).dedup.filter (fun l => l < 0))).reverse =
        (outUsed fl out).map (canon fl) := by
    intro h
    rw [outUsed, h, Option.getD_none, default_out h0]
  have hout1 : ∀ o, eff out = some o → lookupAll fl o = .ok ((outUsed fl out).map (canon fl)) := by
    intro o h
    rw [outUsed, h, Option.getD_some] at houtE ⊢
    exact lookupAll_ok h0 (fun x hx => ((houtE.2 x).1 hx).1)
  have hcon0 : eff con = none →
      sortInt ((fl.map (canon fl)).dedup.filter (fun l => l > 0)) =
        (conUsed fl con).map (canon fl) := by
    intro h
    rw [conUsed, h, Option.getD_none, default_con h0]
  have hcon1 : ∀ o, eff con = some o → lookupAll fl o = .ok ((conUsed fl con).map (canon fl)) := by
    intro o h
    rw [conUsed, h, Option.getD_some] at hconE ⊢
    exact lookupAll_ok h0 (fun x hx => ((hconE.2 x).1 hx).1)
  have hlens : (ls.map (fun l => l.map (canon fl))).map List.length = ls.map List.length := by
    simp [List.map_map, Function.comp_def]
  generalize hce : (conUsed fl con).map (canon fl) = cu at *
  generalize hoe : (outUsed fl out).map (canon fl) = ou at *
  unfold ncon
  simp only [← hfl, hmap]
  have e1 : (if con = some [] then none else con) = eff con := rfl
  have e2 : (if out = some [] then none else out) = eff out := rfl
  simp only [e1, e2]
  generalize eff con = ce at *
  generalize eff out = oe at *
  cases check <;> rcases ce with _ | cc <;> rcases oe with _ | oo <;>
    simp only [if_true, Bool.false_eq_true, if_false, ne_eq, hlen, not_true, hstr, bind,
      Except.bind, pure, Except.pure, hchk, hflatC, hlens] <;>
    first
      | rw [hout0 rfl, hcon0 rfl]
      | (rw [hout0 rfl]; simp only [hcon1 _ rfl])
      | (simp only [hout1 _ rfl]; rw [hcon0 rfl])
      | simp only [hout1 _ rfl, hcon1 _ rfl]

/-- A request that passed the checks was valid. -/
theorem valid_of_ncon_ok {so : SetOrder} {ts : List (NDArray R)} {ls : List (List Lab)}
    {con out : Option (List Lab)} {r : NDArray R} (h : ncon so ts ls con out true = .ok r) :
    ValidRequest ls (ts.map NDArray.shape) (eff con) (eff out) := by
  rw [← checkNetwork_iff]
  unfold ncon at h
  simp only [if_true] at h
  erw [py_bind_ok] at h
  obtain ⟨_, h, _⟩ := h
  exact h

/-- The network with canonical labels. -/
def canonNet (ts : List (NDArray R)) (ls : List (List Lab)) : List (LT R) :=
  (ts.zip ls).map (fun p => (p.1, p.2.map (canon (ls.flatMap id))))

theorem zip_snd {ts : List (NDArray R)} {ls : List (List Lab)} (h : ts.length = ls.length) :
    (ts.zip ls).map Prod.snd = ls := List.map_snd_zip (by omega)

theorem zip_fst {ts : List (NDArray R)} {ls : List (List Lab)} (h : ts.length = ls.length) :
    (ts.zip ls).map Prod.fst = ts := List.map_fst_zip (by omega)

theorem flat_canonNet {ts : List (NDArray R)} {ls : List (List Lab)} (h : ts.length = ls.length) :
    flat (canonNet ts ls) = (ls.flatMap id).map (canon (ls.flatMap id)) := by
  have h2 := zip_snd h
  unfold canonNet flat
  rw [List.flatMap_map]
  generalize canon (ls.flatMap id) = m
  conv_rhs => rw [← h2]
  simp [List.map_flatMap, List.flatMap_map]

/-- The dimension of a canonical label. -/
noncomputable def canonDim (fl : List Lab) (dim : Lab → Nat) (i : Int) : Nat :=
  dim ((fl.find? (fun l => canon fl l == i)).getD default)

theorem canonDim_canon {fl : List Lab} (h0 : Lab.num 0 ∉ fl) (dim : Lab → Nat) {l : Lab}
    (hl : l ∈ fl) : canonDim fl dim (canon fl l) = dim l := by
  unfold canonDim
  match h : fl.find? (fun x => canon fl x == canon fl l) with
  | none =>
    rw [List.find?_eq_none] at h
    exact absurd (h l hl) (by simp)
  | some x =>
    have h1 := List.find?_some h
    have h2 := List.mem_of_find?_eq_some h
    simp only [beq_iff_eq] at h1
    rw [Option.getD_some, canon_inj h0 h2 hl h1]

theorem wellLabelled {ts : List (NDArray R)} {ls : List (List Lab)}
    {con out : Option (List Lab)} {dim : Lab → Nat}
    (hv : ValidRequest ls (ts.map NDArray.shape) (eff con) (eff out))
    (hdim : ∀ p ∈ ts.zip ls, p.1.shape = p.2.map dim) (hrep : NoInnerRepeats ls) (hne : ts ≠ []) :
    WellLabelled (canonDim (ls.flatMap id) dim) (canonNet ts ls)
      ((conUsed (ls.flatMap id) con).map (canon (ls.flatMap id)))
      ((outUsed (ls.flatMap id) out).map (canon (ls.flatMap id))) := by
  have hlen : ts.length = ls.length := by simpa using hv.count.symm
  have hflat := flat_canonNet hlen
  set fl := ls.flatMap id with hfl
  have h0 : Lab.num 0 ∉ fl := fun hx => hv.allowed _ hx rfl
  have hinj : ∀ a ∈ fl, ∀ b ∈ fl, canon fl a = canon fl b → a = b :=
    fun a ha b hb h => canon_inj h0 ha hb h
  have hin : ∀ t ∈ ls, ∀ l ∈ t, l ∈ fl := fun t ht l hl => by
    rw [hfl, List.mem_flatMap]; exact ⟨t, ht, hl⟩
  have hc := conUsed_enum hv
  have ho := outUsed_enum hv
  rw [← hfl] at hc ho
  have hsign : ∀ l ∈ fl, (0 < canon fl l ↔ l.isOpen = false) ∧
      (canon fl l < 0 ↔ l.isOpen = true) ∧ canon fl l ≠ 0 := by
    intro l hl
    by_cases h : l.isOpen = true
    · have := canon_lt hl h
      simp only [h]
      refine ⟨⟨fun h' => by omega, fun h' => by simp at h'⟩, ⟨fun _ => trivial, fun _ => this⟩, by omega⟩
    · have h' : l.isOpen = false := by simpa using h
      have := canon_gt hl h' (fun hx => h0 (hx ▸ hl))
      simp only [h']
      refine ⟨⟨fun _ => trivial, fun _ => this⟩, ⟨fun h' => by omega, fun h' => by simp at h'⟩, by omega⟩
  refine ⟨?_, ?_, ?_, ?_, ?_, ?_, ?_, ?_⟩
  · intro p hp
    obtain ⟨q, hq, rfl⟩ := List.mem_map.1 hp
    have := hdim q hq
    simp only [Shaped, this, List.map_map]
    refine List.map_congr_left fun l hl => ?_
    exact (canonDim_canon h0 dim (hin q.2 (List.of_mem_zip hq).2 l hl)).symm
  · intro p hp l hl
    obtain ⟨q, hq, rfl⟩ := List.mem_map.1 hp
    have hq2 := (List.of_mem_zip hq).2
    obtain ⟨x, hx, rfl⟩ := List.mem_map.1 hl
    have hxf := hin q.2 hq2 x hx
    rw [hflat, count_map_injOn hinj (fun y hy => hy) hxf,
      count_map_injOn hinj (fun y hy => hin q.2 hq2 y hy) hxf, (hsign x hxf).1]
    exact hrep q.2 hq2 x hx
  · intro l hl
    rw [hflat] at hl
    obtain ⟨x, hx, rfl⟩ := List.mem_map.1 hl
    exact (hsign x hx).2.2
  · exact hc.1.map_on (fun a ha b hb h => hinj a ((hc.2 a).1 ha).1 b ((hc.2 b).1 hb).1 h)
  · intro l
    rw [hflat]
    simp only [List.mem_map]
    constructor
    · rintro ⟨x, hx, rfl⟩
      have := (hc.2 x).1 hx
      exact ⟨⟨x, this.1, rfl⟩, (hsign x this.1).1.2 this.2⟩
    · rintro ⟨⟨x, hx, rfl⟩, hpos⟩
      exact ⟨x, (hc.2 x).2 ⟨hx, (hsign x hx).1.1 hpos⟩, rfl⟩
  · exact ho.1.map_on (fun a ha b hb h => hinj a ((ho.2 a).1 ha).1 b ((ho.2 b).1 hb).1 h)
  · intro l
    rw [hflat]
    simp only [List.mem_map]
    constructor
    · rintro ⟨x, hx, rfl⟩
      have := (ho.2 x).1 hx
      exact ⟨⟨x, this.1, rfl⟩, (hsign x this.1).2.1.2 this.2⟩
    · rintro ⟨⟨x, hx, rfl⟩, hneg⟩
      exact ⟨x, (ho.2 x).2 ⟨hx, (hsign x hx).2.1.1 hneg⟩, rfl⟩
  · intro h
    unfold canonNet at h
    rw [List.map_eq_nil_iff, List.zip_eq_nil_iff] at h
    rcases h with h | h
    · exact hne h
    · rw [h] at hlen
      exact hne (List.length_eq_zero_iff.1 hlen)

theorem ncon_eq_net (so : SetOrder) {ts : List (NDArray R)} {ls : List (List Lab)}
    {con out : Option (List Lab)} (check : Bool)
    (hv : ValidRequest ls (ts.map NDArray.shape) (eff con) (eff out)) :
    ncon so ts ls con out check =
      jittableNcon so ((canonNet ts ls).map Prod.fst) (flat (canonNet ts ls))
      ((canonNet ts ls).map (fun p => p.2.length))
      ((conUsed (ls.flatMap id) con).map (canon (ls.flatMap id)))
      ((outUsed (ls.flatMap id) out).map (canon (ls.flatMap id))) := by
  have hlen : ts.length = ls.length := by simpa using hv.count.symm
  rw [ncon_eq so check hv, flat_canonNet hlen]
  have h1 : (canonNet ts ls).map Prod.fst = ts := by
    have := zip_fst hlen
    conv_rhs => rw [← this]
    simp [canonNet, List.map_map, Function.comp_def]
  have h2 : (canonNet ts ls).map (fun p => p.2.length) = ls.map List.length := by
    have := zip_snd hlen
    unfold canonNet
    generalize canon (ls.flatMap id) = m
    conv_rhs => rw [← this]
    simp [List.map_map, Function.comp_def]
  rw [h1, h2]

/-- The engine's value in terms of the user's labels. -/
theorem isEinsum_of_engine {ts : List (NDArray R)} {ls : List (List Lab)}
    {con out : Option (List Lab)} {dim : Lab → Nat}
    (hv : ValidRequest ls (ts.map NDArray.shape) (eff con) (eff out))
    {r : NDArray R}
    (hsh : Shaped (canonDim (ls.flatMap id) dim) r
      ((outUsed (ls.flatMap id) out).map (canon (ls.flatMap id))))
    (hval : ∀ σ : Int → Nat, (∀ l ∈ (outUsed (ls.flatMap id) out).map (canon (ls.flatMap id)),
        σ l < canonDim (ls.flatMap id) dim l) →
      val r ((outUsed (ls.flatMap id) out).map (canon (ls.flatMap id))) σ =
        sumOver (canonDim (ls.flatMap id) dim)
          ((conUsed (ls.flatMap id) con).map (canon (ls.flatMap id)))
          (netProd (canonNet ts ls)) σ)
    {closed : List Lab}
    (hcl : Enumerates closed (fun l => l ∈ ls.flatMap id ∧ l.isOpen = false)) :
    IsEinsum dim (ts.zip ls) closed (outUsed (ls.flatMap id) out) r := by
  have hc := conUsed_enum hv
  have ho := outUsed_enum hv
  set fl := ls.flatMap id with hfl
  have h0 : Lab.num 0 ∉ fl := fun hx => hv.allowed _ hx rfl
  have hinj : ∀ a ∈ fl, ∀ b ∈ fl, canon fl a = canon fl b → a = b :=
    fun a ha b hb h => canon_inj h0 ha hb h
  set o := outUsed fl out with hod
  set m := canon fl with hm
  have hofl : ∀ x ∈ o, x ∈ fl := fun x hx => ((ho.2 x).1 hx).1
  have hcfl : ∀ x ∈ closed, x ∈ fl := fun x hx => ((hcl.2 x).1 hx).1
  have hperm : (conUsed fl con).Perm closed :=
    (List.perm_ext_iff_of_nodup hc.1 hcl.1).2 (fun x => by rw [hc.2, hcl.2])
  have hdm : ∀ k : List Lab, (∀ x ∈ k, x ∈ fl) →
      (k.map m).map (canonDim fl dim) = k.map dim := by
    intro k hk
    rw [List.map_map]
    exact List.map_congr_left fun x hx => canonDim_canon h0 dim (hk x hx)
  have honod : (o.map m).Nodup :=
    ho.1.map_on (fun a ha b hb h => hinj a (hofl a ha) b (hofl b hb) h)
  have hcnod : (closed.map m).Nodup :=
    hcl.1.map_on (fun a ha b hb h => hinj a (hcfl a ha) b (hcfl b hb) h)
  have hE : IsEinsum (canonDim fl dim) (canonNet ts ls) (closed.map m) (o.map m) r := by
    refine isEinsum_of_val hsh honod hcnod ?_ ?_ ?_
    · intro l hl hl'
      obtain ⟨x, hx, rfl⟩ := List.mem_map.1 hl
      obtain ⟨y, hy, hxy⟩ := List.mem_map.1 hl'
      have := hinj y (hcfl y hy) x (hofl x hx) hxy
      subst this
      have h1 := ((ho.2 y).1 hx).2
      have h2 := ((hcl.2 y).1 hy).2
      rw [h1] at h2
      simp at h2
    · intro p hp l hl
      obtain ⟨q, hq, rfl⟩ := List.mem_map.1 hp
      obtain ⟨x, hx, rfl⟩ := List.mem_map.1 hl
      have hxf : x ∈ fl := by
        rw [hfl, List.mem_flatMap]; exact ⟨q.2, (List.of_mem_zip hq).2, hx⟩
      by_cases h : x.isOpen = true
      · exact Or.inl (List.mem_map.2 ⟨x, (ho.2 x).2 ⟨hxf, h⟩, rfl⟩)
      · exact Or.inr (List.mem_map.2 ⟨x, (hcl.2 x).2 ⟨hxf, by simpa using h⟩, rfl⟩)
    · intro σ hσ
      rw [hval σ hσ, sumOver_perm (hperm.map m)]
      rfl
  refine ⟨by rw [hE.1, hdm o hofl], fun i hi => ?_⟩
  have hi' : InB ((o.map m).map (canonDim fl dim)) i := by rw [hdm o hofl]; exact hi
  rw [hE.2 i hi', hdm closed hcfl]
  refine sumIdx_congr fun c hc' => ?_
  unfold canonNet
  rw [List.map_map]
  congr 1
  refine List.map_congr_left fun p hp => ?_
  simp only [Function.comp]
  rw [List.map_map]
  congr 1
  refine List.map_congr_left fun l hl => ?_
  have hlf : l ∈ fl := by
    rw [hfl, List.mem_flatMap]; exact ⟨p.2, (List.of_mem_zip hp).2, hl⟩
  simp only [Function.comp, posOf]
  rw [idxOf_map_injOn hinj hofl hlf, idxOf_map_injOn hinj hcfl hlf]
  have : m l ∈ o.map m ↔ l ∈ o := by
    constructor
    · intro h
      obtain ⟨x, hx, hxl⟩ := List.mem_map.1 h
      rwa [← hinj x (hofl x hx) l hlf hxl]
    · intro h; exact List.mem_map.2 ⟨l, h, rfl⟩
  exact if_congr this rfl rfl

end call

end TN.Ncon
