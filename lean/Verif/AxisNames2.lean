import Verif.AxisNames1

/-!
# Graph operations do the same with and without names

`SimAt`: a method with names and the method of `Heap` without them have the same result and leave the same graph, as long
as no node has fewer names than edges; and no node has fewer names afterwards.
-/

namespace TN.Graph

open TN

set_option linter.unusedSectionVars false

variable {R α β : Type}

/-- No node has fewer names than edges. -/
def Named (s : Heap R × AxTab) : Prop := ∀ n, (s.1.node n).edges.length ≤ (s.2 n).length

/-- Same result, same graph, and enough names afterwards. -/
def SimAt (h : Heap R) (nm : AxTab) (x : M R α) (y : NM R α) : Prop :=
  (y (h, nm)).1 = (x h).1 ∧ (y (h, nm)).2.1 = (x h).2 ∧ Named (y (h, nm)).2

def Sim (x : M R α) (y : NM R α) : Prop := ∀ h nm, Named (h, nm) → SimAt h nm x y

theorem SimAt.bind {h : Heap R} {nm : AxTab} {x : M R α} {y : NM R α} {f : α → M R β} {g : α → NM R β}
    (hx : SimAt h nm x y)
    (hf : ∀ a h' nm', x h = (.ok a, h') → Named (h', nm') → y (h, nm) = (.ok a, (h', nm')) → SimAt h' nm' (f a) (g a)) :
    SimAt h nm (x >>= f) (y >>= g) := by
  obtain ⟨h1, h2, h3⟩ := hx
  unfold SimAt
  rw [M.bind_apply, NM.bind_apply]
  rcases hx : x h with ⟨r, h'⟩
  rcases hy : y (h, nm) with ⟨r', h'', nm'⟩
  rw [hx, hy] at h1 h2
  rw [hy] at h3
  simp only at h1 h2
  subst h1 h2
  cases r' with
  | error e => exact ⟨rfl, rfl, h3⟩
  | ok a => exact hf a h'' nm' hx h3 hy

theorem Sim.bind {x : M R α} {y : NM R α} {f : α → M R β} {g : α → NM R β} (hx : Sim x y) (hf : ∀ a, Sim (f a) (g a)) :
    Sim (x >>= f) (y >>= g) := fun h nm hn => (hx h nm hn).bind fun a h' nm' _ hn' _ => hf a h' nm' hn'

theorem Sim.pure (a : α) : Sim (Pure.pure a : M R α) (Pure.pure a) := fun _ _ hn => ⟨rfl, rfl, hn⟩

theorem Sim.throw (e : PyErr) : Sim (M.throw e : M R α) (NM.throw e) := fun _ _ hn => ⟨rfl, rfl, hn⟩

theorem Sim.ite {p : Prop} [Decidable p] {x x' : M R α} {y y' : NM R α} (h1 : Sim x y) (h2 : Sim x' y') :
    Sim (if p then x else x') (if p then y else y') := by
  split
  · exact h1
  · exact h2

/-- No node gets more edges. -/
def NoGrow (x : M R α) : Prop := ∀ h n, ((x h).2.node n).edges.length ≤ (h.node n).edges.length

theorem NoGrow.bind {x : M R α} {f : α → M R β} (hx : NoGrow x) (hf : ∀ a, NoGrow (f a)) : NoGrow (x >>= f) := by
  intro h n
  rw [M.bind_apply]
  have h1 := hx h n
  rcases hy : x h with ⟨_ | a, h'⟩
  · rw [hy] at h1; exact h1
  · rw [hy] at h1; exact (hf a h' n).trans h1

theorem KeepsNodes.noGrow {x : M R α} (hx : KeepsNodes x) : NoGrow x := fun h n => by rw [hx h]

theorem NoGrow.pure (a : α) : NoGrow (Pure.pure a : M R α) := fun _ _ => le_refl _
theorem NoGrow.throw (e : PyErr) : NoGrow (M.throw e : M R α) := fun _ _ => le_refl _
theorem NoGrow.lift (p : Py α) : NoGrow (M.lift p : M R α) := fun h n => by
  rw [M.lift_apply]
theorem NoGrow.get : NoGrow (M.get : M R (Heap R)) := fun _ _ => le_refl _

theorem NoGrow.ite {p : Prop} [Decidable p] {x x' : M R α} (h1 : NoGrow x) (h2 : NoGrow x') :
    NoGrow (if p then x else x') := by
  split
  · exact h1
  · exact h2

theorem NoGrow.forEach {f : α → M R Unit} (hf : ∀ a, NoGrow (f a)) : ∀ l : List α, NoGrow (M.forEach l f)
  | [] => .pure ()
  | a :: l => (hf a).bind fun _ => NoGrow.forEach hf l

theorem NoGrow.mapEach {f : α → M R β} (hf : ∀ a, NoGrow (f a)) : ∀ l : List α, NoGrow (M.mapEach l f)
  | [] => .pure []
  | a :: l => (hf a).bind fun _ => (NoGrow.mapEach hf l).bind fun _ => .pure _

theorem NoGrow.setTensor (n : NId) (t : NDArray R) : NoGrow (setTensor n t) := by
  intro h m
  change ((Function.update h.node n _) m).edges.length ≤ _
  by_cases hm : m = n
  · subst hm; rw [Function.update_self]
  · rw [Function.update_of_ne hm]

theorem NoGrow.nodeEdges (n : NId) : NoGrow (nodeEdges n : M R (List EId)) := fun _ _ => le_refl _
theorem NoGrow.nodeTensor (n : NId) : NoGrow (nodeTensor n : M R (NDArray R)) := fun _ _ => le_refl _
theorem NoGrow.isDangling (e : EId) : NoGrow (isDangling e : M R Bool) := fun _ _ => le_refl _
theorem NoGrow.getNodes (e : EId) : NoGrow (getNodes e : M R (Option NId × Option NId)) := fun _ _ => le_refl _
theorem NoGrow.disable (e : EId) : NoGrow (disable e : M R Unit) := fun _ _ => le_refl _
theorem NoGrow.newDangling (n : NId) (a : Nat) : NoGrow (newDangling n a : M R EId) := fun _ _ => le_refl _
theorem NoGrow.newConnected (n : NId) (a : Nat) (m : NId) (b : Nat) : NoGrow (newConnected n a m b : M R EId) :=
  fun _ _ => le_refl _

theorem NoGrow.dimension (e : EId) : NoGrow (dimension e : M R Nat) := by
  unfold Graph.dimension
  refine (node1_keeps e).noGrow.bind fun n => (axis1_keeps e).noGrow.bind fun a => NoGrow.get.bind fun h => ?_
  cases (h.shape n)[a]? with
  | none => exact .throw _
  | some d => exact .pure _

theorem NoGrow.isTrace (e : EId) : NoGrow (isTrace e : M R Bool) :=
  (node1_keeps e).noGrow.bind fun _ => (node2_keeps e).noGrow.bind fun _ => .pure _

theorem NoGrow.addEdge (n : NId) (e : EId) (a : Nat) (o : Bool) : NoGrow (addEdge n e a o : M R Unit) := by
  intro h m
  unfold Graph.addEdge
  simp only [M.bind_apply, M.get_apply]
  split_ifs with h1
  · exact le_refl _
  · rcases hx : (h.node n).edges[a]? with _ | old
    · exact le_refl _
    · simp only
      split_ifs with h2
      · exact le_refl _
      · change ((Function.update h.node n _) m).edges.length ≤ _
        by_cases hm : m = n
        · subst hm; rw [Function.update_self]; simp
        · rw [Function.update_of_ne hm]

theorem Sim.lift {x : M R α} (hx : NoGrow x) : Sim x (NM.lift x) := fun h _ hn =>
  ⟨rfl, rfl, fun n => (hx h n).trans (hn n)⟩

theorem NM.forEach_lift {f : α → M R Unit} {g : α → NM R Unit} :
    ∀ (l : List α), (∀ a ∈ l, g a = NM.lift (f a)) → NM.forEach l g = NM.lift (M.forEach l f)
  | [], _ => rfl
  | a :: l, hg => by
    funext s
    change (g a >>= fun _ => NM.forEach l g) s = _
    rw [hg a (by simp), NM.forEach_lift l (fun b hb => hg b (List.mem_cons_of_mem _ hb)), NM.bind_apply]
    simp only [NM.lift]
    rw [M.forEach_cons, M.bind_apply]
    rcases f a s.1 with ⟨_ | u, h'⟩ <;> rfl

theorem Sim.freshEdges (n : NId) : Sim (freshEdges n : M R Unit) (freshEdgesN n) := by
  intro h nm hn
  have hx : freshEdgesN n (h, nm) = NM.lift (Graph.freshEdges n) (h, nm) := by
    have hl := hn n
    unfold freshEdgesN Graph.freshEdges
    rw [NM.bind_ok (x := NM.names n) (a := nm n) (s' := (h, nm)) rfl, NM.bind_ok (NM.lift_ok (nodeEdges_eq n) nm),
      NM.forEach_lift (f := fun i => do
        let e ← newDangling n i
        Graph.addEdge n e i true)]
    · simp only [NM.lift, M.bind_ok (nodeEdges_eq n)]
    · intro i hi
      have hi' := List.mem_range.1 hi
      rw [if_neg]
      · funext s
        rw [NM.bind_apply]
        simp only [NM.lift]
        rw [M.bind_apply]
        rcases newDangling n i s.1 with ⟨_ | u, h'⟩ <;> rfl
      · rintro ⟨_, h2⟩
        rw [List.getElem?_eq_none_iff] at h2
        simp only at hl
        omega
  have hg : NoGrow (Graph.freshEdges n : M R Unit) :=
    (NoGrow.nodeEdges n).bind fun es => NoGrow.forEach (fun i => (NoGrow.newDangling n i).bind fun e => .addEdge n e i true) _
  unfold SimAt
  rw [hx]
  exact Sim.lift hg h nm hn

theorem Sim.newNode (t : NDArray R) : Sim (newNode t) (newNodeN t) := by
  intro h nm hn
  refine ⟨rfl, rfl, fun n => ?_⟩
  change ((Function.update h.node h.nn ⟨t, (List.range t.ndim).map (fun i => h.ne + i)⟩) n).edges.length ≤
    (Function.update nm h.nn (defaultNames t.ndim) n).length
  by_cases hm : n = h.nn
  · subst hm
    rw [Function.update_self, Function.update_self]
    simp [defaultNames]
  · rw [Function.update_of_ne hm, Function.update_of_ne hm]
    exact hn n

/-- The inner states of `reorder_axes`. -/
theorem reorderAxes_noGrow_of_error {h h1 : Heap R} {n : NId} {perm : List Nat} {e : PyErr}
    (hr : reorderAxes n perm h = (.error e, h1)) : ∀ m, (h1.node m).edges.length ≤ (h.node m).edges.length := by
  unfold reorderAxes at hr
  rw [M.bind_ok (nodeEdges_eq n)] at hr
  by_cases hc : perm.toFinset = Finset.range (h.node n).edges.length
  swap
  · rw [if_pos (by simpa using hc)] at hr
    have : h = h1 := (Prod.mk.inj hr).2
    subst this
    intro m; exact le_refl _
  · rw [if_neg (by simpa using hc), M.bind_ok (nodeTensor_eq n), M.bind_apply, M.lift_apply] at hr
    rcases ht : (h.node n).tensor.transpose perm with e | t'
    · rw [ht] at hr
      have : h = h1 := (Prod.mk.inj hr).2
      subst this
      intro m; exact le_refl _
    · rw [ht] at hr
      simp only at hr
      rw [M.bind_ok (x := setTensor n t') (a := ()) (h' := h.setNode n ⟨t', (h.node n).edges⟩) rfl, M.bind_apply] at hr
      split at hr
      · cases hr
      · rename_i h2 hm
        have hng := NoGrow.mapEach (R := R) (f := fun (position, i) => match (h.node n).edges[position]? with
          | none => M.throw .indexError
          | some e => do
            updateAxis e position n i n
            Pure.pure e) (by
          rintro ⟨position, i⟩
          simp only
          cases (h.node n).edges[position]? with
          | none => exact .throw _
          | some e => exact (updateAxis_node e position n i n).noGrow.bind fun _ => .pure _)
          perm.zipIdx (h.setNode n ⟨t', (h.node n).edges⟩)
        have hh : h1 = h2 := (Prod.mk.inj hr).2.symm
        intro m
        have h3 : (h2.node m).edges.length ≤ _ := (le_of_eq (congrArg (fun r => (r.2.node m).edges.length) hm.symm)).trans (hng m)
        rw [hh]
        refine h3.trans ?_
        rw [Heap.setNode_node]
        by_cases hmn : m = n
        · subst hmn; rw [Function.update_self]
        · rw [Function.update_of_ne hmn]

theorem mapEach_length {f : α → M R β} : ∀ {l : List α} {h h' : Heap R} {bs : List β},
    M.mapEach l f h = (.ok bs, h') → bs.length = l.length
  | [], h, h', bs, hm => by
    rw [M.mapEach_nil] at hm
    cases hm; rfl
  | a :: l, h, h', bs, hm => by
    rw [M.mapEach_cons, M.bind_apply] at hm
    rcases hx : f a h with ⟨_ | b, h1⟩
    · rw [hx] at hm; cases hm
    · rw [hx] at hm
      simp only at hm
      rw [M.bind_apply] at hm
      rcases hy : M.mapEach l f h1 with ⟨_ | cs, h2⟩
      · rw [hy] at hm; cases hm
      · rw [hy] at hm
        have : b :: cs = bs := Except.ok.inj (Prod.mk.inj hm).1
        rw [← this, List.length_cons, List.length_cons, mapEach_length hy]

/-- What `reorder_axes` changes when it succeeds. -/
theorem reorderAxes_inv' {h h1 : Heap R} {n : NId} {perm : List Nat} (hr : reorderAxes n perm h = (.ok (), h1)) :
    (h1.node n).edges.length = perm.length ∧ ∀ m, m ≠ n → h1.node m = h.node m := by
  unfold reorderAxes at hr
  rw [M.bind_ok (nodeEdges_eq n)] at hr
  by_cases hc : perm.toFinset = Finset.range (h.node n).edges.length
  swap
  · rw [if_pos (by simpa using hc)] at hr
    cases hr
  · rw [if_neg (by simpa using hc), M.bind_ok (nodeTensor_eq n), M.bind_apply, M.lift_apply] at hr
    rcases ht : (h.node n).tensor.transpose perm with e | t'
    · rw [ht] at hr; cases hr
    · rw [ht] at hr
      simp only at hr
      rw [M.bind_ok (x := setTensor n t') (a := ()) (h' := h.setNode n ⟨t', (h.node n).edges⟩) rfl, M.bind_apply] at hr
      have hnode := mapEach_node (R := R) (f := fun (position, i) => match (h.node n).edges[position]? with
          | none => M.throw .indexError
          | some e => do
            updateAxis e position n i n
            Pure.pure e) (by
          rintro ⟨position, i⟩
          simp only
          cases (h.node n).edges[position]? with
          | none => intro g; rfl
          | some e => exact (updateAxis_node e position n i n).bind fun _ => .pure _)
        perm.zipIdx (h.setNode n ⟨t', (h.node n).edges⟩)
      split at hr
      · rename_i tmp h2 hm
        have hm' : h2.node = _ := (congrArg (fun r => r.2.node) hm).symm.trans hnode
        have hl := mapEach_length hm
        have : h1 = h2.setNode n { h2.node n with edges := tmp } := (Prod.mk.inj hr).2.symm
        rw [this, Heap.setNode_node]
        refine ⟨?_, fun m hmn => ?_⟩
        · rw [Function.update_self]
          simpa using hl
        · rw [Function.update_of_ne hmn, hm', Heap.setNode_node, Function.update_of_ne hmn]
      · cases hr

/-- `reorder_axes` of a node with enough names. -/
theorem reorderAxesN_run {h h1 : Heap R} {n : NId} {perm : List Nat} (hr : reorderAxes n perm h = (.ok (), h1))
    {nm : AxTab} (hl : (h.node n).edges.length ≤ (nm n).length) :
    reorderAxesN n perm (h, nm) =
      (.ok (), (h1, Function.update nm n (perm.map (fun i => (nm n).getD i "")))) := by
  obtain ⟨hp, hd⟩ := reorderAxes_inv hr
  rw [reorderAxesN, NM.bind_ok (NM.lift_ok hr nm), permuteNames, NM.bind_ok (x := NM.names n) (a := nm n) (s' := (h1, nm)) rfl,
    pick_ok _ (fun i hi => lt_of_lt_of_le (List.mem_range.1 (hp.mem_iff.1 hi)) hl)]
  exact setNames_ok (by rw [List.length_map, hd])

theorem Sim.reorderAxes (n : NId) (perm : List Nat) : Sim (reorderAxes n perm : M R Unit) (reorderAxesN n perm) := by
  intro h nm hn
  rcases hr : Graph.reorderAxes n perm h with ⟨e | u, h1⟩
  · have : reorderAxesN n perm (h, nm) = (.error e, (h1, nm)) := by
      rw [reorderAxesN]
      refine NM.bind_error ?_
      rw [NM.lift, hr]
    refine ⟨by rw [this, hr], by rw [this, hr], ?_⟩
    rw [this]
    exact fun m => (reorderAxes_noGrow_of_error hr m).trans (hn m)
  · have hx := reorderAxesN_run hr (hn n)
    refine ⟨by rw [hx, hr], by rw [hx, hr], ?_⟩
    rw [hx]
    intro m
    obtain ⟨h2, h3⟩ := reorderAxes_inv' hr
    change _ ≤ (Function.update nm n _ m).length
    by_cases hm : m = n
    · subst hm
      rw [Function.update_self, List.length_map]
      exact le_of_eq h2
    · rw [Function.update_of_ne hm]
      change (h1.node m).edges.length ≤ _
      rw [h3 m hm]
      exact hn m

end TN.Graph
