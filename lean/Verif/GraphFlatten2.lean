import Verif.GraphFlatten1

/-!
# `flatten_edges`
-/

namespace TN.Graph

open TN

variable {R : Type}

/-- The two edges have the same set of nodes. -/
def SameNodes (h : Heap R) (e e' : EId) : Prop :=
  ((h.edge e').node1 = (h.edge e).node1 ∧ (h.edge e').node2 = (h.edge e).node2) ∨
    ((h.edge e').node1 = (h.edge e).node2 ∧ (h.edge e').node2 = (h.edge e).node1)

theorem forEach_ok {α : Type} {l : List α} {f : α → M R Unit} {h : Heap R}
    (hf : ∀ a ∈ l, f a h = (.ok (), h)) : M.forEach l f h = (.ok (), h) := by
  induction l with
  | nil => rfl
  | cons a l ih =>
    rw [M.forEach_cons, M.bind_ok (hf a (by simp)), ih fun b hb => hf b (by simp [hb])]

theorem flatten_check {h : Heap R} (w : WF h) {E : List EId} (hEu : ∀ e ∈ E, InUse h e) :
    M.forEach E (fun e => do
      let _ ← node1 e
      let _ ← node2 e
      pure ()) h = (.ok (), h) := by
  refine forEach_ok fun e he => ?_
  rcases w.good (hEu e he) with ⟨n, a, hr⟩ | ⟨n, a, m, b, hr⟩
  · rw [M.bind_ok (node1_dang hr), M.bind_ok (node2_dang hr)]; rfl
  · rw [M.bind_ok (node1_conn hr), M.bind_ok (node2_conn hr)]; rfl

/-- `flatten_edges` of one edge changes nothing. -/
theorem flattenEdges_single {h : Heap R} (w : WF h) (swap : Bool) {e : EId} (hu : InUse h e) :
    flattenEdges swap [e] h = (.ok e, h) := by
  unfold flattenEdges
  simp only
  rw [M.bind_ok (flatten_check w (by simpa using hu)), if_pos trivial]
  rfl

/-- `flatten_edges` of edges that do not all have the same nodes. -/
theorem flattenEdges_err {h : Heap R} (w : WF h) (swap : Bool) {e0 : EId} {E : List EId}
    (hEu : ∀ e ∈ e0 :: E, InUse h e) (hne : ∃ e ∈ E, ¬ SameNodes h e0 e) :
    flattenEdges swap (e0 :: E) h = (.error .valueError, h) := by
  unfold flattenEdges
  simp only
  rw [M.bind_ok (flatten_check w hEu), if_neg (by
    rintro rfl; obtain ⟨e, he, _⟩ := hne; simp at he), get_bind, if_pos]
  · rfl
  · obtain ⟨e, he, h1⟩ := hne
    exact ⟨e, by simp [he], h1⟩

/-- `flatten_edges` of at least two edges with the same nodes. -/
theorem flattenEdges_ok [CommSemiring R] {h : Heap R} (w : WF h) (swap : Bool) {e0 : EId}
    {E : List EId} (hE : (e0 :: E).Nodup) (hne : E ≠ []) (hEu : ∀ e ∈ e0 :: E, InUse h e)
    (hS : ∀ e ∈ E, SameNodes h e0 e) :
    ∃ new h', flattenEdges swap (e0 :: E) h = (.ok new, h') ∧
      Flattened h h' (e0 :: E) new := by
  have hS' : ∀ e ∈ e0 :: E, SameNodes h e0 e := by
    intro e he
    rcases List.mem_cons.1 he with rfl | he
    · exact .inl ⟨rfl, rfl⟩
    · exact hS e he
  unfold flattenEdges
  simp only
  rw [M.bind_ok (flatten_check w hEu), if_neg hne, get_bind, if_neg (by
    rintro ⟨e, he, h1⟩; exact h1 (hS' e he))]
  rcases w.good (hEu e0 (by simp)) with ⟨n, a, hr⟩ | ⟨n, a, m, b, hr⟩
  · rw [hr]
    simp only
    rw [if_neg (by simp)]
    have hlt : n < h.nn := ((at_dang w (hEu e0 (by simp)) hr).2 rfl).1
    obtain ⟨h', k1, k2⟩ := flattenDangling_run w hlt hE (by simp) (fun e he => ⟨hEu e he, by
      have h1 := hS' e he
      unfold SameNodes at h1
      rw [hr] at h1
      simp only at h1
      rcases w.good (hEu e he) with ⟨n', a', hr'⟩ | ⟨n', a', m', b', hr'⟩
      · rw [hr'] at h1
        simp at h1
        exact ⟨a', by rw [hr', h1]⟩
      · rw [hr'] at h1; simp at h1⟩)
    exact ⟨_, h', k1, k2⟩
  · have hlt : n < h.nn := ((at_conn w (hEu e0 (by simp)) hr).2 (.inl rfl)).1
    have hlt' : m < h.nn := ((at_conn w (hEu e0 (by simp)) hr).2 (.inr rfl)).1
    have key : ∀ e ∈ e0 :: E, Between h n m e := by
      intro e he
      have h1 := hS' e he
      unfold SameNodes at h1
      rw [hr] at h1
      simp only at h1
      rcases w.good (hEu e he) with ⟨n', a', hr'⟩ | ⟨n', a', m', b', hr'⟩
      · rw [hr'] at h1; simp at h1
      · rw [hr'] at h1
        simp only [Option.some.injEq] at h1
        rcases h1 with ⟨rfl, rfl⟩ | ⟨rfl, rfl⟩
        · exact ⟨a', b', .inl hr'⟩
        · exact ⟨b', a', .inr hr'⟩
    rw [hr]
    simp only [Option.some.injEq]
    by_cases hnm : n = m
    · rw [if_pos hnm]
      subst hnm
      obtain ⟨h', k1, k2⟩ := flattenTrace_run w hlt hE (by simp) (fun e he => ⟨hEu e he, by
        obtain ⟨x, y, h1 | h1⟩ := key e he
        exacts [⟨x, y, h1⟩, ⟨y, x, h1⟩]⟩)
      exact ⟨_, h', k1, k2⟩
    · rw [if_neg hnm]
      cases swap
      · obtain ⟨h', k1, k2⟩ := flattenPair_run w hnm hlt hlt' hE (by simp)
          (fun e he => ⟨hEu e he, key e he⟩)
        exact ⟨_, h', k1, k2⟩
      · obtain ⟨h', k1, k2⟩ := flattenPair_run w (Ne.symm hnm) hlt' hlt hE (by simp)
          (fun e he => ⟨hEu e he, (key e he).symm⟩)
        exact ⟨_, h', k1, k2⟩

theorem reorderAxes_dup {h : Heap R} {n : NId} {perm : List Nat} (hd : ¬ perm.Nodup) :
    reorderAxes n perm h = (.error .valueError, h) := by
  unfold reorderAxes
  rw [M.bind_ok (nodeEdges_eq n)]
  by_cases hc : ¬ perm.toFinset = Finset.range (h.node n).edges.length
  · rw [if_pos hc]; rfl
  · rw [if_neg hc, M.bind_ok (nodeTensor_eq n)]
    have : (h.node n).tensor.transpose perm = .error .valueError := by
      rw [NDArray.transpose, if_neg]
      intro hp
      exact hd (hp.nodup_iff.2 List.nodup_range)
    rw [M.bind_error (e := .valueError) (h' := h) (by rw [M.lift_apply, this])]

theorem flattenAt_dup {h : Heap R} {n : NId} {E : List EId} (hd : ¬ E.Nodup) :
    flattenAt E n h = (.error .valueError, h) := by
  unfold flattenAt
  rw [M.bind_ok (nodeEdges_eq n)]
  by_cases hc : ∃ e ∈ E, e ∉ (h.node n).edges
  · rw [if_pos hc]; rfl
  · rw [if_neg hc]
    refine M.bind_error (reorderAxes_dup ?_)
    intro h1
    exact hd (List.Nodup.of_map _ (List.nodup_append.1 h1).2.1)

/-- `flatten_edges` with a repeated edge. -/
theorem flattenEdges_dup {h : Heap R} (w : WF h) (swap : Bool) {E : List EId} (hE : ¬ E.Nodup)
    (hEu : ∀ e ∈ E, InUse h e) : flattenEdges swap E h = (.error .valueError, h) := by
  obtain ⟨e0, E, rfl⟩ := List.exists_cons_of_ne_nil (l := E) (by rintro rfl; simp at hE)
  by_cases hS : ∃ e ∈ E, ¬ SameNodes h e0 e
  · exact flattenEdges_err w swap hEu hS
  have hne : E ≠ [] := by rintro rfl; simp at hE
  have hS' : ∀ e ∈ e0 :: E, SameNodes h e0 e := by
    intro e he
    rcases List.mem_cons.1 he with rfl | he
    · exact .inl ⟨rfl, rfl⟩
    · by_contra h1; exact hS ⟨e, he, h1⟩
  unfold flattenEdges
  simp only
  rw [M.bind_ok (flatten_check w hEu), if_neg hne, get_bind, if_neg (by
    rintro ⟨e, he, h1⟩; exact h1 (hS' e he))]
  rcases w.good (hEu e0 (by simp)) with ⟨n, a, hr⟩ | ⟨n, a, m, b, hr⟩
  · rw [hr]
    simp only
    rw [if_neg (by simp)]
    exact M.bind_error (flattenAt_dup hE)
  · rw [hr]
    simp only [Option.some.injEq]
    by_cases hnm : n = m
    · rw [if_pos hnm]
      subst hnm
      have key : ∀ e ∈ e0 :: E, ∃ a b, h.edge e = .conn n a n b := by
        intro e he
        have h1 := hS' e he
        unfold SameNodes at h1
        rw [hr] at h1
        simp only at h1
        rcases w.good (hEu e he) with ⟨n', a', hr'⟩ | ⟨n', a', m', b', hr'⟩
        · rw [hr'] at h1; simp at h1
        · rw [hr'] at h1
          simp only [Option.some.injEq] at h1
          rcases h1 with ⟨rfl, rfl⟩ | ⟨rfl, rfl⟩ <;> exact ⟨_, _, hr'⟩
      choose! A B hAB using key
      unfold flattenTraceEdges
      simp only
      rw [M.bind_ok (node1_conn (hAB e0 (by simp)))]
      rw [M.bind_ok (mapEach_readonly (g := fun e => (A e, B e)) (by
        intro e he
        rw [M.bind_ok (axis1_conn (hAB e he)), M.bind_ok (axis2_conn (hAB e he))]
        rfl))]
      rw [M.bind_ok (nodeEdges_eq n), M.bind_ok (nodeTensor_eq n)]
      refine M.bind_error (reorderAxes_dup ?_)
      intro h1
      have h2 := (List.nodup_append.1 (List.nodup_append.1 h1).2.1).1
      exact hE (List.Nodup.of_map _ (List.Nodup.of_map _ h2))
    · rw [if_neg hnm]
      exact M.bind_error (flattenAt_dup hE)

end TN.Graph
