import Verif.Nd
import Mathlib.Data.List.Nodup

/-!
# C92: `switch_backend`

network_operations.py:794-821.
-/

set_option linter.unusedSectionVars false

namespace TN.Switch

open TN

/-- The exceptions of the function. -/
inductive Err
  | notImplemented
  | py (e : PyErr)
  deriving DecidableEq

/-- What `node.backend.name` and `node._tensor` are, for every node.  A node may have lost its tensor. -/
abbrev State (T : Type) := Nat → String × Option T

/-- The names of `_BACKENDS` (backends/backend_factory.py:22-28). -/
def names : List String := ["tensorflow", "numpy", "jax", "pytorch", "symmetric"]

variable {T : Type}

/-- `node.tensor = backend.convert_to_tensor(node.tensor); node.backend = backend` (network_operations.py:820-821).  `node.tensor` raises AttributeError if there
is none.  `conv` is `convert_to_tensor` of the backends. -/
def switchNode (conv : String → T → Py T) (new : String) (st : State T) (n : Nat) : Except Err (State T) :=
  match (st n).2 with
  | none => .error (.py .attributeError)
  | some t =>
    match conv new t with
    | .error e => .error (.py e)
    | .ok t' => .ok (Function.update st n (new, some t'))

/-- The loop (network_operations.py:815-821): the state at the end and how the call ends. -/
def loop (conv : String → T → Py T) (new : String) : State T → List Nat → State T × Except Err Unit
  | st, [] => (st, .ok ())
  | st, n :: ns =>
    if (st n).1 ≠ "numpy" then (st, .error .notImplemented)
    else
      match switchNode conv new st n with
      | .error e => (st, .error e)
      | .ok st' => loop conv new st' ns

/-- `switch_backend` (network_operations.py:794-821).  The backend is given by its name; `nodes` is a list, or a set in its order of iteration. -/
def switchBackend (conv : String → T → Py T) (st : State T) (nodes : List Nat) (new : String) : State T × Except Err Unit :=
  if new = "symmetric" then
    if nodes.all (fun n => (st n).1 = "symmetric") then (st, .ok ()) else (st, .error (.py .valueError))
  else if new ∉ names then (st, .error (.py .valueError))
  else loop conv new st nodes

/-! ### What the loop does -/

/-- The nodes of `ns` are switched, all others are as before. -/
structure Switched (conv : String → T → Py T) (new : String) (st st' : State T) (ns : List Nat) : Prop where
  done : ∀ n ∈ ns, ∃ t t', st n = ("numpy", some t) ∧ conv new t = .ok t' ∧ st' n = (new, some t')
  rest : ∀ n, n ∉ ns → st' n = st n

theorem loop_prefix (conv : String → T → Py T) {new : String} (hnew : new ≠ "numpy") (ns : List Nat) (st : State T) :
    ∃ pre suf, ns = pre ++ suf ∧ pre.Nodup ∧ Switched conv new st (loop conv new st ns).1 pre ∧
      (suf = [] → (loop conv new st ns).2 = .ok ()) ∧
      ∀ n suf', suf = n :: suf' → ((n ∈ pre ∨ (st n).1 ≠ "numpy") ∧ (loop conv new st ns).2 = .error .notImplemented) ∨
        (n ∉ pre ∧ (st n).1 = "numpy" ∧ (((st n).2 = none ∧ (loop conv new st ns).2 = .error (.py .attributeError)) ∨
          ∃ t e, (st n).2 = some t ∧ conv new t = .error e ∧ (loop conv new st ns).2 = .error (.py e))) := by
  induction ns generalizing st with
  | nil => exact ⟨[], [], rfl, List.nodup_nil, ⟨by simp, fun _ _ => rfl⟩, fun _ => rfl, by simp⟩
  | cons n ns ih =>
    by_cases hb : (st n).1 = "numpy"
    · cases ht : (st n).2 with
      | none =>
        have hl : loop conv new st (n :: ns) = (st, .error (.py .attributeError)) := by simp [loop, hb, switchNode, ht]
        refine ⟨[], n :: ns, rfl, List.nodup_nil, ?_, by simp, ?_⟩
        · rw [hl]; exact ⟨by simp, fun _ _ => rfl⟩
        · rintro m suf' h
          cases h
          exact .inr ⟨by simp, hb, .inl ⟨ht, by rw [hl]⟩⟩
      | some t =>
        cases hc : conv new t with
        | error e =>
          have hl : loop conv new st (n :: ns) = (st, .error (.py e)) := by simp [loop, hb, switchNode, ht, hc]
          refine ⟨[], n :: ns, rfl, List.nodup_nil, ?_, by simp, ?_⟩
          · rw [hl]; exact ⟨by simp, fun _ _ => rfl⟩
          · rintro m suf' h
            cases h
            exact .inr ⟨by simp, hb, .inr ⟨t, e, ht, hc, by rw [hl]⟩⟩
        | ok t' =>
          obtain ⟨st1, hst1⟩ : ∃ st1, st1 = Function.update st n (new, some t') := ⟨_, rfl⟩
          have hl : loop conv new st (n :: ns) = loop conv new st1 ns := by simp [loop, hb, switchNode, ht, hc, hst1]
          obtain ⟨pre, suf, h1, h2, h3, h4, h5⟩ := ih st1
          have hn1 : st1 n = (new, some t') := by rw [hst1, Function.update_self]
          have hne : ∀ m, m ≠ n → st1 m = st m := fun m hm => by rw [hst1, Function.update_of_ne hm]
          have hnp : n ∉ pre := fun hp => by
            obtain ⟨_, _, q, _⟩ := h3.done n hp
            rw [hn1] at q
            exact hnew (Prod.mk.inj q).1
          refine ⟨n :: pre, suf, by rw [h1]; rfl, List.nodup_cons.2 ⟨hnp, h2⟩, ?_, ?_, ?_⟩
          · rw [hl]
            refine ⟨fun m hm => ?_, fun m hm => ?_⟩
            · rcases List.mem_cons.1 hm with rfl | hm'
              · exact ⟨t, t', Prod.ext hb ht, hc, by rw [h3.rest _ hnp, hn1]⟩
              · obtain ⟨u, u', q1, q2, q3⟩ := h3.done m hm'
                exact ⟨u, u', by rw [← hne m (fun h => hnp (h ▸ hm'))]; exact q1, q2, q3⟩
            · rw [List.mem_cons, not_or] at hm
              rw [h3.rest m hm.2, hne m hm.1]
          · intro h; rw [hl]; exact h4 h
          · intro m suf' h
            rw [hl]
            by_cases hm : m = n
            · subst hm
              refine .inl ⟨.inl (by simp), ?_⟩
              rcases h5 m suf' h with q | q
              · exact q.2
              · have := q.2.1
                rw [hn1] at this
                exact absurd this hnew
            · have hs := hne m hm
              rcases h5 m suf' h with ⟨q1, q2⟩ | ⟨q1, q2, q3⟩
              · rw [hs] at q1
                exact .inl ⟨q1.imp (fun h => List.mem_cons_of_mem _ h) id, q2⟩
              · rw [hs] at q2 q3
                exact .inr ⟨fun h => (List.mem_cons.1 h).elim hm q1, q2, q3⟩
    · have hl : loop conv new st (n :: ns) = (st, .error .notImplemented) := by simp [loop, hb]
      refine ⟨[], n :: ns, rfl, List.nodup_nil, ?_, by simp, ?_⟩
      · rw [hl]; exact ⟨by simp, fun _ _ => rfl⟩
      · rintro m suf' h
        cases h
        exact .inl ⟨.inr hb, by rw [hl]⟩

/-! ### The property -/

/-- **C92.**  For a backend other than numpy and symmetric: if all the nodes are numpy nodes with tensors that can be converted and none is given twice, the call returns,
they all have the new backend and the converted tensor, and all other nodes are as before.  Conversely, if the call returns, this is the case. -/
theorem C92_switch_partial (conv : String → T → Py T) (st : State T) (nodes : List Nat) {new : String} (h1 : new ∈ names) (h2 : new ≠ "symmetric") (h3 : new ≠ "numpy") :
    (switchBackend conv st nodes new).2 = .ok () ↔
      nodes.Nodup ∧ Switched conv new st (switchBackend conv st nodes new).1 nodes := by
  rw [switchBackend, if_neg h2, if_neg (not_not.2 h1)]
  obtain ⟨pre, suf, e1, e2, e3, e4, e5⟩ := loop_prefix conv h3 nodes st
  cases suf with
  | nil =>
    rw [List.append_nil] at e1
    exact ⟨fun _ => by rw [e1] at e3 ⊢; exact ⟨e2, e3⟩, fun _ => e4 rfl⟩
  | cons n suf =>
    have he : (loop conv new st nodes).2 ≠ .ok () := by
      rcases e5 n suf rfl with ⟨_, q⟩ | ⟨_, _, ⟨_, q⟩ | ⟨_, _, _, _, q⟩⟩ <;> rw [q] <;> simp
    refine ⟨fun h => absurd h he, fun ⟨hn, hs⟩ => absurd hs fun hs => ?_⟩
    obtain ⟨t, t', q1, q2, _⟩ := hs.done n (by rw [e1]; simp)
    rcases e5 n suf rfl with ⟨q | q, _⟩ | ⟨_, _, ⟨q, _⟩ | ⟨t1, e, q, q', _⟩⟩
    · rw [e1, List.nodup_append] at hn
      exact hn.2.2 n q n (by simp) rfl
    · rw [q1] at q; exact q rfl
    · rw [q1] at q; simp at q
    · rw [q1] at q
      simp only [Option.some.injEq] at q
      rw [q, q'] at q2
      simp at q2

/-- **C92.**  If the call raises, the nodes in front of the first one that cannot be switched have been switched. -/
theorem C92_raises_midway (conv : String → T → Py T) (st : State T) (pre suf : List Nat) (n : Nat) {new : String} (h1 : new ∈ names) (h2 : new ≠ "symmetric")
    (h3 : new ≠ "numpy") (hp : pre.Nodup) (hd : ∀ m ∈ pre, ∃ t t', st m = ("numpy", some t) ∧ conv new t = .ok t') (hn : (st n).1 ≠ "numpy") :
    (switchBackend conv st (pre ++ n :: suf) new).2 = .error .notImplemented ∧ Switched conv new st (switchBackend conv st (pre ++ n :: suf) new).1 pre := by
  rw [switchBackend, if_neg h2, if_neg (not_not.2 h1)]
  clear h1 h2
  induction pre generalizing st with
  | nil => 
    have hl : loop conv new st ([] ++ n :: suf) = (st, .error .notImplemented) := by simp [loop, hn]
    rw [hl]
    exact ⟨rfl, by simp, fun _ _ => rfl⟩
  | cons m pre ih =>
    rw [List.nodup_cons] at hp
    obtain ⟨t, t', q1, q2⟩ := hd m (by simp)
    obtain ⟨st1, hst1⟩ : ∃ st1, st1 = Function.update st m (new, some t') := ⟨_, rfl⟩
    have hl : loop conv new st (m :: pre ++ n :: suf) = loop conv new st1 (pre ++ n :: suf) := by simp [loop, q1, switchNode, q2, hst1]
    have hm1 : st1 m = (new, some t') := by rw [hst1, Function.update_self]
    have hne : ∀ k, k ≠ m → st1 k = st k := fun k hk => by rw [hst1, Function.update_of_ne hk]
    rw [hl]
    obtain ⟨r1, r2⟩ := ih st1 hp.2 (fun k hk => by
      rw [hne k (fun h => hp.1 (h ▸ hk))]; exact hd k (List.mem_cons_of_mem _ hk)) (by
      by_cases h : n = m
      · rw [h, hm1]; exact h3
      · rw [hne n h]; exact hn)
    refine ⟨r1, fun k hk => ?_, fun k hk => ?_⟩
    · rcases List.mem_cons.1 hk with rfl | hk'
      · exact ⟨t, t', q1, q2, by rw [r2.rest _ hp.1, hm1]⟩
      · obtain ⟨u, u', s1, s2, s3⟩ := r2.done k hk'
        exact ⟨u, u', by rw [← hne k (fun h => hp.1 (h ▸ hk'))]; exact s1, s2, s3⟩
    · rw [List.mem_cons, not_or] at hk
      rw [r2.rest k hk.2, hne k hk.1]

/-- **C92.**  Switching is not idempotent and cannot be undone: after a call that returned for at least one node, every further call for these nodes, to whatever
backend, raises, and nothing changes. -/
theorem C92_again_false (conv : String → T → Py T) (st : State T) {nodes : List Nat} (h0 : nodes ≠ []) {new : String} (h1 : new ∈ names) (h2 : new ≠ "symmetric")
    (h3 : new ≠ "numpy") (h : (switchBackend conv st nodes new).2 = .ok ()) (new' : String) :
    (∃ e, (switchBackend conv (switchBackend conv st nodes new).1 nodes new').2 = .error e) ∧
      (switchBackend conv (switchBackend conv st nodes new).1 nodes new').1 = (switchBackend conv st nodes new).1 := by
  obtain ⟨_, hs⟩ := (C92_switch_partial conv st nodes h1 h2 h3).1 h
  obtain ⟨st', hst⟩ : ∃ st', st' = (switchBackend conv st nodes new).1 := ⟨_, rfl⟩
  rw [← hst] at hs ⊢
  obtain ⟨n, ns, rfl⟩ := List.exists_cons_of_ne_nil h0
  obtain ⟨t, t', _, _, hn⟩ := hs.done n (by simp)
  rw [switchBackend]
  split_ifs with q1 q2 q3
  · simp only [List.all_cons, hn, Bool.and_eq_true, decide_eq_true_eq] at q2
    exact absurd q2.1 h2
  · exact ⟨⟨_, rfl⟩, rfl⟩
  · have hl : loop conv new' st' (n :: ns) = (st', .error .notImplemented) := by simp [loop, hn, h3]
    rw [hl]
    exact ⟨⟨_, rfl⟩, rfl⟩
  · exact ⟨⟨_, rfl⟩, rfl⟩

/-- **C92.**  With the symmetric backend nothing changes, and the call returns exactly if all nodes are symmetric already. -/
theorem C92_symmetric (conv : String → T → Py T) (st : State T) (nodes : List Nat) :
    (switchBackend conv st nodes "symmetric").1 = st ∧
      ((switchBackend conv st nodes "symmetric").2 = .ok () ↔ ∀ n ∈ nodes, (st n).1 = "symmetric") := by
  rw [switchBackend, if_pos rfl]
  split_ifs with h
  · exact ⟨rfl, fun _ n hn => by simpa using List.all_eq_true.1 h n hn, fun _ => rfl⟩
  · refine ⟨rfl, fun q => by simp at q, fun q => absurd (List.all_eq_true.2 fun n hn => by simpa using q n hn) h⟩

/-- **C92.**  An unknown backend is refused and nothing changes. -/
theorem C92_unknown (conv : String → T → Py T) (st : State T) (nodes : List Nat) {new : String} (h : new ∉ names) :
    switchBackend conv st nodes new = (st, .error (.py .valueError)) := by
  have h1 : new ≠ "symmetric" := fun h1 => h (by rw [h1]; decide)
  rw [switchBackend, if_neg h1, if_pos h]

/-- **C92.**  Switching numpy nodes to numpy changes nothing (numpy's `convert_to_tensor` returns the array itself); nodes may be given twice. -/
theorem C92_numpy (conv : String → T → Py T) (hc : ∀ t, conv "numpy" t = .ok t) (st : State T) (nodes : List Nat)
    (h : ∀ n ∈ nodes, ∃ t, st n = ("numpy", some t)) : switchBackend conv st nodes "numpy" = (st, .ok ()) := by
  rw [switchBackend, if_neg (by decide), if_neg (by decide)]
  induction nodes with
  | nil => rfl
  | cons n ns ih =>
    obtain ⟨t, ht⟩ := h n (by simp)
    have hu : Function.update st n ("numpy", some t) = st := by rw [← ht, Function.update_eq_self]
    simp only [loop, ht, switchNode, hc, hu, ne_eq, not_true_eq_false, if_false]
    exact ih fun m hm => h m (List.mem_cons_of_mem _ hm)

/-- **C92.**  A call that raises is not without effect: one numpy node and one jax node. -/
theorem C92_atomic_false : ∃ (conv : String → Nat → Py Nat) (st : State Nat) (nodes : List Nat), (∀ b t, ∃ t', conv b t = .ok t') ∧ nodes.Nodup ∧
    (switchBackend conv st nodes "pytorch").2 = .error .notImplemented ∧ (switchBackend conv st nodes "pytorch").1 ≠ st := by
  refine ⟨fun _ t => .ok t, fun n => if n = 0 then ("numpy", some 5) else ("jax", some 7), [0, 1], fun _ t => ⟨t, rfl⟩, by decide, ?_⟩
  obtain ⟨h1, h2⟩ := C92_raises_midway (fun _ t => .ok t) (fun n => if n = 0 then ("numpy", some 5) else ("jax", some 7)) [0] [] 1 (new := "pytorch")
    (by decide) (by decide) (by decide) (by decide) (by simp) (by decide)
  refine ⟨h1, fun h => ?_⟩
  obtain ⟨t, t', q1, _, q3⟩ := h2.done 0 (by simp)
  rw [show ([0] ++ 1 :: [] : List Nat) = [0, 1] from rfl, h] at q3
  exact absurd (Prod.mk.inj (q1.symm.trans q3)).1 (by decide)

/-- The hypotheses of `C92_switch_partial` can be met: two numpy nodes. -/
example : (switchBackend (fun _ t => .ok (t + 1)) (fun n => ("numpy", some n)) [3, 4] "jax").2 = .ok () :=
  rfl

end TN.Switch
