import Mathlib.Data.List.Basic
import Mathlib.Data.List.Nodup
import Mathlib.Logic.Function.Basic

/-!
# Context managers and the backend registry

Models of `backend_contextmanager.py`, of `NodeCollection` (network_components.py:2189-2235 and
ops.py) and of `backends/backend_factory.py`.

Programs that use the context managers are modelled by a small language with `with` blocks,
exceptions and `try`.  The machine executes the `__enter__` and `__exit__` methods on the global
stack; the specification has no stack: the block that counts is passed down the syntax tree.
-/

namespace TN.Context

/-! ## The default backend -/

/-- A value handed to `DefaultBackend` or `set_default_backend`. -/
inductive Val
  /-- a string -/
  | text (s : String)
  /-- a backend object -/
  | obj (id : Nat)
  /-- anything else -/
  | other
  deriving DecidableEq

/-- The exceptions of the modelled functions, and an exception raised by the user's program. -/
inductive Err
  | valueError | assertionError | importError | user
  deriving DecidableEq

/-- `isinstance(backend, (Text, AbstractBackend))` -/
def Val.isBackend : Val → Bool
  | .other => false
  | _ => true

/-- The keys of `_BACKENDS` (backend_factory.py:22-28). -/
def names : List String := ["tensorflow", "numpy", "jax", "pytorch", "symmetric"]

/-- `_DefaultBackendStack` (backend_contextmanager.py:22-30): the end of the list is the top. -/
structure Stack where
  stack : List Val
  default : Val

/-- `get_default_backend` (backend_contextmanager.py:29-30, 36-37) -/
def Stack.current (s : Stack) : Val := s.stack.getLast?.getD s.default

/-- `set_default_backend` (backend_contextmanager.py:40-49) -/
def Stack.set (s : Stack) (v : Val) : Except Err Stack :=
  if s.stack ≠ [] then .error .assertionError
  else if v.isBackend = false then .error .valueError
  else match v with
    | .text t => if t ∉ names then .error .valueError else .ok { s with default := v }
    | _ => .ok { s with default := v }

/-- A program. -/
inductive Prog
  | skip
  | seq (p q : Prog)
  /-- `with DefaultBackend(v): p` -/
  | block (v : Val) (p : Prog)
  /-- `set_default_backend(v)` -/
  | set (v : Val)
  /-- record `get_default_backend()` -/
  | get
  /-- raise an exception -/
  | raise
  /-- `try: p` `except: pass` -/
  | attempt (p : Prog)

/-- The machine: the exception if any, the stack afterwards and the recorded backends.
`DefaultBackend.__init__`, `__enter__`, `__exit__` are backend_contextmanager.py:9-19; Python
calls `__exit__` after the body, with or without an exception, and the exception goes on because
`__exit__` returns `None`. -/
def run : Prog → Stack → Option Err × Stack × List Val
  | .skip, s => (none, s, [])
  | .seq p q, s =>
    match run p s with
    | (some e, s', o) => (some e, s', o)
    | (none, s', o) =>
      let r := run q s'
      (r.1, r.2.1, o ++ r.2.2)
  | .block v p, s =>
    if v.isBackend = false then (some .valueError, s, [])
    else
      let r := run p { s with stack := s.stack ++ [v] }
      (r.1, { r.2.1 with stack := r.2.1.stack.dropLast }, r.2.2)
  | .set v, s =>
    match s.set v with
    | .error e => (some e, s, [])
    | .ok s' => (none, s', [])
  | .get, s => (none, s, [s.current])
  | .raise, s => (some .user, s, [])
  | .attempt p, s =>
    let r := run p s
    (none, r.2.1, r.2.2)

/-- The specification: `inner` is the backend of the innermost enclosing block if any, `d` the
global default.  Returns the exception, the new global default and the recorded backends. -/
def spec (inner : Option Val) : Prog → Val → Option Err × Val × List Val
  | .skip, d => (none, d, [])
  | .seq p q, d =>
    match spec inner p d with
    | (some e, d', o) => (some e, d', o)
    | (none, d', o) =>
      let r := spec inner q d'
      (r.1, r.2.1, o ++ r.2.2)
  | .block v p, d =>
    match v with
    | .other => (some .valueError, d, [])
    | v => spec (some v) p d
  | .set v, d =>
    match inner, v with
    | some _, _ => (some .assertionError, d, [])
    | none, .other => (some .valueError, d, [])
    | none, .text t => if t ∈ names then (none, .text t, []) else (some .valueError, d, [])
    | none, .obj i => (none, .obj i, [])
  | .get, d => (none, d, [inner.getD d])
  | .raise, d => (some .user, d, [])
  | .attempt p, d => (none, (spec inner p d).2)

/-- For every program, every stack and every default: the machine does what the specification
says.  Inside a block the backend of the innermost block is in force; when a program has ended,
normally or by an exception, the stack is the same as before; the global default is changed only
outside of all blocks. -/
theorem C31_default_backend (p : Prog) (st : List Val) (d : Val) :
    run p ⟨st, d⟩ = ((spec st.getLast? p d).1, ⟨st, (spec st.getLast? p d).2.1⟩,
      (spec st.getLast? p d).2.2) := by
  induction p generalizing st d with
  | skip => rfl
  | seq p q ihp ihq =>
    simp only [run, ihp, spec]
    rcases spec st.getLast? p d with ⟨_ | e, d', o⟩
    · simp only [ihq]
    · rfl
  | block v p ih =>
    simp only [run, spec]
    cases v with
    | other => rfl
    | text t => simp [Val.isBackend, ih]
    | obj i => simp [Val.isBackend, ih]
  | set v =>
    simp only [run, spec, Stack.set]
    rcases hst : st.getLast? with _ | x
    · have : st = [] := List.getLast?_eq_none_iff.1 hst
      subst this
      cases v with
      | other => simp [Val.isBackend]
      | text t =>
        by_cases ht : t ∈ names
        · simp [Val.isBackend, ht]
        · simp [Val.isBackend, ht]
      | obj i => simp [Val.isBackend]
    · have : st ≠ [] := by rintro rfl; simp at hst
      simp [this]
  | get => rfl
  | raise => rfl
  | attempt p ih => simp only [run, spec, ih]

/-- `set_default_backend` inside a block is rejected and changes nothing. -/
theorem C31_set_in_block (v w : Val) (hw : w.isBackend = true) (st : List Val) (d : Val) :
    run (.block w (.set v)) ⟨st, d⟩ = (some .assertionError, ⟨st, d⟩, []) := by
  rw [C31_default_backend]
  cases w <;> simp [spec, Val.isBackend] at hw ⊢

/-- Two nested blocks, an exception in the inner one, and a look at the default after it. -/
example : run (.block (.text "jax") (.seq (.attempt (.block (.obj 7) (.seq .get .raise))) .get))
    ⟨[], .text "numpy"⟩ = (none, ⟨[], .text "numpy"⟩, [.obj 7, .text "jax"]) := by
  rw [C31_default_backend]; rfl

/-! ## Node collections -/

/-- A program that creates nodes inside `NodeCollection` blocks.  Containers have numbers. -/
inductive CProg
  | skip
  | seq (p q : CProg)
  /-- `with NodeCollection(container c): p`; `ok` says whether `c` is a list or a set -/
  | block (c : Nat) (ok : Bool) (p : CProg)
  /-- a node constructor; with `ok = false` it raises before the node is registered
  (network_components.py:80-99) -/
  | create (ok : Bool)
  | raise
  | attempt (p : CProg)

/-- The stack of `ops.py`, the containers, and the number of nodes created. -/
structure CState where
  stack : List Nat
  content : Nat → List Nat
  next : Nat

/-- `AbstractNode.__init__`, registration (network_components.py:100-102), with
`get_current_collection` (ops.py:22-31) and `NodeCollection.add` (network_components.py:2224-2228).
A new node is not in any container, so `set.add` and `list.append` do the same. -/
def CState.create (s : CState) : CState :=
  match s.stack.getLast? with
  | some c => { s with content := Function.update s.content c (s.content c ++ [s.next])
                       next := s.next + 1 }
  | none => { s with next := s.next + 1 }

/-- The machine. -/
def crun : CProg → CState → Option Err × CState
  | .skip, s => (none, s)
  | .seq p q, s =>
    match crun p s with
    | (some e, s') => (some e, s')
    | (none, s') => crun q s'
  | .block c ok p, s =>
    if ok = false then (some .valueError, s)
    else
      let r := crun p { s with stack := s.stack ++ [c] }
      (r.1, { r.2 with stack := r.2.stack.dropLast })
  | .create ok, s => if ok then (none, s.create) else (some .valueError, s)
  | .raise, s => (some .user, s)
  | .attempt p, s => (none, (crun p s).2)

/-- The specification: the exception and, for every node that is created, in order, the
container of the innermost enclosing block. -/
def cspec (inner : Option Nat) : CProg → Option Err × List (Option Nat)
  | .skip => (none, [])
  | .seq p q =>
    match cspec inner p with
    | (some e, l) => (some e, l)
    | (none, l) => ((cspec inner q).1, l ++ (cspec inner q).2)
  | .block c ok p => if ok then cspec (some c) p else (some .valueError, [])
  | .create ok => if ok then (none, [inner]) else (some .valueError, [])
  | .raise => (some .user, [])
  | .attempt p => (none, (cspec inner p).2)

/-- The nodes of `l` that belong into container `c`; the first one has the number `k`. -/
def nodesOf (c k : Nat) (l : List (Option Nat)) : List Nat :=
  ((l.zipIdx k).filter (fun p => p.1 = some c)).map Prod.snd

theorem nodesOf_append (c k : Nat) (l m : List (Option Nat)) :
    nodesOf c k (l ++ m) = nodesOf c k l ++ nodesOf c (k + l.length) m := by
  simp [nodesOf, List.zipIdx_append]

/-- For every program and every state: the stack is the same after the program, also after an
exception, and every container has got exactly the nodes that were created directly inside a
block of this container, once each, in the order of creation. -/
theorem C32_node_collection (p : CProg) (s : CState) :
    crun p s = ((cspec s.stack.getLast? p).1,
      { stack := s.stack
        content := fun c => s.content c ++ nodesOf c s.next (cspec s.stack.getLast? p).2
        next := s.next + (cspec s.stack.getLast? p).2.length }) := by
  induction p generalizing s with
  | skip => simp [crun, cspec, nodesOf]
  | seq p q ihp ihq =>
    simp only [crun, ihp, cspec]
    rcases cspec s.stack.getLast? p with ⟨_ | e, l⟩
    · simp only [ihq, nodesOf_append, List.append_assoc, List.length_append, Nat.add_assoc]
    · rfl
  | block c ok p ih =>
    cases ok with
    | false => simp [crun, cspec, nodesOf]
    | true => simp [crun, cspec, ih]
  | create ok =>
    cases ok with
    | false => simp [crun, cspec, nodesOf]
    | true =>
      simp only [crun, cspec, CState.create]
      rcases hst : s.stack.getLast? with _ | c
      · simp [nodesOf]
      · simp only [if_true, List.length_singleton, Prod.mk.injEq, CState.mk.injEq, true_and,
          and_true]
        funext c'
        by_cases hc : c' = c
        · subst hc; simp [nodesOf]
        · simp [nodesOf, hc, Ne.symm hc]
  | raise => simp [crun, cspec, nodesOf]
  | attempt p ih => simp only [crun, cspec, ih]

/-- No node is in two containers or twice in one. -/
theorem C32_once (p : CProg) (stack : List Nat) {c c' : Nat} :
    ((crun p ⟨stack, fun _ => [], 0⟩).2.content c).Nodup ∧
    (c ≠ c' → ∀ n ∈ (crun p ⟨stack, fun _ => [], 0⟩).2.content c,
      n ∉ (crun p ⟨stack, fun _ => [], 0⟩).2.content c') := by
  rw [C32_node_collection]
  simp only [List.nil_append]
  generalize (cspec stack.getLast? p).2 = l
  constructor
  · have h1 : ((l.zipIdx 0).map Prod.snd).Nodup := by
      rw [List.zipIdx_map_snd]; exact List.nodup_range'
    exact h1.sublist (List.filter_sublist.map _)
  · intro hne n hn hn'
    simp only [nodesOf, List.mem_map, List.mem_filter, decide_eq_true_eq] at hn hn'
    obtain ⟨⟨x, i⟩, ⟨h1, h2⟩, rfl⟩ := hn
    obtain ⟨⟨y, j⟩, ⟨h3, h4⟩, h5⟩ := hn'
    simp only at h2 h4 h5
    subst h2 h4 h5
    rw [List.mem_zipIdx_iff_getElem?] at h1 h3
    rw [h1] at h3
    simp only [Option.some.injEq] at h3
    exact hne h3

/-- Three nodes, the second in an inner block that ends with an exception. -/
example : (crun (.block 0 true (.seq (.create true) (.seq
    (.attempt (.block 1 true (.seq (.create true) .raise))) (.create true))))
    ⟨[], fun _ => [], 0⟩).2.content 0 = [0, 2] := by
  rw [C32_node_collection]; rfl

/-! ## The backend registry -/

/-- The argument of `get_backend`: a name or a backend object. -/
inductive Arg
  | name (s : String)
  | obj (id : Nat)

/-- `_INSTANTIATED_BACKENDS` and the number of the next object. -/
structure Reg where
  dict : List (String × Nat)
  next : Nat

/-- `get_backend` (backend_factory.py:34-47).  `avail s` says whether the package of the backend
`s` is installed; otherwise the constructor of the backend raises. -/
def getBackend (avail : String → Bool) (a : Arg) (r : Reg) : Except Err Nat × Reg :=
  match a with
  | .obj i => (.ok i, r)
  | .name s =>
    if s ∉ names then (.error .valueError, r)
    else match r.dict.lookup s with
      | some i => (.ok i, r)
      | none =>
        if avail s = false then (.error .importError, r)
        else (.ok r.next, { dict := (s, r.next) :: r.dict, next := r.next + 1 })

/-- A history of calls; other objects may be created between the calls. -/
def calls (avail : String → Bool) : List (Arg × Nat) → Reg → List (Except Err Nat) × Reg
  | [], r => ([], r)
  | (a, k) :: l, r =>
    let x := getBackend avail a { r with next := r.next + k }
    let y := calls avail l x.2
    (x.1 :: y.1, y.2)

/-- Names are mapped to different objects that exist. -/
structure Reg.OK (r : Reg) : Prop where
  lt : ∀ p ∈ r.dict, p.2 < r.next
  inj : ∀ p ∈ r.dict, ∀ q ∈ r.dict, p.2 = q.2 → p.1 = q.1

theorem lookup_mem {d : List (String × Nat)} {s : String} {i : Nat} (h : d.lookup s = some i) :
    (s, i) ∈ d := by
  induction d with
  | nil => simp at h
  | cons p d ih =>
    rw [List.lookup_cons] at h
    by_cases hs : s = p.1
    · subst hs
      simp only [beq_self_eq_true, Option.some.injEq] at h
      subst h
      simp
    · have : (s == p.1) = false := by simpa using hs
      rw [this] at h
      exact List.mem_cons_of_mem _ (ih h)

theorem getBackend_ok (avail : String → Bool) {r : Reg} (h : r.OK) (a : Arg) (k : Nat) :
    (getBackend avail a { r with next := r.next + k }).2.OK ∧
    ∀ s i, r.dict.lookup s = some i →
      (getBackend avail a { r with next := r.next + k }).2.dict.lookup s = some i := by
  have h' : Reg.OK { r with next := r.next + k } :=
    ⟨fun p hp => Nat.lt_of_lt_of_le (h.lt p hp) (Nat.le_add_right _ _), h.inj⟩
  cases a with
  | obj i => exact ⟨h', fun _ _ hs => hs⟩
  | name s =>
    by_cases hs : s ∈ names
    · rcases hl : r.dict.lookup s with _ | i
      · by_cases hav : avail s = false
        · simp only [getBackend, hs, not_true_eq_false, if_false, hl, hav, if_true]
          exact ⟨h', fun _ _ hs => hs⟩
        simp only [getBackend, hs, not_true_eq_false, if_false, hl, if_neg hav]
        refine ⟨⟨?_, ?_⟩, ?_⟩
        · intro p hp
          rcases List.mem_cons.1 hp with rfl | hp
          · simp
          · have := h.lt p hp
            simp only
            omega
        · intro p hp q hq hpq
          rcases List.mem_cons.1 hp with rfl | hp <;> rcases List.mem_cons.1 hq with rfl | hq
          · rfl
          · have := h.lt q hq
            simp only at hpq
            omega
          · have := h.lt p hp
            simp only at hpq
            omega
          · exact h.inj p hp q hq hpq
        · intro s' i' hs'
          rw [List.lookup_cons]
          by_cases he : s' = s
          · subst he
            rw [hl] at hs'
            cases hs'
          · have : (s' == s) = false := by simpa using he
            rw [this]
            exact hs'
      · simp only [getBackend, hs, not_true_eq_false, if_false, hl]
        exact ⟨h', fun _ _ hs => hs⟩
    · simp only [getBackend, hs, not_false_eq_true, if_true]
      exact ⟨h', fun _ _ hs => hs⟩

/-- After any history, a name that was looked up keeps its object. -/
theorem calls_stable (avail : String → Bool) {r : Reg} (h : r.OK) (l : List (Arg × Nat)) :
    (calls avail l r).2.OK ∧ (∀ s i, r.dict.lookup s = some i → (calls avail l r).2.dict.lookup s = some i) ∧
    ∀ (j : Nat) (s : String) (k : Nat), l[j]? = some (Arg.name s, k) → s ∈ names → avail s = true →
      ∃ i, (calls avail l r).1[j]? = some (Except.ok i) ∧ (calls avail l r).2.dict.lookup s = some i := by
  induction l generalizing r with
  | nil => exact ⟨h, fun _ _ hs => hs, by simp⟩
  | cons p l ih =>
    obtain ⟨a, k⟩ := p
    obtain ⟨h1, h2⟩ := getBackend_ok avail h a k
    obtain ⟨i1, i2, i3⟩ := ih h1
    refine ⟨i1, fun s i hs => i2 s i (h2 s i hs), ?_⟩
    intro j s k' hj hs hav
    cases j with
    | zero =>
      simp only [List.getElem?_cons_zero, Option.some.injEq, Prod.mk.injEq] at hj
      obtain ⟨rfl, rfl⟩ := hj
      simp only [calls, List.getElem?_cons_zero]
      rcases hl : r.dict.lookup s with _ | i
      · refine ⟨r.next + k, ?_, i2 s _ ?_⟩
        · simp [getBackend, hs, hl, hav]
        · simp [getBackend, hs, hl, hav]
      · refine ⟨i, ?_, i2 s _ ?_⟩
        · simp [getBackend, hs, hl, hav]
        · simp [getBackend, hs, hl, hav]
    | succ j =>
      simp only [List.getElem?_cons_succ] at hj
      obtain ⟨i, k1, k2⟩ := i3 j s k' hj hs hav
      exact ⟨i, by simpa [calls] using k1, by simpa [calls] using k2⟩

theorem Reg.empty_ok (n : Nat) : (Reg.mk [] n).OK := ⟨by simp, by simp⟩

/-- In every history of calls that starts with an empty registry: two calls with the names `s`
and `t` of existing and installed backends succeed, and give the same object exactly if `s = t`. -/
theorem C33_get_backend (avail : String → Bool) (l : List (Arg × Nat)) (n : Nat) {i j : Nat} {s t : String} {k k' : Nat}
    (hi : l[i]? = some (.name s, k)) (hj : l[j]? = some (.name t, k')) (hs : s ∈ names)
    (ht : t ∈ names) (has : avail s = true) (hat : avail t = true) :
    ∃ a b, (calls avail l ⟨[], n⟩).1[i]? = some (.ok a) ∧ (calls avail l ⟨[], n⟩).1[j]? = some (.ok b) ∧
      (a = b ↔ s = t) := by
  obtain ⟨ok, -, h⟩ := calls_stable avail (Reg.empty_ok n) l
  obtain ⟨a, a1, a2⟩ := h i s k hi hs has
  obtain ⟨b, b1, b2⟩ := h j t k' hj ht hat
  refine ⟨a, b, a1, b1, ?_⟩
  constructor
  · rintro rfl
    exact ok.inj (s, a) (lookup_mem a2) (t, a) (lookup_mem b2) rfl
  · rintro rfl
    rw [a2] at b2
    exact Option.some.inj b2

/-- Unknown names are rejected without a change of the registry; objects are returned as they
are. -/
theorem C33_other (avail : String → Bool) (r : Reg) :
    (∀ s, s ∉ names → getBackend avail (.name s) r = (.error .valueError, r)) ∧
    ∀ i, getBackend avail (.obj i) r = (.ok i, r) := by
  refine ⟨fun s hs => ?_, fun i => rfl⟩
  simp [getBackend, hs]

example := C33_get_backend (fun s => s != "tensorflow") [(.name "jax", 2), (.name "numpy", 0), (.name "foo", 0),
  (.name "jax", 5)] 0 (i := 0) (j := 3) rfl rfl (by decide) (by decide) (by decide) (by decide)

end TN.Context
