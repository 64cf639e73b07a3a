import Verif.QuContract
import Verif.GraphProps6

/-!
# The algebra of `QuOperator`s (C55): adjoint, products, partial trace, norm

Model of `check_spaces`, `quantum_constructor`, `adjoint`, `trace`, `norm`, `partial_trace`,
`__matmul__`, `__mul__` by an operator and `tensor_product` (quantum/quantum.py:34-104, 268-426) and of
`projector`, `reduced_density` (quantum/quantum.py:541-549).

Simplifications: the nodes are plain nodes (for `CopyNode`s without trace edges `copy` does the same);
the classes that `quantum_constructor` chooses from differ in nothing that is modelled; subsystems are
given by non-negative numbers; the sets `ref_nodes` and `ignore_edges` are lists in some order.
-/

set_option linter.unusedSectionVars false

namespace TN.Graph

open TN Finset

variable {R : Type} [CommSemiring R]

/-- `check_spaces(edges_1, edges_2)` (quantum/quantum.py:86-104). -/
def checkSpaces (a b : List EId) : M R Unit :=
  if a.length ≠ b.length then M.throw .valueError
  else M.forEach (a.zip b) fun p => do
    let d1 ← dimension p.1
    let d2 ← dimension p.2
    if d1 ≠ d2 then M.throw .valueError else pure ()

/-- `quantum_constructor(out_edges, in_edges, ref_nodes, ignore_edges)`
(quantum/quantum.py:34-61, 191-196). -/
def quantumConstructor (r : Run R) (q : QuOp) : M R (Option QuOp) := do
  let c ← checkNetwork r q
  match c with
  | none => pure none
  | some _ => pure (some q)

/-- `copy(self.nodes, conjugate)` (quantum/quantum.py:274, 312, 348, 413): the pairs of the dictionary of
nodes, and the dictionary of edges. -/
def quCopy (r : Run R) (cj : R → R) (conjugate : Bool) (q : QuOp) :
    M R (Option (List (NId × NId) × (EId → Option EId))) := do
  let ns ← quNodes r q
  match ns with
  | none => pure none
  | some ns => do
    let (nd, ed) ← copyNodes r.ie cj conjugate (r.vis ns)
    pure (some (nd, fun e => ed.lookup e))

/-- `QuOperator.adjoint` (quantum/quantum.py:268-279). -/
def quAdjoint (r : Run R) (cj : R → R) (q : QuOp) : M R (Option QuOp) := do
  let p ← quCopy r cj true q
  match p with
  | none => pure none
  | some (nd, ed) => do
    let o ← lookups ed q.inn
    let i ← lookups ed q.out
    let f ← lookups (fun n => nd.lookup n) q.refs
    let g ← lookups ed q.ign
    quantumConstructor r ⟨o, i, g, f⟩

/-- `[l[i] for i in is]`. -/
def pick (l : List EId) : List Nat → M R (List EId)
  | [] => pure []
  | i :: is =>
    match l[i]? with
    | none => M.throw .indexError
    | some e => do
      let t ← pick l is
      pure (e :: t)

/-- The loop of `partial_trace` (quantum/quantum.py:313-314). -/
def ptraceLoop : List (EId × EId) → (EId → Option EId) → M R (EId → Option EId)
  | [], d => pure d
  | (e1, e2) :: ps, d =>
    match d e1, d e2 with
    | some f1, some f2 => do
      let f ← connect f1 f2
      ptraceLoop ps (Function.update d e1 (some f))
    | _, _ => M.throw .keyError

/-- `QuOperator.partial_trace(subsystems_to_trace_out)` (quantum/quantum.py:293-326). -/
def quPartialTrace (r : Run R) (cj : R → R) (q : QuOp) (subs : List Nat) : M R (Option QuOp) := do
  let ot ← pick q.out subs
  let it ← pick q.inn subs
  checkSpaces it ot
  let p ← quCopy r cj false q
  match p with
  | none => pure none
  | some (nd, ed) => do
    let ed ← ptraceLoop (ot.zip it) ed
    let o ← lookups ed (q.out.filter fun e => e ∉ ot)
    let i ← lookups ed (q.inn.filter fun e => e ∉ it)
    let g ← lookups ed q.ign
    quantumConstructor r ⟨o, i, g, nd.map Prod.snd⟩

/-- `QuOperator.trace` (quantum/quantum.py:281-283). -/
def quTrace (r : Run R) (cj : R → R) (q : QuOp) : M R (Option QuOp) :=
  quPartialTrace r cj q (List.range q.inn.length)

/-- The loop of `__matmul__` (quantum/quantum.py:351-352). -/
def joinLoop (d1 d2 : EId → Option EId) : List (EId × EId) → M R Unit
  | [] => pure ()
  | (e1, e2) :: ps =>
    match d1 e1, d2 e2 with
    | some f1, some f2 => do
      let _ ← connect f1 f2
      joinLoop d1 d2 ps
    | _, _ => M.throw .keyError

/-- `A @ B` (quantum/quantum.py:328-361). -/
def quMatmul (r : Run R) (cj : R → R) (a b : QuOp) : M R (Option QuOp) := do
  checkSpaces a.inn b.out
  let p ← quCopy r cj false a
  match p with
  | none => pure none
  | some (nd1, ed1) => do
    let p ← quCopy r cj false b
    match p with
    | none => pure none
    | some (nd2, ed2) => do
      joinLoop ed1 ed2 (a.inn.zip b.out)
      let i ← lookups ed2 b.inn
      let o ← lookups ed1 a.out
      let g1 ← lookups ed1 a.ign
      let g2 ← lookups ed2 b.ign
      quantumConstructor r ⟨o, i, g1 ++ g2, nd1.map Prod.snd ++ nd2.map Prod.snd⟩

/-- `A.tensor_product(B)` (quantum/quantum.py:396-426). -/
def quTensor (r : Run R) (cj : R → R) (a b : QuOp) : M R (Option QuOp) := do
  let p ← quCopy r cj false a
  match p with
  | none => pure none
  | some (nd1, ed1) => do
    let p ← quCopy r cj false b
    match p with
    | none => pure none
    | some (nd2, ed2) => do
      let i1 ← lookups ed1 a.inn
      let i2 ← lookups ed2 b.inn
      let o1 ← lookups ed1 a.out
      let o2 ← lookups ed2 b.out
      let g1 ← lookups ed1 a.ign
      let g2 ← lookups ed2 b.ign
      quantumConstructor r ⟨o1 ++ o2, i1 ++ i2, g1 ++ g2, nd1.map Prod.snd ++ nd2.map Prod.snd⟩

/-- `A * B` for operators (quantum/quantum.py:363-387). -/
def quMul (r : Run R) (cj : R → R) (a b : QuOp) : M R (Option QuOp) :=
  if (a.out = [] ∧ a.inn = []) ∨ (b.out = [] ∧ b.inn = []) then quTensor r cj a b
  else M.throw .valueError

/-- `QuOperator.norm` (quantum/quantum.py:285-291). -/
def quNorm (r : Run R) (cj : R → R) (q : QuOp) : M R (Option QuOp) := do
  let a ← quAdjoint r cj q
  match a with
  | none => pure none
  | some a => do
    let p ← quMatmul r cj a q
    match p with
    | none => pure none
    | some p => quTrace r cj p

/-- `QuVector.projector` (quantum/quantum.py:541-542). -/
def quProjector (r : Run R) (cj : R → R) (q : QuOp) : M R (Option QuOp) := do
  let a ← quAdjoint r cj q
  match a with
  | none => pure none
  | some a => quMatmul r cj q a

/-- `QuVector.reduced_density(subsystems_to_trace_out)` (quantum/quantum.py:544-549). -/
def quReducedDensity (r : Run R) (cj : R → R) (q : QuOp) (subs : List Nat) : M R (Option QuOp) := do
  let p ← quProjector r cj q
  match p with
  | none => pure none
  | some p => quPartialTrace r cj p subs

/-! ### Specification -/

/-- The nodes of the operator are `N`: they are joined to no other nodes, each is reached from a reference
node or an output or input edge, and their dangling edges are the output, input and ignored edges, each
once. -/
structure QuNet (h : Heap R) (q : QuOp) (N : List NId) : Prop where
  ne : N ≠ []
  nodup : N.Nodup
  lt : ∀ n ∈ N, n < h.nn
  closed : ClosedNet h N
  refs : ∀ n ∈ q.refs, n ∈ N
  reach : ∀ n ∈ N, ∃ m, (m ∈ q.refs ∨ ∃ e ∈ q.out ++ q.inn, e ∈ (h.node m).edges) ∧ m ∈ N ∧ Connected h m n
  edup : (q.ign ++ q.out ++ q.inn).Nodup
  edges : ∀ e, e ∈ q.ign ++ q.out ++ q.inn ↔ OpenEdge h N e

/-- The element of the operator at the positions `g` of the ignored, `o` of the output and `i` of the input
edges: the value of the network. -/
def elem (h : Heap R) (N : List NId) (q : QuOp) (g o i : List Nat) : R :=
  netVal (netOf h N) (assign (fun _ => 0) (q.ign ++ q.out ++ q.inn) (g ++ o ++ i))

/-- The dimensions of the edges. -/
def dims (h : Heap R) (es : List EId) : List Nat := es.map (edim h)

/-- Everything of `h` is still there and is joined to nothing new. -/
structure Kept (h h' : Heap R) : Prop where
  nn : h.nn ≤ h'.nn
  ne : h.ne ≤ h'.ne
  node : ∀ n < h.nn, h'.node n = h.node n
  edge : ∀ e < h.ne, h'.edge e = h.edge e
  apart : ∀ n, h.nn ≤ n → n < h'.nn → ∀ e ∈ (h'.node n).edges, h.ne ≤ e

/-! ### Proofs -/

theorem Kept.refl {h : Heap R} : Kept h h :=
  ⟨le_refl _, le_refl _, fun _ _ => rfl, fun _ _ => rfl, fun _ _ _ => by omega⟩

theorem Kept.trans {h k l : Heap R} (a : Kept h k) (b : Kept k l) : Kept h l where
  nn := a.nn.trans b.nn
  ne := a.ne.trans b.ne
  node n hn := (b.node n (hn.trans_le a.nn)).trans (a.node n hn)
  edge e he := (b.edge e (he.trans_le a.ne)).trans (a.edge e he)
  apart n h1 h2 e he := by
    by_cases hn : n < k.nn
    · rw [b.node n hn] at he
      exact a.apart n h1 hn e he
    · exact a.ne.trans (b.apart n (by omega) h2 e he)

theorem Copied.kept {h h' : Heap R} {nodes : List NId} {c : NId → NId} {E : EId → EId} {φ : R → R}
    (x : Copied h h' nodes c E φ) : Kept h h' where
  nn := x.more.1
  ne := x.more.2
  node := x.old_node
  edge := x.old_edge
  apart n h1 h2 e he := by
    obtain ⟨m, hm, rfl⟩ := (x.new_node n).1 ⟨h1, h2⟩
    rw [x.edges m hm] at he
    obtain ⟨e', h3, rfl⟩ := List.mem_map.1 he
    exact (x.new_edge m hm e' h3).1

theorem Kept.at_iff {h h' : Heap R} (k : Kept h h') {s : Slot} (hs : s.1 < h.nn) {e : EId} :
    At h' s e ↔ At h s e := by
  unfold At
  rw [k.node _ hs]
  exact ⟨fun x => ⟨hs, x.2⟩, fun x => ⟨hs.trans_le k.nn, x.2⟩⟩

/-- A slot of an old edge is an old slot. -/
theorem Kept.at_old {h h' : Heap R} (k : Kept h h') {s : Slot} {e : EId} (he : e < h.ne) (ha : At h' s e) :
    s.1 < h.nn := by
  by_contra hc
  have := k.apart s.1 (by omega) ha.1 e ha.mem
  omega

theorem Kept.edim {h h' : Heap R} (w : WF h) (w' : WF h') (k : Kept h h') {e : EId} (hu : InUse h e) :
    edim h' e = edim h e := by
  obtain ⟨s, hs⟩ := hu
  have hs' := (k.at_iff hs.1).2 hs
  rw [w'.edim_eq hs', w.edim_eq hs]
  simp only [dimAt, Heap.shape]
  rw [k.node _ hs.1]

theorem Kept.open_iff {h h' : Heap R} (w : WF h) (k : Kept h h') {N : List NId} (hlt : ∀ n ∈ N, n < h.nn)
    {e : EId} : OpenEdge h' N e ↔ OpenEdge h N e := by
  constructor
  · rintro ⟨h1, s, h2, h3⟩
    have h4 := (k.at_iff (hlt _ h2)).1 h3
    rw [k.edge e (w.lt h4.inUse)] at h1
    exact ⟨h1, s, h2, h4⟩
  · rintro ⟨h1, s, h2, h3⟩
    refine ⟨?_, s, h2, (k.at_iff (hlt _ h2)).2 h3⟩
    rw [k.edge e (w.lt h3.inUse)]
    exact h1

theorem Kept.connected {h h' : Heap R} (k : Kept h h') {m n : NId} (c : Connected h m n) :
    Connected h' m n := by
  induction c with
  | refl => exact .refl
  | tail _ a ih =>
    obtain ⟨h1, h2, e, h3, h4⟩ := a
    exact ih.tail ⟨h1.trans_le k.nn, h2.trans_le k.nn, e, by rwa [k.node _ h1], by rwa [k.node _ h2]⟩

theorem Kept.netOf {h h' : Heap R} (k : Kept h h') {N : List NId} (hlt : ∀ n ∈ N, n < h.nn) :
    netOf h' N = netOf h N := by
  unfold Graph.netOf
  exact List.map_congr_left fun n hn => by rw [k.node n (hlt n hn)]

theorem Kept.quNet {h h' : Heap R} (w : WF h) (k : Kept h h') {q : QuOp} {N : List NId} (x : QuNet h q N) :
    QuNet h' q N where
  ne := x.ne
  nodup := x.nodup
  lt n hn := (x.lt n hn).trans_le k.nn
  closed s s' e h1 h2 h3 := by
    have h4 := (k.at_iff (x.lt _ h3)).1 h1
    have h5 := k.at_old (w.lt h4.inUse) h2
    exact x.closed s s' e h4 ((k.at_iff h5).1 h2) h3
  refs := x.refs
  reach n hn := by
    obtain ⟨m, h1, h2, h3⟩ := x.reach n hn
    refine ⟨m, ?_, h2, k.connected h3⟩
    rwa [k.node m (x.lt m h2)]
  edup := x.edup
  edges e := by rw [x.edges, k.open_iff w x.lt]

theorem Kept.elem {h h' : Heap R} (k : Kept h h') {q : QuOp} {N : List NId} (x : QuNet h q N)
    (g o i : List Nat) : elem h' N q g o i = elem h N q g o i := by
  unfold Graph.elem
  rw [k.netOf x.lt]

theorem QuOK.quNet {h : Heap R} {q : QuOp} {N : List NId} (x : QuOK h q N) : QuNet h q N :=
  { x with
    refs := fun n hn => (x.refs n).1 hn
    reach := fun n hn => ⟨n, .inl ((x.refs n).2 hn), hn, .refl⟩ }

/-- The element of an operator is the value of its network at positions that are right at the dangling
edges. -/
theorem QuNet.elem_eq {h : Heap R} (w : WF h) {q : QuOp} {N : List NId} (x : QuNet h q N) (τ : EId → Nat) :
    elem h N q (q.ign.map τ) (q.out.map τ) (q.inn.map τ) = netVal (netOf h N) τ := by
  unfold elem
  refine netVal_congr' w x.nodup x.lt x.closed fun e he => ?_
  have hm := (x.edges e).2 he
  have h1 : (q.ign ++ q.out ++ q.inn).map (assign (fun _ => 0) (q.ign ++ q.out ++ q.inn)
      (q.ign.map τ ++ q.out.map τ ++ q.inn.map τ)) = (q.ign ++ q.out ++ q.inn).map τ := by
    rw [assign_map_self x.edup (by simp)]
    simp
  exact (List.map_inj_left.1 h1) e hm

theorem assign_update_comm {L : Type*} [DecidableEq L] {C : List L} {l : L} (hl : l ∉ C) (σ : L → Nat)
    (c : List Nat) (v : Nat) : assign (Function.update σ l v) C c = Function.update (assign σ C c) l v := by
  induction C generalizing σ c with
  | nil => simp [assign]
  | cons a C ih =>
    simp only [List.mem_cons, not_or] at hl
    cases c with
    | nil => simp [assign]
    | cons i is =>
      simp only [assign]
      rw [Function.update_comm hl.1, ih hl.2]

/-! #### Joining many pairs of edges -/

/-- Join the pairs one after the other. -/
def connectAll : List (EId × EId) → M R Unit
  | [] => pure ()
  | (a, b) :: ps => do
    let _ ← connect a b
    connectAll ps

/-- The pairs were joined: their positions are summed together. -/
structure JoinedAll (h h' : Heap R) (N : List NId) (ps : List (EId × EId)) : Prop where
  wf : WF h'
  nn : h'.nn = h.nn
  ne : h.ne ≤ h'.ne
  outside : ∀ n < h.nn, n ∉ N → h'.node n = h.node n
  edge : ∀ e < h.ne, h'.edge e = h.edge e
  new : ∀ n < h.nn, ∀ e ∈ (h'.node n).edges, e ∈ (h.node n).edges ∨ h.ne ≤ e
  closed : ClosedNet h' N
  opn : ∀ e, OpenEdge h' N e ↔ OpenEdge h N e ∧ e ∉ ps.map Prod.fst ∧ e ∉ ps.map Prod.snd
  dim : ∀ e, OpenEdge h' N e → edim h' e = edim h e
  value : ∀ σ, netVal (netOf h' N) σ = sumOver (edim h) (ps.map Prod.fst)
    (fun τ => netVal (netOf h N) (assign τ (ps.map Prod.snd) ((ps.map Prod.fst).map τ))) σ

theorem openEdge_mem {h : Heap R} {N : List NId} {e : EId} (o : OpenEdge h N e) :
    InUse h e ∧ e ∈ flatL (netOf h N) := by
  obtain ⟨-, s, h1, h2⟩ := o
  exact ⟨h2.inUse, mem_flat_netOf.2 ⟨s.1, h1, h2.mem⟩⟩

theorem connectAll_ok {N : List NId} (hnd : N.Nodup) : ∀ (ps : List (EId × EId)) {h : Heap R}, WF h →
    (∀ n ∈ N, n < h.nn) → ClosedNet h N → (∀ p ∈ ps, OpenEdge h N p.1 ∧ OpenEdge h N p.2 ∧
      edim h p.1 = edim h p.2) → (ps.map Prod.fst ++ ps.map Prod.snd).Nodup →
    ∃ h', connectAll ps h = (.ok (), h') ∧ JoinedAll h h' N ps
  | [], h, w, hlt, hc, _, _ => ⟨h, rfl, w, rfl, le_refl _, fun _ _ _ => rfl, fun _ _ => rfl,
      fun _ _ _ he => .inl he, hc, by simp, fun _ _ => rfl, fun σ => by simp [sumOver, assign]⟩
  | (a, b) :: ps, h, w, hlt, hc, hps, hn => by
    obtain ⟨oa, ob, hd⟩ := hps (a, b) (by simp)
    simp only [] at oa ob hd
    simp only [List.map_cons, List.cons_append, List.nodup_cons, List.mem_append, List.mem_cons, not_or] at hn
    obtain ⟨⟨ha1, hab, ha2⟩, hn⟩ := hn
    have hn2 : (b :: (ps.map Prod.fst ++ ps.map Prod.snd)).Nodup := List.perm_middle.nodup_iff.1 hn
    rw [List.nodup_cons, List.mem_append, not_or] at hn2
    obtain ⟨⟨hb1, hb2⟩, hn3⟩ := hn2
    obtain ⟨ua, fa⟩ := openEdge_mem oa
    obtain ⟨ub, fb⟩ := openEdge_mem ob
    obtain ⟨h1, hr, j, hne, hed⟩ := connect_ok w ua ub oa.1 ob.1 hab hd
    obtain ⟨na, xa, hna, ra, ata⟩ := open_dang w oa
    obtain ⟨nb, xb, hnb, rb, atb⟩ := open_dang w ob
    have hsl := fun s f => j.slots w (sa := (na, xa)) (sb := (nb, xb)) ra rb ua ub s f
    have hopen : ∀ e, OpenEdge h1 N e ↔ OpenEdge h N e ∧ e ≠ a ∧ e ≠ b := by
      intro e
      constructor
      · rintro ⟨g1, s, g2, g3⟩
        have g4 := (hsl s e).1 g3
        by_cases hs : s = (na, xa) ∨ s = (nb, xb)
        · rw [if_pos hs] at g4
          rw [g4] at g1
          rw [(j.new w).2.1] at g1
          simp at g1
        · rw [if_neg hs] at g4
          have e1 : e ≠ a := by
            rintro rfl
            exact hs (.inl ((at_dang w ua ra).1 g4))
          have e2 : e ≠ b := by
            rintro rfl
            exact hs (.inr ((at_dang w ub rb).1 g4))
          refine ⟨⟨?_, s, g2, g4⟩, e1, e2⟩
          rw [← hed e (by have := w.lt g4.inUse; omega)]
          exact g1
      · rintro ⟨⟨g1, s, g2, g3⟩, g4, g5⟩
        refine ⟨?_, s, g2, j.at_rest g3 g4 g5⟩
        rw [hed e (by have := w.lt g3.inUse; omega)]
        exact g1
    have hcl : ClosedNet h1 N := by
      intro s s' e g1 g2 g3
      have g4 := (hsl s e).1 g1
      have g5 := (hsl s' e).1 g2
      by_cases hs' : s' = (na, xa) ∨ s' = (nb, xb)
      · rcases hs' with rfl | rfl
        · exact hna
        · exact hnb
      · rw [if_neg hs'] at g5
        by_cases hs : s = (na, xa) ∨ s = (nb, xb)
        · rw [if_pos hs] at g4
          have := w.lt g5.inUse
          omega
        · rw [if_neg hs] at g4
          exact hc s s' e g4 g5 g3
    have hdim : ∀ e, OpenEdge h1 N e → edim h1 e = edim h e := by
      intro e he
      obtain ⟨g1, g2, g3⟩ := (hopen e).1 he
      exact (j.rest w (openEdge_mem g1).1 g2 g3).2.2
    have hps' : ∀ p ∈ ps, OpenEdge h1 N p.1 ∧ OpenEdge h1 N p.2 ∧ edim h1 p.1 = edim h1 p.2 := by
      intro p hp
      obtain ⟨g1, g2, g3⟩ := hps p (by simp [hp])
      have m1 : p.1 ∈ ps.map Prod.fst := List.mem_map_of_mem hp
      have m2 : p.2 ∈ ps.map Prod.snd := List.mem_map_of_mem hp
      have o1 : OpenEdge h1 N p.1 := (hopen _).2 ⟨g1, fun hh => ha1 (hh ▸ m1), fun hh => hb1 (hh ▸ m1)⟩
      have o2 : OpenEdge h1 N p.2 := (hopen _).2 ⟨g2, fun hh => ha2 (hh ▸ m2), fun hh => hb2 (hh ▸ m2)⟩
      exact ⟨o1, o2, by rw [hdim _ o1, hdim _ o2, g3]⟩
    obtain ⟨h', hr', J⟩ := connectAll_ok hnd ps j.wf (fun n hn => by rw [j.nn]; exact hlt n hn) hcl hps' hn3
    refine ⟨h', ?_, ?_⟩
    · unfold connectAll
      rw [M.bind_ok hr]
      exact hr'
    · have hval := j.value N hnd hlt fa fb
      refine ⟨J.wf, J.nn.trans j.nn, by have := J.ne; omega, ?_, ?_, ?_, J.closed, ?_, ?_, ?_⟩
      · intro n hn hN
        rw [J.outside n (by rw [j.nn]; exact hn) hN]
        obtain ⟨g1, g2⟩ := j.nodes n hn
        have g3 : (h.node n).edges.map (glue a b h.ne) = (h.node n).edges := by
          conv_rhs => rw [← List.map_id (h.node n).edges]
          refine List.map_congr_left fun e he => ?_
          have hat := at_of_mem hn he
          unfold glue
          rw [if_neg]
          · rfl
          · rintro (rfl | rfl)
            · exact hN (hc _ _ e ata hat hna)
            · exact hN (hc _ _ e atb hat hnb)
        rw [g3] at g2
        rcases hh : h1.node n with ⟨t, es⟩
        rw [hh] at g1 g2
        simp only at g1 g2
        rw [g1, g2]
      · intro e he
        rw [J.edge e (by omega), hed e (by omega)]
      · intro n hn e he
        rcases J.new n (by rw [j.nn]; exact hn) e he with g1 | g1
        · rw [(j.nodes n hn).2] at g1
          obtain ⟨e0, g2, g3⟩ := List.mem_map.1 g1
          unfold glue at g3
          by_cases hg : e0 = a ∨ e0 = b
          · rw [if_pos hg] at g3
            exact .inr (by omega)
          · rw [if_neg hg] at g3
            exact .inl (g3 ▸ g2)
        · exact .inr (by omega)
      · intro e
        rw [J.opn, hopen]
        simp only [List.map_cons, List.mem_cons, not_or]
        tauto
      · intro e he
        rw [J.dim e he, hdim e ((J.opn e).1 he).1]
      · intro σ
        rw [J.value σ, List.map_cons, sumOver_perm (List.perm_append_singleton a (ps.map Prod.fst)).symm,
          sumOver_append]
        rw [sumOver_dim_congr (dim := edim h1) (dim' := edim h)]
        · refine sumOver_congr fun τ _ _ => ?_
          rw [hval]
          simp only [sumOver]
          refine Finset.sum_congr rfl fun i _ => ?_
          congr 1
          simp only [List.map_cons, assign, Function.update_self]
          have e1 : (ps.map Prod.fst).map (Function.update τ a i) = (ps.map Prod.fst).map τ := by
            refine List.map_congr_left fun e he => ?_
            rw [Function.update_of_ne]
            rintro rfl
            exact ha1 he
          rw [e1, assign_update_comm hb2, assign_update_comm ha2]
        · intro e he
          obtain ⟨p, hp, rfl⟩ := List.mem_map.1 he
          exact hdim _ (hps' p hp).1

end TN.Graph
