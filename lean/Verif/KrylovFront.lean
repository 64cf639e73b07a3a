import Verif.Nd
import Mathlib.Data.List.Nodup
import Mathlib.Data.List.Forall2

/-!
# The `Tensor` interface to the Krylov solvers (C78)

`MatvecCache`, `krylov_error_checks`, `eigs`, `eigsh_lanczos` and `gmres` of linalg/krylov.py.
-/

set_option linter.unusedSectionVars false

namespace TN.KFront

open TN

variable {A F B : Type} [DecidableEq F]

/-! ### Model -/

/-- A `Tensor`: an array and the name of its backend (tensor.py:25-40). -/
structure Tensor (A : Type) where
  array : A
  backend : String
  deriving DecidableEq

/-- A Python object passed where a `Tensor` is expected: a `Tensor`, or something without the attributes `array` and
`backend`. -/
inductive Obj (A : Type)
  | tensor (t : Tensor A)
  | other

/-- What the interface is run with: the names `get_backend` knows, `convert_to_tensor` of each backend, and the
meaning of the functions that are passed as `A`. -/
structure Env (A F : Type) where
  known : List String
  conv : String → A → Py A
  app : F → Tensor A → List (Tensor A) → Py (Tensor A)

/-- `Tensor(array, backend)` (tensor.py:26-40). -/
def Env.tensor (E : Env A F) (a : A) (backend : String) : Py (Tensor A) :=
  if backend ∈ E.known then do
    let a ← E.conv backend a
    pure ⟨a, backend⟩
  else .error .valueError

/-- The state of `KRYLOV_MATVEC_CACHE` (krylov.py:25-49): the dictionary, and every function `wrapped` that was ever
created, with the variables it closes over. -/
structure Cache (F : Type) where
  dict : List ((String × F) × Nat)
  code : List (String × F)

/-- `MatvecCache()` (krylov.py:33-34). -/
def Cache.init : Cache F := ⟨[], []⟩

/-- `clear` (krylov.py:36-37). -/
def Cache.clear (c : Cache F) : Cache F := ⟨[], c.code⟩

/-- `retrieve` (krylov.py:39-49): the function and the new state.  Simplification: the two nested dictionaries are
one with pairs as keys. -/
def Cache.retrieve (c : Cache F) (name : String) (f : F) : Nat × Cache F :=
  match c.dict.lookup (name, f) with
  | some w => (w, c)
  | none => (c.code.length, ⟨((name, f), c.code.length) :: c.dict, c.code ++ [(name, f)]⟩)

/-- A call of the function with number `w` (krylov.py:43-47). -/
def Cache.call (E : Env A F) (c : Cache F) (w : Nat) (x : A) (args : List A) : Py A :=
  match c.code[w]? with
  | none => .error .typeError
  | some (name, f) => do
    let X ← E.tensor x name
    let Args ← args.mapM (fun a => E.tensor a name)
    let Y ← E.app f X Args
    pure Y.array

/-- The backend of `krylov_error_checks` (krylov.py:73-80). -/
def chosenBackend (E : Env A F) (backend : Option String) (x0 : Option (Obj A)) : Py String :=
  match backend, x0 with
  | none, none => .error .valueError
  | none, some .other => .error .attributeError
  | none, some (.tensor t) => .ok t.backend
  | some name, _ => if name ∈ E.known then .ok name else .error .valueError

/-- The array of `x0` (krylov.py:85-98). -/
def x0ArrayOf (backend : String) (x0 : Option (Obj A)) : Py (Option A) :=
  match x0 with
  | none => .ok none
  | some .other => .error .typeError
  | some (.tensor t) => if t.backend ≠ backend then .error .valueError else .ok (some t.array)

/-- `a.array`, with the `AttributeError` turned into a `TypeError` (krylov.py:104-107). -/
def arrayOf (o : Obj A) : Py A :=
  match o with
  | .tensor t => .ok t.array
  | .other => .error .typeError

/-- The arrays of the arguments (krylov.py:103-109). -/
def argsArrayOf (args : Option (List (Obj A))) : Py (Option (List A)) :=
  match args with
  | none => .ok none
  | some l => do
    let arrs ← l.mapM arrayOf
    pure (some arrs)

/-- `krylov_error_checks` (krylov.py:55-110); the result is the name of the backend, and the arrays. -/
def krylovErrorChecks (E : Env A F) (backend : Option String) (x0 : Option (Obj A)) (args : Option (List (Obj A))) :
    Py (String × Option A × Option (List A)) := do
  let name ← chosenBackend E backend x0
  let x0Array ← x0ArrayOf name x0
  let argsArray ← argsArrayOf args
  pure (name, x0Array, argsArray)

/-- The solver of a backend: it is given the wrapped function, the initial array and the arguments, and returns
eigenvalues and eigenvectors. -/
abbrev EigKernel (A B : Type) := String → (A → List A → Py A) → Option A → Option (List A) → Py (B × List A)

/-- `eigs` and `eigsh_lanczos` (krylov.py:113-173, 176-261), the same steps around two solvers. -/
def eig (E : Env A F) (kernel : EigKernel A B) (c : Cache F) (f : F) (backend : Option String)
    (args : Option (List (Obj A))) (x0 : Option (Obj A)) : Py (B × List (Tensor A)) × Cache F :=
  match krylovErrorChecks E backend x0 args with
  | .error e => (.error e, c)
  | .ok (name, x0Array, argsArray) =>
    let (w, c') := c.retrieve name f
    (do
      let (vals, vecs) ← kernel name (c'.call E w) x0Array argsArray
      let vecs ← vecs.mapM (fun v => E.tensor v name)
      pure (vals, vecs), c')

/-- The linear solver of a backend. -/
abbrev GmresKernel (A B : Type) := String → (A → List A → Py A) → A → Option (List A) → Option A → Py (A × B)

/-- `gmres` (krylov.py:264-361). -/
def gmres (E : Env A F) (kernel : GmresKernel A B) (c : Cache F) (f : F) (b : Obj A)
    (args : Option (List (Obj A))) (x0 : Option (Obj A)) : Py (Tensor A × B) × Cache F :=
  match b with
  | .other => (.error .typeError, c)
  | .tensor b =>
    match krylovErrorChecks E (some b.backend) x0 args with
    | .error e => (.error e, c)
    | .ok (name, x0Array, argsArray) =>
      let (w, c') := c.retrieve name f
      (do
        let (x, info) ← kernel name (c'.call E w) b.array argsArray x0Array
        let x ← E.tensor x b.backend
        pure (x, info), c')

/-- The caches that a program can reach. -/
inductive Reach : Cache F → Prop
  | init : Reach Cache.init
  | clear {c} : Reach c → Reach c.clear
  | retrieve {c} (name : String) (f : F) : Reach c → Reach (c.retrieve name f).2

/-- The caches that can be reached from `c` without `clear`. -/
inductive Steps : Cache F → Cache F → Prop
  | refl (c) : Steps c c
  | retrieve {c c'} (name : String) (f : F) : Steps c c' → Steps c (c'.retrieve name f).2

/-! ### The cache -/

theorem lookup_mem {α β : Type} [BEq α] [LawfulBEq α] {l : List (α × β)} {k : α} {v : β} (h : l.lookup k = some v) : (k, v) ∈ l := by
  induction l with
  | nil => simp at h
  | cons p l ih =>
    obtain ⟨k', v'⟩ := p
    rw [List.lookup_cons] at h
    split at h
    · rename_i he
      have : k = k' := by simpa using he
      cases h; subst this; simp
    · exact List.mem_cons_of_mem _ (ih h)

/-- Every entry of the dictionary is the function that was made for its key. -/
theorem Reach.inv {c : Cache F} (h : Reach c) : ∀ p ∈ c.dict, c.code[p.2]? = some p.1 := by
  induction h with
  | init => simp [Cache.init]
  | clear _ _ => simp [Cache.clear]
  | @retrieve c name f _ ih =>
    unfold Cache.retrieve
    split
    · exact ih
    · intro p hp
      simp only [List.mem_cons] at hp
      rcases hp with rfl | hp
      · simp
      · have := ih p hp
        rw [List.getElem?_append_left]
        · exact this
        · exact (List.getElem?_eq_some_iff.1 this).1

/-- The function that `retrieve` returns. -/
theorem retrieve_code {c : Cache F} (h : Reach c) (name : String) (f : F) :
    (c.retrieve name f).2.code[(c.retrieve name f).1]? = some (name, f) := by
  unfold Cache.retrieve
  split
  · rename_i w hw
    exact h.inv _ (lookup_mem hw)
  · simp

theorem retrieve_lookup (c : Cache F) (name : String) (f : F) :
    (c.retrieve name f).2.dict.lookup (name, f) = some (c.retrieve name f).1 := by
  unfold Cache.retrieve
  split
  · rename_i w hw; exact hw
  · simp

theorem lookup_retrieve {c : Cache F} {k : String × F} {w : Nat} (h : c.dict.lookup k = some w) (name : String) (f : F) :
    (c.retrieve name f).2.dict.lookup k = some w := by
  unfold Cache.retrieve
  split
  · exact h
  · rename_i hn
    rw [List.lookup_cons]
    have : (k == (name, f)) = false := by
      rw [beq_eq_false_iff_ne]; rintro rfl; rw [hn] at h; cases h
    simp [this, h]

theorem Steps.lookup {c c' : Cache F} (h : Steps c c') {k : String × F} {w : Nat} (hk : c.dict.lookup k = some w) :
    c'.dict.lookup k = some w := by
  induction h with
  | refl => exact hk
  | retrieve name f _ ih => exact lookup_retrieve ih name f

theorem code_retrieve {c : Cache F} {w : Nat} {p : String × F} (h : c.code[w]? = some p) (name : String) (f : F) :
    (c.retrieve name f).2.code[w]? = some p := by
  unfold Cache.retrieve
  split
  · exact h
  · rw [List.getElem?_append_left (List.getElem?_eq_some_iff.1 h).1]; exact h

/-! ### Specification -/

/-- The function a Krylov solver of backend `name` should be given for `f`: wrap the arrays as tensors of this
backend, apply `f`, and return the array of the result. -/
def Wraps (E : Env A F) (name : String) (f : F) (mv : A → List A → Py A) : Prop :=
  ∀ x args, mv x args = (do
    let X ← E.tensor x name
    let Args ← args.mapM (fun a => E.tensor a name)
    let Y ← E.app f X Args
    pure Y.array)

theorem wraps_of_code {E : Env A F} {c : Cache F} {w : Nat} {name : String} {f : F}
    (h : c.code[w]? = some (name, f)) : Wraps E name f (c.call E w) := by
  intro x args
  simp only [Cache.call, h]

/-- C78: after any history of the cache, the function that `retrieve` returns computes the function it is asked for,
on tensors of the backend it is asked for; it keeps doing so whatever is retrieved or cleared later. -/
theorem C78_cache (E : Env A F) {c : Cache F} (h : Reach c) (name : String) (f : F) :
    Wraps E name f ((c.retrieve name f).2.call E (c.retrieve name f).1) ∧
    (∀ name' f', Wraps E name f (((c.retrieve name f).2.retrieve name' f').2.call E (c.retrieve name f).1)) ∧
    Wraps E name f ((c.retrieve name f).2.clear.call E (c.retrieve name f).1) :=
  ⟨wraps_of_code (retrieve_code h name f), fun name' f' => wraps_of_code (code_retrieve (retrieve_code h name f) name' f'),
    wraps_of_code (c := (c.retrieve name f).2.clear) (retrieve_code h name f)⟩

/-- C78: as long as nothing clears the cache, the same function and backend are given the same wrapped function, no
matter what else is retrieved between the two calls; this is what the cache is for. -/
theorem C78_cache_same (c : Cache F) (name : String) (f : F) {c' : Cache F}
    (h : Steps (c.retrieve name f).2 c') : (c'.retrieve name f).1 = (c.retrieve name f).1 := by
  have := h.lookup (retrieve_lookup c name f)
  conv_lhs => unfold Cache.retrieve
  rw [this]

/-- C78: different functions, or the same function with different backends, never share a wrapped function; and after
`clear` a new one is made. -/
theorem C78_cache_distinct {c c' : Cache F} (h : Reach c) {name name' : String} {f f' : F}
    (hs : Steps (c.retrieve name f).2 c') (hne : (name, f) ≠ (name', f')) :
    (c'.retrieve name' f').1 ≠ (c.retrieve name f).1 ∧
    ((c'.clear).retrieve name f).1 ≠ (c.retrieve name f).1 := by
  have hr : Reach c' := by
    induction hs with
    | refl => exact .retrieve name f h
    | retrieve n g _ ih => exact .retrieve n g ih
  have hc : c'.code[(c.retrieve name f).1]? = some (name, f) := by
    clear hr
    induction hs with
    | refl => exact retrieve_code h name f
    | retrieve n g _ ih => exact code_retrieve ih n g
  constructor
  · intro he
    have h1 := retrieve_code hr name' f'
    rw [he, code_retrieve hc] at h1
    exact hne (Option.some.inj h1)
  · have hlt := (List.getElem?_eq_some_iff.1 hc).1
    have : ((c'.clear).retrieve name f).1 = c'.code.length := by
      unfold Cache.retrieve Cache.clear; simp
    omega

/-! ### The checks -/

/-- The tensor an object is. -/
def Obj.IsTensor (o : Obj A) (t : Tensor A) : Prop := o = .tensor t

theorem mapM_arrays (l : List (Obj A)) (r : List A) :
    l.mapM arrayOf = .ok r ↔ ∃ ts : List (Tensor A), l = ts.map .tensor ∧ r = ts.map Tensor.array := by
  induction l generalizing r with
  | nil =>
    simp only [List.mapM_nil, py_pure_ok]
    constructor
    · rintro rfl; exact ⟨[], rfl, rfl⟩
    · rintro ⟨ts, h1, rfl⟩
      have : ts = [] := by simpa using h1.symm
      simp [this]
  | cons o l ih =>
    rw [List.mapM_cons]
    simp only [py_bind_ok, py_pure_ok]
    constructor
    · rintro ⟨a, h1, r', h2, rfl⟩
      obtain ⟨ts, rfl, rfl⟩ := (ih r').1 h2
      cases o with
      | other => cases h1
      | tensor t => cases h1; exact ⟨t :: ts, rfl, rfl⟩
    · rintro ⟨ts, h1, rfl⟩
      cases ts with
      | nil => cases h1
      | cons t ts =>
        simp only [List.map_cons, List.cons.injEq] at h1
        obtain ⟨rfl, rfl⟩ := h1
        exact ⟨t.array, rfl, _, (ih _).2 ⟨ts, rfl, rfl⟩, rfl⟩

/-- What the checks accept, and what they return. -/
def Checked (E : Env A F) (backend : Option String) (x0 : Option (Obj A)) (args : Option (List (Obj A)))
    (name : String) (xa : Option A) (aa : Option (List A)) : Prop :=
  ((backend = some name ∧ name ∈ E.known) ∨ (backend = none ∧ ∃ t : Tensor A, x0 = some (.tensor t) ∧ t.backend = name)) ∧
  ((x0 = none ∧ xa = none) ∨ ∃ t : Tensor A, x0 = some (.tensor t) ∧ t.backend = name ∧ xa = some t.array) ∧
  ((args = none ∧ aa = none) ∨ ∃ ts : List (Tensor A), args = some (ts.map .tensor) ∧ aa = some (ts.map Tensor.array))

/-- C78: the checks pass exactly when a backend is named or `x0` is given, their names agree, and every argument is a
tensor; they return the name and the arrays. -/
theorem C78_checks (E : Env A F) (backend : Option String) (x0 : Option (Obj A)) (args : Option (List (Obj A)))
    (name : String) (xa : Option A) (aa : Option (List A)) :
    krylovErrorChecks E backend x0 args = .ok (name, xa, aa) ↔ Checked E backend x0 args name xa aa := by
  unfold krylovErrorChecks Checked
  have hargs : ∀ r : Option (List A), argsArrayOf args = .ok r ↔
      ((args = none ∧ r = none) ∨ ∃ ts : List (Tensor A), args = some (ts.map .tensor) ∧ r = some (ts.map Tensor.array)) := by
    intro r
    unfold argsArrayOf
    cases args with
    | none => simp [eq_comm]
    | some l =>
      simp only [py_bind_ok, py_pure_ok, mapM_arrays]
      constructor
      · rintro ⟨a, ⟨ts, rfl, rfl⟩, rfl⟩; exact .inr ⟨ts, rfl, rfl⟩
      · rintro (⟨h, -⟩ | ⟨ts, h, rfl⟩)
        · cases h
        · cases h; exact ⟨_, ⟨ts, rfl, rfl⟩, rfl⟩
  simp only [py_bind_ok, py_pure_ok, Prod.mk.injEq]
  constructor
  · rintro ⟨n, hn, x, hx, a, ha, rfl, rfl, rfl⟩
    refine ⟨?_, ?_, (hargs a).1 ha⟩
    · unfold chosenBackend at hn
      split at hn
      · cases hn
      · cases hn
      · cases hn; exact .inr ⟨rfl, _, rfl, rfl⟩
      · split_ifs at hn with h
        cases hn; exact .inl ⟨rfl, h⟩
    · unfold x0ArrayOf at hx
      split at hx
      · cases hx; exact .inl ⟨rfl, rfl⟩
      · cases hx
      · split_ifs at hx with h
        cases hx; exact .inr ⟨_, rfl, by simpa using h, rfl⟩
  · rintro ⟨h1, h2, h3⟩
    refine ⟨name, ?_, xa, ?_, aa, (hargs aa).2 h3, rfl, rfl, rfl⟩
    · rcases h1 with ⟨rfl, h⟩ | ⟨rfl, t, rfl, rfl⟩
      · simp [chosenBackend, h]
      · rfl
    · rcases h2 with ⟨rfl, rfl⟩ | ⟨t, rfl, rfl, rfl⟩
      · rfl
      · simp [x0ArrayOf]

/-- What the documentation of the checks says about the arguments: their backends agree with the one that is used. -/
def ArgsAgree (E : Env A F) (backend : Option String) (x0 : Option (Obj A)) (args : Option (List (Obj A))) : Prop :=
  ∀ name xa aa, krylovErrorChecks E backend x0 args = .ok (name, xa, aa) →
    ∀ t : Tensor A, (∃ l, args = some l ∧ Obj.tensor t ∈ l) → t.backend = name

/-- C78, a property the checks lack: the backends of the arguments are not compared, whatever the call is: an
argument of any other backend can be added to any call that passes. -/
theorem C78_args_false (E : Env A F) (backend : Option String) (x0 : Option (Obj A)) (ts : List (Tensor A))
    {name : String} {xa : Option A} {aa : Option (List A)}
    (h : krylovErrorChecks E backend x0 (some (ts.map .tensor)) = .ok (name, xa, aa)) (t : Tensor A) (ht : t.backend ≠ name) :
    ¬ ArgsAgree E backend x0 (some ((ts ++ [t]).map .tensor)) := by
  intro hc
  obtain ⟨h1, h2, -⟩ := (C78_checks E _ _ _ _ _ _).1 h
  exact ht (hc name xa (some ((ts ++ [t]).map Tensor.array))
    ((C78_checks E _ _ _ _ _ _).2 ⟨h1, h2, .inr ⟨ts ++ [t], rfl, rfl⟩⟩) t ⟨_, rfl, by simp⟩)

/-- C78: the arguments that are refused, and the exceptions: the `TypeError` for an `x0` that is not a tensor is only
raised when a backend is named, without one it is an `AttributeError`. -/
theorem C78_raises (E : Env A F) (backend : Option String) (x0 : Option (Obj A)) (args : Option (List (Obj A))) (e : PyErr) :
    krylovErrorChecks E backend x0 args = .error e ↔
      (backend = none ∧ x0 = none ∧ e = .valueError) ∨
      (backend = none ∧ x0 = some .other ∧ e = .attributeError) ∨
      (∃ name, backend = some name ∧ name ∉ E.known ∧ e = .valueError) ∨
      (∃ name, backend = some name ∧ name ∈ E.known ∧ x0 = some .other ∧ e = .typeError) ∨
      (∃ name t, backend = some name ∧ name ∈ E.known ∧ x0 = some (.tensor t) ∧ t.backend ≠ name ∧ e = .valueError) ∨
      ((∃ name xa, Checked E backend x0 none name xa none) ∧ (∃ l, args = some l ∧ Obj.other ∈ l) ∧ e = .typeError) := by
  have harr : ∀ l : List (Obj A), (Obj.other ∈ l → l.mapM arrayOf = .error .typeError) ∧
      (Obj.other ∉ l → ∃ r, l.mapM arrayOf = .ok r) := by
    intro l
    induction l with
    | nil => exact ⟨by simp, fun _ => ⟨[], rfl⟩⟩
    | cons o l ih =>
      rw [List.mapM_cons]
      cases o with
      | other => exact ⟨fun _ => rfl, fun h => absurd (by simp) h⟩
      | tensor t =>
        constructor
        · intro h
          rw [ih.1 (by simpa using h)]; rfl
        · intro h
          obtain ⟨r, hr⟩ := ih.2 (by simpa using h)
          exact ⟨t.array :: r, by rw [hr]; rfl⟩
  -- the last step, once the first two have passed
  have last : ∀ name xa, Checked E backend x0 none name xa none →
      (krylovErrorChecks E backend x0 args = .error e ↔ (∃ l, args = some l ∧ Obj.other ∈ l) ∧ e = .typeError) := by
    intro name xa hc
    have h0 := (C78_checks E backend x0 none name xa none).2 hc
    unfold krylovErrorChecks at h0 ⊢
    simp only [py_bind_ok, py_pure_ok, Prod.mk.injEq] at h0
    obtain ⟨n, hn, x, hx, a, -, -, -, -⟩ := h0
    rw [hn]
    show (x0ArrayOf n x0 >>= _) = _ ↔ _
    rw [hx]
    show (argsArrayOf args >>= _) = _ ↔ _
    cases args with
    | none => simp [argsArrayOf, bind, Except.bind, pure, Except.pure]
    | some l =>
      by_cases ho : Obj.other ∈ l
      · simp only [argsArrayOf, (harr l).1 ho]
        show (Except.error PyErr.typeError : Py (String × Option A × Option (List A))) = Except.error e ↔ _
        simp [ho, eq_comm]
      · obtain ⟨r, hr⟩ := (harr l).2 ho
        simp only [argsArrayOf, hr]
        constructor
        · intro h; cases h
        · rintro ⟨⟨l', h, h'⟩, -⟩; cases h; exact absurd h' ho
  cases backend with
  | none =>
    cases x0 with
    | none => simp [krylovErrorChecks, chosenBackend, bind, Except.bind, Checked, eq_comm]
    | some o => cases o with
      | other => simp [krylovErrorChecks, chosenBackend, bind, Except.bind, Checked, eq_comm]
      | tensor t =>
        have hc : Checked E none (some (.tensor t)) none t.backend (some t.array) none :=
          ⟨.inr ⟨rfl, t, rfl, rfl⟩, .inr ⟨t, rfl, rfl, rfl⟩, .inl ⟨rfl, rfl⟩⟩
        rw [last _ _ hc]
        simp only [reduceCtorEq, Option.some.injEq, false_and, and_false, false_or, exists_false]
        exact ⟨fun h => ⟨⟨_, _, hc⟩, h⟩, fun h => h.2⟩
  | some n =>
    by_cases hn : n ∈ E.known
    · cases x0 with
      | none =>
        have hc : Checked E (some n) (none : Option (Obj A)) none n none none :=
          ⟨.inl ⟨rfl, hn⟩, .inl ⟨rfl, rfl⟩, .inl ⟨rfl, rfl⟩⟩
        rw [last _ _ hc]
        constructor
        · exact fun h => .inr (.inr (.inr (.inr (.inr ⟨⟨_, _, hc⟩, h⟩))))
        · rintro (⟨h, -⟩ | ⟨h, -⟩ | ⟨m, h, h', -⟩ | ⟨m, -, -, h, -⟩ | ⟨m, t, -, -, h, -⟩ | ⟨-, h⟩)
          · cases h
          · cases h
          · cases h; exact absurd hn h'
          · cases h
          · cases h
          · exact h
      | some o => cases o with
        | other =>
          have : krylovErrorChecks E (some n) (some .other) args = .error .typeError := by
            simp [krylovErrorChecks, chosenBackend, hn, x0ArrayOf, bind, Except.bind]
          rw [this]
          constructor
          · intro h; cases h; exact .inr (.inr (.inr (.inl ⟨n, rfl, hn, rfl, rfl⟩)))
          · rintro (⟨h, -⟩ | ⟨h, -⟩ | ⟨m, h, h', -⟩ | ⟨m, -, -, -, rfl⟩ | ⟨m, t, -, -, h, -⟩ | ⟨-, -, rfl⟩)
            · cases h
            · cases h
            · cases h; exact absurd hn h'
            · rfl
            · cases h
            · rfl
        | tensor t =>
          by_cases ht : t.backend = n
          · have hc : Checked E (some n) (some (.tensor t)) none n (some t.array) none :=
              ⟨.inl ⟨rfl, hn⟩, .inr ⟨t, rfl, ht, rfl⟩, .inl ⟨rfl, rfl⟩⟩
            rw [last _ _ hc]
            constructor
            · exact fun h => .inr (.inr (.inr (.inr (.inr ⟨⟨_, _, hc⟩, h⟩))))
            · rintro (⟨h, -⟩ | ⟨h, -⟩ | ⟨m, h, h', -⟩ | ⟨m, -, -, h, -⟩ | ⟨m, t', h1, -, h, h', -⟩ | ⟨-, h⟩)
              · cases h
              · cases h
              · cases h; exact absurd hn h'
              · cases h
              · cases h; cases h1; exact absurd ht h'
              · exact h
          · have : krylovErrorChecks E (some n) (some (.tensor t)) args = .error .valueError := by
              simp [krylovErrorChecks, chosenBackend, hn, x0ArrayOf, bind, Except.bind, ht]
            rw [this]
            constructor
            · intro h; cases h; exact .inr (.inr (.inr (.inr (.inl ⟨n, t, rfl, hn, rfl, ht, rfl⟩))))
            · rintro (⟨h, -⟩ | ⟨h, -⟩ | ⟨m, h, h', -⟩ | ⟨m, -, -, h, -⟩ | ⟨m, t', h1, -, h, h', rfl⟩ |
                ⟨⟨m, xa, h1, h2, -⟩, -⟩)
              · cases h
              · cases h
              · cases h; exact absurd hn h'
              · cases h
              · rfl
              · rcases h1 with ⟨h1, -⟩ | ⟨h1, -⟩
                · cases h1
                  rcases h2 with ⟨h2, -⟩ | ⟨t', h2, h3, -⟩
                  · cases h2
                  · cases h2; exact absurd h3 ht
                · cases h1
    · have : krylovErrorChecks E (some n) x0 args = .error .valueError := by
        simp [krylovErrorChecks, chosenBackend, hn, bind, Except.bind]
      rw [this]
      constructor
      · intro h; cases h; exact .inr (.inr (.inl ⟨n, rfl, hn, rfl⟩))
      · rintro (⟨h, -⟩ | ⟨h, -⟩ | ⟨m, h, h', rfl⟩ | ⟨m, h, h', -⟩ | ⟨m, t', h, h', -⟩ | ⟨⟨m, xa, h1, -⟩, -⟩)
        · cases h
        · cases h
        · rfl
        · cases h; exact absurd h' hn
        · cases h; exact absurd h' hn
        · rcases h1 with ⟨h1, h2⟩ | ⟨h1, -⟩
          · cases h1; exact absurd h2 hn
          · cases h1

/-! ### The solvers -/

/-- C78: `eigs` and `eigsh_lanczos` run the solver of the chosen backend on a function that computes `A` on tensors of
this backend, with the arrays of `x0` and of the arguments; the eigenvectors come back as tensors of this backend.
The cache that is left can be used again. -/
theorem C78_eig (E : Env A F) (kernel : EigKernel A B) {c : Cache F} (hc : Reach c) (f : F) (backend : Option String)
    (args : Option (List (Obj A))) (x0 : Option (Obj A)) {vals : B} {vecs : List (Tensor A)}
    (h : (eig E kernel c f backend args x0).1 = .ok (vals, vecs)) :
    ∃ name xa aa mv arrs, Checked E backend x0 args name xa aa ∧ Wraps E name f mv ∧
      kernel name mv xa aa = .ok (vals, arrs) ∧ List.Forall₂ (fun a t => E.tensor a name = .ok t) arrs vecs ∧
      (∀ t ∈ vecs, t.backend = name) ∧ Reach (eig E kernel c f backend args x0).2 := by
  unfold eig at h ⊢
  rcases hk : krylovErrorChecks E backend x0 args with e | ⟨name, xa, aa⟩
  · rw [hk] at h; cases h
  · rw [hk] at h
    simp only [py_bind_ok, py_pure_ok, Prod.mk.injEq] at h
    obtain ⟨⟨v, arrs⟩, h1, vs, h2, rfl, rfl⟩ := h
    have hf : List.Forall₂ (fun a t => E.tensor a name = .ok t) arrs vs := by
      clear h1 hk
      induction arrs generalizing vs with
      | nil => simp at h2; subst h2; exact .nil
      | cons a arrs ih =>
        rw [List.mapM_cons] at h2
        simp only [py_bind_ok, py_pure_ok] at h2
        obtain ⟨t, ht, vs', hv, rfl⟩ := h2
        exact .cons ht (ih _ hv)
    refine ⟨name, xa, aa, _, arrs, (C78_checks _ _ _ _ _ _ _).1 hk, (C78_cache E hc name f).1, h1, hf, ?_, ?_⟩
    · clear h1 h2
      induction hf with
      | nil => simp
      | cons ht _ ih =>
        intro t' ht'
        rcases List.mem_cons.1 ht' with rfl | ht'
        · unfold Env.tensor at ht
          split_ifs at ht
          simp only [py_bind_ok, py_pure_ok] at ht
          obtain ⟨_, _, rfl⟩ := ht
          rfl
        · exact ih t' ht'
    · exact .retrieve name f hc

/-- C78: when the solver solves the system it is given, `gmres` solves the system of the caller: applied to the
solution and to the arguments, `A_mv` gives a tensor with the array of `b`.  The arguments must be tensors of the
backend of `b`, whose arrays and the solution `convert_to_tensor` leaves alone. -/
theorem C78_gmres (E : Env A F) (kernel : GmresKernel A B) {c : Cache F} (hc : Reach c) (f : F) (b : Tensor A)
    (args : List (Tensor A)) (x0 : Option (Obj A)) {x : Tensor A} {info : B}
    (hconv : ∀ a, E.conv b.backend a = .ok a) (hargs : ∀ t ∈ args, t.backend = b.backend)
    (hk : ∀ mv xa a i, kernel b.backend mv b.array (some (args.map Tensor.array)) xa = .ok (a, i) →
      mv a (args.map Tensor.array) = .ok b.array)
    (h : (gmres E kernel c f (.tensor b) (some (args.map .tensor)) x0).1 = .ok (x, info)) :
    x.backend = b.backend ∧ ∃ y, E.app f x args = .ok y ∧ y.array = b.array := by
  unfold gmres at h
  rcases hkc : krylovErrorChecks E (some b.backend) x0 (some (args.map .tensor)) with e | ⟨name, xa, aa⟩
  · simp only [hkc] at h; cases h
  · simp only [hkc] at h
    simp only [py_bind_ok, py_pure_ok, Prod.mk.injEq] at h
    obtain ⟨⟨a, i⟩, h1, x', h2, rfl, rfl⟩ := h
    obtain ⟨g1, -, g3⟩ := (C78_checks _ _ _ _ _ _ _).1 hkc
    obtain ⟨hname, hkn⟩ : name = b.backend ∧ b.backend ∈ E.known := by
      rcases g1 with ⟨g, g'⟩ | ⟨g, -⟩
      · cases g; exact ⟨rfl, g'⟩
      · cases g
    subst hname
    have haa : aa = some (args.map Tensor.array) := by
      rcases g3 with ⟨g, -⟩ | ⟨ts, g, g'⟩
      · cases g
      · have : args = ts := by
          have hinj : Function.Injective (Obj.tensor (A := A)) := fun _ _ h => by cases h; rfl
          exact (List.map_injective_iff.2 hinj) (Option.some.inj g)
        rw [g', this]
    subst haa
    have hmv := hk _ _ _ _ h1
    have hten : ∀ a, E.tensor a b.backend = .ok ⟨a, b.backend⟩ := by
      intro a; unfold Env.tensor; rw [if_pos hkn, hconv]; rfl
    rw [hten] at h2
    cases h2
    rw [(C78_cache E hc b.backend f).1] at hmv
    have hm : ∀ l : List (Tensor A), (∀ t ∈ l, t.backend = b.backend) →
        (l.map Tensor.array).mapM (fun a => E.tensor a b.backend) = .ok l := by
      intro l
      induction l with
      | nil => intro _; rfl
      | cons t l ih =>
        intro hl
        rw [List.map_cons, List.mapM_cons, hten, ih fun t' ht' => hl t' (List.mem_cons_of_mem _ ht')]
        have := hl t (by simp)
        cases t
        simp only at this
        subst this
        rfl
    rw [hten, hm args hargs] at hmv
    simp only [py_bind_ok, py_pure_ok] at hmv
    obtain ⟨X, hX, Args, hA, Y, hY, hYb⟩ := hmv
    cases hX; cases hA
    exact ⟨rfl, Y, hY, hYb⟩

/-- C78: `gmres` runs the solver of the backend of `b` on a function that computes `A` on tensors of this backend,
with the arrays of `b`, of the arguments and of `x0`; the solution comes back as a tensor of this backend.  The cache
that is left can be used again. -/
theorem C78_gmres_inputs (E : Env A F) (kernel : GmresKernel A B) {c : Cache F} (hc : Reach c) (f : F) (b : Tensor A)
    (args : Option (List (Obj A))) (x0 : Option (Obj A)) {x : Tensor A} {info : B}
    (h : (gmres E kernel c f (.tensor b) args x0).1 = .ok (x, info)) :
    ∃ xa aa mv a, Checked E (some b.backend) x0 args b.backend xa aa ∧ Wraps E b.backend f mv ∧
      kernel b.backend mv b.array aa xa = .ok (a, info) ∧ E.tensor a b.backend = .ok x ∧
      Reach (gmres E kernel c f (.tensor b) args x0).2 := by
  unfold gmres at h ⊢
  rcases hkc : krylovErrorChecks E (some b.backend) x0 args with e | ⟨name, xa, aa⟩
  · simp only [hkc] at h; cases h
  · simp only [hkc, py_bind_ok, py_pure_ok, Prod.mk.injEq] at h
    obtain ⟨⟨a, i⟩, h1, x', h2, rfl, rfl⟩ := h
    have hck := (C78_checks _ _ _ _ _ _ _).1 hkc
    obtain rfl : name = b.backend := by
      rcases hck.1 with ⟨g, -⟩ | ⟨g, -⟩
      · cases g; rfl
      · cases g
    refine ⟨xa, aa, _, a, hck, (C78_cache E hc b.backend f).1, h1, h2, ?_⟩
    simp only [hkc]
    exact .retrieve _ f hc

/-- C78: `b` must be a tensor. -/
theorem C78_gmres_raises (E : Env A F) (kernel : GmresKernel A B) (c : Cache F) (f : F)
    (args : Option (List (Obj A))) (x0 : Option (Obj A)) :
    gmres E kernel c f .other args x0 = (.error .typeError, c) := rfl

/-- What a user of the solvers relies on: the function they pass is called with the arguments they pass. -/
def ArgsKept (E : Env A F) (f : F) (t : Tensor A) (name : String) : Prop :=
  ∀ mv, Wraps E name f mv → ∀ x, mv x [t.array] = (do
    let X ← E.tensor x name
    let Y ← E.app f X [t]
    pure Y.array)

/-- C78: an argument of the backend that is used reaches the function as it was passed. -/
theorem C78_args_kept_partial (E : Env A F) (f : F) (t : Tensor A) (name : String) (hk : name ∈ E.known)
    (hconv : E.conv name t.array = .ok t.array) (ht : t.backend = name) : ArgsKept E f t name := by
  intro mv hmv x
  rw [hmv]
  have : E.tensor t.array name = .ok t := by
    unfold Env.tensor; rw [if_pos hk, hconv]; subst ht; rfl
  simp only [List.mapM_cons, List.mapM_nil, this]
  rfl

/-! ### A concrete environment -/

/-- Arrays are integers; function `0` returns the sum of its arguments, function `1` the negated vector, and function
`2` tells whether its argument is of the backend `"jax"`. -/
def exEnv : Env Int Nat where
  known := ["numpy", "jax"]
  conv := fun _ a => .ok a
  app := fun f x args =>
    if f = 0 then .ok ⟨x.array + (args.map Tensor.array).sum, x.backend⟩
    else if f = 1 then .ok ⟨-x.array, x.backend⟩
    else .ok ⟨(args.map (fun t => if t.backend = "jax" then 1 else 0)).sum, x.backend⟩

/-- C78, the effect of the missing check: an argument of another backend passes, and reaches the function as a tensor
of the backend that is used. -/
theorem C78_args_kept_false : ∃ (f : Nat) (t : Tensor Int), exEnv.conv "numpy" t.array = .ok t.array ∧
    (∃ xa aa, krylovErrorChecks exEnv (some "numpy") none (some [.tensor t]) = .ok ("numpy", xa, aa)) ∧
    ¬ ArgsKept exEnv f t "numpy" := by
  refine ⟨2, ⟨5, "jax"⟩, rfl, ⟨none, some [5], rfl⟩, fun h => ?_⟩
  have := h (fun x args => do
    let X ← exEnv.tensor x "numpy"
    let Args ← args.mapM (fun a => exEnv.tensor a "numpy")
    let Y ← exEnv.app 2 X Args
    pure Y.array) (fun _ _ => rfl) 0
  revert this
  simp [exEnv, Env.tensor, bind, Except.bind, pure, Except.pure]

example : Wraps exEnv "jax" 1 (((Cache.init.retrieve "numpy" 0).2.clear.retrieve "jax" 1).2.call exEnv
    ((Cache.init.retrieve "numpy" (0 : Nat)).2.clear.retrieve "jax" 1).1) :=
  (C78_cache exEnv (.clear (.retrieve "numpy" 0 .init)) "jax" 1).1

example : (((Cache.init.retrieve "numpy" (0 : Nat)).2.retrieve "jax" 0).2.retrieve "numpy" 0).1 =
    (Cache.init.retrieve "numpy" (0 : Nat)).1 :=
  C78_cache_same Cache.init "numpy" 0 (.retrieve "jax" 0 (.refl _))

example : (((Cache.init.retrieve "numpy" (0 : Nat)).2.retrieve "jax" 0).1 ≠ (Cache.init.retrieve "numpy" (0 : Nat)).1) :=
  (C78_cache_distinct .init (.refl _) (by decide)).1

/-- The solver that guesses the difference of `b` and the sum of the arguments solves the system of function `0`. -/
example : ∃ x, (gmres exEnv (fun _ mv b args _ =>
    let a := b - (args.getD []).sum
    if mv a (args.getD []) = .ok b then .ok (a, 0) else .error .valueError)
    Cache.init 0 (.tensor ⟨7, "jax"⟩) (some [.tensor ⟨3, "jax"⟩]) none).1 = .ok (x, (0 : Nat)) ∧ x = ⟨4, "jax"⟩ :=
  ⟨_, rfl, rfl⟩

example {x : Tensor Int} {info : Nat} (h : (gmres exEnv (fun _ mv b args _ =>
    let a := b - (args.getD []).sum
    if mv a (args.getD []) = .ok b then .ok (a, 0) else .error .valueError)
    Cache.init 0 (.tensor ⟨7, "jax"⟩) (some ([⟨3, "jax"⟩].map .tensor)) none).1 = .ok (x, info)) :
    ∃ y, exEnv.app 0 x [⟨3, "jax"⟩] = .ok y ∧ y.array = 7 := by
  refine (C78_gmres exEnv _ .init 0 ⟨7, "jax"⟩ [⟨3, "jax"⟩] none (fun _ => rfl) (by simp) ?_ h).2
  intro mv xa a i hk
  simp only at hk
  split_ifs at hk with hm
  cases hk
  exact hm

example {x : Tensor Int} {info : Nat} (h : (gmres exEnv (fun _ _ _ _ x0 => .ok (x0.getD 0, 0)) Cache.init 0
    (.tensor ⟨7, "jax"⟩) (some [.tensor ⟨3, "jax"⟩]) (some (.tensor ⟨2, "jax"⟩))).1 = .ok (x, info)) : x.array = 2 := by
  obtain ⟨xa, aa, mv, a, hck, -, hk, ht, -⟩ := C78_gmres_inputs exEnv _ .init 0 ⟨7, "jax"⟩ _ _ h
  have hxa : xa = some 2 := by
    have := (C78_checks _ _ _ _ _ _ _).2 hck
    simp [krylovErrorChecks, chosenBackend, x0ArrayOf, argsArrayOf, arrayOf, exEnv, bind, Except.bind, pure, Except.pure] at this
    exact this.1.symm
  subst hxa
  cases hk
  simp [exEnv, Env.tensor, bind, Except.bind, pure, Except.pure] at ht
  rw [← ht]

end TN.KFront
