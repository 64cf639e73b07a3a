import Verif.NconApi
import Verif.Einsum

/-!
# Specification of `ncon` requests

What a well-formed request is, and in which order the axes of the result come, stated
without reference to the checking or sorting code.
-/

namespace TN.Ncon

open NDArray

/-- A label the documentation allows: a nonzero number, or an alphanumeric string with an
optional leading hyphen. -/
def Lab.Allowed : Lab → Prop
  | .num i => i ≠ 0
  | .str s => isAlnum (Lab.body s) = true

/-- A list enumerates a set of labels: each exactly once. -/
def Enumerates (l : List Lab) (P : Lab → Prop) : Prop := l.Nodup ∧ ∀ x, x ∈ l ↔ P x

/-- A well-formed request. -/
structure ValidRequest (ls : List (List Lab)) (dims : List (List Nat))
    (con out : Option (List Lab)) : Prop where
  /-- one label list per tensor -/
  count : ls.length = dims.length
  /-- one label per axis -/
  rank : ∀ p ∈ ls.zip dims, p.1.length = p.2.length
  allowed : ∀ l ∈ ls.flatMap id, l.Allowed
  con_enum : ∀ c, con = some c →
    Enumerates c (fun l => l ∈ ls.flatMap id ∧ l.isOpen = false)
  out_enum : ∀ o, out = some o →
    Enumerates o (fun l => l ∈ ls.flatMap id ∧ l.isOpen = true)
  /-- all axes with the same closed label have the same dimension -/
  dims_eq : ∀ p ∈ ls.zip dims, ∀ q ∈ ls.zip dims, ∀ x ∈ p.1.zip p.2, ∀ y ∈ q.1.zip q.2,
    x.1 = y.1 → x.1.isOpen = false → x.2 = y.2

/-- The documented default order of open labels: numbers before strings, numbers
descending, strings ascending. -/
def Before : Lab → Lab → Prop
  | .num i, .num j => j < i
  | .num _, .str _ => True
  | .str _, .num _ => False
  | .str s, .str t => s < t

/-- The axes of the result: `out_order` if it is given (and not empty), else the open
labels in default order. -/
def OutputOrder (fl : List Lab) (out : Option (List Lab)) (o : List Lab) : Prop :=
  match out with
  | some (x :: xs) => o = x :: xs
  | _ => Enumerates o (fun l => l ∈ fl ∧ l.isOpen = true) ∧ o.Pairwise Before

/-- No label is repeated inside a tensor, except a closed label that occurs twice in that
tensor and nowhere else. -/
def NoInnerRepeats (ls : List (List Lab)) : Prop :=
  ∀ t ∈ ls, ∀ l ∈ t, t.count l = 1 ∨
    (l.isOpen = false ∧ t.count l = 2 ∧ (ls.flatMap id).count l = 2)

end TN.Ncon
