import Verif.Ncon
import Mathlib.Data.String.Basic

/-!
# Model of the public function `ncon` (ncon_interface.py:28-238 and 523-663)

Label checks, mapping of user labels (numbers and strings) to canonical integers, default
orders, and the call of the contraction engine.
-/

namespace TN.Ncon

open NDArray

/-- A label as given by the user.  Simplification: numbers are integers (the code accepts
any number type). -/
inductive Lab where
  | num (i : Int)
  | str (s : String)
  deriving DecidableEq, Inhabited

namespace Lab

/-- `label[0] == '-'` for strings, `label < 0` for numbers: an open label. -/
def isOpen : Lab → Bool
  | num i => decide (i < 0)
  | str s => s.toList.head? == some '-'

/-- The string label without its hyphen (ncon_interface.py:147). -/
def body (s : String) : String := if isOpen (str s) then String.ofList s.toList.tail else s

def int? : Lab → Option Int
  | num i => some i
  | str _ => none

def str? : Lab → Option String
  | num _ => none
  | str s => some s

end Lab

/-- `str.isalnum()`.  Simplification: ASCII letters and digits only. -/
def isAlnum (s : String) : Bool := !s.toList.isEmpty && s.toList.all Char.isAlphanum

/-- `sorted(l)` for strings (code point order). -/
def sortStr (l : List String) : List String := l.mergeSort (fun a b => decide (a ≤ b))

/-- `{o for o in flat_labels if not isinstance(o, str)}` -/
def intLabels (fl : List Lab) : List Int := (fl.filterMap Lab.int?).dedup

/-- `{o for o in flat_labels if isinstance(o, str)}` -/
def strLabels (fl : List Lab) : List String := (fl.filterMap Lab.str?).dedup

/-- `_get_cont_out_labels` (ncon_interface.py:28-66): int_cont, str_cont, int_out, str_out.
The `IndexError` for the empty string is raised by the callers. -/
def getContOutLabels (fl : List Lab) : List Int × List String × List Int × List String :=
  (sortInt ((intLabels fl).filter (fun i => 0 ≤ i)),
   sortStr ((strLabels fl).filter (fun s => !Lab.isOpen (.str s))),
   (sortInt ((intLabels fl).filter (fun i => i < 0))).reverse,
   sortStr ((strLabels fl).filter (fun s => Lab.isOpen (.str s))))

/-- The dimensions seen by a label (ncon_interface.py:226-231). -/
def labelDims (ls : List (List Lab)) (dims : List (List Nat)) (l : Lab) : List Nat :=
  (ls.zip dims).flatMap (fun p => (p.1.zip p.2).filterMap
    (fun q => if q.1 = l then some q.2 else none))

/-- The checks on `con_order` (ncon_interface.py:158-191). -/
def checkCon (fl contLabels : List Lab) (con : List Lab) : Bool :=
  con.all (fun l => !l.isOpen) && con.all (fun l => con.count l == 1) &&
    (con.length == contLabels.length) && con.all (fun l => fl.contains l)

/-- The checks on `out_order` (ncon_interface.py:193-221).  The label `0` passes the sign
test there and is caught by the membership test. -/
def checkOut (fl outLabels : List Lab) (out : List Lab) : Bool :=
  out.all (fun l => match l with
    | .num i => decide (i ≤ 0)
    | .str s => Lab.isOpen (.str s)) &&
  out.all (fun l => out.count l == 1) &&
    (out.length == outLabels.length) && out.all (fun l => fl.contains l)

/-- `_check_network` (ncon_interface.py:118-238).  All checks raise `ValueError`, except
that an empty string label raises `IndexError` at `label[0]`. -/
def checkNetwork (ls : List (List Lab)) (dims : List (List Nat))
    (con out : Option (List Lab)) : Py Unit :=
  let fl := ls.flatMap id
  let c := getContOutLabels fl
  let contLabels := c.1.map Lab.num ++ c.2.1.map Lab.str
  let outLabels := c.2.2.1.map Lab.num ++ c.2.2.2.map Lab.str
  if ls.length ≠ dims.length then .error .valueError
  else if ¬ (ls.zip dims).all (fun p => p.2.length == p.1.length) then .error .valueError
  else if fl.contains (.str "") then .error .indexError
  else if ¬ (c.2.1 ++ c.2.2.2.map Lab.body).all isAlnum then .error .valueError
  else if c.1.count 0 > 0 then .error .valueError
  else if ¬ (con.elim true (checkCon fl contLabels)) = true then
    .error .valueError
  else if ¬ (out.elim true (checkOut fl outLabels)) = true then
    .error .valueError
  else if ¬ contLabels.all (fun l => (labelDims ls dims l).dedup.length ≤ 1) then
    .error .valueError
  else .ok ()

/-- `neg_str_labels + neg_int_labels` (ncon_interface.py:95-103). -/
def negKeys (fl : List Lab) : List Lab :=
  (sortStr ((strLabels fl).filter (fun s => Lab.isOpen (.str s)))).reverse.map Lab.str ++
    (sortInt ((intLabels fl).filter (fun i => i < 0))).map Lab.num

/-- `pos_int_labels + pos_str_labels` (ncon_interface.py:97-105). -/
def posKeys (fl : List Lab) : List Lab :=
  (sortInt ((intLabels fl).filter (fun i => i > 0))).map Lab.num ++
    (sortStr ((strLabels fl).filter (fun s => !Lab.isOpen (.str s)))).map Lab.str

/-- The dictionary built by `_canonicalize_network_structure`
(ncon_interface.py:107-113). -/
def canonLabel (fl : List Lab) (l : Lab) : Option Int :=
  if l ∈ negKeys fl then some (((negKeys fl).idxOf l : Int) - ((negKeys fl).length : Int))
  else if l ∈ posKeys fl then some (((posKeys fl).idxOf l : Int) + 1)
  else none

/-- Dictionary look-up of a list of labels; a missing key raises `KeyError`. -/
def lookupAll (fl : List Lab) (l : List Lab) : Py (List Int) :=
  pyMap (fun x => match canonLabel fl x with
    | some i => .ok i
    | none => .error .keyError) l

/-- `ncon` (ncon_interface.py:523-663) for plain arrays.  Simplifications: the numpy
backend's `jit` is the identity; `Tensor` objects are unwrapped and wrapped again by the
code and are not modelled.  With `check_network=False` the model assumes as many label
lists as tensors, otherwise it raises `IndexError`. -/
def ncon {R : Type} [CommSemiring R] (so : SetOrder) (tensors : List (NDArray R))
    (structure_ : List (List Lab)) (conOrder outOrder : Option (List Lab)) (check : Bool) :
    Py (NDArray R) := do
  let outOrder := if outOrder = some [] then none else outOrder
  let conOrder := if conOrder = some [] then none else conOrder
  if check then checkNetwork structure_ (tensors.map NDArray.shape) conOrder outOrder
  if tensors.length ≠ structure_.length then throw PyErr.indexError
  let fl := structure_.flatMap id
  if Lab.str "" ∈ fl then throw PyErr.indexError
  let mapped ← pyMap (lookupAll fl) structure_
  let flatC := mapped.flatMap id
  let out ← match outOrder with
    | none => .ok (sortInt (flatC.dedup.filter (fun l => l < 0))).reverse
    | some o => lookupAll fl o
  let con ← match conOrder with
    | none => .ok (sortInt (flatC.dedup.filter (fun l => l > 0)))
    | some o => lookupAll fl o
  jittableNcon so tensors flatC (mapped.map List.length) con out

end TN.Ncon
