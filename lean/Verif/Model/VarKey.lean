import Verif.Model.Nomial

/-!
# Variable keys

Models `VarKey` (gpkit/varkey.py 6-105) and `lineagestr` (gpkit/repr_conventions.py 21-26).

Simplifications: a string is the list of its characters. `repr` of a model's name puts it between single quotes, which is what Python does for
names without quotes and backslashes. An empty lineage stands for none. Of the description, what does not take part in equality and is not
changed by pickling is one field, `value`.
-/

namespace Verif
namespace VK

/-- A string. -/
abbrev Str := List Char

/-- A value in a description: a function, or anything else. -/
inductive Value (K F : Type) where
  /-- not a function -/
  | plain (k : K)
  /-- a function -/
  | fn (f : F)
  /-- the text that replaces a function -/
  | text
deriving DecidableEq, Repr

/-- `descr`. -/
structure Descr (K F : Type) where
  /-- `name` -/
  name : Option Str
  /-- `lineage` -/
  lineage : List (Str × Nat)
  /-- `idx` -/
  idx : Option (List Nat)
  /-- `unitrepr` -/
  unitrepr : Option Str
  /-- `units`: what they were made from -/
  units : Option Str
  /-- `value` -/
  value : Option (Value K F)
deriving DecidableEq, Repr

/-- `str(n)`. -/
def num (n : Nat) : Str := Nat.toDigits 10 n

/-- `sep.join(l)`. -/
def join (sep : Str) : List Str → Str
  | [] => []
  | [a] => a
  | a :: b :: l => a ++ sep ++ join sep (b :: l)

/-- `lineagestr(modelnums=False)` (gpkit/repr_conventions.py 21-26). -/
def lineageNames (l : List (Str × Nat)) : Str := join ['.'] (l.map (·.1))

/-- `"[%s]" % ",".join(map(str, self.idx))` (gpkit/varkey.py 73-74). -/
def idxStr : List Nat → Str
  | [] => []
  | i :: l => '[' :: join [','] ((i :: l).map num) ++ [']']

/-- `str_without(["modelnums", "vec"])` (gpkit/varkey.py 63-75). -/
def fullstr {K F : Type} (d : Descr K F) : Str :=
  let name := d.name.getD []
  let name := if d.lineage ≠ [] then lineageNames d.lineage ++ ['.'] ++ name else name
  name ++ idxStr (d.idx.getD [])

/-- `repr((name, num))`. -/
def reprItem (x : Str × Nat) : Str := '(' :: '\'' :: x.1 ++ '\'' :: ',' :: ' ' :: num x.2 ++ [')']

/-- `str(self.lineage)`. -/
def lineageRepr : List (Str × Nat) → Str
  | [] => "None".toList
  | [x] => '(' :: reprItem x ++ [',', ')']
  | l => '(' :: join [',', ' '] (l.map reprItem) ++ [')']

/-- `eqstr` (gpkit/varkey.py 38-39). -/
def eqstr {K F : Type} (d : Descr K F) : Str := fullstr d ++ lineageRepr d.lineage ++ d.unitrepr.getD []

/-- `unitrepr or units`, where an empty string counts as nothing. -/
def orElse (a b : Option Str) : Option Str :=
  match a with
  | some (c :: l) => some (c :: l)
  | _ => b

/-- `VarKey.__init__` (gpkit/varkey.py 26-36). `uid` is the number for a key without a name; `valid` tells which units pint knows. -/
def init {K F : Type} (valid : Str → Bool) (uid : Nat) (d : Descr K F) : Except Err (Descr K F) :=
  let name := (orElse d.name none).getD ("\\fbox{".toList ++ num uid ++ ['}'])
  match orElse (orElse d.unitrepr d.units) none with
  | none => .ok { d with name := some name, units := none, unitrepr := some ['-'] }
  | some u =>
    if u = ['-'] then .ok { d with name := some name, units := none, unitrepr := some ['-'] }
    else if valid u then .ok { d with name := some name, units := some u, unitrepr := some u }
    else .error .attributeError

/-- `__getstate__` (gpkit/varkey.py 52-58). -/
def getstate {K F : Type} (d : Descr K F) : Descr K F :=
  { d with value := match d.value with | some (.fn _) => some .text | v => v }

/-- `__setstate__` (gpkit/varkey.py 60-62). -/
def setstate {K F : Type} (valid : Str → Bool) (uid : Nat) (d : Descr K F) : Except Err (Descr K F) := init valid uid d

/-- `==` for two keys (gpkit/varkey.py 110-113). -/
def eq {K F : Type} (a b : Descr K F) : Bool := eqstr a = eqstr b

/-- `__hash__` (gpkit/varkey.py 40 and 82), for any hash of strings. -/
def hash {K F H : Type} (h : Str → H) (a : Descr K F) : H := h (eqstr a)

end VK
end Verif
