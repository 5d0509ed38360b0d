import Verif.Model.CSet
import Verif.Model.Text
import Verif.Model.VarKey

/-!
# Notes of missing bounds in docstrings

`expected_unbounded` (gpkit/tools/docstring.py 8-59) and the text that `verify_docstring` suggests (gpkit/constraints/model.py 118-134).

The attributes of the instance are parameters: `cond name` is the truth of `getattr(instance, name)` and `look path` is what is found by
following the attributes of `path`, as the list of the keys in it (the array's elements, or the one variable); `none` is an `AttributeError`.
That what is found is a variable or an array of variables is assumed.
-/

namespace Verif

namespace Str

/-- See `split`. `skip` characters still belong to the separator just found. -/
def splitAux (pat : Str) : Nat → Str → List Str
  | _, [] => [[]]
  | n + 1, _ :: s => splitAux pat n s
  | 0, c :: s =>
    if pat.isPrefixOf (c :: s) then [] :: splitAux pat (pat.length - 1) s
    else match splitAux pat 0 s with
      | [] => [[c]]
      | a :: l => (c :: a) :: l

/-- `s.split(pat)` for a pattern that is not empty. -/
def split (pat s : Str) : List Str := splitAux pat 0 s

end Str

namespace Notes
open CSet GP

/-- `direction[0].upper()+direction[1:]+" Unbounded\n"` (gpkit/tools/docstring.py 13). -/
def flag : Side → Str
  | .upper => "Upper Unbounded\n".toList
  | .lower => "Lower Unbounded\n".toList

/-- `re.sub(" +", " ", s)` (gpkit/tools/docstring.py 28). -/
def collapse : Str → Str
  | [] => []
  | c :: s => if c = ' ' ∧ s.head? = some ' ' then collapse s else c :: collapse s

/-- The text of a section after its flag: from the end of the next line up to the first blank line or, if there is none, to the end of
the line (gpkit/tools/docstring.py 21-26). -/
def block (rest : Str) : Except Err Str :=
  match Str.index? ['\n'] rest with
  | none => .error .valueError
  | some i =>
    let body := rest.drop (i + 1)
    match Str.index? ['\n', '\n'] body with
    | some j => .ok (body.take j)
    | none =>
      match Str.index? ['\n'] body with
      | some j => .ok (body.take j)
      | none => .error .valueError

/-- The notes of a block (gpkit/tools/docstring.py 26-30). -/
def items (ws : Char → Bool) (b : Str) : List Str :=
  let s := collapse (Str.replace ['\n'] [',', ' '] (Str.strip ws b))
  if s.isEmpty then [] else Str.split [',', ' '] s

/-- What stands before a condition. -/
def ifText : Str := " (if ".toList

/-- What inverts a condition. -/
def notText : Str := "not ".toList

section
variable {V : Type}

/-- A name: its attributes are followed (gpkit/tools/docstring.py 42-58). -/
def named (look : List Str → Option (List V)) (var : Str) : Except Err (List V) :=
  match look (Str.split ['.'] var) with
  | none => .error .attributeError
  | some vs => .ok vs

/-- One note: the keys noted, none if its condition is not met (gpkit/tools/docstring.py 31-58). -/
def item (cond : Str → Option Bool) (look : List Str → Option (List V)) (var : Str) : Except Err (List V) :=
  if (Str.index? ifText var).isSome then
    match Str.split ifText var with
    | [name, c] =>
      match c.getLast? with
      | none => .error .indexError
      | some d =>
        if d ≠ ')' then .error .assertion
        else
          let c := c.dropLast
          if c.take 4 = notText then
            match cond (c.drop 4) with
            | none => .error .attributeError
            | some true => .ok []
            | some false => named look name
          else
            match cond c with
            | none => .error .attributeError
            | some false => .ok []
            | some true => named look name
    | _ => .error .valueError
  else named look var

/-- The notes of one direction (gpkit/tools/docstring.py 12-58). -/
def direction (ws : Char → Bool) (cond : Str → Option Bool) (look : List Str → Option (List V)) (doc : Str) (d : Side) :
    Except Err (List (Bd V)) :=
  if Str.count (flag d) doc = 0 then .ok []
  else if Str.count (flag d) doc > 1 then .error .valueError
  else
    match Str.index? (flag d) doc with
    | none => .error .valueError
    | some i =>
      (block (doc.drop (i + (flag d).length))).bind fun b =>
        ((items ws b).mapM (item cond look)).map fun vss => vss.flatten.map fun v => (v, d)

/-- `expected_unbounded` (gpkit/tools/docstring.py 8-59); the set is listed in the order in which its elements are added. -/
def expected (ws : Char → Bool) (cond : Str → Option Bool) (look : List Str → Option (List V)) (doc : Str) : Except Err (List (Bd V)) :=
  (direction ws cond look doc .upper).bind fun us => (direction ws cond look doc .lower).map fun ls => us ++ ls

variable [DecidableEq V]

/-- `verify_docstring` from the docstring (gpkit/constraints/model.py 82-134): an error of reading the notes, or whether the verification
raises its own `ValueError`. -/
def verify (ws : Char → Bool) (cond : Str → Option Bool) (look : List Str → Option (List V)) (doc : Str) (t : St V) : Except Err Bool :=
  (expected ws cond look doc).map (verifyRaises t)

/-- The bounds `verify_docstring` finds missing, `self.missingbounds` (gpkit/constraints/model.py 99-117). -/
def missing (t : St V) (expected : List (Bd V)) : List (Bd V) :=
  let r := addMeqBounds (setUnion t.bounded expected) t.meq
  missingBounds t.vks r.1 r.2

/-- The section suggested for one direction (gpkit/constraints/model.py 126-133). `names` are the elements of the set of names in the order
in which the set gives them. -/
def suggestOne (d : Side) (names : List Str) : Str :=
  if names.isEmpty then []
  else '\n' :: flag d ++ "---------------".toList ++ '\n' :: VK.join [',', ' '] names ++ ['\n']

/-- What `verify_docstring` suggests to add to the docstring (gpkit/constraints/model.py 122-133). -/
def suggestion (names : Side → List Str) : Str := suggestOne .upper (names .upper) ++ suggestOne .lower (names .lower)

end
end Notes
end Verif
