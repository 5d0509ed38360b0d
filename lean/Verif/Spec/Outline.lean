import Verif.Model.Outline

/-!
# Specification: what the text of a model says

An outline is what a reader sees: constraints, and below headings the constraints of models and those with names. Lists and sets without names do not show.
-/

namespace Verif
namespace Outline
open VK

/-- An outline: an element and the elements after it. -/
inductive Out where
  | nil
  /-- a constraint -/
  | con (e : Eqn) (rest : Out)
  /-- a model with its heading -/
  | model (heading : Str) (inside rest : Out)
  /-- what has a key -/
  | named (key : Str) (inside rest : Out)
deriving DecidableEq, Repr

/-- One outline after the other. -/
def Out.append : Out → Out → Out
  | .nil, o => o
  | .con e rest, o => .con e (rest.append o)
  | .model h inside rest, o => .model h inside (rest.append o)
  | .named k inside rest, o => .named k inside (rest.append o)

/-- With the key, if there is one that is shown. -/
def keyed (names : Bool) (key : Option Str) (inside rest : Out) : Out :=
  match names, key with
  | true, some k => .named k inside rest
  | _, _ => inside.append rest

/-- The outline of the elements of a set. -/
def outline (names : Bool) : Kids → Out
  | .nil => .nil
  | .con key e rest => keyed names key (.con e .nil) (outline names rest)
  | .lst key kids rest => keyed names key (outline names kids) (outline names rest)
  | .cset _ (some h) kids rest => .model (Names.piece true h) (outline names kids) (outline names rest)
  | .cset key none kids rest => keyed names key (outline names kids) (outline names rest)

/-- The lines, or that there are none. -/
def orNone (l : List Str) : List Str := if l.isEmpty then ["(no constraints)".toList] else l

/-- The lines of an outline: what is inside a model stands one space to the right of its heading, what has a key two spaces. -/
def Out.lines (uni : Bool) : Out → List Str
  | .nil => []
  | .con e rest => e.lines uni ++ rest.lines uni
  | .model h inside rest => h :: (orNone (inside.lines uni)).map (' ' :: ·) ++ rest.lines uni
  | .named k inside rest => ('"' :: k ++ ['"', ':']) :: (inside.lines uni).map (fun l => ' ' :: ' ' :: l) ++ rest.lines uni

/-- The lines that are not blank. -/
def notBlank (lines : List Str) : List Str := lines.filter (fun l => l.any (· ≠ ' '))

/-- A heading above a constraint. -/
inductive Head where
  | model (h : Str × Nat)
  | key (k : Str)
deriving DecidableEq, Repr

/-- What is above an element: its model, or its key if keys are shown. A model in a dictionary has no key in the text. -/
def above (names : Bool) (key : Option Str) (head : Option (Str × Nat)) : List Head :=
  match head with
  | some h => [.model h]
  | none => if names then (key.map Head.key).toList else []

/-- Each constraint with the models and keys it is under, from the outside. -/
def contents (names : Bool) : Kids → List (List Head × Eqn)
  | .nil => []
  | .con key e rest => (above names key none, e) :: contents names rest
  | .lst key kids rest => (contents names kids).map (fun p => (above names key none ++ p.1, p.2)) ++ contents names rest
  | .cset key head kids rest => (contents names kids).map (fun p => (above names key head ++ p.1, p.2)) ++ contents names rest

/-- Characters of operators. -/
def isOp (c : Char) : Bool := c = '≤' || c = '≥' || c = '<' || c = '>' || c = '='

/-- Characters of the names of classes. -/
def isIdent (c : Char) : Bool := c.isAlphanum || c = '_'

/-- A constraint with a plain text: its left side has no operators, no line is empty or ends with a space, the first line starts with neither a space nor a
quotation mark and is not a name, and the lines after it start with a space. -/
structure Eqn.Plain (uni : Bool) (e : Eqn) : Prop where
  /-- no operators in its left side -/
  ops : ∀ c ∈ e.left, isOp c = false
  /-- no line is empty or ends with a space -/
  neat : ∀ l ∈ e.lines uni, ∃ c, l.getLast? = some c ∧ c ≠ ' '
  /-- the first line -/
  first : ∀ l ∈ (e.lines uni).head?, (∀ c ∈ l.head?, c ≠ ' ' ∧ c ≠ '"') ∧ ∃ c ∈ l, isIdent c = false
  /-- the lines after it -/
  later : ∀ l ∈ (e.lines uni).tail, l.head? = some ' '

/-- The name of a class. -/
def NameOK (n : Str) : Prop := n ≠ [] ∧ ∀ c ∈ n, isIdent c = true

/-- A key whose text is one line. -/
def KeyOK (key : Option Str) : Prop := ∀ k ∈ key, '\n' ∉ k

/-- All constraints have plain texts, models have names of classes, and keys are lines. -/
def Kids.Plain (uni : Bool) : Kids → Prop
  | .nil => True
  | .con key e rest => KeyOK key ∧ e.Plain uni ∧ rest.Plain uni
  | .lst key kids rest => KeyOK key ∧ kids.Plain uni ∧ rest.Plain uni
  | .cset key head kids rest => KeyOK key ∧ (∀ h ∈ head, NameOK h.1) ∧ kids.Plain uni ∧ rest.Plain uni

/-- A model to be printed with plain texts. -/
structure Root.Plain (uni : Bool) (r : Root) : Prop where
  /-- names of classes -/
  lineage : ∀ x ∈ r.lineage, NameOK x.1
  /-- the cost is one line -/
  cost : ∀ c ∈ r.cost, '\n' ∉ c
  /-- the constraints -/
  kids : r.kids.Plain uni

/-- No model inside has a name that ends in a digit. -/
def Kids.NoDigits : Kids → Prop
  | .nil => True
  | .con _ _ rest => rest.NoDigits
  | .lst _ kids rest => kids.NoDigits ∧ rest.NoDigits
  | .cset _ head kids rest => (∀ h ∈ head, ∀ c, h.1.getLast? = some c → c.isDigit = false) ∧ kids.NoDigits ∧ rest.NoDigits

end Outline
end Verif
