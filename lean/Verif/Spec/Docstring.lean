import Verif.Model.Docstring

/-!
# Declarations in docstrings, line by line

What the docstring of a model declares, without looking at how it is parsed: headings, the lines under them, the fields of a line, and the Python
text each line stands for.
-/

namespace Verif
namespace Docstring
open Str

variable (ws : Char → Bool)

/-- A line of the docstring is a heading, followed by at least one more line. -/
def Heading (k : Kind) (L : List Str) (j : Nat) : Prop :=
  j + 1 < L.length ∧ ∃ l : Str, L[j]? = some l ∧
    match k with
    | .constants => "Constants".toList <:+ l
    | .scalars => "Variables".toList <:+ l
    | .vectors => "Variables of length".toList <:+: l

/-- Not only whitespace. -/
def Nonblank (l : Str) : Prop := ∃ c ∈ l, ws c = false

/-- Line `i` belongs to the section whose heading is line `j`: below the heading and its underline, without a blank line in between. -/
def Declares (k : Kind) (L : List Str) (j i : Nat) : Prop :=
  Heading k L j ∧ j + 2 ≤ i ∧ ∀ m, j + 2 ≤ m → m ≤ i → ∃ l : Str, L[m]? = some l ∧ Nonblank ws l

/-- `n` is the length announced by heading `j`. Only vectors have one. -/
def LengthOf (k : Kind) (L : List Str) (j : Nat) (n : Str) : Prop :=
  k = .vectors → ∃ a b : Str, L[j]? = some (a ++ "Variables of length".toList ++ b) ∧ n = strip ws b

/-- What a declaration line says. -/
structure Fields where
  /-- the name -/
  name : Str
  /-- the value, if any -/
  value : Option Str
  /-- between brackets -/
  units : Str
  /-- the description -/
  label : Str

/-- A word: no whitespace and no brackets. -/
def Word (w : Str) : Prop := w ≠ [] ∧ ∀ c ∈ w, ws c = false ∧ c ≠ '[' ∧ c ≠ ']'

/-- Whitespace. -/
def Blank (w : Str) : Prop := ∀ c ∈ w, ws c = true

/-- The line follows the format `Name (optional Value) [Units] (Optional Description)`. -/
def Reads (line : Str) (f : Fields) : Prop :=
  ∃ a v b d : Str, Blank ws a ∧ Blank ws b ∧ (∀ c ∈ d, c = ' ') ∧
    line = a ++ (f.name ++ (v ++ (b ++ '[' :: (f.units ++ ']' :: (d ++ f.label))))) ∧ Word ws f.name ∧
    (match f.value with
      | none => v = []
      | some x => ∃ m : Str, Blank ws m ∧ m ≠ [] ∧ v = m ++ x ∧ Word ws x) ∧
    ']' ∉ f.units ∧ (f.label = [] → d = []) ∧ f.label.head? ≠ some ' '

/-- The text of a Python literal for a description, between the quotes. -/
def quote (l : Str) : Str := l.flatMap (fun c => if c = '\'' then ['\\', '\''] else [c])

/-- The argument giving the value. -/
def Fields.valueText (f : Fields) : Str := match f.value with | none => [] | some v => v ++ ", ".toList

/-- The Python statement for a declaration. `n` is the length of vectors. -/
def code (k : Kind) (n : Str) (f : Fields) : Str :=
  f.name ++ " = self.".toList ++ f.name ++ " = ".toList ++
    (if k = .vectors then "VectorVariable(".toList ++ n ++ ", ".toList else "Variable(".toList) ++
    "'".toList ++ f.name ++ "', ".toList ++ f.valueText ++
    "'".toList ++ f.units ++ "', '".toList ++ quote f.label ++ "'".toList ++
    (if k = .constants then ", constant=True)".toList else ")".toList)

/-- The fields of a declaration. -/
def Fields.all (f : Fields) : List Str := [f.name, f.units, f.label] ++ f.value.toList

/-- Nothing in the fields looks like a piece of the statement: the sections of constants and vectors are made by replacing text. -/
def Plain (k : Kind) (f : Fields) : Prop :=
  match k with
  | .scalars => True
  | .constants => ∀ x ∈ f.all, ¬ "')".toList <:+: '\'' :: x
  | .vectors => ∀ x ∈ f.all, ¬ "Variable(".toList <:+: x

/-- Headings of vectors announce one length, and are followed by an underline of at least eighteen characters. -/
def Underlined (L : List Str) : Prop :=
  ∀ (j : Nat) (l : Str), L[j]? = some l → "Variables of length".toList <:+: l →
    (∀ a b : Str, l = a ++ "Variables of length".toList ++ b → ¬ "Variables of length".toList <:+: b) ∧
    ∃ u : Str, L[j + 1]? = some u ∧ 18 ≤ u.length ∧ ¬ "Variables of length".toList <:+: u

/-- See `readLiteral`: the flag says whether a backslash came before. -/
def readFrom : Bool → Str → Option (Str × Str)
  | _, [] => none
  | true, c :: s => if c = '\'' ∨ c = '\\' then (readFrom false s).map (fun r => (c :: r.1, r.2)) else none
  | false, c :: s =>
    if c = '\'' then some ([], s)
    else if c = '\n' then none
    else if c = '\\' then readFrom true s
    else (readFrom false s).map (fun r => (c :: r.1, r.2))

/-- Reading a Python literal from after the opening quote: its value and the text after the closing quote. Only the escapes `\'` and `\\` are
read. -/
def readLiteral (s : Str) : Option (Str × Str) := readFrom false s

end Docstring
end Verif
