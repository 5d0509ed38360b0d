import Verif.Model.Notes

/-!
# How notes of missing bounds are written

A docstring notes the bounds a model leaves to its surroundings in a section headed `Upper Unbounded` or `Lower Unbounded`, underlined, with
the names separated by commas, on one line or several, each with a condition if wanted:

```
Upper Unbounded
---------------
x, wing.area
y (if not fixed)
```
-/

namespace Verif.Notes

/-- A note: the attributes leading to what is noted, and perhaps a condition, which may be inverted. -/
structure Note where
  /-- attributes -/
  path : List Str
  /-- inverted, and the attribute asked -/
  cond : Option (Bool × Str)

/-- The note as written. -/
def Note.text (n : Note) : Str :=
  VK.join ['.'] n.path ++
    match n.cond with
    | none => []
    | some (inv, c) => " (if ".toList ++ (if inv then "not ".toList else []) ++ c ++ [')']

/-- A word that can stand in a note. -/
def Word (ws : Char → Bool) (s : Str) : Prop := s ≠ [] ∧ ∀ c ∈ s, ws c = false ∧ c ≠ ','

/-- A note written of such words. -/
structure Note.Plain (ws : Char → Bool) (n : Note) : Prop where
  /-- there are attributes -/
  some : n.path ≠ []
  /-- they are words without dots -/
  path : ∀ s ∈ n.path, Word ws s ∧ '.' ∉ s
  /-- the condition is a word -/
  cond : ∀ b c, n.cond = .some (b, c) → Word ws c

/-- A line of notes, indented. -/
structure NoteLine where
  /-- spaces before the line -/
  indent : Nat
  /-- notes -/
  notes : List Note

/-- The line as written. -/
def NoteLine.text (l : NoteLine) : Str := List.replicate l.indent ' ' ++ VK.join [',', ' '] (l.notes.map Note.text)

/-- The heading of a section. -/
def heading : Side → Str
  | .upper => "Upper Unbounded".toList
  | .lower => "Lower Unbounded".toList

/-- `doc` has these notes for the direction `d`. -/
inductive Noted (doc : Str) (d : Side) : List Note → Prop
  /-- no section -/
  | none (h : ¬ (heading d ++ ['\n']) <:+: doc) : Noted doc d []
  /-- one section, ended by an empty line -/
  | lines (pre rule post : Str) (ls : List NoteLine) (hne : ls ≠ []) (hls : ∀ l ∈ ls, l.notes ≠ [])
      (hd : doc = pre ++ (heading d ++ ['\n']) ++ (rule ++ '\n' :: (VK.join ['\n'] (ls.map NoteLine.text) ++ '\n' :: '\n' :: post)))
      (hr : '\n' ∉ rule) (h1 : ¬ (heading d ++ ['\n']) <:+: pre)
      (h2 : ¬ (heading d ++ ['\n']) <:+: rule ++ '\n' :: (VK.join ['\n'] (ls.map NoteLine.text) ++ '\n' :: '\n' :: post)) :
      Noted doc d (ls.flatMap NoteLine.notes)
  /-- one section of one line, with no empty line after it -/
  | last (pre rule post : Str) (l : NoteLine) (hl : l.notes ≠ [])
      (hd : doc = pre ++ (heading d ++ ['\n']) ++ (rule ++ '\n' :: (l.text ++ '\n' :: post)))
      (hr : '\n' ∉ rule) (h1 : ¬ (heading d ++ ['\n']) <:+: pre)
      (h2 : ¬ (heading d ++ ['\n']) <:+: rule ++ '\n' :: (l.text ++ '\n' :: post))
      (hp : ¬ ['\n', '\n'] <:+: '\n' :: post) : Noted doc d l.notes

/-- The condition is met; an attribute that does not exist has no truth. -/
def Note.Holds (cond : Str → Option Bool) (n : Note) : Prop := ∀ b c, n.cond = some (b, c) → cond c = some (!b)

/-- The attributes the note speaks of exist. -/
def Note.Known {V : Type} (cond : Str → Option Bool) (look : List Str → Option (List V)) (n : Note) : Prop :=
  (∀ b c, n.cond = some (b, c) → (cond c).isSome) ∧ (n.Holds cond → (look n.path).isSome)

/-- The note is about the variable. -/
def Note.About {V : Type} (look : List Str → Option (List V)) (n : Note) (v : V) : Prop := ∃ vs, look n.path = some vs ∧ v ∈ vs

/-- `ws` is whitespace: spaces and newlines are, what notes are punctuated with is not. -/
structure White (ws : Char → Bool) : Prop where
  /-- space -/
  space : ws ' ' = true
  /-- newline -/
  newline : ws '\n' = true
  /-- dot -/
  dot : ws '.' = false
  /-- closing parenthesis -/
  paren : ws ')' = false

end Verif.Notes
