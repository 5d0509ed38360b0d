import Mathlib.Data.List.Forall2
import Verif.Model.Text

/-!
# A decorated function

A decorator, a header of one or more lines ended by the first `):`, and a body indented more deeply.
-/

namespace Verif.Splice

/-- A line of the body: indented at least as deep as the function, or blank. -/
inductive BodyLine (ind : Str) : Str → Str → Prop
  /-- a line with its text -/
  | code (text : Str) : BodyLine ind (ind ++ text ++ ['\n']) text
  /-- a blank line, which may be shorter than the indentation -/
  | blank (b : Str) (h : ∀ c ∈ b, c ∈ [' ', '\t']) (hl : b.length ≤ ind.length) : BodyLine ind (b ++ ['\n']) []

/-- `orig` are the lines of a decorated function with the indentation `ind`: its header has the texts `header`, its body the texts `body`, and the
body is indented by `deep` more. -/
structure Function (orig : List Str) (ind deep : Str) (header body : List Str) : Prop where
  /-- the indentation is indentation -/
  indented : ∀ c ∈ ind, c ∈ [' ', '\t']
  /-- there is a header, and it starts with code -/
  start : ∃ c r hs, header = (c :: r) :: hs ∧ c ∉ [' ', '\t']
  /-- the header is closed in its last line and only there -/
  closed : ∃ hs l, header = hs ++ [l] ∧ "):".toList <:+: ind ++ l ++ ['\n'] ∧ ∀ h ∈ hs, ¬ "):".toList <:+: ind ++ h ++ ['\n']
  /-- the lines -/
  layout : ∃ deco bs, orig = deco :: header.map (fun t => ind ++ t ++ ['\n']) ++ bs ∧ List.Forall₂ (BodyLine ind) bs body
  /-- the first line of the body with text has this indentation -/
  first : ∃ pre c r post, body = pre ++ (deep ++ c :: r) :: post ∧ (∀ t ∈ pre, t = []) ∧ (∀ d ∈ deep, d ∈ [' ', '\t']) ∧ deep ≠ [] ∧ c ∉ [' ', '\t']

end Verif.Splice
