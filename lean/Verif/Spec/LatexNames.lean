import Verif.Spec.Names

/-!
# What LaTeX of names is for

It can be typeset and stands for one variable.
-/

namespace Verif
namespace Names
open VK

/-- Braces match. -/
def Braced (s : Str) : Prop := (∀ p, p <+: s → p.count '}' ≤ p.count '{') ∧ s.count '}' = s.count '{'

/-- A second subscript to the same letter, which TeX refuses. -/
def Doubled (s : Str) : Prop := ∃ a c b, s = a ++ '_' :: c :: '_' :: b ∧ c ≠ '{' ∧ c ≠ '}' ∧ c ≠ '\\'

/-- Names of variables are LaTeX with braces that match, that is not itself in braces or that of a vector; names of models are identifiers that do not end in a digit. -/
structure Neat (v : Var) : Prop where
  /-- braces match -/
  braced : Braced v.name
  /-- not itself in braces -/
  bare : v.name.head? ≠ some '{'
  /-- not that of a vector -/
  noVec : ¬ "\\vec{".toList <+: v.name
  /-- the models' names -/
  models : ∀ x ∈ v.lineage, '.' ∉ x.1 ∧ '{' ∉ x.1 ∧ '}' ∉ x.1 ∧ (∃ c s, x.1 = c :: s ∧ c.isDigit = false) ∧ ∀ c, x.1.getLast? = some c → c.isDigit = false

/-- The models that are shown. -/
def shownLineage (e : Excl) (necessary : Bool) (v : Var) : List (Str × Nat) := if e.unnecessary = false ∨ necessary = true then v.lineage else []

end Names
end Verif
