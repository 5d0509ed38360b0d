import Verif.Model.WarnTable
import Verif.Spec.ConstrTable
import Verif.Spec.DictOfLists

/-!
# What a table of warnings should show

A reader of the table takes the lines below a title, up to the next title, as what is warned about in this category at this point of the sweep.
-/

namespace Verif
namespace WarnTable
open DoL

/-- Something read in the table. -/
inductive Seen where
  /-- a message -/
  | msg (s : Str)
  /-- a constraint: its model, the numbers before it, and its text -/
  | row (model opening text : Str)
deriving DecidableEq

/-- Not a title. -/
def Line.below : Line → Bool
  | .title _ => false
  | _ => true

/-- A message. -/
def Line.msg? : Line → Option Seen
  | .msg s => some (.msg s)
  | _ => none

/-- A line about a constraint. -/
def Line.item? : Line → Option ConstrTables.Item
  | .item i => some i
  | _ => none

/-- What is read in the lines below a title. -/
def body (ls : List Line) : List Seen :=
  ls.filterMap Line.msg? ++ (ConstrTables.readItems [] (ls.filterMap Line.item?)).map (fun r => .row r.1 r.2.1 r.2.2)

/-- The titles of a table with what is read below them. -/
def read : List Line → List (Str × List Seen)
  | [] => []
  | .title t :: ls => (t, body (ls.takeWhile Line.below)) :: read ls
  | _ :: ls => read ls

section
variable {ι K β : Type} [DecidableEq ι]

/-- Something read tells of a warning: by its message, or by the constraint and the numbers warned about. -/
def Tells (P : Show ι K) (e : Event ι K) (s : Seen) : Prop :=
  s = .msg e.msg ∨
    match e.about with
    | .tight c x => s = .row (P.T.model c) (P.sens x) (P.T.text c)
    | .loose c l o r _ => s = .row (P.T.model c) (P.vals (l, o, r)) (P.T.text c)
    | .other _ => False

/-- What is read tells of these warnings, each once, and of nothing else. -/
def TellsAll (P : Show ι K) (es : List (Event ι K)) (b : List Seen) : Prop := ∃ es', es'.Perm es ∧ List.Forall₂ (Tells P) es' b

/-- The warnings of a category at a point. -/
def Point.inCat (p : Point β ι K) (c : String) : List (Event ι K) := p.events.filter (fun e => decide (e.cat = c))

/-- The constraint of a warning. -/
def Event.con? (e : Event ι K) : Option ι :=
  match e.about with
  | .tight c _ => some c
  | .loose c .. => some c
  | .other _ => none

/-- A title: the category, and of a sweep the number of the point. -/
def heading (c : String) (n i : Nat) : Str := if n ≤ 1 then c.toList else c.toList ++ " in sweep ".toList ++ VK.num i

/-- The parts a table should have: for each category, the points with such warnings, with their numbers. -/
def due (ps : List (Point β ι K)) (cs : List String) : List (Str × List (Event ι K)) :=
  cs.flatMap (fun c => (ps.zipIdx.filter (fun pi => decide (pi.1.inCat c ≠ []))).map (fun pi => (heading c ps.length pi.2, pi.1.inCat c)))

/-- A table shows these parts, in this order. -/
def Reports (P : Show ι K) (lines : List Line) (parts : List (Str × List (Event ι K))) : Prop :=
  List.Forall₂ (fun tb te => tb.1 = te.1 ∧ TellsAll P te.2 tb.2) (read lines) parts

/-- Categories of the warnings of a sweep, in order. -/
def Categories (ps : List (Point β ι K)) (cs : List String) : Prop := cs.Pairwise (· < ·) ∧ ∀ c, c ∈ cs ↔ ∃ p ∈ ps, p.inCat c ≠ []

/-- Only `Tight` and `Loose` use their categories. -/
def Event.Proper (e : Event ι K) : Prop :=
  match e.about with
  | .other c => c ≠ tightCat ∧ c ≠ looseCat
  | _ => True

/-- What two warnings say of the same constraint is the same. -/
def Agree (e e' : Event ι K) : Prop :=
  match e.about, e'.about with
  | .tight c s, .tight c' s' => c = c' → s = s'
  | .loose c l o r rel, .loose c' l' o' r' rel' => c = c' → (l, o, r, rel) = (l', o', r', rel')
  | _, _ => True

/-- A result without warnings is a dict of values without this key. -/
def Point.Clean (p : Point β ι K) : Prop := (Nest.dict p.others).WF ∧ key ∉ p.others.map (·.1)

end

end WarnTable
end Verif
