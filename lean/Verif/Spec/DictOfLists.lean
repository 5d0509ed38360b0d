import Verif.Model.DictOfLists

/-!
# Places in nested dicts
-/

namespace Verif
namespace DoL

section
variable {S α β : Type} [DecidableEq S]

/-- What is at the end of a path of keys. -/
def Nest.at (n : Nest S α) : List S → Option (Nest S α)
  | [] => some n
  | k :: p =>
    match n with
    | .leaf _ => none
    | .dict d =>
      match PyDict.get? d k with
      | some v => v.at p
      | none => none

/-- Dict or not. -/
def Nest.isDict : Nest S α → Bool
  | .leaf _ => false
  | .dict _ => true

/-- Same keys at all levels, in any order. -/
def Same (n : Nest S α) (m : Nest S β) : Prop := ∀ p, (n.at p).map Nest.isDict = (m.at p).map Nest.isDict

/-- The value at the end of a path. -/
def Nest.leafAt (n : Nest S α) (p : List S) : Option α :=
  match n.at p with
  | some (.leaf a) => some a
  | _ => none

/-- No key occurs twice in a dict, as in Python. -/
inductive Nest.WF : Nest S α → Prop
  | leaf (a : α) : WF (.leaf a)
  | dict {d : List (S × Nest S α)} : (d.map (·.1)).Nodup → (∀ kv ∈ d, WF kv.2) → WF (.dict d)

end

end DoL
end Verif
