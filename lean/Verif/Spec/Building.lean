import Verif.Model.Building

/-! Specification for C72, by what is written in a model, however deep inside of it. -/

namespace Verif
namespace Building
variable {V N C : Type}

mutual
/-- `Inside x e`: the expression `x` is written somewhere in `e`. -/
inductive Inside : Expr V N C → Expr V N C → Prop
  | refl (e) : Inside e e
  | arr {x eq kids} : InsideL x kids → Inside x (.arr eq kids)
  | lst {x kids} : InsideL x kids → Inside x (.lst kids)
  | cset {x arg subs} : Inside x arg → Inside x (.cset arg subs)
  | mdl {x setup cost arg subs ret} : Inside x arg → Inside x (.mdl setup cost arg subs ret)
/-- The same for the elements of a list. -/
inductive InsideL : Expr V N C → List (Expr V N C) → Prop
  | head {x e es} : Inside x e → InsideL x (e :: es)
  | tail {x e es} : InsideL x es → InsideL x (e :: es)
end

/-- A constraint is written in the model. -/
def Writes (c : C) (e : Expr V N C) : Prop := ∃ vks t, Inside (.con c vks t) e

/-- A variable is used in the model: in a constraint, as a variable made in `setup`, or in a cost. -/
def Uses (i : Nat) (e : Expr V N C) : Prop :=
  (∃ c vks t, Inside (.con c vks t) e ∧ i ∈ vks) ∨
  ∃ setup cost arg subs ret, Inside (.mdl setup cost arg subs ret) e ∧ (i ∈ setup ∨ i ∈ cost)

/-- The value `w` for the variable is given by a dictionary of substitutions in the model. -/
def Gives (k : V) (w : N) (e : Expr V N C) : Prop :=
  (∃ arg subs, Inside (.cset arg subs) e ∧ (k, w) ∈ subs) ∨
  ∃ setup cost arg subs ret, Inside (.mdl setup cost arg subs ret) e ∧ ((k, w) ∈ subs ∨ ∃ d, ret = some d ∧ (k, w) ∈ d)

/-- A list of constraints, as opposed to a single one, an array or a set. -/
def Expr.isList : Expr V N C → Prop
  | .lst _ => True
  | _ => False

/-- The constraints of every set and model inside are given as a list, and no model gets substitutions both as a keyword and from its `setup`. -/
def Fair (e : Expr V N C) : Prop :=
  (∀ arg subs, Inside (.cset arg subs) e → arg.isList) ∧
  ∀ setup cost arg subs ret, Inside (.mdl setup cost arg subs ret) e → arg.isList ∧ (subs = [] ∨ ret = none)

/-- A set of constraints or a model. -/
def Expr.isSet : Expr V N C → Prop
  | .cset _ _ => True
  | .mdl _ _ _ _ _ => True
  | _ => False

end Building
end Verif
