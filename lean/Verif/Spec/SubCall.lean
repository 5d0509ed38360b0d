import Verif.Model.SubCall
import Verif.Spec.Eval
import Verif.Spec.Lookup
import Verif.Spec.ParseSubs
import Verif.Spec.Shape

/-!
# What substituting should do

A dict of substitutions gives a value to each variable that one of its keys refers to. The value of the result at a point is the value of the
expression at the point with these values put in.
-/

namespace Verif
namespace SubCall
open PS

section
variable {S N D F : Type} [DecidableEq S] [DecidableEq N]

/-- The constant an entry holds for a variable: arrays hold one for each element. -/
def constant {K : Type} : Entry S K D F → Key S → Option (SubVal (Key S) K D)
  | .cell (.num v), _ => some v
  | .arr cs, (_, some i) => match cs[i]? with
    | some (.num v) => some v
    | _ => none
  | _, _ => none

/-- The value given to a variable: of the entries whose key refers to it and that hold a constant for it, the last one counts. -/
def given {K : Type} (E : Lookup.Env (Key S) N Nat) (l : List (Lookup.MapKey (Key S) N × Entry S K D F)) (a : Key S) : Option (SubVal (Key S) K D) :=
  l.reverse.findSome? (fun ks => if ks.1 = .key a ∨ ks.1 ∈ E.keys a then constant ks.2 a else none)

/-- The variable occurs in the expression. -/
def Occurs (n : NMap (Key S) ℝ D) (a : Key S) : Prop := ∃ t ∈ n.terms, a ∈ t.1.items.map (·.1)

variable [AddCommGroup D]

/-- In the units `vu` of a variable, a substitution is the number `x`. Plain numbers are in the units of the variable; others have to have its
dimension, and are the same physical value. Nomials have to be constant. -/
def Means (vu : Option (UnitQ D ℝ)) : SubVal (Key S) ℝ D → ℝ → Prop
  | .num c, x => x = c
  | .qty c u, x => u.dim = unitDim vu ∧ unitScale vu * x = u.scale * c
  | .nom n, x => (∃ c, n.hmap.terms = [(⟨[]⟩, c)]) ∧ unitDim n.hmap.units = unitDim vu ∧ ∀ pt, unitScale vu * x = physVal pt n.hmap

/-- `pt'` is `pt` with the given values put in. -/
def PutIn (W : World S N ℝ D F) (l : List (Lookup.MapKey (Key S) N × Entry S ℝ D F)) (pt pt' : Key S → ℝ) (n : NMap (Key S) ℝ D) : Prop :=
  ∀ a, Occurs n a → match given W.E l a with
    | some v => Means (W.vunits a) v (pt' a)
    | none => pt' a = pt a

/-- Elements of vectors have an index within the shape, scalars have none. -/
def InShape (shape : S → Option Nat) (a : Key S) : Prop :=
  match shape a.1 with
  | none => a.2 = none
  | some m => ∃ i, a.2 = some i ∧ i < m

/-- What is assumed of the variables of an expression: sets are iterated in some order, elements have indices, and units have a positive size. -/
structure WorldOK (W : World S N ℝ D F) (n : NMap (Key S) ℝ D) : Prop where
  /-- sets -/
  env : Lookup.EnvOK W.E
  /-- the sets of `varlocs` -/
  rounds : ∀ fixed, SetOrder (locations n fixed) (W.rounds n fixed)
  /-- indices -/
  idx : ∀ a, Occurs n a → InShape W.shape a
  /-- units -/
  units : ∀ a, UnitOK (W.vunits a)

/-- The physical value of what `value` returns. -/
noncomputable def Value.phys (pt : Key S → ℝ) : Value (Key S) ℝ D → ℝ
  | .num q => unitScale q.units * q.mag
  | .nom n => physVal pt n.hmap

/-- What `value` should return for `n` besides the value: numbers have the units of `n`; expressions too, they have the class they should and hold no
variable that has a value. -/
def Value.Fits (n : NMap (Key S) ℝ D) (descr : Key S → Option (Cell (SubVal (Key S) ℝ D) F)) : Value (Key S) ℝ D → Prop
  | .num q => q.units = n.units
  | .nom m => m.hmap.units = n.units ∧ m.ClassTrue ∧ ∀ a, Occurs m.hmap a → Occurs n a ∧ ∀ v, descr a ≠ some (.num v)

/-- Arrays do not mix swept elements with constants, and are given to vectors only; no two keys of a `KeyDict` refer to one variable of the
expression. -/
def SubsOK (W : World S N ℝ D F) (n : NMap (Key S) ℝ D) (subs : Subs S N ℝ D F) : Prop :=
  (∀ ks ∈ subs.entries, Unmixed ks.2 ∧ ∀ a, Occurs n a → Lookup.Refers W.E ks.1 a → a.2 = none → ∀ cs, ks.2 ≠ .arr cs) ∧
  match subs with
  | .dict _ => True
  | .keydict l => (l.map (·.1)).Nodup ∧ ∀ k ∈ l, ∀ k' ∈ l, ∀ a, Occurs n a → Lookup.Refers W.E k.1 a → Lookup.Refers W.E k'.1 a → k = k'

end
end SubCall
end Verif
