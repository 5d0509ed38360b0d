import Verif.Model.ParseSubs

/-!
# How substitutions should be sorted

Each element of a vector is judged by its own value only.
-/

namespace Verif
namespace PS

/-- The three kinds of substitution. -/
inductive Class where
  /-- a constant -/
  | constant
  /-- swept over values -/
  | sweep
  /-- a function of the other substitutions -/
  | linked
deriving DecidableEq, Repr

section
variable {S K F : Type} [DecidableEq S]

/-- What a single value asks for. -/
def wantedCell : Cell K F → Option (Class × Out K F)
  | .nan => none
  | .num k => some (.constant, .num k)
  | .fn f => some (.linked, .fn f)
  | .sweep vs => some (.sweep, .list vs)
  | .sweepFn f => some (.linked, .fn f)

/-- What a substitution asks for, for one key. -/
def wanted (shape : S → Option Nat) (sub : Sub K F) (key : Key S) : Option (Class × Out K F) :=
  match sub, shape key.1 with
  | .cell (.sweep vs), some _ => (key.2.bind (vs[·]?)).map (fun k => (.sweep, .num k))
  | .cell c, _ => wantedCell c
  | .arr cs, some _ => (key.2.bind (cs[·]?)).bind wantedCell
  | .arr [.nan], none => none
  | .arr cs, none => some (.constant, .arr cs)
  | .sweepMat _ rows, some _ => key.2.bind (fun i => (rows.mapM (·[i]?)).map (fun vs => (.sweep, .list vs)))
  | .sweepMat m rows, none => some (.sweep, .mat m rows)

/-- The substitution has the shape of the variable, or one more dimension for a sweep. -/
def Fits (shape : S → Option Nat) (sub : Sub K F) (key : Key S) : Prop :=
  match shape key.1 with
  | none => key.2 = none
  | some n => ∃ i, key.2 = some i ∧ i < n ∧
    match sub with
    | .cell (.sweep vs) => vs.length = n
    | .cell _ => True
    | .arr cs => cs.length = n
    | .sweepMat m rows => m = n ∧ ∀ r ∈ rows, r.length = m

/-- An element that asks to be swept. -/
def Cell.Swept : Cell K F → Prop
  | .sweep _ => True
  | .sweepFn _ => True
  | _ => False

/-- An element that is swept or a function. -/
def Cell.NotConstant : Cell K F → Prop
  | .nan => False
  | .num _ => False
  | _ => True

/-- No array mixes swept elements with constants or free elements. -/
def Unmixed : Sub K F → Prop
  | .arr cs => (∀ c ∈ cs, ¬ c.Swept) ∨ ∀ c ∈ cs, c.NotConstant
  | _ => True

/-- What the three dicts hold for a key. -/
def Parsed.Holds (p : Parsed S K F) (key : Key S) (w : Option (Class × Out K F)) : Prop :=
  p.constants.get? key = (w.bind fun co => if co.1 = .constant then some co.2 else none) ∧
  p.sweep.get? key = (w.bind fun co => if co.1 = .sweep then some co.2 else none) ∧
  p.linked.get? key = (w.bind fun co => if co.1 = .linked then some co.2 else none)

end

end PS
end Verif
