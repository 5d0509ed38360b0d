import Verif.Model.Globals

/-! What environments should do, in terms of the record of a run. -/

namespace Verif
namespace Globals

/-- The lineages entered, split where the counters were reset. -/
def segments : List Event → List (List Lineage)
  | [] => [[]]
  | .reset :: es => [] :: segments es
  | .entered l :: es =>
    match segments es with
    | [] => [[l]]
    | x :: xs => (l :: x) :: xs
  | .left _ _ :: es => segments es
  | .made _ _ :: es => segments es

/-- The variables made with a given lineage. -/
def madeIn (l : Lineage) (es : List Event) : List Var :=
  es.filterMap (fun e => match e with | .made v _ => if v.lineage = l then some v else none | _ => none)

/-- Code without `SignomialsEnabled` blocks. -/
def Prog.noSignomials : Prog → Prop
  | .seq p q => p.noSignomials ∧ q.noSignomials
  | .named _ p => p.noSignomials
  | .vectorize _ p => p.noSignomials
  | .signomials _ => False
  | .attempt p q => p.noSignomials ∧ q.noSignomials
  | _ => True

end Globals
end Verif
