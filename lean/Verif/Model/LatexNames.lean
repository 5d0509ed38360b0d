import Verif.Model.Names

/-!
# Names of variables in LaTeX

Models `VarKey.latex` (gpkit/varkey.py 88-101).
-/

namespace Verif
namespace Names
open VK

/-- `VarKey.latex` (gpkit/varkey.py 88-101); `necessary` is `self.necessarylineage`. -/
def latexName (e : Excl) (necessary : Bool) (v : Var) : Str :=
  let name := if !e.vec && !e.idx && !v.shape.isEmpty then "\\vec{".toList ++ v.name ++ ['}'] else v.name
  let name := if !e.idx && !v.idx.isEmpty then '{' :: name ++ "}_{".toList ++ join [','] (v.idx.map num) ++ ['}'] else name
  if !e.lineage && !v.lineage.isEmpty && (!e.unnecessary || necessary) then '{' :: name ++ "}_{".toList ++ lineageStr (!e.modelnums) v.lineage ++ ['}'] else name

end Names
end Verif
