import Verif.Model.Table

/-!
# The table of insensitive variables

Models `insenss_table` (gpkit/solution_array.py 127-132) on top of `var_table`.
-/

namespace Verif
namespace Tables
variable {Q K : Type} [Field K] [LinearOrder K]

/-- `np.mean(np.abs(s)) < maxval` (gpkit/solution_array.py 131): false where a value is not a number, and for the mean of nothing. -/
def Cell.slight (maxval : K) (v : Cell K) : Bool :=
  match meanAbs v with
  | none => false
  | some m => !v.entries.isEmpty && decide (m < maxval)

/-- `insenss_table` (gpkit/solution_array.py 127-132), given `sensitivities["variables"]`. The variables asked for, its second argument, are not used; `senss_table` is
called without them, with options from the caller. -/
def insensTable (T : Attrs Q) (r : K → K) (o : Opts K) (_showvars : List Q) (maxval : K) (data : List (Q × Cell K)) : List (Item Q K) :=
  varTable T r (senssOpts o o.hide) (data.filter (fun kv => kv.2.slight maxval))

end Tables
end Verif
