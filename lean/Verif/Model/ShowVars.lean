import Verif.Model.Lookup
import Verif.Model.Table

/-!
# Variables asked for in tables

Models `SolutionArray._parse_showvars` (gpkit/solution_array.py 626-632) and what `table` shows of a dict (704-707). The keys of
`self["variables"]`, a `KeyDict` that collapses arrays and has no `cset`, are looked up as in `Model/Lookup.lean` (gpkit/keydict.py 57-66,
107-116, 196-202).
-/

namespace Verif
namespace Lookup
variable {A N I : Type} [DecidableEq A] [DecidableEq N]

/-- `parse_and_index(k)[0]` if arrays are collapsed (gpkit/keydict.py 59-63): the vector for an element. -/
def collapse (E : Env A N I) : MapKey A N → MapKey A N
  | .key a =>
    match E.idx a, E.veckey a with
    | some _, some v => .key v
    | _, _ => .key a
  | .str n => .str n

/-- The body of the loop (gpkit/solution_array.py 629-631). `keymap` is a defaultdict, so that reading creates an entry. -/
def showStep (E : Env A N I) (st : KeySet A N × List A) (k : MapKey A N) : KeySet A N × List A :=
  let r := getItem E st.1 (collapse E k)
  (r.1, r.2.foldl add st.2)

/-- `_parse_showvars` (gpkit/solution_array.py 626-632). -/
def parseShowvars (E : Env A N I) (s : KeySet A N) (ks : List (MapKey A N)) : KeySet A N × List A := ks.foldl (showStep E) (s, [])

/-- What `table(showvars)` shows of a dict (gpkit/solution_array.py 690, 703-707): `_parse_showvars` is called at the start and again for the
dict, if its result is not empty. -/
def shownOf {B : Type} (E : Env A N I) (s : KeySet A N) (ks : List (MapKey A N)) (data : List (A × B)) : List (A × B) :=
  let r := parseShowvars E s ks
  let show2 := if r.2.isEmpty then r.2 else (parseShowvars E r.1 ((E.ord r.2).map .key)).2
  data.filter (fun kv => Tables.picked show2 kv.1)

end Lookup
end Verif
