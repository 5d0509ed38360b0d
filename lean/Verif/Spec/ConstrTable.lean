import Verif.Model.ConstrTable

/-!
# What tables of constraints should show

A reader of a table puts the lines of a constraint together again, leaving out the two spaces before lines after the first, and knows the model of a
constraint from the last heading.
-/

namespace Verif
namespace ConstrTables

/-- The text of a constraint, from its lines. -/
def unwrap : List Str → Str
  | [] => []
  | l :: ls => l ++ ls.flatMap (·.drop 2)

/-- What is read in a table below the heading `m`: model, opening and text of constraints. -/
def readItems (m : Str) : List Item → List (Str × Str × Str)
  | [] => []
  | .spacer :: is => readItems m is
  | .heading m' :: is => readItems m' is
  | .entry o l :: is => (m, o, unwrap (l :: lines is)) :: readItems m is
  | .more _ :: is => readItems m is
where
  /-- the further lines at the start of a list of items -/
  lines : List Item → List Str
    | .more l :: is => l :: lines is
    | _ => []

/-- The headings of a table. -/
def headings (is : List Item) : List Str := is.filterMap (fun | .heading m => some m | _ => none)

end ConstrTables
end Verif
