/-!
# Strings of Python

Strings are lists of characters. What counts as whitespace is a parameter `ws`.
-/

namespace Verif

/-- A string. -/
abbrev Str := List Char

namespace Str

/-- `s.index(pat)`: `none` is a `ValueError`. -/
def index? (pat : Str) : Str → Option Nat
  | [] => if pat.isPrefixOf [] then some 0 else none
  | c :: s => if pat.isPrefixOf (c :: s) then some 0 else (index? pat s).map (· + 1)

/-- Characters still belonging to an occurrence are skipped: the state of `count` and `replace`. -/
def countAux (pat : Str) : Nat → Str → Nat
  | _, [] => 0
  | n + 1, _ :: s => countAux pat n s
  | 0, c :: s => if pat.isPrefixOf (c :: s) then countAux pat (pat.length - 1) s + 1 else countAux pat 0 s

/-- `s.count(pat)` for a pattern that is not empty: occurrences that do not overlap. -/
def count (pat s : Str) : Nat := countAux pat 0 s

/-- See `replace`. -/
def replaceAux (pat new : Str) : Nat → Str → Str
  | _, [] => []
  | n + 1, _ :: s => replaceAux pat new n s
  | 0, c :: s => if pat.isPrefixOf (c :: s) then new ++ replaceAux pat new (pat.length - 1) s else c :: replaceAux pat new 0 s

/-- `s.replace(pat, new)` for a pattern that is not empty. -/
def replace (pat new s : Str) : Str := replaceAux pat new 0 s

/-- `s.split("\n")`. -/
def lines : Str → List Str
  | [] => [[]]
  | c :: s =>
    if c = '\n' then [] :: lines s
    else match lines s with
      | [] => [[c]]
      | l :: ls => (c :: l) :: ls

/-- `"\n".join(ls)`. -/
def unlines : List Str → Str
  | [] => []
  | [l] => l
  | l :: ls => l ++ '\n' :: unlines ls

/-- `s.strip()`. -/
def strip (ws : Char → Bool) (s : Str) : Str := ((s.dropWhile ws).reverse.dropWhile ws).reverse

/-- `s.split()`. -/
def words (ws : Char → Bool) : Str → List Str
  | [] => []
  | c :: s =>
    if ws c then words ws s
    else if (s.head?.map ws).getD true then [c] :: words ws s
    else match words ws s with
      | [] => [[c]]
      | w :: r => (c :: w) :: r

end Str
end Verif
