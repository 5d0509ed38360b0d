import Verif.Model.Nomial

/-!
# The text of expressions

Models the syntax trees kept by operators and the text made from them, gpkit/repr_conventions.py 48-146 and gpkit/nomials/core.py 38-66. Text is a
list of tokens: names of variables contain no operators and no parentheses. Units, arrays and the cache of texts are left out.
-/

namespace Verif

/-- A piece of text. -/
inductive Tok (V K : Type) where
  /-- a variable -/
  | name (v : V)
  /-- a number without sign -/
  | num (c : K)
  /-- a number followed by `π` -/
  | pi (r : K)
  /-- ` + ` -/
  | plus
  /-- ` - ` -/
  | minus
  /-- `·` -/
  | mul
  /-- `*`, used on Windows -/
  | star
  /-- `/` -/
  | div
  /-- a sign -/
  | neg
  /-- `(` -/
  | lpar
  /-- `)` -/
  | rpar
  /-- `^x`, or `²` to `⁹` -/
  | expo (x : K)
deriving DecidableEq

/-- The attribute `ast`; `flat` is an object without one. -/
inductive Ast (V K : Type) where
  /-- a variable -/
  | var (v : V)
  /-- a number -/
  | num (c : K)
  /-- an object with `ast = None` -/
  | flat (ts : List (HV V K × K))
  /-- `("add", (a, b))` -/
  | add (a b : Ast V K)
  /-- `("mul", (a, b))` -/
  | mul (a b : Ast V K)
  /-- `("div", (a, b))` -/
  | div (a b : Ast V K)
  /-- `("neg", a)` -/
  | neg (a : Ast V K)
  /-- `("pow", (a, x))` -/
  | pow (a : Ast V K) (x : K)

/-- Formatting of numbers and the platform. -/
structure Fmt (V K : Type) where
  /-- `sys.platform` is Windows -/
  win : Bool
  /-- `np.pi` -/
  pi : K
  /-- `x % 1` -/
  fract : K → K
  /-- the number written by `%.3g` -/
  three : K → K
  /-- the number written by `%.2g` -/
  two : K → K
  /-- `sorted` on texts -/
  sort : List (List (Tok V K)) → List (List (Tok V K))

namespace Printing
variable {V K D : Type} [DecidableEq V] [Field K] [LinearOrder K]

/-- Text of a number by `%.3g`. -/
def gText (F : Fmt V K) (c : K) : List (Tok V K) := if F.three c < 0 then [.neg, .num (-F.three c)] else [.num (F.three c)]

/-- "a clean multiple of PI" (gpkit/repr_conventions.py 55). -/
def cleanPi (F : Fmt V K) (c : K) : Bool :=
  F.pi / 12 < c ∧ c < 100 * F.pi ∧ F.fract (12 * c / F.pi) ≤ 1 / 100 ∧ -(1 / 100) ≤ F.fract (12 * c / F.pi)

/-- `strify` of a plain number (gpkit/repr_conventions.py 48-70). -/
def numText (F : Fmt V K) (c : K) : List (Tok V K) :=
  if cleanPi F c then
    if c > 31 / 10 then [.pi (F.three (c / F.pi))]
    else [.lpar, .pi 1, .div, .num (F.three (F.pi / c)), .rpar]
  else gText F c

/-- The token joining factors: `MUL` (gpkit/repr_conventions.py 10-19). -/
def mulTok (F : Fmt V K) : Tok V K := if F.win then .star else .mul

/-- `sep.join(texts)`. -/
def join (sep : Tok V K) : List (List (Tok V K)) → List (Tok V K)
  | [] => []
  | [t] => t
  | t :: ts => t ++ sep :: join sep ts

/-- The exponents written as superscripts are those from 2 to 9, if not on Windows (gpkit/nomials/core.py 52-58). -/
def expoText (F : Fmt V K) (x : K) : List (Tok V K) :=
  if !F.win ∧ x ∈ ([2, 3, 4, 5, 6, 7, 8, 9] : List K) then [.expo x]
  else if x = 1 then []
  else [.expo (F.two x)]

/-- `varstrs` of a term (gpkit/nomials/core.py 48-60). -/
def varTexts (F : Fmt V K) (e : List (V × K)) : List (List (Tok V K)) :=
  F.sort ((e.filter (fun vx => vx.2 ≠ 0)).map (fun vx => .name vx.1 :: expoText F vx.2))

/-- Text of one term (gpkit/nomials/core.py 61-66). -/
def termText (F : Fmt V K) (t : HV V K × K) : List (Tok V K) :=
  let vs := varTexts F t.1.items
  if gText F t.2 = [.neg, .num 1] ∧ vs ≠ [] then .neg :: join .mul vs
  else if gText F t.2 ≠ [.num 1] ∨ vs = [] then join (mulTok F) (gText F t.2 :: vs)
  else join (mulTok F) vs

/-- Text of an object without syntax tree (gpkit/nomials/core.py 45-67). -/
def flatText (F : Fmt V K) (ts : List (HV V K × K)) : List (Tok V K) := join .plus (F.sort (ts.map (termText F)))

/-- `INSIDE_PARENS.sub("", string)` (gpkit/repr_conventions.py 8 and 75): the pattern is greedy, so that all from the first `(` to the last `)` is
removed. -/
def parensless (s : List (Tok V K)) : List (Tok V K) :=
  if .lpar ∈ s then s.takeWhile (· ≠ .lpar) ++ (s.reverse.takeWhile (· ≠ .rpar)).reverse else s

/-- `parenthesize` with `addi=True` (gpkit/repr_conventions.py 73-80). The condition on `parensless` being empty does not matter. On Windows `*`
is not looked for. -/
def parenthesize (mult : Bool) (s : List (Tok V K)) : List (Tok V K) :=
  let p := parensless s
  if (.plus ∈ p ∨ .minus ∈ p) ∨ (mult ∧ (.mul ∈ p ∨ .div ∈ p)) then .lpar :: (s ++ [.rpar]) else s

/-- `parse_ast` (gpkit/repr_conventions.py 92-139) together with `strify` and `str_without`. The right side of a sum is never empty here, except for
the empty `flat`, where Python raises IndexError. -/
def text (F : Fmt V K) : Ast V K → List (Tok V K)
  | .var v => [.name v]
  | .num c => numText F c
  | .flat ts => flatText F ts
  | .add a b =>
    match text F b with
    | .neg :: r => text F a ++ .minus :: r
    | r => text F a ++ .plus :: r
  | .mul a b =>
    let l := parenthesize false (text F a)
    let r := parenthesize false (text F b)
    if l = [.num 1] then r else if r = [.num 1] then l else l ++ mulTok F :: r
  | .div a b =>
    let l := parenthesize false (text F a)
    let r := parenthesize true (text F b)
    if r = [.num 1] then l else l ++ .div :: r
  | .neg a => .neg :: parenthesize false (text F a)
  | .pow a x =>
    let l := parenthesize true (text F a)
    if l = [.num 1] then l else l ++ [.expo x]

/-- The tree after `a + b` (gpkit/nomials/math.py 179-192): adding a number that is zero gives an object without tree. -/
def addAst (a b : PyVal V K D × Ast V K) (sum : PyVal V K D) : Ast V K :=
  match a.1, b.1, sum with
  | .num _, .num _, .num q => .num q.mag
  | .nom n, .num q, _ => if q.mag = 0 then .flat n.hmap.terms else .add a.2 b.2
  | .num q, .nom n, _ => if q.mag = 0 then .flat n.hmap.terms else .add a.2 b.2
  | _, _, _ => .add a.2 b.2

/-- The tree after an operator that keeps both sides, if the result is not a number (gpkit/nomials/math.py 209, 223, 231 and 317). -/
def opAst (op : Ast V K → Ast V K → Ast V K) (a b : PyVal V K D × Ast V K) (res : PyVal V K D) : Ast V K :=
  match res with
  | .num q => .num q.mag
  | .nom _ => op a.2 b.2

/-- The tree after `-a` (gpkit/nomials/math.py 247-252). -/
def negAst (a : PyVal V K D × Ast V K) (res : PyVal V K D) : Ast V K :=
  match res with
  | .num q => .num q.mag
  | .nom _ => .neg a.2

/-- The tree after `a ** x` (gpkit/nomials/math.py 237-245 and 331): powers of posynomials and signomials count `expo` down and store what is left. -/
def powAst (a : PyVal V K D × Ast V K) (x : K) (res : PyVal V K D) : Ast V K :=
  match res, a.1 with
  | .num q, _ => .num q.mag
  | .nom _, .nom n => if n.cls = .monomial then .pow a.2 x else .pow a.2 0
  | .nom _, .num _ => .pow a.2 x

end Printing
end Verif
