import Verif.Model.Latex
import Verif.Spec.Eval

/-!
# Reading LaTeX

Factors that follow each other are multiplied. A sign or a number can stand before them. Terms are separated by plus signs, sides of constraints by relations.
-/

namespace Verif
namespace Latex
open VK
variable {V : Type}

/-- Powers of variables that follow each other. -/
noncomputable def factors (pt : V → ℝ) : List (Atom V) → Option ℝ
  | [] => some 1
  | .name v :: .expo x :: l => (factors pt l).map (pt v ^ x * ·)
  | .name v :: l => (factors pt l).map (pt v * ·)
  | _ => none

/-- A product that is not empty, without a sign. -/
noncomputable def unsigned (pt : V → ℝ) : List (Atom V) → Option ℝ
  | [] => none
  | .num c :: .ten k :: l => (factors pt l).map (c * 10 ^ k * ·)
  | .num c :: l => (factors pt l).map (c * ·)
  | l => factors pt l

/-- A product that is not empty. -/
noncomputable def product (pt : V → ℝ) : List (Atom V) → Option ℝ
  | .neg :: l => (unsigned pt l).map (- ·)
  | l => unsigned pt l

/-- What is before a fraction: nothing, a sign or a product. -/
noncomputable def before (pt : V → ℝ) : List (Atom V) → Option ℝ
  | [] => some 1
  | [.neg] => some (-1)
  | l => product pt l

/-- The pieces before the first that has a fraction or a relation in it, and the rest. -/
def atoms : List (Tok V) → List (Atom V) × List (Tok V)
  | .atom a :: l => ((a :: (atoms l).1), (atoms l).2)
  | l => ([], l)

/-- One term. -/
noncomputable def readTerm (pt : V → ℝ) (l : List (Tok V)) : Option ℝ :=
  match atoms l with
  | (a, []) => product pt a
  | (a, [.frac p q]) => do
    let c ← before pt a
    let x ← product pt p
    let y ← product pt q
    return c * (x / y)
  | _ => none

/-- The parts between plus signs. -/
def parts : List (Tok V) → List (List (Tok V))
  | [] => [[]]
  | .plus :: l => [] :: parts l
  | t :: l =>
    match parts l with
    | [] => [[t]]
    | h :: r => (t :: h) :: r

/-- A sum of terms. -/
noncomputable def read (pt : V → ℝ) (l : List (Tok V)) : Option ℝ := ((parts l).mapM (readTerm pt)).map List.sum

/-- The two sides of a relation. -/
def sides : List (Tok V) → Option (List (Tok V) × Outline.Oper × List (Tok V))
  | [] => none
  | .rel o :: l => some ([], o, l)
  | t :: l => (sides l).map (fun s => (t :: s.1, s.2))

/-- A relation between numbers. -/
def relHolds : Outline.Oper → ℝ → ℝ → Prop
  | .le, a, b => a ≤ b
  | .ge, a, b => b ≤ a
  | .eq, a, b => a = b

/-- What a constraint that is read says. -/
def Says (pt : V → ℝ) (l : List (Tok V)) (p : Prop) : Prop :=
  ∃ a o b x y, sides l = some (a, o, b) ∧ read pt a = some x ∧ read pt b = some y ∧ (relHolds o x y ↔ p)

/-- A number that can be written with `n` digits. -/
def Short (n : ℕ) (x : ℝ) : Prop := ∃ m k : ℤ, |m| < 10 ^ n ∧ x = m * 10 ^ k

/-- Close to a number of `n` digits: no further than half of the last digit. -/
def Near (n : ℕ) (x y : ℝ) : Prop := |y - x| ≤ |x| * 10 ^ (1 - n : ℤ) / 2

/-- Terms whose numbers are close: coefficients to four digits, or to two if they are shown as `1` or `-1`, and exponents to two. -/
structure NearTerm (t t' : HV V ℝ × ℝ) : Prop where
  coef : Near 4 t.2 t'.2 ∨ ((t'.2 = 1 ∨ t'.2 = -1) ∧ Near 2 t.2 t'.2 ∧ ∃ vx ∈ t.1.items, 0 < vx.2)
  expos : List.Forall₂ (fun vx vx' => vx'.1 = vx.1 ∧ Near 2 vx.2 vx'.2) t.1.items t'.1.items

/-- The order that `sorted` puts texts in is some order. -/
structure Sorting.Valid (F : Sorting V) : Prop where
  vars : ∀ l, (F.vars l).Perm l
  terms : ∀ l, (F.terms l).Perm l

/-- A term that is shown as it is: its exponents have two digits, its coefficient four, and it is not close to one unless it is one. -/
structure Fits (t : HV V ℝ × ℝ) : Prop where
  coef : Short 4 t.2
  one : Near 2 t.2 1 → t.2 = 1
  minus : Near 2 t.2 (-1) → t.2 = -1
  expos : ∀ vx ∈ t.1.items, Short 2 vx.2

/-- The rows of what is in a set: one for each constraint, whatever set it is in. A set without anything in it takes a row. -/
inductive Rows : List Item → List Str → Prop
  | nil : Rows [] []
  | con {s : Str} {l : List Item} {rs : List Str} (h : Rows l rs) : Rows (.con s :: l) (s :: rs)
  | empty {l : List Item} {rs : List Str} (h : Rows l rs) : Rows (.set [] :: l) ([] :: rs)
  | set {i : Item} {m l : List Item} {rs rs' : List Str} (hm : Rows (i :: m) rs) (h : Rows l rs') : Rows (.set (i :: m) :: l) (rs ++ rs')

mutual
/-- The constraints in a set have no text that looks like a row. -/
def Item.Plain : Item → Prop
  | .con s => ¬ [' ', ' ', ' ', ' ', '&', ' '] <+: s
  | .set l => AllPlain l

/-- The same for all that is in a set. -/
def AllPlain : List Item → Prop
  | [] => True
  | i :: l => i.Plain ∧ AllPlain l
end

/-- A row of an array. -/
def row (s : Str) : Str := [' ', ' ', ' ', ' ', '&', ' '] ++ s ++ [' ', '\\', '\\']

/-- Lines as one text. -/
def unlines : List Str → Str
  | [] => []
  | [l] => l
  | l :: ls => l ++ '\n' :: unlines ls

end Latex
end Verif
