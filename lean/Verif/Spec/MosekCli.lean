import Verif.Model.MosekCli
import Verif.Spec.Eval

/-!
# The files of `mskexpopt`

The format of the MOSEK manual: comments start with a star; the numbers of constraints, variables and terms are followed by the coefficients, the
posynomial of every term, and triples of term, variable and exponent. Posynomial 0 is the objective.
-/

namespace Verif
namespace MosekCli
variable {K : Type}

/-- A geometric program as the solver sees it. -/
structure Program (K : Type) where
  /-- constraints -/
  numcon : Nat
  /-- variables -/
  numvar : Nat
  /-- coefficients -/
  cs : List K
  /-- posynomial of each term -/
  posys : List Nat
  /-- exponents -/
  entries : List (Nat × Nat × K)

/-- The words of a file outside comments. -/
def tokens (ws : Char → Bool) (s : Str) : List Str := ((Str.lines s).filter (fun l => l.head? ≠ some '*')).flatMap (Str.words ws)

/-- Reading every word. -/
def readAll {α : Type} (p : Str → Option α) : List Str → Option (List α)
  | [] => some []
  | w :: ws => match p w, readAll p ws with
    | some x, some xs => some (x :: xs)
    | _, _ => none

/-- Reading triples. -/
def readTriples (pi : Str → Option Nat) (pe : Str → Option K) : List Str → Option (List (Nat × Nat × K))
  | [] => some []
  | t :: j :: a :: r => match pi t, pi j, pe a, readTriples pi pe r with
    | some t, some j, some a, some r => some ((t, j, a) :: r)
    | _, _, _, _ => none
  | _ => none

/-- The program a file describes. -/
def readProgram (ws : Char → Bool) (pi : Str → Option Nat) (pe : Str → Option K) (s : Str) : Option (Program K) :=
  match tokens ws s with
  | a :: b :: c :: r => match pi a, pi b, pi c with
    | some nc, some nv, some nt =>
      if 2 * nt ≤ r.length then
        match readAll pe (r.take nt), readAll pi ((r.drop nt).take nt), readTriples pi pe (r.drop (2 * nt)) with
        | some cs, some ps, some es => some ⟨nc, nv, cs, ps, es⟩
        | _, _, _ => none
      else none
    | _, _, _ => none
  | _ => none

/-- Text that is one word and no comment. -/
def IsWord (ws : Char → Bool) (w : Str) : Prop := w ≠ [] ∧ (∀ c ∈ w, ws c = false) ∧ w.head? ≠ some '*'

/-- Numbers are written as words, and the numbers `fl` are read back. -/
structure Numerals (ws : Char → Bool) (fi : Nat → Str) (fe : K → Str) (pi : Str → Option Nat) (pe : Str → Option K) (fl : K → Prop) : Prop where
  /-- integers are read back -/
  int : ∀ n, pi (fi n) = some n
  /-- floats are read back -/
  flt : ∀ x, fl x → pe (fe x) = some x
  /-- integers are words -/
  intWord : ∀ n, IsWord ws (fi n)
  /-- floats are words -/
  fltWord : ∀ x, IsWord ws (fe x)

/-- Value of a posynomial of the program. -/
noncomputable def Program.posyVal (P : Program ℝ) (x : Nat → ℝ) (k : Nat) : ℝ :=
  ((List.range P.cs.length).filter (fun t => P.posys[t]? = some k)).map (fun t =>
    (P.cs[t]?).getD 0 * ((P.entries.filter (fun e => e.1 = t)).map (fun e => x e.2.1 ^ e.2.2)).prod) |>.sum

/-- A line giving a value: an index and the value. -/
def ValLine (ws : Char → Bool) (pe : Str → Option K) (l : Str) (x : K) : Prop := '\n' ∉ l ∧ ∃ i w r, Str.words ws l = i :: w :: r ∧ pe w = some x

/-- Lines giving values. -/
inductive ValLines (ws : Char → Bool) (pe : Str → Option K) : List Str → List K → Prop
  | nil : ValLines ws pe [] []
  | cons {l : Str} {x : K} {ls : List Str} {xs : List K} : ValLine ws pe l x → ValLines ws pe ls xs → ValLines ws pe (l :: ls) (x :: xs)

end MosekCli
end Verif
