import Verif.Model.Printing
import Verif.Spec.Eval

/-!
# Reading text with the usual precedence

Sums are split at the last ` + ` or ` - ` outside parentheses, then products at the last `·`, `*` or `/`; a sign applies to the power after it.
-/

namespace Verif
namespace Printing

section
variable {V K : Type}

/-- ` + ` and ` - `. -/
def isAdd : Tok V K → Bool
  | .plus | .minus => true
  | _ => false

/-- `·`, `*` and `/`. -/
def isMul : Tok V K → Bool
  | .mul | .star | .div => true
  | _ => false

/-- An exponent. -/
def isExpo : Tok V K → Bool
  | .expo _ => true
  | _ => false

/-- How many parentheses are open at the end, starting from `d`; `none` if one is closed that was not open. -/
def depth : Nat → List (Tok V K) → Option Nat
  | d, [] => some d
  | d, .lpar :: s => depth (d + 1) s
  | 0, .rpar :: _ => none
  | d + 1, .rpar :: s => depth d s
  | d, _ :: s => depth d s

/-- Parentheses match. -/
def Closed (s : List (Tok V K)) : Prop := depth 0 s = some 0

/-- The tokens outside parentheses, if `d` parentheses are open. -/
def outer : Nat → List (Tok V K) → List (Tok V K)
  | _, [] => []
  | d, .lpar :: s => outer (d + 1) s
  | d, .rpar :: s => outer (d - 1) s
  | 0, t :: s => t :: outer 0 s
  | d + 1, _ :: s => outer (d + 1) s

/-- No token of a kind outside parentheses. -/
def NoTop (p : Tok V K → Bool) (s : List (Tok V K)) : Prop := ∀ t ∈ outer 0 s, p t = false
end

section
variable {V : Type}

/-- What an operator does. -/
noncomputable def opVal : Tok V ℝ → ℝ → ℝ → ℝ
  | .plus, a, b => a + b
  | .minus, a, b => a - b
  | .div, a, b => a / b
  | _, a, b => a * b

/-- The value of a single token. -/
noncomputable def atomVal (pi : ℝ) (pt : V → ℝ) : Tok V ℝ → Option ℝ
  | .name v => some (pt v)
  | .num c => some c
  | .pi r => some (r * pi)
  | _ => none

/-- The text denotes a number. -/
inductive Reads (pi : ℝ) (pt : V → ℝ) : List (Tok V ℝ) → ℝ → Prop
  /-- a variable or number -/
  | atom {t : Tok V ℝ} {a : ℝ} (h : atomVal pi pt t = some a) : Reads pi pt [t] a
  /-- parentheses -/
  | paren {s : List (Tok V ℝ)} {a : ℝ} (h : Reads pi pt s a) : Reads pi pt (.lpar :: (s ++ [.rpar])) a
  /-- the last ` + ` or ` - ` -/
  | add {l r : List (Tok V ℝ)} {o : Tok V ℝ} {a b : ℝ} (ho : isAdd o = true) (hl : Reads pi pt l a) (hr : Reads pi pt r b) (nr : NoTop isAdd r) :
      Reads pi pt (l ++ o :: r) (opVal o a b)
  /-- the last `·`, `*` or `/` -/
  | mul {l r : List (Tok V ℝ)} {o : Tok V ℝ} {a b : ℝ} (ho : isMul o = true) (hl : Reads pi pt l a) (hr : Reads pi pt r b) (nl : NoTop isAdd l)
      (nr : NoTop isAdd r) (mr : NoTop isMul r) : Reads pi pt (l ++ o :: r) (opVal o a b)
  /-- a sign -/
  | neg {r : List (Tok V ℝ)} {a : ℝ} (hr : Reads pi pt r a) (nr : NoTop isAdd r) (mr : NoTop isMul r) : Reads pi pt (.neg :: r) (-a)
  /-- a power of something without sign and exponent -/
  | pow {l : List (Tok V ℝ)} {a x : ℝ} (hl : Reads pi pt l a) (nl : NoTop isAdd l) (ml : NoTop isMul l) (h1 : l.head? ≠ some .neg)
      (h2 : ∀ t, l.getLast? = some t → isExpo t = false) : Reads pi pt (l ++ [.expo x]) (a ^ x)
end

section
variable {V : Type} [DecidableEq V]

/-- The number a tree stands for. -/
noncomputable def astVal (pt : V → ℝ) : Ast V ℝ → ℝ
  | .var v => pt v
  | .num c => c
  | .flat ts => termsVal pt ts
  | .add a b => astVal pt a + astVal pt b
  | .mul a b => astVal pt a * astVal pt b
  | .div a b => astVal pt a / astVal pt b
  | .neg a => -astVal pt a
  | .pow a x => astVal pt a ^ x

/-- The tree Python keeps for an expression, with the value built. -/
noncomputable def track {D : Type} [AddCommGroup D] [DecidableEq D] [Module ℝ D] (se : Bool) : Expr V → Except Err (PyVal V ℝ D × Ast V ℝ)
  | .var v => .ok (.nom (varNomial (fun _ => none) v), .var v)
  | .num c => .ok (.num ⟨c, none⟩, .num c)
  | .add a b => do
    let x ← track se a
    let y ← track se b
    let r ← PyVal.add se x.1 y.1
    return (r, addAst x y r)
  | .sub a b => do
    let x ← track se a
    let y ← track se b
    let r ← PyVal.sub se x.1 y.1
    match r with
    | .num q => return (r, .num q.mag)
    | .nom _ =>
      let z ← PyVal.neg se y.1
      return (r, addAst x (z, negAst y z) r)
  | .mul a b => do
    let x ← track se a
    let y ← track se b
    let r ← PyVal.mul se x.1 y.1
    return (r, opAst .mul x y r)
  | .div a b => do
    let x ← track se a
    let y ← track se b
    let r ← PyVal.div se x.1 y.1
    return (r, opAst .div x y r)
  | .neg a => do
    let x ← track se a
    let r ← PyVal.neg se x.1
    return (r, negAst x r)
  | .pow a x => do
    let y ← track se a
    let r ← PyVal.pow se y.1 x
    return (r, powAst y x.toK r)

/-- The numbers in a tree are written without loss. -/
def Exact (F : Fmt V ℝ) : Ast V ℝ → Prop
  | .var _ => True
  | .num c => if cleanPi F c then (if c > 31 / 10 then F.three (c / F.pi) = c / F.pi else F.three (F.pi / c) = F.pi / c) else F.three c = c
  | .flat ts => ∀ t ∈ ts, F.three t.2 = t.2 ∧ ∀ vx ∈ t.1.items, F.two vx.2 = vx.2
  | .add a b | .mul a b | .div a b => Exact F a ∧ Exact F b
  | .neg a | .pow a _ => Exact F a

/-- If an operator of a kind is outside parentheses, one that `parenthesize` looks for is before all parentheses or after all of them. -/
def Seen (p q : Tok V ℝ → Bool) (s : List (Tok V ℝ)) : Prop :=
  (∃ t ∈ outer 0 s, p t = true) → ∃ l r t, s = l ++ t :: r ∧ q t = true ∧ (.lpar ∉ l ∨ .rpar ∉ r)

/-- `·` and `/`. -/
def isDotDiv : Tok V ℝ → Bool
  | .mul | .div => true
  | _ => false

/-- Where parentheses are needed, the operators can be seen; the base of a power without operators has no sign and no exponent. -/
def Safe (F : Fmt V ℝ) : Ast V ℝ → Prop
  | .var _ => True
  | .num _ => True
  | .flat ts => ts ≠ []
  | .add a b => Safe F a ∧ Safe F b
  | .mul a b => Safe F a ∧ Safe F b ∧ Seen isAdd isAdd (text F a) ∧ Seen isAdd isAdd (text F b)
  | .div a b => Safe F a ∧ Safe F b ∧ Seen isAdd isAdd (text F a) ∧ Seen isAdd isAdd (text F b) ∧ Seen isMul isDotDiv (text F b)
  | .neg a => Safe F a ∧ Seen isAdd isAdd (text F a)
  | .pow a _ => Safe F a ∧ Seen isAdd isAdd (text F a) ∧ Seen isMul isDotDiv (text F a) ∧
      (NoTop isAdd (text F a) → NoTop isMul (text F a) →
        (text F a).head? ≠ some .neg ∧ ∀ t, (text F a).getLast? = some t → isExpo t = false)

/-- Powers are of monomials or numbers. -/
def MonoPowers {D : Type} [AddCommGroup D] [DecidableEq D] [Module ℝ D] (se : Bool) : Expr V → Prop
  | .var _ => True
  | .num _ => True
  | .add a b | .sub a b | .mul a b | .div a b => MonoPowers (D := D) se a ∧ MonoPowers (D := D) se b
  | .neg a => MonoPowers (D := D) se a
  | .pow a _ => MonoPowers (D := D) se a ∧ ∀ n : Nomial V ℝ D, a.build se (fun _ => none) = .ok (.nom n) → n.cls = .monomial
end

end Printing
end Verif
