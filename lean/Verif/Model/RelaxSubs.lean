import Verif.Model.KeyDict

/-!
# Relaxed constants: variables and substitutions

Models the loop of `ConstantsRelaxed.__init__` (gpkit/constraints/relax.py 172-203) as far as it makes variables and changes the substitutions.
-/

namespace Verif
namespace RelaxSubs

/-- What identifies a variable (gpkit/varkey.py 43): name, lineage, index and units. -/
structure VKey where
  /-- `name` -/
  name : String
  /-- `lineage` -/
  lineage : List (String × Nat)
  /-- `idx` -/
  idx : Option (List Nat)
  /-- `unitrepr` -/
  unitrepr : String
deriving DecidableEq, Repr

/-- `Variable(**descr)` (gpkit/nomials/variables.py 15-20 and 40-60): inside a model's environment the lineage is replaced by that of the
environment. -/
def mkVariable (env : List (String × Nat)) (d : VKey) : VKey := if env ≠ [] then { d with lineage := env } else d

/-- The three variables made for a constant (gpkit/constraints/relax.py 181-200): the relaxation, the freed constant, and the constant
that has the old value. `own` is `self.lineage[-1]`, `env` the lineage of the environment that `ConstantsRelaxed` is called in. -/
def constVars (env : List (String × Nat)) (own : String × Nat) (const : VKey) : VKey × VKey × VKey :=
  let newconstd := { const with lineage := const.lineage ++ [own] }
  let relaxvar := mkVariable env { newconstd with unitrepr := "-" }
  let freed := mkVariable env const
  let newconst := mkVariable env { newconstd with lineage := newconstd.lineage ++ [("OriginalValues", 0)] }
  (relaxvar, freed, newconst)

open KD

/-- A constant: its key, value, whether `include_only` and `exclude` keep it as it is, and the key of the constant that takes its value. -/
structure Const (S N K : Type) where
  /-- `const` -/
  key : Key S N
  /-- `val` -/
  val : K
  /-- not to be relaxed -/
  keep : Bool
  /-- `newconst` -/
  new : Key S N
deriving DecidableEq, Repr

section
variable {S N K F : Type} [DecidableEq S] [DecidableEq N] [Zero K] [DecidableEq K]

/-- What the loop does to the substitutions for one constant (gpkit/constraints/relax.py 173-179, 193 and 199). -/
def relaxConst (E : KD.Env S N K) (s : St S N K F) (c : Const S N K) : Res S N K F Unit :=
  if c.val = 0 then setItem E s c.key (.one (.num 0))
  else if c.keep then (s, .ok ())
  else (delItem E s c.key).bind (fun s _ => setItem E s c.new (.one (.num c.val)))

/-- The loop (gpkit/constraints/relax.py 172-203). -/
def relaxConsts (E : KD.Env S N K) : St S N K F → List (Const S N K) → Res S N K F Unit
  | s, [] => (s, .ok ())
  | s, c :: cs => (relaxConst E s c).bind (fun s _ => relaxConsts E s cs)

/-- `substitutions = KeyDict(constraints.substitutions)` and the loop (gpkit/constraints/relax.py 162 and 172-203). The arrays are shared
with the substitutions of the original set. -/
def constantsRelaxed (E : KD.Env S N K) (s : St S N K F) (cs : List (Const S N K)) : Res S N K F Unit :=
  relaxConsts E { s with dict := copyOf s.dict } cs

end
end RelaxSubs
end Verif
