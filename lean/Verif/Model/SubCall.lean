import Verif.Model.Lookup
import Verif.Model.ParseSubs
import Verif.Model.Sub

/-!
# Substituting into expressions

Models `Signomial.sub` (gpkit/nomials/math.py 144-167), `Variable.sub` (gpkit/nomials/variables.py 74-86), `Nomial.value`
(gpkit/nomials/core.py 88-100) and the parts of `NomialMap.sub` (gpkit/nomials/map.py 105-139) and `parse_subs`
(gpkit/nomials/substitution.py 8-32) that lead from the dict given by the user to the numbers that are put in.

Simplifications: those of `Model/ParseSubs.lean` (vectors have one dimension). An array given for a scalar variable ends in `.notModelled`; Python
goes on with arrays of coefficients.
-/

namespace Verif
namespace SubCall
open PS

/-- What stands in a dict of substitutions: single values, arrays and sweeps of numbers, Quantities and nomials, and functions `F`. -/
abbrev Entry (S K D F : Type) := Sub (SubVal (Key S) K D) F

/-- The argument `substitutions`. -/
inductive Subs (S N K D F : Type) where
  /-- a plain dict, in order -/
  | dict (l : List (Lookup.MapKey (Key S) N × Entry S K D F))
  /-- a `KeyDict`: what the underlying dict stores -/
  | keydict (l : PyDict (Lookup.MapKey (Key S) N) (Entry S K D F))

/-- The entries. -/
def Subs.entries {S N K D F : Type} : Subs S N K D F → List (Lookup.MapKey (Key S) N × Entry S K D F)
  | .dict l => l
  | .keydict l => l

section
variable {S N K D F : Type} [DecidableEq S] [DecidableEq N] [Field K] [LinearOrder K]

/-- `varkeys.keymap` in `parse_subs` (gpkit/nomials/substitution.py 17-19). -/
def keymap (E : Lookup.Env (Key S) N Nat) (h : NMap (Key S) K D) : PyDict (Lookup.MapKey (Key S) N) (List (Key S)) :=
  (Lookup.updateKeymap E (Lookup.fresh h.vks)).keymap

/-- The entries that `parse_subs` comes upon, with the keys each stands for (gpkit/nomials/substitution.py 20-31). -/
def present (E : Lookup.Env (Key S) N Nat) (h : NMap (Key S) K D) : Subs S N K D F → List (Entry S K D F × List (Key S))
  | .dict l => l.filterMap (fun ks => ((keymap E h).get? ks.1).map (fun keys => (ks.2, E.ord keys)))
  | .keydict l => (keymap E h).filterMap (fun kk => (l.get? kk.1).map (fun sub => (sub, E.ord kk.2)))

/-- `parse_subs(varkeys, substitutions)` (gpkit/nomials/substitution.py 8-32). -/
def parsed (E : Lookup.Env (Key S) N Nat) (shape : S → Option Nat) (h : NMap (Key S) K D) (subs : Subs S N K D F) :
    Except Err (Parsed S (SubVal (Key S) K D) F) :=
  parseDict shape (present E h subs)

/-- `varlocs`, which depends on the keys of `fixed` only (gpkit/nomials/map.py 117-125). -/
def locations (h : NMap (Key S) K D) (fixed : PyDict (Key S) (Out (SubVal (Key S) K D) F)) : List (Key S × List (HV (Key S) K)) :=
  varlocs h.terms (fixed.map (fun kv => (kv.1, (0 : K))))

variable [HasPow K] [AddCommGroup D] [DecidableEq D]

/-- The number put in for a variable (gpkit/nomials/map.py 128-136). -/
def number (vunits : Option (UnitQ D K)) : Out (SubVal (Key S) K D) F → Except Err K
  | .num v => subValue vunits v
  | _ => .error .notModelled

/-- One pass of the loop over `varlocs` (gpkit/nomials/map.py 128-138). -/
def round (vunits : Key S → Option (UnitQ D K)) (fixed : PyDict (Key S) (Out (SubVal (Key S) K D) F)) (s : SubState (Key S) K)
    (r : Key S × List (HV (Key S) K)) : Except Err (SubState (Key S) K) :=
  match fixed.get? r.1 with
  | none => .error .keyError
  | some o => do
    let cval ← number (vunits r.1) o
    r.2.foldlM (fun s o => subinplace s o r.1 cval) s

/-- `NomialMap.sub` after the substitutions are parsed (gpkit/nomials/map.py 110-139). `rounds` is `varlocs` in the order of iteration. -/
def subFixed (vunits : Key S → Option (UnitQ D K)) (h : NMap (Key S) K D) (fixed : PyDict (Key S) (Out (SubVal (Key S) K D) F))
    (rounds : List (Key S × List (HV (Key S) K))) : Except Err (NMap (Key S) K D) :=
  if fixed.isEmpty then .ok h
  else do
    let s ← rounds.foldlM (round vunits fixed) (subInit h.terms)
    pure ⟨s.cp, h.units⟩

/-- The variables: what lookup uses of them, their shapes and their units. `rounds` is the order in which the sets of `varlocs` are iterated. -/
structure World (S N K D F : Type) where
  /-- names, indices and iteration of sets -/
  E : Lookup.Env (Key S) N Nat
  /-- `key.shape` -/
  shape : S → Option Nat
  /-- `key.units` -/
  vunits : Key S → Option (UnitQ D K)
  /-- iteration of `varlocs` -/
  rounds : NMap (Key S) K D → PyDict (Key S) (Out (SubVal (Key S) K D) F) → List (Key S × List (HV (Key S) K))

/-- `self.hmap.sub(substitutions, self.vks)` (gpkit/nomials/map.py 85-139). -/
def subMap (W : World S N K D F) (h : NMap (Key S) K D) (subs : Subs S N K D F) : Except Err (NMap (Key S) K D) :=
  if subs.entries.isEmpty then .ok h
  else do
    let p ← parsed W.E W.shape h subs
    subFixed W.vunits h p.constants (W.rounds h p.constants)

/-- `Signomial.sub` (gpkit/nomials/math.py 144-167). `se` is SignomialsEnabled, `rp` is `require_positive`. -/
def sub (W : World S N K D F) (se rp : Bool) (n : Nomial (Key S) K D) (subs : Subs S N K D F) : Except Err (Nomial (Key S) K D) := do
  let h ← subMap W n.hmap subs
  mkSig se rp h

/-- The argument of `Variable.sub`. -/
inductive VarArg (S N K D F : Type) where
  /-- a dict -/
  | subs (s : Subs S N K D F)
  /-- anything else: the value -/
  | value (e : Entry S K D F)

/-- `Variable.sub` with one argument (gpkit/nomials/variables.py 74-86). -/
def variableSub (W : World S N K D F) (se rp : Bool) (v : Key S) : VarArg S N K D F → Except Err (Nomial (Key S) K D)
  | .subs s => sub W se rp (varNomial W.vunits v) s
  | .value e => sub W se rp (varNomial W.vunits v) (.dict [(.key v, e)])

/-- `isinstance(p, FixedScalar)` (gpkit/small_classes.py 11-18). -/
def isFixed (h : NMap (Key S) K D) : Bool := h.terms.length = 1 && h.terms.all (fun t => t.1.items.isEmpty)

/-- What `value` returns. -/
inductive Value (V K D : Type) where
  /-- a number, with units if the expression has them -/
  | num (q : PyQ D K)
  /-- an expression -/
  | nom (n : Nomial V K D)

/-- `p.cs[0] if isinstance(p, FixedScalar) else p` (gpkit/nomials/core.py 97-100). -/
def fixedOr (n : Nomial (Key S) K D) : Value (Key S) K D :=
  if isFixed n.hmap then .num ⟨(n.hmap.terms.head?.map (·.2)).getD 0, n.hmap.units⟩ else .nom n

/-- `Nomial.value` (gpkit/nomials/core.py 88-100). `descr` is `k.descr["value"]`, where there is one: a number, a Quantity or a function. -/
def value (W : World S N K D F) (se : Bool) (descr : Key S → Option (Cell (SubVal (Key S) K D) F)) (n : Nomial (Key S) K D) :
    Except Err (Value (Key S) K D) :=
  if isFixed n.hmap then .ok (fixedOr n)
  else do
    let p ← sub W se true n (.dict ((W.E.ord n.hmap.vks).filterMap (fun k => (descr k).map (fun c => (.key k, .cell c)))))
    pure (fixedOr p)

end
end SubCall
end Verif
