import Verif.Model.Nomial

/-!
# Substitution

Models `NomialMap.sub`, `subinplace` and `NomialMap.mmap` (gpkit/nomials/map.py 85-191).

`exp` objects are shared between `cp` and `expmap` and modified in place. An object is a key of `cp` only while it is
unmodified (it is popped before `del exp[vk]`), so values can stand for objects: `expmap` holds the current value of the
object belonging to each original exponent vector.
-/

namespace Verif

section
variable {V K D : Type} [DecidableEq V] [Field K] [LinearOrder K] [HasPow K]

/-- The mutable state of `sub`. -/
structure SubState (V K : Type) where
  /-- the map under construction -/
  cp : PyDict (HV V K) K
  /-- `cp.expmap`: original exponents to current exponents -/
  expmap : PyDict (HV V K) (HV V K)
  /-- `cp.csmap`: original exponents to substituted coefficients -/
  csmap : PyDict (HV V K) K
  /-- `squished` -/
  squished : List (HV V K)

/-- The merging of a substituted term into `cp` (gpkit/nomials/map.py 178-186). -/
def subAdd (cp : PyDict (HV V K) K) (exp' : HV V K) (value : K) : PyDict (HV V K) K :=
  match cp.get? exp' with
  | some currentvalue => if value ≠ -currentvalue then cp.set exp' (currentvalue + value) else cp.del exp'
  | none => if value ≠ 0 then cp.set exp' value else cp

/-- `cp.csmap[o_exp] *= powval` (gpkit/nomials/map.py 172). -/
def csUpdate (csmap : PyDict (HV V K) K) (o : HV V K) (powval : K) : PyDict (HV V K) K :=
  match csmap.get? o with
  | some c => csmap.set o (c * powval)
  | none => csmap

/-- `subinplace(cp, exp, o_exp, vk, cval, squished)` (gpkit/nomials/map.py 168-191), where `exp` is `expmap[o_exp]`.
A substitution whose power is not a float gives `.error .nan` here; Python goes on with NaN or a complex number. -/
def subinplace (s : SubState V K) (o : HV V K) (vk : V) (cval : K) : Except Err (SubState V K) :=
  match s.expmap.get? o with
  | none => .error .keyError
  | some exp =>
    match exp.get? vk with
    | none => .error .keyError
    | some x =>
      if pwDom cval x then
        let powval := pw cval x
        let csmap := csUpdate s.csmap o powval
        match s.cp.get? exp with
        | some c =>
          let cp := s.cp.del exp
          let exp' := exp.del vk
          let value := powval * c
          let squished := if cp.contains exp' then s.squished ++ [exp'] else s.squished
          let cp := subAdd cp exp' value
          let cp := if cp.isEmpty then PyDict.set cp HV.empty 0 else cp
          .ok ⟨cp, s.expmap.set o exp', csmap, squished⟩
        | none =>
          if s.squished.contains exp then .ok { s with expmap := s.expmap.set o (exp.del vk), csmap := csmap }
          else .ok { s with csmap := csmap }
      else .error .nan

/-- The first loop of `sub` (gpkit/nomials/map.py 115-125): copies of all terms. -/
def subInit (h : PyDict (HV V K) K) : SubState V K :=
  { cp := h.foldl (fun cp t => cp.set t.1 t.2) []
    expmap := h.foldl (fun m t => m.set t.1 t.1) []
    csmap := h
    squished := [] }

/-- The variables of `varlocs` in order of first occurrence. -/
def varlocKeys (h : PyDict (HV V K) K) (fixed : PyDict V K) : List V :=
  (h.flatMap (fun t => t.1.items.keys)).foldl
    (fun vs v => if fixed.contains v && !vs.contains v then vs ++ [v] else vs) []

/-- `varlocs` (gpkit/nomials/map.py 117-125): for each substituted variable the original exponents that contain it. -/
def varlocs (h : PyDict (HV V K) K) (fixed : PyDict V K) : List (V × List (HV V K)) :=
  (varlocKeys h fixed).map (fun v => (v, (h.filter (fun t => t.1.items.contains v)).map (·.1)))

/-- `varlocs[vk]` is a set: its iteration order is not specified. `SetOrder vl rounds` says that `rounds` lists the same sets
in some order. -/
def SetOrder (vl rounds : List (V × List (HV V K))) : Prop :=
  List.Forall₂ (fun a b => a.1 = b.1 ∧ a.2.Perm b.2) vl rounds

/-- One pass of the loop at gpkit/nomials/map.py 128-138 (conversion of the value to the variable's units: `subValue`). -/
def subRound (fixed : PyDict V K) (s : SubState V K) (r : V × List (HV V K)) : Except Err (SubState V K) :=
  match fixed.get? r.1 with
  | none => .error .keyError
  | some cval => r.2.foldlM (fun s o => subinplace s o r.1 cval) s

/-- `NomialMap.sub` (gpkit/nomials/map.py 85-139) with parsed substitutions. `rounds` is `varlocs` in iteration order. The
result carries `expmap` and `csmap` for `mmap`. -/
def subState (h : PyDict (HV V K) K) (fixed : PyDict V K) (rounds : List (V × List (HV V K))) :
    Except Err (SubState V K) :=
  if fixed.isEmpty then .ok ⟨h, h.map (fun t => (t.1, t.1)), [], []⟩
  else rounds.foldlM (subRound fixed) (subInit h)

/-- The map returned by `NomialMap.sub`. -/
def NMap.sub (h : NMap V K D) (fixed : PyDict V K) (rounds : List (V × List (HV V K))) : Except Err (NMap V K D) := do
  let s ← subState h.terms fixed rounds
  pure ⟨s.cp, h.units⟩

/-- `list.index`. -/
def pyIndex (l : List (HV V K)) (e : HV V K) : Option Nat := l.findIdx? (· == e)

/-- One step of the loop of `mmap` (gpkit/nomials/map.py 158-164). -/
def mmapStep (s : SubState V K) (orig : PyDict (HV V K) K) (pmap : List (PyDict Nat K)) (oe : HV V K × HV V K) :
    Except Err (List (PyDict Nat K)) :=
  match s.cp.get? oe.2 with
  | none => .ok pmap
  | some c =>
    match s.csmap.get? oe.1 <|> orig.get? oe.1, pyIndex orig.keys oe.1, pyIndex s.cp.keys oe.2 with
    | some co, some i, some j =>
      if c = 0 then .error .zeroDivision
      else .ok (pmap.modify j (fun d => d.set i (co / c)))
    | _, _, _ => .error .keyError

/-- `NomialMap.mmap` (gpkit/nomials/map.py 141-164). Coefficients are Python floats, for which `0.0/0.0` raises. -/
def mmap (s : SubState V K) (orig : PyDict (HV V K) K) : Except Err (List (PyDict Nat K)) :=
  s.expmap.foldlM (mmapStep s orig) (s.cp.map (fun _ => []))

end

section SubValue
variable {V K D : Type} [DecidableEq V] [Field K] [LinearOrder K]
variable [AddCommGroup D] [DecidableEq D]

/-- What a substitution can be: a number, a Quantity, or a nomial. -/
inductive SubVal (V K D : Type) where
  /-- a plain number -/
  | num (c : K)
  /-- a Quantity -/
  | qty (c : K) (u : UnitQ D K)
  /-- a nomial -/
  | nom (n : Nomial V K D)

/-- Conversion of a substitution to the units of the variable (gpkit/nomials/map.py 129-136). -/
def subValue (vkunits : Option (UnitQ D K)) : SubVal V K D → Except Err K
  | .num c => .ok c
  | .qty c u => do
    let f ← u.convert (vkunits.getD dimless)
    pure (c * f)
  | .nom n =>
    if n.hmap.terms.any (fun t => !t.1.items.isEmpty) then .error .valueError
    else do
      let h ← n.hmap.convertTo (vkunits.getD dimless)
      match h.terms with
      | [t] => pure t.2
      | _ => .error .valueError

end SubValue
end Verif
