import Verif.Model.Nomial
import Mathlib.Analysis.SpecialFunctions.Trigonometric.Basic
import Mathlib.Analysis.SpecialFunctions.Pow.Real

/-!
# Taylor helpers

Models gpkit/tools/tools.py: `te_exp_minus1` (5-25), `te_secant` (28-68) and `te_tangent` (71-115). The loops are written as recursions on the number of
passes; each returns `res` and `factorial_denom` after so many passes.

Simplifications: as everywhere, floats are exact; the asymptotic Euler numbers are given for the reals only.
-/

namespace Verif
namespace Tools

section
variable {V K D : Type} [DecidableEq V] [Field K] [LinearOrder K] [AddCommGroup D] [DecidableEq D] [HasPow K] [Module K D]

/-- A plain number. -/
def lit (c : K) : PyVal V K D := .num ⟨c, none⟩

/-- The loop of `te_exp_minus1` (gpkit/tools/tools.py 20-24). -/
def teExpLoop (se : Bool) (posy : PyVal V K D) : Nat → Except Err (PyVal V K D × K)
  | 0 => .ok (lit 0, 1)
  | n + 1 => do
    let (res, fd) ← teExpLoop se posy n
    let i := n + 1
    let fd := fd * (i : K)
    let p ← PyVal.pow se posy (.int i)
    let t ← PyVal.div se p (lit fd)
    let res ← PyVal.add se res t
    pure (res, fd)

/-- `te_exp_minus1` (gpkit/tools/tools.py 5-25). -/
def teExp (se : Bool) (posy : PyVal V K D) (nterm : Nat) : Except Err (PyVal V K D) := do
  let (res, _) ← teExpLoop se posy nterm
  pure res

/-- The loop of `te_secant` (gpkit/tools/tools.py 62-67), with a table of Euler numbers. -/
def teSecLoop (se : Bool) (E2n : List K) (var : PyVal V K D) : Nat → Except Err (PyVal V K D × K)
  | 0 => .ok (lit 1, 1)
  | n + 1 => do
    let (res, fd) ← teSecLoop se E2n var n
    let i := n + 1
    let fd := fd * ((2 * i : K) * (2 * i - 1))
    let p ← PyVal.pow se var (.int (2 * i))
    match E2n[n]? with
    | none => .error .indexError
    | some e =>
      let t ← PyVal.mul se p (lit e)
      let t ← PyVal.div se t (lit fd)
      let res ← PyVal.add se res t
      pure (res, fd)

/-- The loop of `te_tangent` (gpkit/tools/tools.py 107-112), with a table of Bernoulli numbers. -/
def teTanLoop (se : Bool) (B2n : List K) (var : PyVal V K D) : Nat → Except Err (PyVal V K D × K)
  | 0 => .ok (lit 0, 1)
  | n + 1 => do
    let (res, fd) ← teTanLoop se B2n var n
    let i := n + 1
    let fd := fd * ((2 * i : K) * (2 * i - 1))
    match B2n[n]? with
    | none => .error .indexError
    | some b =>
      let p ← PyVal.pow se var (.int (2 * i - 1))
      let t ← PyVal.mul se (lit ((-1) ^ n * 2 ^ (2 * i) * (2 ^ (2 * i) - 1) * b / fd)) p
      let res ← PyVal.add se res t
      pure (res, fd)

/-- The table of Euler numbers (gpkit/tools/tools.py 44-55). -/
def eulerTable : List K :=
  [1, 5, 61, 1385, 50521, 2702765, 199360981, 19391512145, 2404879675441, 370371188237525, 69348874393137901, 15514534163557086905]

/-- The table of Bernoulli numbers (gpkit/tools/tools.py 91-105). -/
def bernoulliTable : List K :=
  [1/6, -1/30, 1/42, -1/30, 5/66, -691/2730, 7/6, -3617/510, 43867/798, -174611/330, 854513/138, -236364091/2730, 8553103/6,
    -23749461029/870, 8615841276005/14322]

/-- `te_tangent` (gpkit/tools/tools.py 70-112). -/
def teTan (se : Bool) (var : PyVal V K D) (nterm : Nat) : Except Err (PyVal V K D) :=
  if nterm > 15 then .error .notImplemented
  else do
    let (res, _) ← teTanLoop se bernoulliTable var nterm
    pure res

end

section
variable {V D : Type} [DecidableEq V] [AddCommGroup D] [DecidableEq D] [HasPow ℝ] [Module ℝ D]

/-- The formula for further Euler numbers (gpkit/tools/tools.py 57-60). -/
noncomputable def eulerApprox (n : Nat) : ℝ := 8 * Real.sqrt (n / Real.pi) * (4 * n / (Real.pi * Real.exp 1)) ^ (2 * n)

/-- `E2n` (gpkit/tools/tools.py 44-60). -/
noncomputable def eulers (nterm : Nat) : List ℝ :=
  if nterm > 12 then eulerTable ++ (List.range' 13 (nterm - 12)).map eulerApprox else eulerTable

/-- `te_secant` (gpkit/tools/tools.py 28-68). -/
noncomputable def teSec (se : Bool) (var : PyVal V ℝ D) (nterm : Nat) : Except Err (PyVal V ℝ D) := do
  let (res, _) ← teSecLoop se (eulers nterm) var nterm
  pure res

end
end Tools
end Verif
