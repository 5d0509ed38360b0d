import Verif.Model.Guess

/-!
# What a starting point means

A dict written by the user says a value of a variable if it has an entry under the variable, its key or its name.
-/

namespace Verif
namespace Guess
variable {V N K : Type} [DecidableEq V] [DecidableEq N]

/-- The variable a key stands for. -/
def Key.means (res : N → Option V) : Key V N → Option V
  | .varkey v => some v
  | .variable v => some v
  | .name n => res n

/-- The value that an `x0` argument gives to a variable. -/
def Arg.says (res : N → Option V) : Arg V N K → V → Option K
  | .plain d, v => (d.find? (fun kc => decide (kc.1.means res = some v))).map (·.2)
  | .keydict d, v => d.get? v

/-- Where `localsolve` should start: at the value given, else at the value of the constant, else at 1. -/
def wanted [One K] (given fixed : V → Option K) (v : V) : K := (given v).getD ((fixed v).getD 1)

/-- The point at which constraints are approximated. -/
def Sgp.point [One K] (s : Sgp V K) (v : V) : K := (s.x0.get? v).getD 1

end Guess
end Verif
