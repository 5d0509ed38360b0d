import Verif.Model.KeyDict

/-!
# What a map from variables to values should do

The last value written to each scalar and to each element, given the writes in order.
-/

namespace Verif
namespace KD

/-- A write by the user. -/
inductive Write (S K F : Type) where
  /-- `kd[s[i]] = c` -/
  | elem (s : S) (i : Nat) (c : Cell K F)
  /-- `kd[s] = c` for a vector -/
  | fill (s : S) (c : Cell K F)
  /-- `kd[s] = [...]` for a vector -/
  | list (s : S) (cs : List (Cell K F))
  /-- `kd[s] = np.array(..., dtype)` for a vector; NaNs in it leave elements as they are -/
  | arr (s : S) (d : DType) (cs : List (Cell K F))
  /-- `kd[s] = c` for a scalar -/
  | scalar (s : S) (c : Cell K F)

variable {S N K F : Type} [DecidableEq S] [DecidableEq N]

/-- The variable written to. -/
def Write.target : Write S K F → S
  | .elem s _ _ => s
  | .fill s _ => s
  | .list s _ => s
  | .arr s _ _ => s
  | .scalar s _ => s

/-- What a write makes of element `i` of the vector `s`. -/
def Write.onElem (s : S) (i : Nat) (old : Cell K F) : Write S K F → Cell K F
  | .elem s' j c => if s' = s ∧ j = i then c else old
  | .fill s' c => if s' = s then c else old
  | .list s' cs => if s' = s then cs.getD i .nan else old
  | .arr s' _ cs => if s' = s then (match cs.getD i .nan with | .nan => old | c => c) else old
  | .scalar _ _ => old

/-- What a write makes of the scalar `s`. -/
def Write.onScalar (s : S) (old : Option (Cell K F)) : Write S K F → Option (Cell K F)
  | .scalar s' c => if s' = s then some c else old
  | _ => old

/-- The last value written to element `i` of `s`; NaN if none. -/
def lastElem (ws : List (Write S K F)) (s : S) (i : Nat) : Cell K F := ws.foldl (fun c w => w.onElem s i c) .nan

/-- The last value written to the scalar `s`. -/
def lastScalar (ws : List (Write S K F)) (s : S) : Option (Cell K F) := ws.foldl (fun c w => w.onScalar s c) none

/-- Whether anything was written to `s`. -/
def Touched (ws : List (Write S K F)) (s : S) : Prop := ∃ w ∈ ws, w.target = s

/-- A number or NaN. -/
def Cell.Numeric : Cell K F → Prop
  | .nan => True
  | .num _ => True
  | _ => False

/-- Not changed by storing it in single precision. -/
def Cell.Single (r32 : K → K) : Cell K F → Prop
  | .num k => r32 k = k
  | _ => True

/-- The writes that C23 is proved for, after the writes `ws`. -/
def Write.Fine (E : Env S N K) (ws : List (Write S K F)) : Write S K F → Prop
  | .elem s i c => (∃ n, E.shape s = some n ∧ i < n) ∧ c.Single E.r32
  | .fill s c => (∃ n, E.shape s = some n) ∧ c.Numeric ∧ c.Single E.r32
  | .list s cs => E.shape s = some cs.length ∧ ∀ c ∈ cs, c.Single E.r32
  | .arr s d cs => E.shape s = some cs.length ∧ (∀ c ∈ cs, c.Single E.r32) ∧
      (d ≠ .obj → (∀ c ∈ cs, c.Numeric) ∧ ∀ i, i < cs.length → (lastElem ws s i).Numeric)
  | .scalar s _ => E.shape s = none

/-- What happens to a dict: a write, reading, or asking for membership. -/
inductive Op (S N K F : Type) where
  /-- a write -/
  | write (w : Write S K F)
  /-- `kd[key]` -/
  | get (k : Key S N)
  /-- `key in kd` -/
  | has (k : Key S N)

/-- The writes among the operations. -/
def writes (ops : List (Op S N K F)) : List (Write S K F) := ops.filterMap (fun o => match o with | .write w => some w | _ => none)

/-- The operations that C23 is proved for, after the writes `ws`: writes are fine, reads are arbitrary. -/
def FineFrom (E : Env S N K) : List (Write S K F) → List (Op S N K F) → Prop
  | _, [] => True
  | ws, .write w :: ops => w.Fine E ws ∧ FineFrom E (ws ++ [w]) ops
  | ws, .get _ :: ops => FineFrom E ws ops
  | ws, .has _ :: ops => FineFrom E ws ops

/-- The same from the start. -/
def Fine (E : Env S N K) (ops : List (Op S N K F)) : Prop := FineFrom E [] ops

end KD
end Verif
