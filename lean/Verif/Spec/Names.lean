import Verif.Model.Names
import Verif.Spec.Lookup

/-!
# What names are for

A name in a text or a file should stand for one variable.
-/

namespace Verif
namespace Names
open VK

/-- Names of variables and models have no dots and no brackets, and those of models do not end in a digit. -/
structure Clear (v : Var) : Prop where
  /-- the variable's name -/
  name : '.' ∉ v.name ∧ '[' ∉ v.name
  /-- the models' names -/
  models : ∀ x ∈ v.lineage, '.' ∉ x.1 ∧ '[' ∉ x.1 ∧ ∀ c, x.1.getLast? = some c → c.isDigit = false

/-- The variables of a model or a solution: different ones differ in name, lineage or index, and not just in units; elements of vectors have a name
that no vector in another model has. -/
structure Apart (objs : List Obj) : Prop where
  /-- names -/
  clear : ∀ o ∈ objs, Clear o.var
  /-- one object for each variable -/
  nodup : (objs.map Obj.var).Nodup
  /-- not just units -/
  differ : ∀ a ∈ objs, ∀ b ∈ objs, a.var.name = b.var.name → a.var.lineage = b.var.lineage → a.var.idx = b.var.idx → a.var = b.var
  /-- vectors -/
  vectors : ∀ a ∈ objs, ∀ b ∈ objs, a.var.idx ≠ [] → b.var.idx ≠ [] → a.var.name = b.var.name → a.var.lineage = b.var.lineage

/-- Keys are different objects. -/
def Ids (objs : List Obj) : Prop := (objs.map Obj.id).Nodup

/-- The options of texts that leave out unnecessary lineage: lineage, numbers of models and indices are not left out. -/
def Excl.Short (e : Excl) : Prop := e.unnecessary = true ∧ e.lineage = false ∧ e.modelnums = false ∧ e.idx = false

/-- Iterating a set only permutes it. -/
def OrdOK (ord : List Var → List Var) : Prop := ∀ l, (ord l).Perm l

/-- A variable's name after the names of the models it is in, each with a dot. -/
def path (v : Var) : Str := v.lineage.flatMap (fun x => x.1 ++ ['.']) ++ v.name

end Names
end Verif
