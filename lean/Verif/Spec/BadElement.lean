import Verif.Model.BadElement

/-! # Where an element of a list stands -/

namespace Verif
namespace CSet
variable {V K : Type}

/-- What is true of the place of an element with the elements `pre` before and `post` after it. -/
def Stands {α : Type} (pre post : List α) : Place α → Prop
  | .only => pre = [] ∧ post = []
  | .start n => pre = [] ∧ post.head? = some n
  | .last p => pre.getLast? = some p ∧ post = []
  | .between p n => pre.getLast? = some p ∧ post.head? = some n

mutual
/-- Whether no set that is not initialised is among an object and, if it is a list or array, its elements. -/
def rawless1 : Obj V K → Bool
  | .con _ => true
  | .cset _ _ _ => true
  | .raw _ => false
  | .lst kids => rawlessL kids
  | .arr kids => rawlessL kids
  | .bad => true
/-- The same for all objects of a list. -/
def rawlessL : List (Obj V K) → Bool
  | [] => true
  | o :: os => rawless1 o && rawlessL os
end

end CSet
end Verif
