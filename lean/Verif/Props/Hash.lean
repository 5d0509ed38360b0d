import Verif.Model.HashVector
import Verif.Lemmas.Diff
import Mathlib.Data.BitVec

/-! Property theorems about hashing: C04. -/

set_option linter.unusedSectionVars false

namespace Verif
open PyDict

namespace HVObj
variable {V K : Type} [DecidableEq V] [Field K] [DecidableEq K] {hsh : V × K → BitVec 64}

theorem xor_foldl (l : List (BitVec 64)) (a : BitVec 64) : l.foldl (· ^^^ ·) a = a ^^^ l.foldl (· ^^^ ·) 0#64 := by
  induction l generalizing a with
  | nil => simp
  | cons b l ih =>
    rw [List.foldl_cons, List.foldl_cons, ih, ih (0#64 ^^^ b), BitVec.zero_xor, BitVec.xor_assoc]

theorem itemHash_cons (p : V × K) (l : PyDict V K) : itemHash hsh (p :: l) = hsh p ^^^ itemHash hsh l := by
  unfold itemHash
  rw [List.map_cons, List.foldl_cons, xor_foldl, BitVec.zero_xor]

theorem itemHash_perm {l l' : PyDict V K} (h : l.Perm l') : itemHash hsh l = itemHash hsh l' := by
  induction h with
  | nil => rfl
  | cons p _ ih => rw [itemHash_cons, itemHash_cons, ih]
  | swap p q l =>
    rw [itemHash_cons, itemHash_cons, itemHash_cons, itemHash_cons, ← BitVec.xor_assoc, BitVec.xor_comm (hsh q), BitVec.xor_assoc]
  | trans _ _ ih1 ih2 => exact ih1.trans ih2

theorem itemHash_del {l : PyDict V K} {v : V} {x : K} (h : l.get? v = some x) :
    itemHash hsh (l.del v) = itemHash hsh l ^^^ hsh (v, x) := by
  induction l with
  | nil => simp at h
  | cons p l ih =>
    obtain ⟨k, y⟩ := p
    rw [get?_cons] at h
    rw [del_cons]
    by_cases hk : k == v
    · rw [if_pos hk] at h ⊢
      cases h
      rw [itemHash_cons, eq_of_beq hk, BitVec.xor_comm (hsh (v, x)), BitVec.xor_assoc, BitVec.xor_self, BitVec.xor_zero]
    · rw [if_neg hk] at h ⊢
      rw [itemHash_cons, itemHash_cons, ih h, BitVec.xor_assoc]

theorem itemHash_set {l : PyDict V K} {v : V} {x y : K} (h : l.get? v = some x) :
    itemHash hsh (l.set v y) = itemHash hsh l ^^^ (hsh (v, x) ^^^ hsh (v, y)) := by
  induction l with
  | nil => simp at h
  | cons p l ih =>
    obtain ⟨k, z⟩ := p
    rw [get?_cons] at h
    rw [set_cons]
    by_cases hk : k == v
    · rw [if_pos hk] at h ⊢
      cases h
      rw [itemHash_cons, itemHash_cons, eq_of_beq hk]
      rw [BitVec.xor_comm (hsh (v, x)) (itemHash hsh l), BitVec.xor_assoc, ← BitVec.xor_assoc (hsh (v, x)), BitVec.xor_self,
        BitVec.zero_xor, BitVec.xor_comm]
    · rw [if_neg hk] at h ⊢
      rw [itemHash_cons, itemHash_cons, ih h, BitVec.xor_assoc]

/-- The cached hash, if there is one, is the hash of the current items. -/
def Fresh (hsh : V × K → BitVec 64) (a : HVObj V K) : Prop := ∀ h, a.cached = some h → h = itemHash hsh a.items

theorem reach_fresh {a : HVObj V K} (h : Reach hsh a) : Fresh hsh a := by
  induction h with
  | new => intro h hh; cases hh
  | @hash a _ ih =>
    unfold hash
    cases hc : a.cached with
    | some h0 => simp only; exact ih
    | none => simp only; intro h hh; cases hh; rfl
  | copy _ ih => exact ih
  | add _ _ => intro h hh; cases hh
  | scale c _ => intro h hh; cases hh
  | @diff a b v _ hd ih =>
    unfold diff copy at hd
    cases hx : a.items.get? v with
    | none => rw [hx] at hd; cases hd
    | some x =>
      rw [hx] at hd
      simp only at hd
      cases hc : a.cached with
      | none => rw [hc] at hd; cases hd
      | some h0 =>
        rw [hc] at hd
        simp only at hd
        have h1 := ih h0 hc
        split_ifs at hd with hx1
        · cases hd
          intro h hh
          cases hh
          rw [itemHash_del hx, h1, hx1]
        · cases hd
          intro h hh
          cases hh
          rw [itemHash_set hx, h1]
  | @strip a b v _ hd ih =>
    unfold strip at hd
    cases hx : a.items.get? v with
    | none => rw [hx] at hd; cases hd
    | some x =>
      rw [hx] at hd
      simp only at hd
      cases hc : a.cached with
      | none => rw [hc] at hd; cases hd
      | some h0 =>
        rw [hc] at hd
        simp only at hd
        cases hd
        intro h hh
        cases hh
        rw [itemHash_del hx, ih h0 hc]

end HVObj

variable {V K : Type} [DecidableEq V] [Field K] [DecidableEq K]

/-- C04. Two exponent vectors with the same items (in any order), however they came about, have the same hash. -/
theorem C04_equal_vectors_equal_hashes (hsh : V × K → BitVec 64) {a b : HVObj V K} (ha : HVObj.Reach hsh a)
    (hb : HVObj.Reach hsh b) (heq : a.items.Perm b.items) : (a.hash hsh).1 = (b.hash hsh).1 := by
  have hval : ∀ c : HVObj V K, HVObj.Reach hsh c → (c.hash hsh).1 = HVObj.itemHash hsh c.items := by
    intro c hc
    unfold HVObj.hash
    cases h : c.cached with
    | some h0 => exact HVObj.reach_fresh hc h0 h
    | none => rfl
  rw [hval a ha, hval b hb, HVObj.itemHash_perm heq]

/-- C04. Hashing an object again gives the same value, and does not change its items. -/
theorem C04_hash_stable (hsh : V × K → BitVec 64) {a : HVObj V K} :
    ((a.hash hsh).2.hash hsh).1 = (a.hash hsh).1 ∧ (a.hash hsh).2.items = a.items := by
  unfold HVObj.hash
  cases h : a.cached with
  | some h0 => simp [h]
  | none => simp

/-- C04. The in-place updates agree with the mapping operations used for nomials: after differentiating or substituting, the
items are those of the model of `NomialMap.diff` and `NomialMap.sub`. -/
theorem C04_inplace_items (hsh : V × ℝ → BitVec 64) {a b : HVObj V ℝ} (v : V) :
    (a.diff hsh v = .ok b → ∃ x, (⟨a.items⟩ : HV V ℝ).get? v = some x ∧ b.items = (dexp v ⟨a.items⟩ x).items) ∧
    (a.strip hsh v = .ok b → b.items = ((⟨a.items⟩ : HV V ℝ).del v).items) := by
  constructor
  · intro hd
    unfold HVObj.diff HVObj.copy at hd
    cases hx : a.items.get? v with
    | none => rw [hx] at hd; cases hd
    | some x =>
      rw [hx] at hd
      simp only at hd
      cases hc : a.cached with
      | none => rw [hc] at hd; cases hd
      | some h0 =>
        rw [hc] at hd
        simp only at hd
        refine ⟨x, hx, ?_⟩
        unfold dexp HV.del
        split_ifs at hd with hx1
        · cases hd; rw [if_pos hx1]
        · cases hd; rw [if_neg hx1]
  · intro hd
    unfold HVObj.strip at hd
    cases hx : a.items.get? v with
    | none => rw [hx] at hd; cases hd
    | some x =>
      rw [hx] at hd
      simp only at hd
      cases hc : a.cached with
      | none => rw [hc] at hd; cases hd
      | some h0 =>
        rw [hc] at hd
        simp only at hd
        cases hd; rfl

/-- `{x: 2, y: 1}` hashed, differentiated by `x` and again by `x`, reaches the items `{y: 1}` of a new vector. -/
example (hsh : ℕ × ℚ → BitVec 64) : ∃ b c : HVObj ℕ ℚ,
    (HVObj.hash hsh ⟨[(0, 2), (1, 1)], none⟩).2.diff hsh 0 = .ok b ∧ b.diff hsh 0 = .ok c ∧ c.items = [(1, 1)] ∧
    HVObj.Reach hsh c := by
  have h0 : HVObj.Reach hsh ((HVObj.hash hsh ⟨[(0, 2), (1, 1)], none⟩).2) := .hash (.new _ (by simp [PyDict.WF]))
  have h1 : (HVObj.hash hsh ⟨[(0, 2), (1, 1)], none⟩).2.diff hsh 0 = .ok ⟨[(0, 1), (1, 1)],
      some (HVObj.itemHash hsh [(0, 2), (1, 1)] ^^^ (hsh (0, 2) ^^^ hsh (0, 1)))⟩ := by
    norm_num [HVObj.hash, HVObj.diff, HVObj.copy, PyDict.get?, PyDict.set]
  have h2 : HVObj.diff hsh ⟨[(0, 1), (1, 1)], some (HVObj.itemHash hsh [(0, 2), (1, 1)] ^^^ (hsh (0, 2) ^^^ hsh (0, 1)))⟩ 0 =
      .ok ⟨[(1, 1)], some (HVObj.itemHash hsh [(0, 2), (1, 1)] ^^^ (hsh (0, 2) ^^^ hsh (0, 1)) ^^^ hsh (0, 1))⟩ := by
    norm_num [HVObj.hash, HVObj.diff, HVObj.copy, PyDict.get?, PyDict.set, PyDict.del]
  exact ⟨_, _, h1, h2, rfl, .diff 0 (.diff 0 h0 h1) h2⟩

end Verif
