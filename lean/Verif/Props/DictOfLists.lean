import Verif.Spec.DictOfLists
import Verif.Lemmas.PyDict
import Mathlib.Data.List.Nodup

/-! C29: stored solutions can be read back. -/

set_option linter.unusedSectionVars false

namespace Verif
open PyDict
namespace DoL

section
variable {S K α β γ : Type} [DecidableEq S]

theorem get?_setD {B : Type} (d : PyDict S B) (k q : S) (v : B) :
    PyDict.get? (PyDict.set d k v) q = if q = k then some v else PyDict.get? d q := by
  rw [get?_set]
  by_cases h : q = k
  · subst h; simp
  · rw [if_neg h, if_neg (by simpa using fun h' => h h'.symm)]

theorem get?_consD {B : Type} (d : PyDict S B) (k q : S) (v : B) :
    PyDict.get? ((k, v) :: d) q = if q = k then some v else PyDict.get? d q := by
  rw [get?_cons]
  by_cases h : q = k
  · subst h; simp
  · rw [if_neg h, if_neg (by simpa using fun h' => h h'.symm)]

theorem get?_mapItems (f : α → β) (d : List (S × Nest S α)) (k : S) : PyDict.get? (mapItems f d) k = (PyDict.get? d k).map (mapLeaves f) := by
  induction d with
  | nil => simp [mapItems, PyDict.get?]
  | cons kv d ih =>
    obtain ⟨k', v⟩ := kv
    rw [mapItems, get?_consD, get?_consD, ih]
    by_cases h : k = k'
    · rw [if_pos h, if_pos h]; rfl
    · rw [if_neg h, if_neg h]

theorem at_mapLeaves (f : α → β) (p : List S) : ∀ n : Nest S α, (mapLeaves f n).at p = (n.at p).map (mapLeaves f) := by
  induction p with
  | nil => intro n; cases n <;> rfl
  | cons k p ih =>
    intro n
    cases n with
    | leaf a => simp [mapLeaves, Nest.at]
    | dict d =>
      rw [mapLeaves, Nest.at, Nest.at, get?_mapItems]
      cases PyDict.get? d k with
      | none => rfl
      | some v => exact ih v

theorem isDict_mapLeaves (f : α → β) (n : Nest S α) : (mapLeaves f n).isDict = n.isDict := by
  cases n <;> simp [mapLeaves, Nest.isDict]

theorem same_mapLeaves (f : α → β) (n : Nest S α) : Same (mapLeaves f n) n := by
  intro p
  rw [at_mapLeaves, Option.map_map]
  congr 1
  funext n
  exact isDict_mapLeaves f n

theorem leafAt_mapLeaves (f : α → β) (n : Nest S α) (p : List S) : (mapLeaves f n).leafAt p = (n.leafAt p).map f := by
  unfold Nest.leafAt
  rw [at_mapLeaves]
  cases n.at p with
  | none => rfl
  | some v => cases v <;> simp [mapLeaves]

mutual
theorem enlist_eq : ∀ n : Nest S α, enlist n = mapLeaves (fun a => [a]) n
  | .leaf a => by rw [enlist, mapLeaves]
  | .dict d => by rw [enlist, mapLeaves, enlistItems_eq d]
theorem enlistItems_eq : ∀ d : List (S × Nest S α), enlistItems d = mapItems (fun a => [a]) d
  | [] => by rw [enlistItems, mapItems]
  | (k, v) :: d => by rw [enlistItems, mapItems, enlist_eq v, enlistItems_eq d]
end

theorem Same.symm {n : Nest S α} {m : Nest S β} (h : Same n m) : Same m n := fun p => (h p).symm
theorem Same.trans {n : Nest S α} {m : Nest S β} {l : Nest S γ} (h : Same n m) (h' : Same m l) : Same n l := fun p => (h p).trans (h' p)

/-- What `Same` says of the next level. -/
theorem same_dict {d : List (S × Nest S α)} {o : List (S × Nest S β)} :
    Same (.dict d) (.dict o) ↔ ∀ k, (PyDict.get? d k = none ∧ PyDict.get? o k = none) ∨
      ∃ v w, PyDict.get? d k = some v ∧ PyDict.get? o k = some w ∧ Same v w := by
  constructor
  · intro h k
    have h1 := h [k]
    simp only [Nest.at] at h1
    cases hd : PyDict.get? d k with
    | none =>
      rw [hd] at h1
      cases ho : PyDict.get? o k with
      | none => exact Or.inl ⟨rfl, rfl⟩
      | some w => rw [ho] at h1; cases h1
    | some v =>
      rw [hd] at h1
      cases ho : PyDict.get? o k with
      | none => rw [ho] at h1; cases h1
      | some w =>
        refine Or.inr ⟨v, w, rfl, rfl, fun p => ?_⟩
        have h2 := h (k :: p)
        simp only [Nest.at, hd, ho] at h2
        exact h2
  · intro h p
    cases p with
    | nil => rfl
    | cons k p =>
      simp only [Nest.at]
      rcases h k with ⟨h1, h2⟩ | ⟨v, w, h1, h2, h3⟩
      · rw [h1, h2]; rfl
      · rw [h1, h2]; exact h3 p

/-- Appended at every leaf. -/
def Appended (a : Nest S α) (o o' : Nest S (List α)) : Prop :=
  Same a o' ∧ ∀ p x l, a.leafAt p = some x → o.leafAt p = some l → o'.leafAt p = some (l ++ [x])

theorem appItems_ok (d : List (S × Nest S α)) (hd : (d.map (·.1)).Nodup)
    (ih : ∀ kv ∈ d, ∀ o : Nest S (List α), Same kv.2 o → ∃ o', app kv.2 o = .ok o' ∧ Appended kv.2 o o') :
    ∀ o : PyDict S (Nest S (List α)), (∀ kv ∈ d, ∃ w, PyDict.get? o kv.1 = some w ∧ Same kv.2 w) →
      ∃ o', appItems d o = .ok o' ∧ (∀ k, k ∉ d.map (·.1) → PyDict.get? o' k = PyDict.get? o k) ∧
        ∀ kv ∈ d, ∃ w w', PyDict.get? o kv.1 = some w ∧ PyDict.get? o' kv.1 = some w' ∧ Appended kv.2 w w' := by
  induction d with
  | nil => intro o _; exact ⟨o, by rw [appItems], fun _ _ => rfl, fun _ h => (List.not_mem_nil h).elim⟩
  | cons kv d ihd =>
    obtain ⟨k, v⟩ := kv
    intro o ho
    rw [List.map_cons, List.nodup_cons] at hd
    obtain ⟨w, hw, hs⟩ := ho (k, v) (by simp)
    obtain ⟨w', hw', ha⟩ := ih (k, v) (by simp) w hs
    dsimp only at hw hw'
    obtain ⟨o', e1, e2, e3⟩ := ihd hd.2 (fun kv h => ih kv (by simp [h])) (o.set k w') (by
      intro kv hkv
      obtain ⟨u, hu, hsu⟩ := ho kv (by simp [hkv])
      refine ⟨u, ?_, hsu⟩
      rw [get?_setD, if_neg]
      · exact hu
      · intro he
        exact hd.1 (he ▸ List.mem_map_of_mem (f := (·.1)) hkv))
    refine ⟨o', ?_, ?_, ?_⟩
    · rw [appItems, hw]
      dsimp only
      rw [hw']
      exact e1
    · intro q hq
      rw [List.map_cons, List.mem_cons, not_or] at hq
      rw [e2 q hq.2, get?_setD, if_neg hq.1]
    · intro kv hkv
      rcases List.mem_cons.1 hkv with rfl | hkv
      · refine ⟨w, w', hw, ?_, ha⟩
        dsimp only
        rw [e2 k hd.1, get?_setD, if_pos rfl]
      · obtain ⟨u, u', h1, h2, h3⟩ := e3 kv hkv
        refine ⟨u, u', ?_, h2, h3⟩
        rw [get?_setD, if_neg] at h1
        · exact h1
        · intro he
          exact hd.1 (he ▸ List.mem_map_of_mem (f := (·.1)) hkv)

theorem mem_of_get?D {B : Type} {d : PyDict S B} {k : S} {v : B} (h : PyDict.get? d k = some v) : (k, v) ∈ d := by
  obtain ⟨k', h1, h2⟩ := exists_mem_of_get? h
  rw [beq_iff_eq] at h2
  exact h2 ▸ h1

theorem get?_of_memD {B : Type} {d : PyDict S B} (hn : (d.map (·.1)).Nodup) {k : S} {v : B} (h : (k, v) ∈ d) : PyDict.get? d k = some v := by
  induction d with
  | nil => cases h
  | cons kv d ih =>
    obtain ⟨k', v'⟩ := kv
    rw [List.map_cons, List.nodup_cons] at hn
    rw [get?_consD]
    rcases List.mem_cons.1 h with h | h
    · cases h; rw [if_pos rfl]
    · rw [if_neg, ih hn.2 h]
      intro he
      have := List.mem_map_of_mem (f := (·.1)) h
      rw [he] at this
      exact hn.1 this

theorem app_ok {a : Nest S α} (h : a.WF) : ∀ o : Nest S (List α), Same a o → ∃ o', app a o = .ok o' ∧ Appended a o o' := by
  induction h with
  | leaf x =>
    intro o hs
    cases o with
    | dict d => have := hs []; simp [Nest.at, Nest.isDict] at this
    | leaf l =>
      refine ⟨.leaf (l ++ [x]), by rw [app], ?_, ?_⟩
      · intro p; cases p <;> rfl
      · intro p x' l' h1 h2
        cases p with
        | nil =>
          simp only [Nest.leafAt, Nest.at, Option.some.injEq] at h1 h2 ⊢
          rw [h1, h2]
        | cons k p => simp [Nest.leafAt, Nest.at] at h1
  | @dict d hn hw ih =>
    intro o hs
    cases o with
    | leaf l => have := hs []; simp [Nest.at, Nest.isDict] at this
    | dict o =>
      have hs' := same_dict.1 hs
      obtain ⟨o', e1, e2, e3⟩ := appItems_ok d hn ih o (by
        rintro ⟨k, v⟩ hkv
        have hg := get?_of_memD hn hkv
        rcases hs' k with ⟨h1, _⟩ | ⟨v', w, h1, h2, h3⟩
        · rw [hg] at h1; cases h1
        · rw [hg] at h1; cases h1
          exact ⟨w, h2, h3⟩)
      have each : ∀ k, (PyDict.get? d k = none ∧ PyDict.get? o' k = none) ∨
          ∃ v w w', PyDict.get? d k = some v ∧ PyDict.get? o k = some w ∧ PyDict.get? o' k = some w' ∧ Appended v w w' := by
        intro k
        rcases hs' k with ⟨h1, h2⟩ | ⟨v, w, h1, h2, h3⟩
        · left
          refine ⟨h1, ?_⟩
          rw [e2 k, h2]
          intro hk
          obtain ⟨kv, hkv, rfl⟩ := List.mem_map.1 hk
          rw [get?_of_memD hn hkv] at h1
          cases h1
        · right
          obtain ⟨u, u', a1, a2, a3⟩ := e3 (k, v) (mem_of_get?D h1)
          exact ⟨v, u, u', h1, a1, a2, a3⟩
      refine ⟨.dict o', by rw [app, e1]; rfl, ?_, ?_⟩
      · rw [same_dict]
        intro k
        rcases each k with h | ⟨v, w, w', h1, h2, h3, h4⟩
        · exact Or.inl h
        · exact Or.inr ⟨v, w', h1, h3, h4.1⟩
      · intro p x l h1 h2
        cases p with
        | nil => simp [Nest.leafAt, Nest.at] at h1
        | cons k p =>
          unfold Nest.leafAt Nest.at at h1 h2 ⊢
          dsimp only at h1 h2 ⊢
          rcases each k with ⟨g1, _⟩ | ⟨v, w, w', g1, g2, g3, g4⟩
          · rw [g1] at h1; cases h1
          · rw [g1] at h1
            rw [g2] at h2
            rw [g3]
            exact g4.2 p x l h1 h2

/-- All results together. -/
theorem appendAll_ok {r : Nest S α} (rs : List (Nest S α)) (hw : ∀ r' ∈ rs, r'.WF) (hs : ∀ r' ∈ rs, Same r r') :
    ∃ o, appendAll (r :: rs) = .ok o ∧ Same r o ∧ ∀ p xs, (r :: rs).map (·.leafAt p) = xs.map some → o.leafAt p = some xs := by
  have key : ∀ (rs : List (Nest S α)) (o : Nest S (List α)), (∀ r' ∈ rs, r'.WF) → (∀ r' ∈ rs, Same r r') → Same r o →
      ∃ o', rs.foldlM (fun o r => app r o) o = .ok o' ∧ Same r o' ∧
        ∀ p l xs, o.leafAt p = some l → rs.map (·.leafAt p) = xs.map some → o'.leafAt p = some (l ++ xs) := by
    intro rs
    induction rs with
    | nil =>
      intro o _ _ h
      refine ⟨o, rfl, h, ?_⟩
      intro p l xs h1 h2
      cases xs with
      | nil => simpa using h1
      | cons x xs => cases h2
    | cons r' rs ih =>
      intro o hw hs ho
      obtain ⟨o1, a1, a2, a3⟩ := app_ok (hw r' (by simp)) o ((hs r' (by simp)).symm.trans ho)
      obtain ⟨o2, b1, b2, b3⟩ := ih o1 (fun r h => hw r (by simp [h])) (fun r h => hs r (by simp [h])) ((hs r' (by simp)).trans a2)
      refine ⟨o2, ?_, b2, ?_⟩
      · rw [List.foldlM_cons, a1]
        exact b1
      · intro p l xs h1 h2
        cases xs with
        | nil => cases h2
        | cons x xs =>
          simp only [List.map_cons, List.cons.injEq] at h2
          have := b3 p (l ++ [x]) xs (a3 p x l h2.1 h1) h2.2
          rw [this, List.append_assoc]
          rfl
  obtain ⟨o, h1, h2, h3⟩ := key rs (enlist r) hw hs (by rw [enlist_eq]; exact (same_mapLeaves _ r).symm)
  refine ⟨o, h1, h2, ?_⟩
  intro p xs h
  cases xs with
  | nil => cases h
  | cons x xs =>
    simp only [List.map_cons, List.cons.injEq] at h
    have := h3 p [x] xs (by rw [enlist_eq, leafAt_mapLeaves, h.1]; rfl) h.2
    rw [this]
    rfl

theorem same_leafAt {n : Nest S α} {m : Nest S β} (h : Same n m) (p : List S) : (n.leafAt p).isSome = (m.leafAt p).isSome := by
  have := h p
  unfold Nest.leafAt
  cases h1 : n.at p with
  | none =>
    rw [h1] at this
    cases h2 : m.at p with
    | none => rfl
    | some b => rw [h2] at this; cases this
  | some a =>
    rw [h1] at this
    cases h2 : m.at p with
    | none => rw [h2] at this; cases this
    | some b =>
      rw [h2] at this
      cases a <;> cases b <;> simp_all [Nest.isDict]

end

end DoL

section
open DoL
variable {S K : Type} [DecidableEq S]

/-- C29: several results with the same keys at all levels, in any order, are stored, and `atindex(i)` gives the keys and values of the i-th.
A single result is given back too if its values cannot be indexed. Partial: results with different keys, and a single result with arrays,
are excluded (see the witnesses). -/
theorem C29_read_partial (r : Nest S (Leaf K)) (rs : List (Nest S (Leaf K))) (hw : ∀ r' ∈ r :: rs, r'.WF) (hs : ∀ r' ∈ rs, Same r r')
    (h1 : rs ≠ [] ∨ ∀ p a, r.leafAt p = some a → ∃ k, a = .num k) :
    ∃ o, appendAll (r :: rs) = .ok o ∧ ∀ i r', (r :: rs)[i]? = some r' →
      Same r' (atindex i (toArrays o)) ∧ ∀ p, (atindex i (toArrays o)).leafAt p = (r'.leafAt p).map .val := by
  obtain ⟨o, e1, e2, e3⟩ := appendAll_ok (r := r) rs (fun r' h => hw r' (by simp [h])) hs
  refine ⟨o, e1, ?_⟩
  intro i r' hi
  have hmem := List.mem_of_getElem? hi
  have hsame : ∀ q ∈ r :: rs, Same r q := by
    intro q hq
    rcases List.mem_cons.1 hq with rfl | hq
    · exact fun _ => rfl
    · exact hs q hq
  have hso : Same r' o := (hsame r' hmem).symm.trans e2
  refine ⟨?_, ?_⟩
  · unfold atindex toArrays
    exact (hso.trans (same_mapLeaves _ o).symm).trans (same_mapLeaves _ _).symm
  · intro p
    unfold atindex toArrays
    rw [leafAt_mapLeaves, leafAt_mapLeaves]
    cases hr : r'.leafAt p with
    | none =>
      have := same_leafAt hso p
      rw [hr] at this
      cases ho : o.leafAt p with
      | none => rfl
      | some l => rw [ho] at this; cases this
    | some a =>
      have hall : ∀ q ∈ r :: rs, ∃ x, q.leafAt p = some x := by
        intro q hq
        have := same_leafAt ((hsame r' hmem).symm.trans (hsame q hq)) p
        rw [hr] at this
        exact Option.isSome_iff_exists.1 this.symm
      have hxs : ∃ xs : List (Leaf K), (r :: rs).map (·.leafAt p) = xs.map some := by
        generalize r :: rs = l at hall
        clear hi hmem hsame
        induction l with
        | nil => exact ⟨[], rfl⟩
        | cons q l ih =>
          obtain ⟨x, hx⟩ := hall q (by simp)
          obtain ⟨xs, hxs⟩ := ih (fun q hq => hall q (by simp [hq]))
          exact ⟨x :: xs, by rw [List.map_cons, hx, hxs]; rfl⟩
      obtain ⟨xs, hxs⟩ := hxs
      rw [e3 p xs hxs]
      have hxi : xs[i]? = some a := by
        have : ((r :: rs).map (·.leafAt p))[i]? = (xs.map some)[i]? := by rw [hxs]
        rw [List.getElem?_map, hi, List.getElem?_map, Option.map_some, hr] at this
        cases hx : xs[i]? with
        | none => rw [hx] at this; cases this
        | some y => rw [hx] at this; simp only [Option.map_some, Option.some.injEq] at this; rw [this]
      have hlen : xs.length = (r :: rs).length := by
        have := congrArg List.length hxs
        simpa using this.symm
      cases xs with
      | nil => cases hlen
      | cons x xs =>
        cases xs with
        | nil =>
          have hrs : rs = [] := by
            cases rs with
            | nil => rfl
            | cons _ _ => simp at hlen
          rcases h1 with h1 | h1
          · exact absurd hrs h1
          · subst hrs
            cases i with
            | zero =>
              simp only [List.getElem?_cons_zero, Option.some.injEq] at hi hxi
              subst hi hxi
              obtain ⟨k, rfl⟩ := h1 p _ hr
              rfl
            | succ i => simp at hi
        | cons y xs =>
          simp only [Option.map_some, enrayLeaf, indexLeaf, hxi]

/-- C29 is violated for a single result with an array: `atindex(0)` gives its first element. -/
theorem C29_single_fails :
    (appendAll [(Nest.dict [("v", .leaf (.vec [1, 2]))] : Nest String (Leaf Nat))]).toOption.map
      (fun o => (atindex 0 (toArrays o)).leafAt ["v"]) = some (some (.val (.num 1))) := by
  decide +kernel

/-- C29 is violated for results with different keys: a key missing from the first raises KeyError, a key missing from a later one shifts the
values after it, so that the last result seems to have none and gives everything. -/
theorem C29_keys_fails :
    (appendAll [(.dict [("a", .leaf (.num 1))] : Nest String (Leaf Nat)), .dict [("a", .leaf (.num 2)), ("b", .leaf (.num 5))]]).toOption.isNone ∧
    (appendAll [(.dict [("a", .leaf (.num 1)), ("b", .leaf (.num 5))] : Nest String (Leaf Nat)), .dict [("a", .leaf (.num 2))],
      .dict [("a", .leaf (.num 3)), ("b", .leaf (.num 7))]]).toOption.map
      (fun o => ((atindex 1 (toArrays o)).leafAt ["b"], (atindex 2 (toArrays o)).leafAt ["b"])) =
      some (some (.val (.num 7)), some (.whole [.num 5, .num 7])) := by
  decide +kernel

/-- Two results with nested dicts in different orders. -/
example : ∃ o, appendAll [(.dict [("a", .leaf (.num 1)), ("s", .dict [("x", .leaf (.vec [1, 2]))])] : Nest String (Leaf Nat)),
      .dict [("s", .dict [("x", .leaf (.vec [3, 4]))]), ("a", .leaf (.num 2))]] = .ok o ∧
    (atindex 1 (toArrays o)).leafAt ["s", "x"] = some (.val (.vec [3, 4])) := by
  obtain ⟨o, h1, h2⟩ := C29_read_partial (.dict [("a", .leaf (.num 1)), ("s", .dict [("x", .leaf (.vec [1, 2]))])] : Nest String (Leaf Nat))
    [.dict [("s", .dict [("x", .leaf (.vec [3, 4]))]), ("a", .leaf (.num 2))]] (by
      intro r' hr'
      simp only [List.mem_cons, List.not_mem_nil, or_false] at hr'
      rcases hr' with rfl | rfl
      · refine .dict (by decide) ?_
        intro kv h
        simp only [List.mem_cons, List.not_mem_nil, or_false] at h
        rcases h with rfl | rfl
        · exact .leaf _
        · refine .dict (by decide) ?_
          intro kv h
          simp only [List.mem_cons, List.not_mem_nil, or_false] at h
          subst h
          exact .leaf _
      · refine .dict (by decide) ?_
        intro kv h
        simp only [List.mem_cons, List.not_mem_nil, or_false] at h
        rcases h with rfl | rfl
        · refine .dict (by decide) ?_
          intro kv h
          simp only [List.mem_cons, List.not_mem_nil, or_false] at h
          subst h
          exact .leaf _
        · exact .leaf _) (by
      intro r' hr'
      simp only [List.mem_cons, List.not_mem_nil, or_false] at hr'
      subst hr'
      have leaf : ∀ a b : Leaf Nat, Same (Nest.leaf (S := String) a) (Nest.leaf b) := by
        intro a b p; cases p <;> rfl
      rw [same_dict]
      intro k
      by_cases ha : k = "a"
      · subst ha; exact Or.inr ⟨_, _, rfl, rfl, leaf _ _⟩
      · by_cases hb : k = "s"
        · subst hb
          refine Or.inr ⟨_, _, rfl, rfl, ?_⟩
          rw [same_dict]
          intro k
          by_cases hx : k = "x"
          · subst hx; exact Or.inr ⟨_, _, rfl, rfl, leaf _ _⟩
          · left; simp [PyDict.get?, Ne.symm hx]
        · left; simp [PyDict.get?, Ne.symm ha, Ne.symm hb]) (Or.inl (by simp))
  exact ⟨o, h1, ((h2 1 _ rfl).2 ["s", "x"]).trans rfl⟩

end
end Verif
