import Verif.Spec.WarnTable
import Verif.Props.DictOfLists
import Verif.Props.ConstrTable
import Verif.Props.VarKey
import Verif.Lemmas.Arith
import Mathlib.Data.List.Induction

/-! Warnings of sweeps: collecting them, and the table. -/

set_option linter.unusedSectionVars false

namespace Verif
namespace DoL
variable {S α : Type} [DecidableEq S]

theorem mem_keys_iff {B : Type} {d : PyDict S B} {k : S} : k ∈ d.map (·.1) ↔ ∃ v, PyDict.get? d k = some v := by
  constructor
  · intro h
    cases hg : PyDict.get? d k with
    | some v => exact ⟨v, rfl⟩
    | none =>
      obtain ⟨kv, h1, h2⟩ := List.mem_map.1 h
      have := PyDict.get?_eq_none_iff.1 hg kv h1
      simp [h2] at this
  · rintro ⟨v, h⟩
    exact List.mem_map_of_mem (f := (·.1)) (mem_of_get?D h)

theorem keys_set {B : Type} (d : PyDict S B) (k : S) (v : B) (h : k ∈ d.map (·.1)) : (PyDict.set d k v).map (·.1) = d.map (·.1) := by
  induction d with
  | nil => simp at h
  | cons kv d ih =>
    obtain ⟨k', v'⟩ := kv
    rw [PyDict.set_cons]
    by_cases he : k' = k
    · rw [if_pos (by simpa using he)]; rfl
    · rw [if_neg (by simpa using he), List.map_cons, List.map_cons, ih]
      rw [List.map_cons, List.mem_cons] at h
      exact h.resolve_left (fun h' => he h'.symm)

theorem nodup_set {B : Type} {d : PyDict S B} (h : (d.map (·.1)).Nodup) (k : S) (v : B) : ((PyDict.set d k v).map (·.1)).Nodup := by
  by_cases hk : k ∈ d.map (·.1)
  · rw [keys_set d k v hk]; exact h
  · have : PyDict.get? d k = none := by
      cases hg : PyDict.get? d k with
      | none => rfl
      | some w => exact absurd (mem_keys_iff.2 ⟨w, hg⟩) hk
    rw [PyDict.set_of_not_contains this, List.map_append, List.nodup_append]
    refine ⟨h, by simp, ?_⟩
    intro a ha b hb
    simp only [List.map_cons, List.map_nil, List.mem_singleton] at hb
    rintro rfl
    exact hk (hb ▸ ha)

/-- What appending to a dict has done, if it succeeded. -/
theorem appItems_spec {d : List (S × Nest S α)} (hd : (d.map (·.1)).Nodup) : ∀ {o o' : PyDict S (Nest S (List α))}, appItems d o = .ok o' →
    o'.map (·.1) = o.map (·.1) ∧ ∀ k, (PyDict.get? d k = none → PyDict.get? o' k = PyDict.get? o k) ∧
      ∀ v, PyDict.get? d k = some v → ∃ w w', PyDict.get? o k = some w ∧ app v w = .ok w' ∧ PyDict.get? o' k = some w' := by
  induction d with
  | nil =>
    intro o o' h
    rw [appItems] at h
    cases h
    exact ⟨rfl, fun k => ⟨fun _ => rfl, fun v hv => by simp [PyDict.get?] at hv⟩⟩
  | cons kv d ih =>
    obtain ⟨k, v⟩ := kv
    intro o o' h
    rw [List.map_cons, List.nodup_cons] at hd
    rw [appItems] at h
    cases hw : PyDict.get? o k with
    | none => rw [hw] at h; cases h
    | some w =>
      rw [hw] at h
      dsimp only at h
      cases ha : app v w with
      | error e => rw [ha] at h; cases h
      | ok w' =>
        rw [ha] at h
        obtain ⟨h1, h2⟩ := ih hd.2 h
        have hk : PyDict.get? d k = none := by
          cases hg : PyDict.get? d k with
          | none => rfl
          | some u => exact absurd (mem_keys_iff.2 ⟨u, hg⟩) hd.1
        refine ⟨by rw [h1, keys_set _ _ _ (mem_keys_iff.2 ⟨w, hw⟩)], ?_⟩
        intro q
        rw [get?_consD]
        by_cases hq : q = k
        · subst hq
          rw [if_pos rfl]
          refine ⟨by simp, ?_⟩
          intro v' hv'
          cases hv'
          refine ⟨w, w', hw, ha, ?_⟩
          rw [(h2 q).1 hk, get?_setD, if_pos rfl]
        · rw [if_neg hq]
          obtain ⟨h3, h4⟩ := h2 q
          rw [get?_setD, if_neg hq] at h3
          refine ⟨h3, ?_⟩
          intro v' hv'
          obtain ⟨w1, w2, e1, e2, e3⟩ := h4 v' hv'
          rw [get?_setD, if_neg hq] at e1
          exact ⟨w1, w2, e1, e2, e3⟩

theorem keys_mapItems {β : Type} (f : α → β) (d : List (S × Nest S α)) : (mapItems f d).map (·.1) = d.map (·.1) := by
  induction d with
  | nil => rfl
  | cons kv d ih => obtain ⟨k, v⟩ := kv; rw [mapItems, List.map_cons, List.map_cons, ih]

theorem mem_mapItems {β : Type} {f : α → β} {d : List (S × Nest S α)} {kv : S × Nest S β} (h : kv ∈ mapItems f d) : ∃ v, (kv.1, v) ∈ d ∧ kv.2 = mapLeaves f v := by
  induction d with
  | nil => cases h
  | cons kv' d ih =>
    obtain ⟨k, v⟩ := kv'
    rw [mapItems] at h
    rcases List.mem_cons.1 h with rfl | h
    · exact ⟨v, by simp, rfl⟩
    · obtain ⟨v', h1, h2⟩ := ih h
      exact ⟨v', by simp [h1], h2⟩

theorem wf_mapLeaves {β : Type} (f : α → β) {n : Nest S α} (h : n.WF) : (mapLeaves f n).WF := by
  induction h with
  | leaf a => rw [mapLeaves]; exact .leaf _
  | dict h1 _ ih =>
    rw [mapLeaves]
    refine .dict (by rw [keys_mapItems]; exact h1) ?_
    intro kv hkv
    obtain ⟨v, h2, h3⟩ := mem_mapItems hkv
    rw [h3]
    exact ih _ h2

end DoL

namespace WarnTable
open DoL
section
variable {ι K β : Type} [DecidableEq ι]

theorem warningsOf_concat (es : List (Event ι K)) (e : Event ι K) : warningsOf (es ++ [e]) = appendWarning (warningsOf es) e := by
  rw [warningsOf, List.foldl_append]
  rfl

/-- The warnings of a solve, by category. -/
theorem warningsOf_spec (es : List (Event ι K)) : (warningsOf es = none ↔ es = []) ∧ (((warningsOf es).getD []).map (·.1)).Nodup ∧
    ∀ c, PyDict.get? ((warningsOf es).getD []) c =
      if es.filter (fun e => decide (e.cat = c)) = [] then none else some ((es.filter (fun e => decide (e.cat = c))).map Event.warning) := by
  induction es using List.reverseRecOn with
  | nil => exact ⟨by simp [warningsOf], by simp [warningsOf], fun c => by simp [warningsOf]⟩
  | append_singleton es e ih =>
    obtain ⟨_, i2, i3⟩ := ih
    rw [warningsOf_concat]
    refine ⟨by simp [appendWarning], nodup_set i2 _ _, ?_⟩
    intro c
    rw [appendWarning, Option.getD_some, get?_setD, List.filter_append]
    by_cases hc : c = e.cat
    · subst hc
      rw [if_pos rfl, i3]
      have h1 : List.filter (fun e' : Event ι K => decide (e'.cat = e.cat)) [e] = [e] := by simp
      have h2 : es.filter (fun e' => decide (e'.cat = e.cat)) ++ [e] ≠ [] := by simp
      rw [h1, if_neg h2, List.map_append]
      by_cases hf : es.filter (fun e' => decide (e'.cat = e.cat)) = []
      · rw [if_pos hf, hf]; rfl
      · rw [if_neg hf]; rfl
    · have h1 : List.filter (fun e' : Event ι K => decide (e'.cat = c)) [e] = [] := by simpa using fun h => hc h.symm
      rw [if_neg hc, i3, h1, List.append_nil]

/-- The warnings of a point, as they are in its result. -/
def catDict (p : Point β ι K) : List (String × Nest String (Val β ι)) :=
  ((warningsOf p.events).getD []).map (fun cw => (cw.1, .leaf (.notes cw.2)))

theorem catDict_keys (p : Point β ι K) : (catDict p).map (·.1) = ((warningsOf p.events).getD []).map (·.1) := by
  rw [catDict, List.map_map]; rfl

theorem catDict_nodup (p : Point β ι K) : ((catDict p).map (·.1)).Nodup := by
  rw [catDict_keys]; exact (warningsOf_spec p.events).2.1

theorem get?_mapLeaf (d : PyDict String (List (Warning ι))) (c : String) :
    PyDict.get? (d.map (fun cw => (cw.1, (Nest.leaf (.notes cw.2) : Nest String (Val β ι))))) c = (PyDict.get? d c).map (fun w => .leaf (.notes w)) := by
  induction d with
  | nil => rfl
  | cons kv d ih =>
    obtain ⟨k, v⟩ := kv
    rw [List.map_cons, get?_consD, get?_consD, ih]
    by_cases h : c = k
    · rw [if_pos h, if_pos h]; rfl
    · rw [if_neg h, if_neg h]

theorem catDict_get (p : Point β ι K) (c : String) :
    PyDict.get? (catDict p) c = if p.inCat c = [] then none else some (.leaf (.notes ((p.inCat c).map Event.warning))) := by
  rw [catDict, get?_mapLeaf, (warningsOf_spec p.events).2.2 c]
  unfold Point.inCat
  split <;> rfl

/-- The items of the result of a point. -/
def resultItems (p : Point β ι K) : List (String × Nest String (Val β ι)) :=
  mapItems .other p.others ++ match warningsOf p.events with
    | none => []
    | some d => [(key, .dict (d.map (fun cw => (cw.1, .leaf (.notes cw.2)))))]

theorem result_eq (p : Point β ι K) : p.result = .dict (resultItems p) := rfl

theorem get?_appendD {B : Type} (d e : PyDict String B) (k : String) : PyDict.get? (d ++ e) k = (PyDict.get? d k).or (PyDict.get? e k) := by
  induction d with
  | nil => simp [PyDict.get?]
  | cons kv d ih =>
    obtain ⟨k', v⟩ := kv
    rw [List.cons_append, get?_consD, get?_consD, ih]
    by_cases h : k = k' <;> simp [h]

theorem others_key {p : Point β ι K} (hp : p.Clean) : PyDict.get? (mapItems (Val.other (ι := ι)) p.others) key = none := by
  cases hg : PyDict.get? (mapItems (Val.other (ι := ι)) p.others) key with
  | none => rfl
  | some v =>
    have := mem_keys_iff.2 ⟨v, hg⟩
    rw [keys_mapItems] at this
    exact absurd this hp.2

theorem result_key {p : Point β ι K} (hp : p.Clean) :
    PyDict.get? (resultItems p) key = if p.events = [] then none else some (.dict (catDict p)) := by
  rw [resultItems, get?_appendD, others_key hp, Option.none_or]
  have h := (warningsOf_spec p.events).1
  unfold catDict
  cases hw : warningsOf p.events with
  | none => rw [if_pos (h.1 hw)]; rfl
  | some d =>
    rw [if_neg (fun h' => by rw [h.2 h'] at hw; cases hw)]
    dsimp only
    rw [get?_consD, if_pos rfl]
    rfl

theorem result_other (p : Point β ι K) {k : String} (hk : k ≠ key) : PyDict.get? (resultItems p) k = (PyDict.get? p.others k).map (mapLeaves .other) := by
  rw [resultItems, get?_appendD, get?_mapItems]
  have : PyDict.get? (match warningsOf p.events with
    | none => []
    | some d => [(key, (Nest.dict (d.map (fun cw => (cw.1, .leaf (.notes cw.2)))) : Nest String (Val β ι)))]) k = none := by
    cases warningsOf p.events with
    | none => rfl
    | some d => dsimp only; rw [get?_consD, if_neg hk]; rfl
  rw [this, Option.or_none]

theorem result_nodup {p : Point β ι K} (hp : p.Clean) : ((resultItems p).map (·.1)).Nodup := by
  have hn : (p.others.map (·.1)).Nodup := by
    cases hp.1 with
    | dict h _ => exact h
  rw [resultItems, List.map_append, keys_mapItems]
  cases warningsOf p.events with
  | none => simpa using hn
  | some d =>
    dsimp only
    rw [List.map_cons, List.map_nil, List.nodup_append]
    refine ⟨hn, by simp, ?_⟩
    intro a ha b hb
    rw [List.mem_singleton] at hb
    rintro rfl
    dsimp only at hb
    exact hp.2 (hb ▸ ha)

/-- The lists of a category, of the points which have it. -/
def having (ps : List (Point β ι K)) (c : String) : List (Point β ι K) := ps.filter (fun p => decide (p.inCat c ≠ []))

/-- What a solution has collected of the points so far. -/
structure Holds (cs : List String) (done : List (Point β ι K)) (o : Nest String (List (Val β ι))) : Prop where
  dict : ∃ d, o = .dict d ∧ ((PyDict.get? d key = none ∧ cs = []) ∨ ∃ ws, PyDict.get? d key = some (.dict ws))
  keys : (warningsIn o).map (·.1) = cs
  vecs : ∀ c ∈ cs, ∃ vs, PyDict.get? (warningsIn o) c = some (.leaf vs) ∧ vs.map notesOf = (having done c).map (fun p => (p.inCat c).map Event.warning)
  known : ∀ p ∈ done, ∀ e ∈ p.events, e.cat ∈ cs

theorem mem_inCat {p : Point β ι K} {e : Event ι K} (he : e ∈ p.events) : p.inCat e.cat ≠ [] := by
  intro h
  have : e ∈ p.inCat e.cat := by simp [Point.inCat, he]
  rw [h] at this
  cases this

theorem holds_step {cs : List String} {done : List (Point β ι K)} {o o' : Nest String (List (Val β ι))} {p : Point β ι K} (hp : p.Clean) (h : Holds cs done o)
    (ha : app p.result o = .ok o') : Holds cs (done ++ [p]) o' := by
  obtain ⟨⟨d, rfl, hd⟩, hk, hv, hn⟩ := h
  rw [result_eq, app] at ha
  cases hi : appItems (resultItems p) d with
  | error e => rw [hi] at ha; cases ha
  | ok d' =>
    rw [hi] at ha
    have ho : o' = .dict d' := (Except.ok.inj ha).symm
    subst ho
    obtain ⟨_, s2⟩ := appItems_spec (result_nodup hp) hi
    obtain ⟨s3, s4⟩ := s2 key
    rw [result_key hp] at s3 s4
    by_cases he : p.events = []
    · have hg : PyDict.get? d' key = PyDict.get? d key := s3 (by rw [if_pos he])
      have hw : warningsIn (.dict d' : Nest String (List (Val β ι))) = warningsIn (.dict d) := by rw [warningsIn, warningsIn, hg]
      refine ⟨⟨d', rfl, by rw [hg]; exact hd⟩, by rw [hw]; exact hk, ?_, ?_⟩
      · intro c hc
        rw [hw]
        obtain ⟨vs, v1, v2⟩ := hv c hc
        refine ⟨vs, v1, ?_⟩
        rw [v2, having, having, List.filter_append]
        simp [Point.inCat, he]
      · intro q hq e hqe
        rcases List.mem_append.1 hq with hq | hq
        · exact hn q hq e hqe
        · rw [List.mem_singleton] at hq
          rw [hq, he] at hqe
          cases hqe
    · obtain ⟨w, w', e1, e2, e3⟩ := s4 _ (by rw [if_neg he])
      rcases hd with ⟨hd, _⟩ | ⟨ws, hd⟩
      · rw [hd] at e1; cases e1
      · rw [hd] at e1
        cases e1
        rw [app] at e2
        cases hj : appItems (catDict p) ws with
        | error e => rw [hj] at e2; cases e2
        | ok ws' =>
          rw [hj] at e2
          have hw' : w' = .dict ws' := (Except.ok.inj e2).symm
          subst hw'
          have h1 : warningsIn (.dict d : Nest String (List (Val β ι))) = ws := by rw [warningsIn, hd]
          have h2 : warningsIn (.dict d' : Nest String (List (Val β ι))) = ws' := by rw [warningsIn, e3]
          rw [h1] at hk hv
          obtain ⟨t1, t2⟩ := appItems_spec (catDict_nodup p) hj
          refine ⟨⟨d', rfl, Or.inr ⟨ws', e3⟩⟩, by rw [h2, t1, hk], ?_, ?_⟩
          · intro c hc
            rw [h2]
            obtain ⟨vs, v1, v2⟩ := hv c hc
            obtain ⟨t3, t4⟩ := t2 c
            rw [catDict_get] at t3 t4
            by_cases hcp : p.inCat c = []
            · refine ⟨vs, by rw [t3 (by rw [if_pos hcp]), v1], ?_⟩
              rw [v2, having, having, List.filter_append]
              simp [hcp]
            · obtain ⟨w, w', f1, f2, f3⟩ := t4 _ (by rw [if_neg hcp])
              rw [v1] at f1
              cases f1
              rw [app] at f2
              cases f2
              refine ⟨_, f3, ?_⟩
              rw [List.map_append, v2, having, having, List.filter_append, List.map_append]
              simp [hcp, notesOf]
          · intro q hq e hqe
            rcases List.mem_append.1 hq with hq | hq
            · exact hn q hq e hqe
            · rw [List.mem_singleton] at hq
              subst hq
              obtain ⟨w, _, f1, _⟩ := (t2 e.cat).2 _ (by rw [catDict_get, if_neg (mem_inCat hqe)])
              rw [← hk]
              exact mem_keys_iff.2 ⟨w, f1⟩

theorem holds_first {p : Point β ι K} (hp : p.Clean) : Holds ((catDict p).map (·.1)) [p] (enlist p.result) := by
  rw [enlist_eq, result_eq, mapLeaves]
  have hg : PyDict.get? (mapItems (fun a : Val β ι => [a]) (resultItems p)) key =
      if p.events = [] then none else some (.dict (mapItems (fun a => [a]) (catDict p))) := by
    rw [get?_mapItems, result_key hp]
    split
    · rfl
    · rw [Option.map_some, mapLeaves]
  have he : p.events = [] → catDict p = [] := by
    intro h
    rw [catDict, (warningsOf_spec p.events).1.2 h]
    rfl
  have hw : warningsIn (.dict (mapItems (fun a : Val β ι => [a]) (resultItems p))) = mapItems (fun a => [a]) (catDict p) := by
    rw [warningsIn, hg]
    by_cases h : p.events = []
    · rw [if_pos h, he h]; rfl
    · rw [if_neg h]
  refine ⟨⟨_, rfl, ?_⟩, by rw [hw, keys_mapItems], ?_, ?_⟩
  · rw [hg]
    by_cases h : p.events = []
    · exact Or.inl ⟨by rw [if_pos h], by rw [he h]; rfl⟩
    · exact Or.inr ⟨_, by rw [if_neg h]⟩
  · intro c hc
    rw [hw, get?_mapItems]
    obtain ⟨v, hv⟩ := mem_keys_iff.1 hc
    rw [catDict_get] at hv ⊢
    by_cases hcp : p.inCat c = []
    · rw [if_pos hcp] at hv; cases hv
    · rw [if_neg hcp, Option.map_some, mapLeaves]
      refine ⟨_, rfl, ?_⟩
      simp [having, hcp, notesOf]
  · intro q hq e hqe
    rw [List.mem_singleton] at hq
    subst hq
    exact mem_keys_iff.2 ⟨_, by rw [catDict_get, if_neg (mem_inCat hqe)]⟩

/-- What a sweep has collected. -/
theorem holds_sweep {p : Point β ι K} {ps : List (Point β ι K)} {o : Nest String (List (Val β ι))} (hp : ∀ q ∈ p :: ps, q.Clean)
    (h : sweep (p :: ps) = .ok o) : Holds ((catDict p).map (·.1)) (p :: ps) o := by
  rw [sweep, List.map_cons, appendAll] at h
  have key : ∀ (ps done : List (Point β ι K)) (o o' : Nest String (List (Val β ι))), (∀ q ∈ ps, q.Clean) → Holds ((catDict p).map (·.1)) done o →
      (ps.map Point.result).foldlM (fun o r => app r o) o = .ok o' → Holds ((catDict p).map (·.1)) (done ++ ps) o' := by
    intro ps
    induction ps with
    | nil =>
      intro done o o' _ h1 h2
      cases h2
      rw [List.append_nil]
      exact h1
    | cons q ps ih =>
      intro done o o' hc h1 h2
      rw [List.map_cons, List.foldlM_cons] at h2
      obtain ⟨o1, e1, e2⟩ := except_bind_ok h2
      have := ih (done ++ [q]) o1 o' (fun r hr => hc r (by simp [hr])) (holds_step (hc q (by simp)) h1 e1) e2
      simpa using this
  have := key ps [p] _ o (fun q hq => hp q (by simp [hq])) (holds_first (hp p (by simp))) h
  simpa using this

/-! Attributes -/

/-- The attributes of a constraint are those of a warning. -/
def Marked (m : Marks ι K) (e : Event ι K) : Prop :=
  match e.about with
  | .tight c s => m.relax.get? c = some s
  | .loose c l o r rel => m.vals.get? c = some ((l, o, r), rel)
  | .other _ => True

theorem marked_mark (m : Marks ι K) (e : Event ι K) : Marked (mark m e) e := by
  unfold Marked mark
  cases he : e.about with
  | tight c s => dsimp only; rw [PyDict.get?_set_self]
  | loose c l o r rel => dsimp only; rw [PyDict.get?_set_self]
  | other c => trivial

theorem marked_keep {m : Marks ι K} {e e' : Event ι K} (h : Marked m e) (ha : Agree e e') : Marked (mark m e') e := by
  unfold Marked mark at *
  unfold Agree at ha
  cases he : e.about with
  | tight c s =>
    rw [he] at h ha
    cases he' : e'.about with
    | tight c' s' =>
      rw [he'] at ha
      dsimp only at *
      rw [get?_setD]
      split
      · rename_i hc
        rw [ha hc]
      · exact h
    | loose c l o r rel => exact h
    | other c => exact h
  | loose c l o r rel =>
    rw [he] at h ha
    cases he' : e'.about with
    | tight c' s' => exact h
    | loose c' l' o' r' rel' =>
      rw [he'] at ha
      dsimp only at *
      rw [get?_setD]
      split
      · rename_i hc
        have := ha hc
        simp only [Prod.mk.injEq] at this
        obtain ⟨rfl, rfl, rfl, rfl⟩ := this
        rfl
      · exact h
    | other c => exact h
  | other c => trivial

theorem marked_foldl {es : List (Event ι K)} (m : Marks ι K) (h : es.Pairwise Agree) : ∀ e ∈ es, Marked (es.foldl mark m) e := by
  induction es using List.reverseRecOn with
  | nil => intro e he; cases he
  | append_singleton es e ih =>
    rw [List.pairwise_append] at h
    intro e' he'
    rw [List.foldl_append, List.foldl_cons, List.foldl_nil]
    rcases List.mem_append.1 he' with he' | he'
    · exact marked_keep (ih h.1 e' he') (h.2.2 e' he' e (by simp))
    · rw [List.mem_singleton] at he'
      subst he'
      exact marked_mark _ _

/-! The table -/

/-- Lines which say nothing. -/
def silent : Line → Bool
  | .bar => true
  | .top => true
  | .rule _ => true
  | .blank => true
  | _ => false

theorem body_silent (ls ls' : List Line) (h : ∀ l ∈ ls', silent l = true) : body (ls ++ ls') = body ls := by
  have h1 : ls'.filterMap Line.msg? = [] := by
    rw [List.filterMap_eq_nil_iff]
    intro l hl
    have := h l hl
    cases l <;> first | rfl | cases this
  have h2 : ls'.filterMap Line.item? = [] := by
    rw [List.filterMap_eq_nil_iff]
    intro l hl
    have := h l hl
    cases l <;> first | rfl | cases this
  unfold body
  rw [List.filterMap_append, List.filterMap_append, h1, h2, List.append_nil, List.append_nil]

theorem takeWhile_append_silent (ls ls' : List Line) (h : ∀ l ∈ ls', silent l = true) :
    body ((ls ++ ls').takeWhile Line.below) = body (ls.takeWhile Line.below) := by
  have hb : ∀ l ∈ ls', Line.below l = true := by
    intro l hl
    have := h l hl
    cases l <;> first | rfl | cases this
  have hs : ls'.takeWhile Line.below = ls' := by
    have := List.takeWhile_append_of_pos (l₂ := []) hb
    simpa using this
  rw [List.takeWhile_append]
  split
  · rename_i hl
    rw [hs, show ls.takeWhile Line.below = ls from (List.takeWhile_prefix _).eq_of_length hl]
    exact body_silent _ _ h
  · rfl

theorem read_silent (ls ls' : List Line) (h : ∀ l ∈ ls', silent l = true) : read (ls ++ ls') = read ls := by
  induction ls with
  | nil =>
    rw [List.nil_append]
    induction ls' with
    | nil => rfl
    | cons l ls' ih =>
      have := h l (by simp)
      have ih := ih (fun l hl => h l (by simp [hl]))
      cases l <;> simp_all [silent, read]
  | cons l ls ih =>
    cases l <;> simp only [List.cons_append, read, ih, takeWhile_append_silent _ _ h]

/-- A part of the table: a title, and lines up to a blank one. -/
def IsPart (t : Str) (b : List Seen) (ls : List Line) : Prop :=
  ∃ rest, ls = .title t :: rest ++ [.blank] ∧ (∀ l ∈ rest, l.below = true) ∧ body rest = b

theorem read_part {t : Str} {b : List Seen} {ls : List Line} (h : IsPart t b ls) (more : List Line)
    (hm : more = [] ∨ ∃ t' m, more = .title t' :: m) : read (ls ++ more) = (t, b) :: read more := by
  obtain ⟨rest, rfl, h1, rfl⟩ := h
  have h2 : ∀ l ∈ rest ++ [Line.blank], l.below = true := by
    intro l hl
    rcases List.mem_append.1 hl with hl | hl
    · exact h1 l hl
    · rw [List.mem_singleton] at hl
      subst hl
      rfl
  have h3 : ((rest ++ [Line.blank]) ++ more).takeWhile Line.below = rest ++ [Line.blank] := by
    rw [List.takeWhile_append_of_pos h2]
    rcases hm with rfl | ⟨t', m, rfl⟩ <;> simp [Line.below]
  rw [show (Line.title t :: rest ++ [Line.blank]) ++ more = .title t :: ((rest ++ [.blank]) ++ more) by simp, read, h3]
  congr 1
  · rw [body_silent _ [.blank] (by simp [silent])]
  · generalize hr : rest ++ [Line.blank] = r at h2
    clear h3 hr h1
    induction r with
    | nil => rfl
    | cons l r ih =>
      have := h2 l (by simp)
      have ih := ih (fun l hl => h2 l (by simp [hl]))
      cases l <;> simp_all [Line.below, read]

theorem read_parts {tbs : List (Str × List Seen)} {lss : List (List Line)} (h : List.Forall₂ (fun tb ls => IsPart tb.1 tb.2 ls) tbs lss) :
    read lss.flatten = tbs := by
  induction h with
  | nil => rfl
  | @cons tb ls tbs lss h1 h2 ih =>
    rw [List.flatten_cons, read_part h1, ih]
    cases h2 with
    | nil => exact Or.inl rfl
    | @cons tb' ls' tbs' lss' h3 h4 =>
      obtain ⟨rest, rfl, _⟩ := h3
      exact Or.inr ⟨_, _, rfl⟩

theorem parts_end {tbs : List (Str × List Seen)} {lss : List (List Line)} (h : List.Forall₂ (fun tb ls => IsPart tb.1 tb.2 ls) tbs lss) :
    lss.flatten = [] ∨ ∃ init, lss.flatten = init ++ [.blank] := by
  induction h with
  | nil => exact Or.inl rfl
  | @cons tb ls tbs lss h1 h2 ih =>
    obtain ⟨rest, rfl, _⟩ := h1
    rw [List.flatten_cons]
    rcases ih with ih | ⟨init, ih⟩
    · exact Or.inr ⟨.title tb.1 :: rest, by rw [ih, List.append_nil]⟩
    · exact Or.inr ⟨(.title tb.1 :: rest ++ [.blank]) ++ init, by rw [ih]; simp⟩

/-- The whole table, read. -/
theorem read_table {tbs : List (Str × List Seen)} {lss : List (List Line)} (h : List.Forall₂ (fun tb ls => IsPart tb.1 tb.2 ls) tbs lss) :
    read ([.bar, .top, .bar] ++ lss.flatten.dropLast ++ [.bar, .blank]) = tbs := by
  have h0 : ∀ ls, read ([Line.bar, .top, .bar] ++ ls) = read ls := fun ls => rfl
  rw [List.append_assoc, h0, read_silent _ _ (by simp [silent]), ← read_parts h]
  rcases parts_end h with hf | ⟨init, hf⟩
  · rw [hf]; rfl
  · rw [hf, List.dropLast_concat, read_silent _ [Line.blank] (by simp [silent])]

/-! Parts -/

theorem read_msgs (ws : List (Warning ι)) : body (ws.map (fun w => Line.msg w.msg)) = ws.map (fun w => .msg w.msg) := by
  have h1 : (ws.map (fun w => Line.msg w.msg)).filterMap Line.item? = [] := by
    rw [List.filterMap_eq_nil_iff]
    intro l hl
    obtain ⟨w, _, rfl⟩ := List.mem_map.1 hl
    rfl
  have h2 : (ws.map (fun w => Line.msg w.msg)).filterMap Line.msg? = ws.map (fun w => .msg w.msg) := by
    rw [List.filterMap_map, ← List.filterMap_eq_map]
    rfl
  rw [body, h1, h2]
  simp [ConstrTables.readItems]

theorem read_items (is : List ConstrTables.Item) : body (is.map Line.item) = (ConstrTables.readItems [] is).map (fun r => .row r.1 r.2.1 r.2.2) := by
  have h1 : (is.map Line.item).filterMap Line.msg? = [] := by
    rw [List.filterMap_eq_nil_iff]
    intro l hl
    obtain ⟨w, _, rfl⟩ := List.mem_map.1 hl
    rfl
  have h2 : (is.map Line.item).filterMap Line.item? = is := by
    rw [List.filterMap_map]
    exact List.filterMap_some
  rw [body, h1, h2, List.nil_append]

theorem body_rule (n : Nat) (ls : List Line) : body (.rule n :: ls) = body ls := rfl

theorem warning_msg (e : Event ι K) : e.warning.msg = e.msg := by
  unfold Event.warning
  cases e.about <;> rfl

theorem textPart (P : Show ι K) (t : Str) (n : Nat) {es' es : List (Event ι K)} (hp : es'.Perm es) :
    ∃ b, IsPart t b ([.title t, .rule n] ++ (es'.map Event.warning).map (fun w => Line.msg w.msg) ++ [.blank]) ∧ TellsAll P es b := by
  refine ⟨es'.map (fun e => .msg e.msg), ⟨.rule n :: (es'.map Event.warning).map (fun w => Line.msg w.msg), by simp, ?_, ?_⟩, es', hp, ?_⟩
  · intro l hl
    rcases List.mem_cons.1 hl with rfl | hl
    · rfl
    · obtain ⟨w, _, rfl⟩ := List.mem_map.1 hl
      rfl
  · rw [body_rule, read_msgs, List.map_map]
    apply List.map_congr_left
    intro e _
    rw [Function.comp_apply, warning_msg]
  · rw [List.forall₂_map_right_iff]
    exact List.forall₂_same.2 (fun e _ => Or.inl rfl)

/-- A part about constraints. -/
theorem conPart_ok (P : Show ι K) (find : ι → Option (Int × Str)) (t : Str) {es' es : List (Event ι K)} (hp : es'.Perm es) (con : Event ι K → ι)
    (shown : Event ι K → Int × Str) (hw : ∀ e ∈ es, e.warning.data = some (con e)) (hf : ∀ e ∈ es, find (con e) = some (shown e))
    (ha : ∀ e ∈ es, ConstrTables.Apart P.T (con e))
    (ht : ∀ e ∈ es, Tells P e (.row (P.T.model (con e)) (shown e).2 (P.T.text (con e)))) :
    ∃ ls b, conPart P find t (es'.map Event.warning) = .ok ls ∧ IsPart t b ls ∧ TellsAll P es b := by
  have hm : (es'.map Event.warning).mapM (datum find) = .ok (es'.map (fun e => ⟨(shown e).1, (shown e).2, con e⟩)) := by
    clear ht ha
    have hw' : ∀ e ∈ es', e.warning.data = some (con e) := fun e he => hw e (hp.subset he)
    have hf' : ∀ e ∈ es', find (con e) = some (shown e) := fun e he => hf e (hp.subset he)
    clear hw hf hp
    induction es' with
    | nil => rfl
    | cons e es' ih =>
      rw [List.map_cons, List.mapM_cons, ih (fun e he => hw' e (by simp [he])) (fun e he => hf' e (by simp [he]))]
      rw [datum, hw' e (by simp)]
      dsimp only
      rw [hf' e (by simp)]
      rfl
  obtain ⟨rows, r1, r2, _⟩ := ConstrTables.table_spec P.T (es'.map (fun e => (⟨(shown e).1, (shown e).2, con e⟩ : ConstrTables.Datum ι Int))) (by
    intro d hd
    obtain ⟨e, he, rfl⟩ := List.mem_map.1 hd
    exact ha e (hp.subset he))
  obtain ⟨es'', p1, rfl⟩ := Tables.perm_map_inv _ r1
  refine ⟨_, es''.map (fun e => .row (P.T.model (con e)) (shown e).2 (P.T.text (con e))), by rw [conPart, hm],
    ⟨.rule t.length :: (ConstrTables.constraintTable P.T (es'.map (fun e => ⟨(shown e).1, (shown e).2, con e⟩))).map .item, by simp, ?_, ?_⟩, es'',
    p1.trans hp, ?_⟩
  · intro l hl
    rcases List.mem_cons.1 hl with rfl | hl
    · rfl
    · obtain ⟨w, _, rfl⟩ := List.mem_map.1 hl
      rfl
  · rw [body_rule, read_items, r2, List.map_map, List.map_map]
    rfl
  · rw [List.forall₂_map_right_iff]
    exact List.forall₂_same.2 (fun e he => ht e ((p1.trans hp).subset he))

/-- A part of the table tells of the warnings of its category. -/
theorem part_ok (P : Show ι K) (m : Marks ι K) (c : String) (n i : Nat) (es : List (Event ι K)) (hne : es ≠ []) (hc : ∀ e ∈ es, e.cat = c)
    (hpr : ∀ e ∈ es, e.Proper) (hm : ∀ e ∈ es, Marked m e) (ha : ∀ e ∈ es, ∀ x, e.con? = some x → ConstrTables.Apart P.T x) :
    ∃ ls b, part P m c n i (es.map Event.warning) = .ok ls ∧ IsPart (titleOf c n i) b ls ∧ TellsAll P es b := by
  obtain ⟨es', p1, p2⟩ := Tables.perm_map_inv (f := Event.warning) es (List.mergeSort_perm _ (fun a b : Warning ι => decide (a.msg ≤ b.msg)))
  obtain ⟨x, hx⟩ := List.exists_mem_of_ne_nil es hne
  have hft : ∃ t, firstTrue P (es'.map Event.warning) = .ok t := by
    cases es' with
    | nil => exact absurd (p1.symm.subset hx) (by simp)
    | cons e es' => exact ⟨_, rfl⟩
  obtain ⟨t, hft⟩ := hft
  obtain ⟨b0, q1, q2⟩ := textPart P (titleOf c n i) c.length p1
  rw [part, p2, hft]
  by_cases h1 : c = tightCat
  · rw [if_pos h1]
    cases t with
    | false => exact ⟨_, b0, rfl, q1, q2⟩
    | true =>
      dsimp only
      have hall : ∀ e ∈ es, ∃ y s, e.about = .tight y s := by
        intro e he
        have h2 := hc e he
        have h3 := hpr e he
        unfold Event.cat at h2
        unfold Event.Proper at h3
        cases hab : e.about with
        | tight y s => exact ⟨y, s, rfl⟩
        | loose y l o r rel => rw [hab, h1] at h2; exact absurd (show looseCat = tightCat from h2) (by decide)
        | other k => rw [hab] at h2 h3; exact absurd (h2.trans h1) h3.1
      classical
      have : ∀ e : Event ι K, ∃ ys : ι × (Int × Str), e ∈ es → e.warning.data = some ys.1 ∧ findTight P m ys.1 = some ys.2 ∧ ConstrTables.Apart P.T ys.1 ∧
          Tells P e (.row (P.T.model ys.1) ys.2.2 (P.T.text ys.1)) := by
        intro e
        by_cases he : e ∈ es
        · obtain ⟨y, s, hab⟩ := hall e he
          refine ⟨(y, (-P.int s, P.sens s)), fun _ => ⟨by rw [Event.warning, hab], ?_, ha e he y (by rw [Event.con?, hab]), ?_⟩⟩
          · have := hm e he
            rw [Marked, hab] at this
            dsimp only at this
            rw [findTight, this]
            rfl
          · right
            rw [hab]
        · obtain ⟨y, s, _⟩ := hall x hx
          exact ⟨(y, (0, [])), fun h => absurd h he⟩
      choose f hf using this
      exact conPart_ok P (findTight P m) _ p1 (fun e => (f e).1) (fun e => (f e).2) (fun e he => (hf e he).1) (fun e he => (hf e he).2.1)
        (fun e he => (hf e he).2.2.1) (fun e he => (hf e he).2.2.2)
  · rw [if_neg h1]
    by_cases h1' : c = looseCat
    · rw [if_pos h1']
      cases t with
      | false => exact ⟨_, b0, rfl, q1, q2⟩
      | true =>
        dsimp only
        have hall : ∀ e ∈ es, ∃ y l o r rel, e.about = .loose y l o r rel := by
          intro e he
          have h2 := hc e he
          have h3 := hpr e he
          unfold Event.cat at h2
          unfold Event.Proper at h3
          cases hab : e.about with
          | tight y s => rw [hab, h1'] at h2; exact absurd (show tightCat = looseCat from h2) (by decide)
          | loose y l o r rel => exact ⟨y, l, o, r, rel, rfl⟩
          | other k => rw [hab] at h2 h3; exact absurd (h2.trans h1') h3.2
        classical
        have : ∀ e : Event ι K, ∃ ys : ι × (Int × Str), e ∈ es → e.warning.data = some ys.1 ∧ findLoose P m ys.1 = some ys.2 ∧ ConstrTables.Apart P.T ys.1 ∧
            Tells P e (.row (P.T.model ys.1) ys.2.2 (P.T.text ys.1)) := by
          intro e
          by_cases he : e ∈ es
          · obtain ⟨y, l, o, r, rel, hab⟩ := hall e he
            refine ⟨(y, (-P.int rel, P.vals (l, o, r))), fun _ => ⟨by rw [Event.warning, hab], ?_, ha e he y (by rw [Event.con?, hab]), ?_⟩⟩
            · have := hm e he
              rw [Marked, hab] at this
              dsimp only at this
              rw [findLoose, this]
              rfl
            · right
              rw [hab]
          · obtain ⟨y, l, o, r, rel, _⟩ := hall x hx
            exact ⟨(y, (0, [])), fun h => absurd h he⟩
        choose f hf using this
        exact conPart_ok P (findLoose P m) _ p1 (fun e => (f e).1) (fun e => (f e).2) (fun e he => (hf e he).1) (fun e he => (hf e he).2.1)
          (fun e he => (hf e he).2.2.1) (fun e he => (hf e he).2.2.2)
    · rw [if_neg h1']
      exact ⟨_, b0, rfl, q1, q2⟩

end
end WarnTable
end Verif
