import Verif.Model.SweepArray
import Verif.Props.AutoArray

/-! C96: the solution array of a sweep. -/

set_option linter.unusedSectionVars false

namespace Verif
open PyDict
namespace SweepArr
open DoL

section
variable {S K α β : Type} [DecidableEq S] [DecidableEq K]

theorem wf_of_nodup {B : Type} {d : PyDict S B} (h : (d.map (·.1)).Nodup) : PyDict.WF d := by
  unfold PyDict.WF
  exact (List.pairwise_map.1 h).imp (fun h => by simpa using h)

theorem nodup_of_wf {B : Type} {d : PyDict S B} (h : PyDict.WF d) : (d.map (·.1)).Nodup := by
  unfold PyDict.WF at h
  exact List.pairwise_map.2 (h.imp (fun h => by simpa using h))

theorem mem_setD {B : Type} {d : PyDict S B} {k : S} {v : B} {p : S × B} (h : p ∈ PyDict.set d k v) : p ∈ d ∨ p.2 = v := by
  induction d with
  | nil => simp only [PyDict.set, List.mem_singleton] at h; subst h; exact Or.inr rfl
  | cons q d ih =>
    obtain ⟨k', v'⟩ := q
    rw [set_cons] at h
    split at h
    · rcases List.mem_cons.1 h with rfl | h
      · exact Or.inr rfl
      · exact Or.inl (List.mem_cons_of_mem _ h)
    · rcases List.mem_cons.1 h with rfl | h
      · exact Or.inl (by simp)
      · exact (ih h).imp (List.mem_cons_of_mem _) id

theorem mapItems_map (f : α → β) (d : List (S × Nest S α)) : mapItems f d = d.map (fun kv => (kv.1, mapLeaves f kv.2)) := by
  induction d with
  | nil => rw [mapItems]; rfl
  | cons kv d ih => obtain ⟨k, v⟩ := kv; rw [mapItems, ih]; rfl

theorem mapLeaves_wf (f : α → β) {n : Nest S α} (h : n.WF) : (mapLeaves f n).WF := by
  induction h with
  | leaf a => rw [mapLeaves]; exact .leaf _
  | dict hn _ ih =>
    rw [mapLeaves, mapItems_map]
    refine .dict (by rw [List.map_map]; exact hn) ?_
    intro kv hkv
    obtain ⟨q, hq, rfl⟩ := List.mem_map.1 hkv
    exact ih q hq

theorem appItems_wf (d : List (S × Nest S α)) (ih : ∀ kv ∈ d, ∀ o o' : Nest S (List α), o.WF → app kv.2 o = .ok o' → o'.WF) :
    ∀ o o' : PyDict S (Nest S (List α)), (o.map (·.1)).Nodup → (∀ kv ∈ o, kv.2.WF) → appItems d o = .ok o' →
      (o'.map (·.1)).Nodup ∧ ∀ kv ∈ o', kv.2.WF := by
  induction d with
  | nil => intro o o' h1 h2 h; rw [appItems] at h; cases h; exact ⟨h1, h2⟩
  | cons kv d ihd =>
    obtain ⟨k, v⟩ := kv
    intro o o' h1 h2 h
    rw [appItems] at h
    cases hg : PyDict.get? o k with
    | none => rw [hg] at h; cases h
    | some w =>
      rw [hg] at h
      dsimp only at h
      cases ha : app v w with
      | error e => rw [ha] at h; cases h
      | ok w' =>
        rw [ha] at h
        refine ihd (fun kv hkv => ih kv (by simp [hkv])) _ o' (nodup_of_wf (wf_set (wf_of_nodup h1) k w')) ?_ h
        intro p hp
        rcases mem_setD hp with hp | hp
        · exact h2 p hp
        · rw [hp]
          exact ih (k, v) (by simp) w w' (h2 _ (mem_of_get?D hg)) ha

theorem app_wf {a : Nest S α} (h : a.WF) : ∀ o o' : Nest S (List α), o.WF → app a o = .ok o' → o'.WF := by
  induction h with
  | leaf x =>
    intro o o' _ h
    cases o with
    | leaf l => rw [app] at h; cases h; exact .leaf _
    | dict d => rw [app] at h; cases h
  | @dict d hn hw ih =>
    intro o o' ho h
    cases o with
    | leaf l =>
      cases d with
      | nil => rw [app] at h; cases h; exact .leaf _
      | cons p d =>
        rw [app] at h
        · cases h
        · intro h'; cases h'
    | dict o =>
      rw [app] at h
      cases ha : appItems d o with
      | error e => rw [ha] at h; cases h
      | ok o1 =>
        rw [ha] at h
        cases h
        cases ho with
        | dict h1 h2 =>
          obtain ⟨e1, e2⟩ := appItems_wf d ih o o1 h1 h2 ha
          exact .dict e1 e2

theorem appendAll_wf {r : Nest S α} (rs : List (Nest S α)) (hw : ∀ r' ∈ r :: rs, r'.WF) {o : Nest S (List α)} (h : appendAll (r :: rs) = .ok o) : o.WF := by
  have key : ∀ (rs : List (Nest S α)) (o o' : Nest S (List α)), (∀ r' ∈ rs, r'.WF) → o.WF → rs.foldlM (fun o r => app r o) o = .ok o' → o'.WF := by
    intro rs
    induction rs with
    | nil => intro o o' _ h1 h2; cases h2; exact h1
    | cons r rs ih =>
      intro o o' hw ho h
      rw [List.foldlM_cons] at h
      cases ha : app r o with
      | error e => rw [ha] at h; cases h
      | ok o1 =>
        rw [ha] at h
        exact ih o1 o' (fun r' h => hw r' (by simp [h])) (app_wf (hw r (by simp)) _ _ ho ha) h
  refine key rs (enlist r) o (fun r' h => hw r' (by simp [h])) ?_ h
  rw [enlist_eq]
  exact mapLeaves_wf _ (hw r (by simp))

theorem leafAt_cons (d : List (S × Nest S α)) (k : S) (p : List S) :
    (Nest.dict d).leafAt (k :: p) = (PyDict.get? d k).bind (fun v => v.leafAt p) := by
  unfold Nest.leafAt
  rw [Nest.at]
  cases PyDict.get? d k <;> rfl

theorem at_two {d c : List (S × Nest S α)} {q : S} (h : PyDict.get? d q = some (.dict c)) (k : S) : (Nest.dict d).at [q, k] = PyDict.get? c k := by
  simp only [Nest.at, h]
  cases PyDict.get? c k <;> rfl

/-- What the loop does to each key. -/
theorem collect_loop (swept : S → Bool) (linked : Bool) (l : List (S × Nest S (List (Leaf K)))) (hl : (l.map (·.1)).Nodup)
    (hv : ∀ kv ∈ l, ∃ v vs, kv.2 = .leaf (v :: vs)) :
    ∀ c w : PyDict S (Nest S (List (Leaf K))), PyDict.WF c → ∃ c' w', l.foldlM (collectStep swept linked) (c, w) = .ok (c', w') ∧
      (∀ q, q ∉ l.map (·.1) → PyDict.get? c' q = PyDict.get? c q ∧ PyDict.get? w' q = PyDict.get? w q) ∧
      ∀ k v vs, (k, Nest.leaf (v :: vs)) ∈ l →
        if swept k then PyDict.get? c' k = none ∧ PyDict.get? w' k = some (.leaf (v :: vs))
        else PyDict.get? c' k = some (.leaf (reduced linked v vs)) ∧ PyDict.get? w' k = PyDict.get? w k := by
  induction l with
  | nil => intro c w _; exact ⟨c, w, rfl, fun _ _ => ⟨rfl, rfl⟩, fun _ _ _ h => (List.not_mem_nil h).elim⟩
  | cons kv l ih =>
    obtain ⟨k, n⟩ := kv
    intro c w hc
    rw [List.map_cons, List.nodup_cons] at hl
    obtain ⟨v, vs, hn⟩ := hv (k, n) (by simp)
    dsimp only at hn
    subst hn
    have hlater : ∀ q v vs, (q, Nest.leaf (v :: vs)) ∈ l → q ≠ k := by
      intro q v vs hm he
      exact hl.1 (he ▸ List.mem_map_of_mem (f := (·.1)) hm)
    by_cases hs : swept k = true
    · obtain ⟨c', w', e1, e2, e3⟩ := ih hl.2 (fun kv h => hv kv (by simp [h])) (PyDict.del c k) (PyDict.set w k (.leaf (v :: vs))) (wf_del hc k)
      refine ⟨c', w', ?_, ?_, ?_⟩
      · rw [List.foldlM_cons]
        have : collectStep swept linked (c, w) (k, .leaf (v :: vs)) = .ok (PyDict.del c k, PyDict.set w k (.leaf (v :: vs))) := by
          unfold collectStep; dsimp only; rw [if_pos hs]
        rw [this]
        exact e1
      · intro q hq
        rw [List.map_cons, List.mem_cons, not_or] at hq
        obtain ⟨a, b⟩ := e2 q hq.2
        have hkq : ¬ (k == q) = true := by simpa using fun h : k = q => hq.1 h.symm
        refine ⟨?_, ?_⟩
        · rw [a, get?_del hc, if_neg hkq]
        · rw [b, get?_setD, if_neg hq.1]
      · intro q u us hm
        rcases List.mem_cons.1 hm with hm | hm
        · cases hm
          rw [if_pos hs]
          obtain ⟨a, b⟩ := e2 k hl.1
          refine ⟨?_, ?_⟩
          · rw [a, get?_del hc, if_pos (by simp)]
          · rw [b, get?_setD, if_pos rfl]
        · have := e3 q u us hm
          have hne := hlater q u us hm
          split
          · rwa [if_pos ‹_›] at this
          · rw [if_neg ‹_›] at this
            refine ⟨this.1, ?_⟩
            rw [this.2, get?_setD, if_neg hne]
    · obtain ⟨c', w', e1, e2, e3⟩ := ih hl.2 (fun kv h => hv kv (by simp [h])) (PyDict.set c k (.leaf (reduced linked v vs))) w (wf_set hc k _)
      refine ⟨c', w', ?_, ?_, ?_⟩
      · rw [List.foldlM_cons]
        have : collectStep swept linked (c, w) (k, .leaf (v :: vs)) = .ok (PyDict.set c k (.leaf (reduced linked v vs)), w) := by
          unfold collectStep; dsimp only; rw [if_neg hs]
        rw [this]
        exact e1
      · intro q hq
        rw [List.map_cons, List.mem_cons, not_or] at hq
        obtain ⟨a, b⟩ := e2 q hq.2
        exact ⟨by rw [a, get?_setD, if_neg hq.1], b⟩
      · intro q u us hm
        rcases List.mem_cons.1 hm with hm | hm
        · cases hm
          rw [if_neg hs]
          obtain ⟨a, b⟩ := e2 k hl.1
          exact ⟨by rw [a, get?_setD, if_pos rfl], b⟩
        · exact e3 q u us hm

theorem rows_of {r : Nest S α} {rs : List (Nest S α)} (hs : ∀ r' ∈ rs, Same r r') {o : Nest S (List α)} (ho : Same r o)
    (h : ∀ p xs, (r :: rs).map (·.leafAt p) = xs.map some → o.leafAt p = some xs) {p : List S} {l : List α} (hl : o.leafAt p = some l) :
    (r :: rs).map (·.leafAt p) = l.map some := by
  have hall : ∀ q ∈ r :: rs, ∃ x, q.leafAt p = some x := by
    intro q hq
    have hq' : Same q o := by
      rcases List.mem_cons.1 hq with rfl | hq
      · exact ho
      · exact (hs q hq).symm.trans ho
    have := same_leafAt hq' p
    rw [hl] at this
    exact Option.isSome_iff_exists.1 this
  have hxs : ∃ xs : List α, (r :: rs).map (·.leafAt p) = xs.map some := by
    generalize r :: rs = l at hall
    induction l with
    | nil => exact ⟨[], rfl⟩
    | cons q l ih =>
      obtain ⟨x, hx⟩ := hall q (by simp)
      obtain ⟨xs, hxs⟩ := ih (fun q hq => hall q (by simp [hq]))
      exact ⟨x :: xs, by rw [List.map_cons, hx, hxs]; rfl⟩
  obtain ⟨xs, hxs⟩ := hxs
  have := h p xs hxs
  rw [hl] at this
  cases this
  exact hxs

end
end SweepArr

section
open SweepArr DoL
variable {S K : Type} [DecidableEq S] [DecidableEq K]

/-- C96: a sweep whose solutions have the same keys returns an array whose i-th solution is the i-th that was found. Swept variables have their values among the
swept variables, and other constants among the constants; everything else is as it was found. The length is the number of solutions. Partial: constants that are not swept are numbers, and without
functions the same in all solutions (`C67_points_partial`); solutions with different keys, vectors of constants and single points with arrays are excluded (see the
witnesses). -/
theorem C96_array_partial (cK sK : S) (hcs : cK ≠ sK) (swept : S → Bool) (linked : Bool) (r : Nest S (Leaf K)) (rs : List (Nest S (Leaf K)))
    (hw : ∀ r' ∈ r :: rs, r'.WF) (hs : ∀ r' ∈ rs, Same r r') (h1 : rs ≠ [] ∨ ∀ p a, r.leafAt p = some a → ∃ k, a = .num k)
    (hc : (r.at [cK]).map Nest.isDict = some true) (hc' : ∀ k n, r.at [cK, k] = some n → n.isDict = false)
    (hnum : ∀ k a, swept k = false → r.leafAt [cK, k] = some a → ∃ x, a = .num x)
    (hsame : linked = false → ∀ k, swept k = false → ∀ r' ∈ rs, r'.leafAt [cK, k] = r.leafAt [cK, k]) :
    ∃ o, sweepArray cK sK swept linked (r :: rs) = .ok o ∧
      (∀ cost a, cost ≠ cK → cost ≠ sK → r.leafAt [cost] = some (.num a) → Auto.solLen cost o = (r :: rs).length) ∧ ∀ i r', (r :: rs)[i]? = some r' →
      (∀ k p, k ≠ cK → k ≠ sK → (atindex i o).leafAt (k :: p) = (r'.leafAt (k :: p)).map .val) ∧
      (∀ k, (atindex i o).leafAt [cK, k] = if swept k then none else (r'.leafAt [cK, k]).map .val) ∧
      ∀ k, (atindex i o).leafAt [sK, k] = if swept k then (r'.leafAt [cK, k]).map .val else none := by
  obtain ⟨o, e1, e2⟩ := C29_read_partial r rs hw hs h1
  obtain ⟨o', f1, f2, f3⟩ := appendAll_ok (r := r) rs (fun r' hr' => hw r' (by simp [hr'])) hs
  rw [e1] at f1
  cases f1
  have hwf := appendAll_wf rs hw e1
  have hoc := f2 [cK]
  rw [hc] at hoc
  cases hwf with
  | leaf a => simp [Nest.at] at hoc
  | @dict d hn hdw =>
    simp only [Nest.at] at hoc
    cases hg : PyDict.get? d cK with
    | none => rw [hg] at hoc; cases hoc
    | some n =>
      rw [hg] at hoc
      cases n with
      | leaf a => simp [Nest.isDict] at hoc
      | dict c =>
        have hcw : (Nest.dict c).WF := hdw _ (mem_of_get?D hg)
        cases hcw with
        | dict hcn _ =>
          have hat : ∀ k, (Nest.dict d).at [cK, k] = PyDict.get? c k := at_two hg
          have hleaf : ∀ k n, PyDict.get? c k = some n → ∃ v vs, n = .leaf (v :: vs) := by
            intro k n hk
            have h2 := f2 [cK, k]
            rw [hat, hk] at h2
            cases hr : r.at [cK, k] with
            | none => rw [hr] at h2; cases h2
            | some m =>
              rw [hr] at h2
              have h3 := hc' k m hr
              simp only [Option.map_some, Option.some.injEq] at h2
              rw [h3] at h2
              cases n with
              | dict x => simp [Nest.isDict] at h2
              | leaf l =>
                have hl : (Nest.dict d).leafAt [cK, k] = some l := by
                  unfold Nest.leafAt
                  rw [hat, hk]
                have := rows_of hs f2 f3 hl
                cases l with
                | nil => cases this
                | cons v vs => exact ⟨v, vs, rfl⟩
          obtain ⟨c', w', g1, g2, g3⟩ := collect_loop swept linked c hcn (fun kv hkv => hleaf kv.1 kv.2 (get?_of_memD hcn hkv)) c [] (wf_of_nodup hcn)
          refine ⟨toArrays (.dict (PyDict.set (PyDict.set d sK (.dict w')) cK (.dict c'))), ?_, ?_, ?_⟩
          · unfold sweepArray collect
            dsimp only
            rw [e1]
            dsimp only
            rw [hg]
            dsimp only
            rw [g1]
            rfl
          · intro cost a h2 h3 ha
            have hso := same_leafAt f2 [cost]
            rw [ha] at hso
            obtain ⟨l, hl⟩ := Option.isSome_iff_exists.1 hso.symm
            have hrow := rows_of hs f2 f3 hl
            have hlen := congrArg List.length hrow
            rw [List.length_map, List.length_map] at hlen
            have ho : (toArrays (.dict (PyDict.set (PyDict.set d sK (.dict w')) cK (.dict c')))).leafAt [cost] = some (enrayLeaf l) := by
              rw [leafAt_cons] at hl
              unfold toArrays
              rw [leafAt_mapLeaves, leafAt_cons, get?_setD, if_neg h2, get?_setD, if_neg h3, hl]
              rfl
            obtain ⟨e, he, hge⟩ := Auto.dict_of_leafAt ho
            rw [he, hlen]
            unfold Auto.solLen
            dsimp only
            rw [hge]
            cases l with
            | nil => cases hrow
            | cons x l =>
              rw [List.map_cons, List.map_cons, List.cons.injEq, ha] at hrow
              cases hrow.1
              cases l with
              | nil => rfl
              | cons y l => rfl
          · intro i r' hi
            obtain ⟨_, e3⟩ := e2 i r' hi
            have hread : ∀ (n : Nest S (List (Leaf K))) p, (atindex i (toArrays n)).leafAt p = ((n.leafAt p).map enrayLeaf).map (indexLeaf i) := by
              intro n p
              unfold atindex toArrays
              rw [leafAt_mapLeaves, leafAt_mapLeaves]
            have hold : ∀ k, (Nest.dict d).leafAt [cK, k] = (PyDict.get? c k).bind (fun v => v.leafAt []) := by
              intro k
              rw [leafAt_cons, hg]
              exact leafAt_cons c k []
            refine ⟨?_, ?_, ?_⟩
            · intro k p h2 h3
              rw [← e3, hread, hread, leafAt_cons, leafAt_cons, get?_setD, if_neg h2, get?_setD, if_neg h3]
            · intro k
              have hnew : (Nest.dict (PyDict.set (PyDict.set d sK (.dict w')) cK (.dict c'))).leafAt [cK, k] =
                  (PyDict.get? c' k).bind (fun v => v.leafAt []) := by
                rw [leafAt_cons, get?_setD, if_pos rfl]
                exact leafAt_cons c' k []
              rw [← e3, hread, hread, hnew, hold]
              cases hk : PyDict.get? c k with
              | none =>
                have hnk : k ∉ c.map (·.1) := by
                  intro hm
                  obtain ⟨kv, hkv, rfl⟩ := List.mem_map.1 hm
                  rw [get?_of_memD hcn hkv] at hk
                  cases hk
                rw [(g2 k hnk).1, hk]
                split <;> rfl
              | some n =>
                obtain ⟨v, vs, rfl⟩ := hleaf k n hk
                have h4 := g3 k v vs (mem_of_get?D hk)
                by_cases hsw : swept k = true
                · rw [if_pos hsw] at h4 ⊢
                  rw [h4.1]
                  rfl
                · rw [if_neg hsw] at h4 ⊢
                  rw [h4.1]
                  have hrow := rows_of hs f2 f3 (p := [cK, k]) (l := v :: vs) (by rw [hold, hk]; rfl)
                  rw [List.map_cons, List.map_cons, List.cons.injEq] at hrow
                  obtain ⟨x, rfl⟩ := hnum k v (by simpa using hsw) hrow.1
                  show some (indexLeaf i (enrayLeaf (reduced linked (.num x) vs))) = some (indexLeaf i (enrayLeaf (.num x :: vs)))
                  congr 1
                  unfold reduced
                  split
                  · rfl
                  · have hall : ∀ l ∈ vs, l = .num x := by
                      cases hlk : linked with
                      | true =>
                        rename_i hn
                        rw [hlk] at hn
                        simpa using hn
                      | false =>
                        intro l hl
                        have hm : some l ∈ vs.map some := List.mem_map_of_mem hl
                        rw [← hrow.2] at hm
                        obtain ⟨q, hq, hq'⟩ := List.mem_map.1 hm
                        rw [hsame hlk k (by simpa using hsw) q hq, hrow.1] at hq'
                        cases hq'; rfl
                    have hlen : i < (Leaf.num x :: vs).length := by
                      have := (List.getElem?_eq_some_iff.1 hi).1
                      have h5 := congrArg List.length hrow.2
                      simp only [List.length_map] at h5
                      simp only [List.length_cons] at this ⊢
                      omega
                    have hxi : (Leaf.num x :: vs)[i]? = some (.num x) := by
                      rw [List.getElem?_eq_getElem hlen]
                      have := List.getElem_mem hlen
                      rcases List.mem_cons.1 this with h | h
                      · rw [h]
                      · rw [hall _ h]
                    cases vs with
                    | nil => rfl
                    | cons y ys => simp only [enrayLeaf, indexLeaf, hxi]
            · intro k
              have hnew : (Nest.dict (PyDict.set (PyDict.set d sK (.dict w')) cK (.dict c'))).leafAt [sK, k] =
                  (PyDict.get? w' k).bind (fun v => v.leafAt []) := by
                rw [leafAt_cons, get?_setD, if_neg (Ne.symm hcs), get?_setD, if_pos rfl]
                exact leafAt_cons w' k []
              rw [← e3, hread, hread, hnew, hold]
              cases hk : PyDict.get? c k with
              | none =>
                have hnk : k ∉ c.map (·.1) := by
                  intro hm
                  obtain ⟨kv, hkv, rfl⟩ := List.mem_map.1 hm
                  rw [get?_of_memD hcn hkv] at hk
                  cases hk
                rw [(g2 k hnk).2]
                split <;> rfl
              | some n =>
                obtain ⟨v, vs, rfl⟩ := hleaf k n hk
                have h4 := g3 k v vs (mem_of_get?D hk)
                by_cases hsw : swept k = true
                · rw [if_pos hsw] at h4 ⊢
                  rw [h4.2]
                · rw [if_neg hsw] at h4 ⊢
                  rw [h4.2]
                  rfl

/-- C96 is violated for vectors of constants: they are kept once, so that `atindex(i)` gives the i-th element instead. -/
theorem C96_vector_fails :
    (sweepArray "constants" "sweepvariables" (fun k => k == "x") false
      [(.dict [("constants", .dict [("x", .leaf (.num 1)), ("v", .leaf (.vec [5, 6]))])] : Nest String (Leaf Nat)),
        .dict [("constants", .dict [("x", .leaf (.num 2)), ("v", .leaf (.vec [5, 6]))])]]).toOption.map
      (fun o => ((atindex 1 o).leafAt ["sweepvariables", "x"], (atindex 1 o).leafAt ["constants", "v"])) =
      some (some (.val (.num 2)), some (.val (.num 6))) := by
  decide +kernel

/-- C96 is violated if a solution after the first has warnings that the first has not (gpkit/small_scripts.py 6-12): nothing is returned, though every point was
solved. -/
theorem C96_warnings_fails :
    (sweepArray "constants" "sweepvariables" (fun k => k == "x") false
      [(.dict [("constants", .dict [("x", .leaf (.num 1))])] : Nest String (Leaf Nat)),
        .dict [("constants", .dict [("x", .leaf (.num 2))]), ("warnings", .dict [("loose", .leaf (.num 9))])]]).toOption.isNone = true := by
  decide +kernel

/-- A sweep of `x` with a constant `a` and a function `b` of `x`. -/
example : ∃ o, sweepArray "constants" "sweepvariables" (fun k => k == "x") true
      [(.dict [("cost", .leaf (.num 7)), ("constants", .dict [("x", .leaf (.num 1)), ("a", .leaf (.num 3)), ("b", .leaf (.num 10))])] : Nest String (Leaf Nat)),
        .dict [("cost", .leaf (.num 8)), ("constants", .dict [("x", .leaf (.num 2)), ("a", .leaf (.num 3)), ("b", .leaf (.num 20))])]] = .ok o ∧
    Auto.solLen "cost" o = 2 ∧ (atindex 1 o).leafAt ["cost"] = some (.val (.num 8)) ∧ (atindex 1 o).leafAt ["sweepvariables", "x"] = some (.val (.num 2)) ∧
    (atindex 1 o).leafAt ["constants", "a"] = some (.val (.num 3)) ∧ (atindex 1 o).leafAt ["constants", "b"] = some (.val (.num 20)) := by
  have leaf : ∀ a b : Leaf Nat, Same (Nest.leaf (S := String) a) (Nest.leaf b) := by
    intro a b p; cases p <;> rfl
  have hget : ∀ (x a b : Leaf Nat) k n, PyDict.get? ([("x", .leaf x), ("a", .leaf a), ("b", .leaf b)] : PyDict String (Nest String (Leaf Nat))) k = some n →
      n.isDict = false := by
    intro x a b k n h
    have := mem_of_get?D h
    simp only [List.mem_cons, List.not_mem_nil, or_false, Prod.mk.injEq] at this
    rcases this with ⟨_, rfl⟩ | ⟨_, rfl⟩ | ⟨_, rfl⟩ <;> rfl
  have hat : ∀ (c x a b : Leaf Nat) k, (Nest.dict [("cost", .leaf c), ("constants", .dict [("x", .leaf x), ("a", .leaf a), ("b", .leaf b)])] : Nest String (Leaf Nat)).at
      ["constants", k] = PyDict.get? [("x", .leaf x), ("a", .leaf a), ("b", .leaf b)] k := by
    intro c x a b k
    exact at_two rfl k
  have hwf : ∀ c x a b : Leaf Nat, (Nest.dict [("cost", .leaf c), ("constants", .dict [("x", .leaf x), ("a", .leaf a), ("b", .leaf b)])] : Nest String (Leaf Nat)).WF := by
    intro c x a b
    refine .dict (by simp) ?_
    intro kv h
    simp only [List.mem_cons, List.not_mem_nil, or_false] at h
    rcases h with rfl | rfl
    · exact .leaf _
    · refine .dict (by simp) ?_
      intro kv h
      simp only [List.mem_cons, List.not_mem_nil, or_false] at h
      rcases h with rfl | rfl | rfl <;> exact .leaf _
  obtain ⟨o, h1, h2, h3⟩ := C96_array_partial "constants" "sweepvariables" (by decide) (fun k => k == "x") true
    (.dict [("cost", .leaf (.num 7)), ("constants", .dict [("x", .leaf (.num 1)), ("a", .leaf (.num 3)), ("b", .leaf (.num 10))])] : Nest String (Leaf Nat))
    [.dict [("cost", .leaf (.num 8)), ("constants", .dict [("x", .leaf (.num 2)), ("a", .leaf (.num 3)), ("b", .leaf (.num 20))])]]
    (by
      intro r' hr'
      simp only [List.mem_cons, List.not_mem_nil, or_false] at hr'
      rcases hr' with rfl | rfl <;> exact hwf _ _ _ _)
    (by
      intro r' hr'
      simp only [List.mem_cons, List.not_mem_nil, or_false] at hr'
      subst hr'
      rw [same_dict]
      intro k
      by_cases ha : k = "cost"
      · subst ha; exact Or.inr ⟨_, _, rfl, rfl, leaf _ _⟩
      · by_cases hb : k = "constants"
        · subst hb
          refine Or.inr ⟨_, _, rfl, rfl, ?_⟩
          rw [same_dict]
          intro k
          by_cases hx : k = "x"
          · subst hx; exact Or.inr ⟨_, _, rfl, rfl, leaf _ _⟩
          · by_cases hy : k = "a"
            · subst hy; exact Or.inr ⟨_, _, rfl, rfl, leaf _ _⟩
            · by_cases hz : k = "b"
              · subst hz; exact Or.inr ⟨_, _, rfl, rfl, leaf _ _⟩
              · left; simp [PyDict.get?, Ne.symm hx, Ne.symm hy, Ne.symm hz]
        · left; simp [PyDict.get?, Ne.symm ha, Ne.symm hb])
    (Or.inl (by simp)) rfl
    (by intro k n h; rw [hat] at h; exact hget _ _ _ _ _ h)
    (by
      intro k a _ h
      unfold Nest.leafAt at h
      rw [hat] at h
      split at h
      · rename_i b hb
        cases h
        have := mem_of_get?D hb
        simp only [List.mem_cons, List.not_mem_nil, or_false, Prod.mk.injEq, Nest.leaf.injEq] at this
        rcases this with ⟨_, rfl⟩ | ⟨_, rfl⟩ | ⟨_, rfl⟩ <;> exact ⟨_, rfl⟩
      · cases h)
    (by simp)
  obtain ⟨a1, a2, a3⟩ := h3 1 _ rfl
  exact ⟨o, h1, h2 "cost" 7 (by decide) (by decide) rfl, (a1 "cost" [] (by decide) (by decide)).trans rfl, (a3 "x").trans rfl, (a2 "a").trans rfl, (a2 "b").trans rfl⟩

end
end Verif
