import Verif.Lemmas.WarnTable
import Mathlib.Algebra.Order.Field.Rat

/-! Warnings of sweeps and their table: C83. -/

set_option linter.unusedSectionVars false

namespace Verif
namespace WarnTable
open DoL
section
variable {ι K β : Type} [DecidableEq ι]

theorem titleOf_eq (c : String) (n i : Nat) : titleOf c n i = heading c n i := by
  unfold titleOf heading
  by_cases h : n ≤ 1
  · rw [if_pos h, if_neg (by omega)]
  · rw [if_neg h, if_pos (by omega)]

/-- What is known of the warnings of a sweep. -/
structure Sound (P : Show ι K) (ps : List (Point β ι K)) : Prop where
  /-- results are dicts without a key for warnings before they are processed -/
  clean : ∀ p ∈ ps, p.Clean
  /-- only `Tight` and `Loose` use their categories -/
  proper : ∀ p ∈ ps, ∀ e ∈ p.events, e.Proper
  /-- warnings about the same constraint have the same numbers -/
  agree : (ps.flatMap (·.events)).Pairwise Agree
  /-- constraints do not have the names of their models in them -/
  apart : ∀ p ∈ ps, ∀ e ∈ p.events, ∀ x, e.con? = some x → ConstrTables.Apart P.T x

theorem forall₂_flatten {A B : Type} {R : A → B → Prop} {xs : List (List A)} {ys : List (List B)} (h : List.Forall₂ (List.Forall₂ R) xs ys) :
    List.Forall₂ R xs.flatten ys.flatten := by
  induction h with
  | nil => exact .nil
  | cons h1 _ ih => rw [List.flatten_cons, List.flatten_cons]; exact List.rel_append h1 ih

/-- All parts of a category. -/
theorem parts_ok {P : Show ι K} {ps : List (Point β ι K)} (hs : Sound P ps) (c : String) (qs : List (Point β ι K)) (hq : ∀ q ∈ qs, q ∈ ps ∧ q.inCat c ≠ []) :
    ∃ (lss : List (List Line)) (tbs : List (Str × List Seen)), parts P (marksAfter ps) c (qs.map (fun q => (q.inCat c).map Event.warning)) = .ok (List.flatten lss) ∧
      List.Forall₂ (fun tb ls => IsPart tb.1 tb.2 ls) tbs lss ∧
      List.Forall₂ (fun tb te => tb.1 = te.1 ∧ TellsAll P te.2 tb.2) tbs (qs.zipIdx.map (fun qi => (heading c qs.length qi.2, qi.1.inCat c))) := by
  have key : ∀ (n k : Nat) (l : List (Point β ι K)), (∀ q ∈ l, q ∈ qs) →
      ∃ (lss : List (List Line)) (tbs : List (Str × List Seen)), ((l.map (fun q => (q.inCat c).map Event.warning)).zipIdx k).mapM (fun di => part P (marksAfter ps) c n di.2 di.1) = .ok lss ∧
        List.Forall₂ (fun tb ls => IsPart tb.1 tb.2 ls) tbs lss ∧
        List.Forall₂ (fun tb te => tb.1 = te.1 ∧ TellsAll P te.2 tb.2) tbs ((l.zipIdx k).map (fun qi => (heading c n qi.2, qi.1.inCat c))) := by
    intro n k l
    induction l generalizing k with
    | nil => intro _; exact ⟨[], [], rfl, .nil, .nil⟩
    | cons q l ih =>
      intro hl
      obtain ⟨lss, tbs, i1, i2, i3⟩ := ih (k + 1) (fun q' hq' => hl q' (by simp [hq']))
      obtain ⟨hqp, hqc⟩ := hq q (hl q (by simp))
      have hin : ∀ e ∈ q.inCat c, e ∈ q.events := fun e he => List.mem_of_mem_filter he
      obtain ⟨ls, b, j1, j2, j3⟩ := part_ok P (marksAfter ps) c n k (q.inCat c) hqc (fun e he => by simpa using (List.mem_filter.1 he).2)
        (fun e he => hs.proper q hqp e (hin e he))
        (fun e he => marked_foldl _ hs.agree e (List.mem_flatMap.2 ⟨q, hqp, hin e he⟩))
        (fun e he => hs.apart q hqp e (hin e he))
      refine ⟨ls :: lss, (titleOf c n k, b) :: tbs, ?_, .cons j2 i2, ?_⟩
      · rw [List.map_cons, List.zipIdx_cons, List.mapM_cons, i1, j1]
        rfl
      · rw [List.zipIdx_cons, List.map_cons]
        exact .cons ⟨titleOf_eq c n k, j3⟩ i3
  obtain ⟨lss, tbs, h1, h2, h3⟩ := key qs.length 0 qs (fun q hq' => hq')
  refine ⟨lss, tbs, ?_, h2, h3⟩
  rw [parts, List.length_map, h1]
  rfl

theorem cats_of_point (p : Point β ι K) (c : String) : c ∈ (catDict p).map (·.1) ↔ p.inCat c ≠ [] := by
  rw [mem_keys_iff, catDict_get]
  split <;> simp_all

end
end WarnTable

open WarnTable DoL

section
variable {ι K β : Type} [DecidableEq ι]

/-- Whatever the warnings of a sweep, if its solution is returned then the table can be made and tells of every warning once, in the part of its category
and together with those of the same point. The parts of a category are numbered in the order of the points, but only points with such warnings are
counted. -/
theorem C83_returned (P : Show ι K) (p : Point β ι K) (ps : List (Point β ι K)) (hs : Sound P (p :: ps)) (o : Nest String (List (Val β ι)))
    (ho : sweep (p :: ps) = .ok o) :
    ∃ lines cs, table P (marksAfter (p :: ps)) o = .ok lines ∧ Categories (p :: ps) cs ∧
      Reports P lines (cs.flatMap (fun c =>
        let qs := (p :: ps).filter (fun q => decide (q.inCat c ≠ []))
        qs.zipIdx.map (fun qi => (heading c qs.length qi.2, qi.1.inCat c)))) := by
  obtain ⟨_, hk, hv, hn⟩ := holds_sweep hs.clean ho
  have hcs : ∀ c, c ∈ (catDict p).map (·.1) ↔ ∃ q ∈ p :: ps, q.inCat c ≠ [] := by
    intro c
    constructor
    · intro h
      exact ⟨p, by simp, (cats_of_point p c).1 h⟩
    · rintro ⟨q, hq, hc⟩
      obtain ⟨e, he⟩ := List.exists_mem_of_ne_nil _ hc
      have h1 := List.mem_filter.1 he
      have := hn q hq e h1.1
      rwa [of_decide_eq_true h1.2] at this
  have hcat : Categories (p :: ps) (((catDict p).map (·.1)).mergeSort (fun a b => decide (a ≤ b))) := by
    refine ⟨?_, fun c => by rw [List.mem_mergeSort]; exact hcs c⟩
    have h1 := ConstrTables.sort_pairwise (fun a : String => a) ((catDict p).map (·.1))
    have h2 : (((catDict p).map (·.1)).mergeSort (fun a b => decide (a ≤ b))).Nodup := (List.mergeSort_perm _ _).nodup_iff.2 (catDict_nodup p)
    exact h1.imp₂ (fun a b h h' => lt_of_le_of_ne h h') h2
  by_cases hemp : (warningsIn o).isEmpty = true
  · have h0 : (catDict p).map (·.1) = [] := by rw [← hk, List.isEmpty_iff.1 hemp]; rfl
    refine ⟨[], [], by rw [table]; exact if_pos hemp, ⟨.nil, fun c => ?_⟩, .nil⟩
    rw [← hcs c, h0]
  · have hvec : ∀ c ∈ (catDict p).map (·.1), WarnTable.vecOf (warningsIn o) c =
        ((p :: ps).filter (fun q => decide (q.inCat c ≠ []))).map (fun q => (q.inCat c).map Event.warning) := by
      intro c hc
      obtain ⟨vs, v1, v2⟩ := hv c hc
      rw [WarnTable.vecOf, v1]
      exact v2
    have key : ∀ cs : List String, (∀ c ∈ cs, c ∈ (catDict p).map (·.1)) →
        ∃ (lss : List (List (List Line))) (tbs : List (List (Str × List Seen))), cs.mapM (fun cat => parts P (marksAfter (p :: ps)) cat (WarnTable.vecOf (warningsIn o) cat)) = .ok (lss.map List.flatten) ∧
          List.Forall₂ (List.Forall₂ (fun tb ls => IsPart tb.1 tb.2 ls)) tbs lss ∧
          List.Forall₂ (fun tb te => tb.1 = te.1 ∧ TellsAll P te.2 tb.2) tbs.flatten (cs.flatMap (fun c =>
            let qs := (p :: ps).filter (fun q => decide (q.inCat c ≠ []))
            qs.zipIdx.map (fun qi => (heading c qs.length qi.2, qi.1.inCat c)))) := by
      intro cs
      induction cs with
      | nil => intro _; exact ⟨[], [], rfl, .nil, .nil⟩
      | cons c cs ih =>
        intro hc
        obtain ⟨lss, tbs, i1, i2, i3⟩ := ih (fun c' hc' => hc c' (by simp [hc']))
        obtain ⟨ls, tb, j1, j2, j3⟩ := parts_ok hs c ((p :: ps).filter (fun q => decide (q.inCat c ≠ []))) (by
          intro q hq
          have := List.mem_filter.1 hq
          exact ⟨this.1, of_decide_eq_true this.2⟩)
        refine ⟨ls :: lss, tb :: tbs, ?_, .cons j2 i2, ?_⟩
        · rw [List.mapM_cons, i1, hvec c (hc c (by simp)), j1]
          rfl
        · rw [List.flatten_cons, List.flatMap_cons]
          exact List.rel_append j3 i3
    obtain ⟨lss, tbs, k1, k2, k3⟩ := key (((catDict p).map (·.1)).mergeSort (fun a b => decide (a ≤ b))) (fun c hc => List.mem_mergeSort.1 hc)
    refine ⟨[.bar, .top, .bar] ++ (lss.map List.flatten).flatten.dropLast ++ [.bar, .blank], _, ?_, hcat, ?_⟩
    · rw [table, hk, if_neg hemp, k1]
    · rw [Reports, show (lss.map List.flatten).flatten = lss.flatten.flatten from (List.flatten_flatten).symm, read_table (forall₂_flatten k2)]
      exact k3

/-- The table of warnings of a sweep whose points have warnings of the same categories: the sweep returns a solution, and its table has a part for each category
and point, with the number of the point, which tells of the warnings of this category at this point, each once, and of nothing else. Missing: categories only
some points have (`C83_lost_fails`, `C83_shift_fails`), and constraints warned about at several points with different numbers (`C83_stale_fails`). -/
theorem C83_sweep_partial (P : Show ι K) (p : Point β ι K) (ps : List (Point β ι K)) (hs : Sound P (p :: ps))
    (ho : ∀ q ∈ ps, Same (Nest.dict p.others) (Nest.dict q.others)) (hc : ∀ q ∈ ps, ∀ c, p.inCat c ≠ [] ↔ q.inCat c ≠ []) :
    ∃ o lines cs, sweep (p :: ps) = .ok o ∧ table P (marksAfter (p :: ps)) o = .ok lines ∧ Categories (p :: ps) cs ∧ Reports P lines (due (p :: ps) cs) := by
  have hwf : ∀ q ∈ p :: ps, q.result.WF := by
    intro q hq
    rw [result_eq]
    refine .dict (result_nodup (hs.clean q hq)) ?_
    intro kv hkv
    rw [resultItems] at hkv
    rcases List.mem_append.1 hkv with hkv | hkv
    · obtain ⟨v, hv1, hv2⟩ := mem_mapItems hkv
      rw [hv2]
      cases (hs.clean q hq).1 with
      | dict _ h => exact wf_mapLeaves _ (h _ hv1)
    · cases hw : warningsOf q.events with
      | none => rw [hw] at hkv; cases hkv
      | some d =>
        rw [hw] at hkv
        dsimp only at hkv
        rw [List.mem_singleton] at hkv
        subst hkv
        have h1 := (warningsOf_spec q.events).2.1
        rw [hw] at h1
        refine .dict (by rw [List.map_map]; exact h1) ?_
        intro kv hkv
        obtain ⟨cw, _, rfl⟩ := List.mem_map.1 hkv
        exact .leaf _
  have hsame : ∀ q ∈ ps, Same p.result q.result := by
    intro q hq
    rw [result_eq, result_eq, same_dict]
    intro k
    by_cases hk : k = key
    · subst hk
      rw [result_key (hs.clean p (by simp)), result_key (hs.clean q (by simp [hq]))]
      have hev : ∀ r : Point β ι K, r.events = [] ↔ ∀ c, r.inCat c = [] := by
        intro r
        constructor
        · intro h c; simp [Point.inCat, h]
        · intro h
          cases hr : r.events with
          | nil => rfl
          | cons e es => exact absurd (h e.cat) (mem_inCat (by simp [hr]))
      have hiff : p.events = [] ↔ q.events = [] := by
        rw [hev, hev]
        exact forall_congr' (fun c => not_iff_not.1 (hc q hq c))
      by_cases he : p.events = []
      · exact Or.inl ⟨by rw [if_pos he], by rw [if_pos (hiff.1 he)]⟩
      · refine Or.inr ⟨_, _, by rw [if_neg he], by rw [if_neg (fun h => he (hiff.2 h))], ?_⟩
        rw [same_dict]
        intro c
        rw [catDict_get, catDict_get]
        by_cases h1 : p.inCat c = []
        · exact Or.inl ⟨by rw [if_pos h1], by rw [if_pos (by_contra fun h2 => (hc q hq c).2 h2 h1)]⟩
        · refine Or.inr ⟨_, _, by rw [if_neg h1], by rw [if_neg ((hc q hq c).1 h1)], ?_⟩
          intro pth
          cases pth <;> rfl
    · rw [result_other p hk, result_other q hk]
      rcases same_dict.1 (ho q hq) k with ⟨h1, h2⟩ | ⟨v, w, h1, h2, h3⟩
      · exact Or.inl ⟨by rw [h1]; rfl, by rw [h2]; rfl⟩
      · exact Or.inr ⟨_, _, by rw [h1]; rfl, by rw [h2]; rfl, ((same_mapLeaves _ v).trans h3).trans (same_mapLeaves _ w).symm⟩
  obtain ⟨o, h1, _⟩ := appendAll_ok (r := p.result) (ps.map Point.result) (by
    intro r hr
    obtain ⟨q, hq, rfl⟩ := List.mem_map.1 hr
    exact hwf q (by simp [hq])) (by
    intro r hr
    obtain ⟨q, hq, rfl⟩ := List.mem_map.1 hr
    exact hsame q hq)
  have hsw : sweep (p :: ps) = .ok o := by rw [sweep, List.map_cons]; exact h1
  obtain ⟨lines, cs, t1, t2, t3⟩ := C83_returned P p ps hs o hsw
  refine ⟨o, lines, cs, hsw, t1, t2, ?_⟩
  have hall : ∀ c ∈ cs, ∀ q ∈ p :: ps, q.inCat c ≠ [] := by
    intro c hcc
    obtain ⟨q, hq, hqc⟩ := (t2.2 c).1 hcc
    have hpc : p.inCat c ≠ [] := by
      rcases List.mem_cons.1 hq with rfl | hq
      · exact hqc
      · exact (hc q hq c).2 hqc
    intro r hr
    rcases List.mem_cons.1 hr with rfl | hr
    · exact hpc
    · exact (hc r hr c).1 hpc
  have he : due (p :: ps) cs = cs.flatMap (fun c =>
      let qs := (p :: ps).filter (fun q => decide (q.inCat c ≠ []))
      qs.zipIdx.map (fun qi => (heading c qs.length qi.2, qi.1.inCat c))) := by
    unfold due
    rw [List.flatMap_def, List.flatMap_def]
    congr 1
    apply List.map_congr_left
    intro c hcc
    have e1 : (p :: ps).filter (fun q => decide (q.inCat c ≠ [])) = p :: ps :=
      List.filter_eq_self.2 (fun q hq => decide_eq_true (hall c hcc q hq))
    have e2 : (p :: ps).zipIdx.filter (fun pi => decide (pi.1.inCat c ≠ [])) = (p :: ps).zipIdx :=
      List.filter_eq_self.2 (fun q hq => decide_eq_true (hall c hcc q.1 (List.fst_mem_of_mem_zipIdx hq)))
    dsimp only
    rw [e1, e2]
  rw [he]
  exact t3

/-- Titles tell the parts of a sweep apart, whatever the categories are called. -/
theorem C83_titles (c c' : String) (n i j : Nat) (hn : 1 < n) (h : heading c n i = heading c' n j) : c = c' ∧ i = j := by
  rw [heading, heading, if_neg (by omega), if_neg (by omega)] at h
  have key : ∀ (c : String) (i : Nat), ((c.toList ++ " in sweep ".toList ++ VK.num i).reverse.takeWhile Char.isDigit) = (VK.num i).reverse := by
    intro c i
    rw [List.reverse_append, List.takeWhile_append_of_pos (fun d hd => VK.num_digit (List.mem_reverse.1 hd)), List.reverse_append]
    rw [show " in sweep ".toList.reverse = ' ' :: "peews ni ".toList from by decide, List.cons_append, List.takeWhile_cons_of_neg (by decide), List.append_nil]
  have h1 : VK.num i = VK.num j := by
    have := congrArg (fun s : Str => s.reverse.takeWhile Char.isDigit) h
    rw [key, key] at this
    exact List.reverse_inj.1 this
  have h2 := VK.num_inj h1
  subst h2
  refine ⟨?_, rfl⟩
  have := List.append_cancel_right (List.append_cancel_right h)
  exact String.toList_inj.1 this

/-- C83 is violated by every sweep in which a later point has a category of warnings which the first does not have: no solution is returned. -/
theorem C83_lost_fails (p q : Point β ι K) (ps : List (Point β ι K)) (hcl : ∀ r ∈ p :: ps, r.Clean) (hq : q ∈ ps) (c : String) (h1 : p.inCat c = [])
    (h2 : q.inCat c ≠ []) : ∃ e, sweep (p :: ps) = .error e := by
  cases ho : sweep (p :: ps) with
  | error e => exact ⟨e, rfl⟩
  | ok o =>
    obtain ⟨e, he⟩ := List.exists_mem_of_ne_nil _ h2
    have h3 := List.mem_filter.1 he
    have := (holds_sweep hcl ho).known q (by simp [hq]) e h3.1
    rw [of_decide_eq_true h3.2, cats_of_point] at this
    exact absurd h1 this

end

/-- Texts of the examples: a constraint is its own text, numbers are shown as digits. -/
def WarnTable.exShow : Show Nat Nat :=
  ⟨⟨fun _ => [], fun c => if c = 0 then "x >= 1".toList else "y >= 1".toList, fun _ => [], id⟩, fun _ => true, fun n => n, VK.num,
    fun v => VK.num v.1 ++ v.2.1 ++ VK.num v.2.2⟩

/-- Points of the examples: a cost, and warnings. -/
def WarnTable.exPoint (cost : Nat) (es : List (Event Nat Nat)) : Point Nat Nat Nat := ⟨[("cost", .leaf cost)], es⟩

/-- A warning of the examples: the sensitivity of a constraint. -/
def WarnTable.exTight (c s : Nat) : Event Nat Nat := ⟨"Constraint is not loose".toList, .tight c s⟩

/-- What is read in the table of a sweep. -/
def WarnTable.readSweep (ps : List (Point Nat Nat Nat)) : Option (List (Str × List Seen)) :=
  match sweep ps with
  | .error _ => none
  | .ok o =>
    match table exShow (marksAfter ps) o with
    | .error _ => none
    | .ok ls => some (read ls)

/-- A warning that first occurs at the second point. -/
example : (match sweep [exPoint 1 [], exPoint 2 [exTight 0 3]] with | .error .keyError => true | _ => false) = true := by decide +kernel

/-- C83 is violated if a point between has no warnings: those of the third point are said to be of the second. With warnings at the first point only, the
table does not say that there is a sweep. -/
theorem C83_shift_fails :
    readSweep [exPoint 1 [exTight 0 3], exPoint 2 [], exPoint 4 [exTight 1 5]] =
      some [("Unexpectedly Tight Constraints in sweep 0".toList, [.row [] "3".toList "x >= 1".toList]),
        ("Unexpectedly Tight Constraints in sweep 1".toList, [.row [] "5".toList "y >= 1".toList])] ∧
    readSweep [exPoint 1 [exTight 0 3], exPoint 2 [], exPoint 4 []] =
      some [("Unexpectedly Tight Constraints".toList, [.row [] "3".toList "x >= 1".toList])] := by
  decide +kernel

/-- C83 is violated by a constraint with warnings at several points: the numbers of the last are shown at all of them. -/
theorem C83_stale_fails :
    readSweep [exPoint 1 [exTight 0 3], exPoint 2 [exTight 0 5]] =
      some [("Unexpectedly Tight Constraints in sweep 0".toList, [.row [] "5".toList "x >= 1".toList]),
        ("Unexpectedly Tight Constraints in sweep 1".toList, [.row [] "5".toList "x >= 1".toList])] := by
  decide +kernel

/-- The hypotheses of `C83_sweep_partial` can be met. -/
example : ∃ o lines cs, sweep [exPoint 1 [exTight 0 3], exPoint 2 [exTight 1 5]] = .ok o ∧
    table exShow (marksAfter [exPoint 1 [exTight 0 3], exPoint 2 [exTight 1 5]]) o = .ok lines ∧
    Categories [exPoint 1 [exTight 0 3], exPoint 2 [exTight 1 5]] cs ∧ Reports exShow lines (due [exPoint 1 [exTight 0 3], exPoint 2 [exTight 1 5]] cs) := by
  have hcl : ∀ (k : Nat) (es : List (Event Nat Nat)), (exPoint k es).Clean := by
    intro k es
    refine ⟨.dict (by simp [exPoint]) ?_, show key ∉ ["cost"] by decide⟩
    intro kv hkv
    simp only [exPoint, List.mem_singleton] at hkv
    subst hkv
    exact .leaf _
  refine C83_sweep_partial exShow _ _ ⟨?_, ?_, ?_, ?_⟩ ?_ ?_
  · intro p hp
    simp only [List.mem_cons, List.not_mem_nil, or_false] at hp
    rcases hp with rfl | rfl <;> exact hcl _ _
  · intro p hp e he
    simp only [List.mem_cons, List.not_mem_nil, or_false] at hp
    rcases hp with rfl | rfl <;> simp only [exPoint, List.mem_singleton] at he <;> subst he <;> trivial
  · exact .cons (fun e he => by rw [List.mem_singleton.1 he]; exact fun h => absurd h (by decide)) (.cons (fun e he => absurd he (by simp)) .nil)
  · intro p hp e he x hx
    exact Or.inl rfl
  · intro q hq
    simp only [List.mem_singleton] at hq
    subst hq
    intro pth
    rcases pth with _ | ⟨k, pth⟩
    · rfl
    · simp only [exPoint, Nest.at, get?_consD]
      by_cases h : k = "cost"
      · simp only [if_pos h]
        cases pth <;> rfl
      · simp only [if_neg h]
  · have h : ∀ k c' s c, (exPoint k [exTight c' s]).inCat c ≠ [] ↔ tightCat = c := by
      intro k c' s c
      have hc : (exTight c' s).cat = tightCat := rfl
      rw [Point.inCat, exPoint]
      generalize exTight c' s = e at hc
      dsimp only
      by_cases h : tightCat = c
      · rw [List.filter_cons_of_pos (by rw [hc]; exact decide_eq_true h)]
        simp [h]
      · rw [List.filter_cons_of_neg (by rw [hc]; simpa using h)]
        simp [h]
    intro q hq c
    rw [List.mem_singleton.1 hq, h, h]

end Verif
