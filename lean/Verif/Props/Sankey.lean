import Verif.Lemmas.Sankey

/-!
# C90: Sankey diagrams

What flows into a node of a Sankey diagram flows out of it, every constraint is in it with its sensitivity, and what arrives at the end is their sum.
-/

set_option linter.unusedSectionVars false

namespace Verif
open VK PyDict Sankey

variable {C V : Type}

/-- C90, flow: the links of a diagram form a tree, and at each node between its leaves and its root as much flows in as out. -/
theorem C90_conserved (S : Sol C V) (label : Str) (cset : CSet C) : Conserved label (diagram S label cset St.empty).links := by
  obtain ⟨ops, h⟩ := diagram_eff S label cset inv_empty
  exact (conserved h).1

/-- C90, flow in diagrams of a variable. -/
theorem C90_conserved_variable (S : Sol C V) (label : Str) (v : V) (varlabel : Str) (cost : Option ℝ) (cset : CSet C) :
    Conserved varlabel (diagramOf S label v varlabel cost cset St.empty).links := by
  obtain ⟨ops, h⟩ := diagramOf_eff S label v varlabel cost cset inv_empty
  exact (conserved h).1

theorem shows_of_has {S : Sol C V} {var : Option V} {t : Id} {s : St} {kc : Option Str × C} (h : Has S var t s kc) : Shows S var s kc.1 kc.2 := by
  obtain ⟨u, k, tag, -, -, h2, h3⟩ := h
  refine ⟨child u k, u, _, tag, _, h2, ?_, h3, leaf_near S var kc.2⟩
  cases kc.1 with
  | some k => exact .inl rfl
  | none =>
    refine .inr ⟨rfl, ?_, fun hl => ?_⟩
    · simp only [Option.getD_none, short]
      split
      · rfl
      · rw [List.take_append_of_le_length (by rw [List.length_take]; omega), List.take_take, Nat.min_self]
    · simp only [Option.getD_none, short]
      rw [if_pos hl]

/-- C90, constraints: every constraint, however deep, is in the diagram. -/
theorem C90_constraints (S : Sol C V) (label : Str) {cset : CSet C} {key : Option Str} {c : C} (h : (key, c) ∈ cset.cons none) :
    Shows S none (diagram S label cset St.empty) key c :=
  shows_of_has (diagram_has S label cset inv_empty _ h)

/-- C90, constraints in diagrams of a variable. -/
theorem C90_constraints_variable (S : Sol C V) (label : Str) (v : V) (varlabel : Str) (cost : Option ℝ) {cset : CSet C} {key : Option Str} {c : C}
    (h : (key, c) ∈ cset.cons none) : Shows S (some v) (diagramOf S label v varlabel cost cset St.empty) key c :=
  shows_of_has (diagramOf_has S label v varlabel cost cset inv_empty _ h)

/-- C90, sum: what arrives at the end are the sensitivities of all constraints and of all constants of named models, up to `1e-10` for each. Missing: named models
that have a key (`C90_keyed_fails`). -/
theorem C90_total_partial (S : Sol C V) (label : Str) {cset : CSet C} (hk : cset.Keyless) :
    |inflow (diagram S label cset St.empty).links label + (((cset.cons none).map (fun c => |(S.csenss c.2).getD 0|)).sum + (cset.fixed.map (fun f => f.sens.size)).sum)| ≤
      1 / 10 ^ 10 * ((cset.cons none).length + cset.fixed.length) := by
  obtain ⟨ops, h⟩ := diagram_eff S label cset inv_empty
  rw [(conserved h).2, link_total S none false false true label _ none cset (fun _ => ⟨hk, by simp⟩)]
  have h1 := sum_near _ _ (fun c : Option Str × C => leaf_near S none c.2) (cset.cons none)
  have h2 := sum_near _ _ (fun f : Fixed => value_near f.sens) cset.fixed
  have h3 : ((cset.cons none).map (fun c => S.sens none c.2)).sum = -((cset.cons none).map (fun c => |(S.csenss c.2).getD 0|)).sum := by
    rw [← sum_map_neg']
    rfl
  have h4 : (cset.fixed.map (fun f => -f.sens.size)).sum = -(cset.fixed.map (fun f => f.sens.size)).sum := by
    rw [← sum_map_neg']
  rw [h3] at h1
  rw [h4] at h2
  unfold worth
  rw [if_neg (by simp)]
  have h5 := abs_add_le (((cset.cons none).map (fun c => leaf S none c.2)).sum - -((cset.cons none).map (fun c => |(S.csenss c.2).getD 0|)).sum)
    ((cset.fixed.map (fun f => f.sens.value)).sum - -(cset.fixed.map (fun f => f.sens.size)).sum)
  have e : (1 : ℝ) / 10 ^ 10 = eps := rfl
  rw [e, mul_add]
  refine le_trans (le_of_eq ?_) (h5.trans (add_le_add h1 h2))
  congr 1
  ring

/-- C90, sum in diagrams of a variable: the sensitivities of all constraints to it, and that of the cost, up to `1e-10` for each constraint. -/
theorem C90_total_variable (S : Sol C V) (label : Str) (v : V) (varlabel : Str) (cost : Option ℝ) (cset : CSet C) :
    |inflow (diagramOf S label v varlabel cost cset St.empty).links varlabel - (cost.getD 0 + ((cset.cons none).map (fun c => ((S.vss c.2).bind (· v)).getD 0)).sum)| ≤
      1 / 10 ^ 10 * (cset.cons none).length := by
  obtain ⟨ops, h⟩ := diagramOf_eff S label v varlabel cost cset inv_empty
  rw [(conserved h).2, link_total S (some v) false false true _ _ none cset (fun e => by cases e)]
  have h1 := sum_near _ _ (fun c : Option Str × C => leaf_near S (some v) c.2) (cset.cons none)
  unfold worth
  rw [if_pos (by simp), add_zero]
  refine le_trans (le_of_eq ?_) h1
  congr 1
  simp only [Sol.sens]
  ring

/-- C90, constants: every constant of a named model is in the diagram with its text and, up to `1e-10`, its sensitivity. Those of a vector whose elements have one value
are grouped below one node for this vector. Missing: named models that have a key (`C90_keyed_fails`). -/
theorem C90_constants_partial (S : Sol C V) (label : Str) {cset : CSet C} (hk : cset.Keyless) {fs : List Fixed} (hfs : fs ∈ cset.models) :
    ∃ place : Fixed → Sankey.Id,
      (∀ f ∈ fs, ∃ node tag x, (diagram S label cset St.empty).nodes.get? node = some ⟨f.title, tag⟩ ∧
        (diagram S label cset St.empty).links.get? (node, place f) = some x ∧ |x + f.sens.size| ≤ 1 / 10 ^ 10) ∧
      (∀ f ∈ fs, f.vec.isSome → f.uniform = true → ∃ g ∈ fs, g.vec = f.vec ∧ ∃ tag, (diagram S label cset St.empty).nodes.get? (place f) = some ⟨g.vecTitle, tag⟩) ∧
      ∀ f ∈ fs, ∀ g ∈ fs, f.vec.isSome → f.vec = g.vec → f.uniform = true → g.uniform = true → place f = place g := by
  obtain ⟨place, h1, h2, h3⟩ := diagram_hasF S label hk inv_empty fs hfs
  refine ⟨place, fun f hf => ?_, fun f hf hv hu => ?_, h3⟩
  · obtain ⟨k, tag, -, -, g2, g3⟩ := h1 f hf
    have h := value_near f.sens
    rw [sub_neg_eq_add] at h
    exact ⟨_, tag, _, g2, g3, h⟩
  · obtain ⟨g, hg, e, w, j, tag, -, -, hn⟩ := h2 f hf hv hu
    exact ⟨g, hg, e, tag, hn⟩

/-- C90, what is shown: links above `minsenss`, without constraints and constants if `showconstraints` is false. -/
theorem C90_shown {minsenss : ℝ} {maxlinks : Nat} {showconstraints : Bool} {s : St} {e : (Sankey.Id × Sankey.Id) × ℝ} (h : e ∈ shown minsenss maxlinks showconstraints s) :
    e ∈ s.links ∧ minsenss < |e.2| ∧ (showconstraints = true ∨ Untagged s e) := by
  obtain ⟨l, h1, -, -, h3, -⟩ := shown_eq minsenss maxlinks showconstraints s
  exact (h1 e).1 (h3 e h)

/-- C90, what is always shown: of these, nodes other than constraints and constants just below the root. -/
theorem C90_shown_top {minsenss : ℝ} (maxlinks : Nat) (showconstraints : Bool) {s : St} {e : (Sankey.Id × Sankey.Id) × ℝ} (h : e ∈ s.links) (hm : minsenss < |e.2|)
    (ht : e.1.1.count '.' ≤ 1) (hp : Untagged s e) : e ∈ shown minsenss maxlinks showconstraints s := by
  obtain ⟨l, h1, -, -, -, h4⟩ := shown_eq minsenss maxlinks showconstraints s
  exact h4 e ((h1 e).2 ⟨h, hm, .inr hp⟩) ht hp

/-- C90, all are shown if there are no more than `maxlinks`. Missing: more links than that, of which some are left out. -/
theorem C90_shown_partial {minsenss : ℝ} {maxlinks : Nat} {showconstraints : Bool} {s : St}
    (h : ∀ l : List ((Sankey.Id × Sankey.Id) × ℝ), l.Sublist s.links → (∀ e ∈ l, minsenss < |e.2| ∧ (showconstraints = true ∨ Untagged s e)) → l.length ≤ maxlinks)
    (e : (Sankey.Id × Sankey.Id) × ℝ) :
    e ∈ shown minsenss maxlinks showconstraints s ↔ e ∈ s.links ∧ minsenss < |e.2| ∧ (showconstraints = true ∨ Untagged s e) := by
  obtain ⟨l, h1, h2, h3, -, -⟩ := shown_eq minsenss maxlinks showconstraints s
  rw [h3 (h l h2 (fun e he => ((h1 e).1 he).2))]
  exact h1 e

/-- C90, flow of what is shown: with `minsenss` zero it is conserved. Missing: as above. -/
theorem C90_shown_conserved_partial {root : Id} {maxlinks : Nat} {s : St} (hc : Conserved root s.links)
    (h : (s.links.filter (fun e => decide (0 < |e.2|))).length ≤ maxlinks) :
    Conserved root (shown 0 maxlinks true s) ∧ inflow (shown 0 maxlinks true s) root = inflow s.links root := by
  rw [shown_few h]
  exact ⟨conserved_filter hc, by unfold inflow; rw [sum_filter_ne]⟩

/-- C90, widths: links are as wide as their value is large, and these widths too are conserved. Missing: constants whose sensitivity is not a number, and diagrams of a
variable (`C90_widths_fails`). -/
theorem C90_widths_partial (S : Sol C V) (label : Str) {cset : CSet C} (hn : ∀ f ∈ cset.fixed, f.sens ≠ .nan) :
    Conserved label ((diagram S label cset St.empty).links.map (fun e => (e.1, |e.2|))) := by
  refine conserved_abs (C90_conserved S label cset) ?_
  refine (link_down S false false true label (s := { St.empty with nodes := St.empty.nodes.set label ⟨label, .plain⟩ }) (by simp [Down, St.empty]) cset (fun f hf => ?_)).1
  have he := eps_pos
  cases hx : f.sens with
  | missing => simp [Sens.value]
  | nan => exact absurd hx (hn f hf)
  | val x => simp [Sens.value]

/-- C90 fails: a second diagram made with the same object shows everything twice, its links being added to those of the first. -/
theorem C90_twice_fails (S : Sol C V) (label : Str) {cset : CSet C} (hk : cset.Keyless) :
    inflow (diagram S label cset (diagram S label cset St.empty)).links label = 2 * inflow (diagram S label cset St.empty).links label := by
  obtain ⟨ops, h⟩ := diagram_eff S label cset inv_empty
  obtain ⟨ops', h'⟩ := diagram_eff S label cset (h.inv (inv_nodes inv_empty _))
  have e := inflow_more h'
  dsimp only at e
  rw [e, (conserved h).2, link_total S none false false true label _ none cset (fun _ => ⟨hk, by simp⟩),
    link_total S none false false true label _ none cset (fun _ => ⟨hk, by simp⟩)]
  ring

/-- C90 fails: the constants of a named model that has a key are left out, and with them their part of the sum. -/
theorem C90_keyed_fails (S : Sol C V) (label key name : Str) (f : Fixed) (c : C) {x : ℝ} (hf : f.sens = .val x) (hx : 3 / 10 ^ 10 < |x|) :
    let cset : CSet C := .dct none [(key, .lst (some (name, [f])) [.con c])]
    ¬ |inflow (diagram S label cset St.empty).links label + (((cset.cons none).map (fun c => |(S.csenss c.2).getD 0|)).sum + (cset.fixed.map (fun f => f.sens.size)).sum)| ≤
      1 / 10 ^ 10 * ((cset.cons none).length + cset.fixed.length) := by
  intro cset
  obtain ⟨ops, h⟩ := diagram_eff S label cset inv_empty
  rw [(conserved h).2]
  have : (link S none false false true label { St.empty with nodes := St.empty.nodes.set label ⟨label, .plain⟩ } cset).2 = leaf S none c := by
    simp [cset, link, linkD, linkL, enter, leave]
  rw [this]
  have h1 := leaf_near S none c
  have e : eps = 1 / 10 ^ 10 := rfl
  rw [e] at h1
  simp only [Sol.sens] at h1
  have hsz : f.sens.size = |x| := by rw [hf]; rfl
  simp only [cset, CSet.cons, CSet.consD, CSet.consL, CSet.fixed, CSet.fixedD, CSet.fixedL, List.append_nil, List.map_cons, List.map_nil, List.sum_cons, List.sum_nil,
    List.length_singleton, Option.map_some, Option.map_none, Option.getD_some, Option.getD_none, List.nil_append]
  rw [hsz, abs_le]
  rw [abs_le] at h1
  intro h2
  push_cast at h2
  linarith [h1.1, h2.2]

/-- C90 fails: constraints with keys are never left out, so that more links than `maxlinks` can be shown, whatever that is. -/
theorem C90_many_fails (S : Sol C V) {label : Str} (hl : '.' ∉ label) (key : Str) {c : C} {x : ℝ} (hc : S.csenss c = some x) (maxlinks : Nat) (showconstraints : Bool) :
    maxlinks < (shown 0 maxlinks showconstraints (diagram S label (.dct none (List.replicate (maxlinks + 1) (key, .con c))) St.empty)).length := by
  have hne : leaf S none c ≠ 0 := by
    have := eps_pos
    simp only [leaf, hc]
    split
    · linarith
    · assumption
  have h := linkD_flat S label key c hne (maxlinks + 1) (s := { St.empty with nodes := St.empty.nodes.set label ⟨label, .plain⟩ }) (inv_nodes inv_empty _)
    (by simp [Flat, St.empty])
  have e : diagram S label (.dct none (List.replicate (maxlinks + 1) (key, .con c))) St.empty =
      (linkD S none label { St.empty with nodes := St.empty.nodes.set label ⟨label, .plain⟩ } (List.replicate (maxlinks + 1) (key, .con c))).1 := by
    simp [diagram, link, enter, leave]
  rw [e, shown_flat (List.count_eq_zero.2 hl) h.1, h.2]
  simp [St.empty]

/-- C90 fails: in the diagram of a variable that two constraints pull in opposite directions widths are not conserved: both links are shown one wide, and none goes on. -/
theorem C90_widths_fails (S : Sol C V) (label : Str) (v : V) (varlabel : Str) {a b : C} {da db : V → Option ℝ} (ha : S.vss a = some da) (hb : S.vss b = some db)
    (hda : da v = some 1) (hdb : db v = some (-1)) :
    ¬ Conserved varlabel ((shown 0 20 true (diagramOf S label v varlabel none (.lst none [.con a, .con b]) St.empty)).map (fun e => (e.1, |e.2|))) := by
  have hl : (diagramOf S label v varlabel none (.lst none [.con a, .con b]) St.empty).links =
      [((child (child varlabel 1) 1, child varlabel 1), 1), ((child (child varlabel 1) 2, child varlabel 1), -1), ((child varlabel 1, varlabel), 0)] := by
    have e1 : child (child varlabel 1) 1 ≠ child varlabel 1 := child_ne _ _
    have e4 : child (child varlabel 1) 2 ≠ child varlabel 1 := child_ne _ _
    have e2 : (varlabel == child varlabel 1) = false := by simpa using (child_ne varlabel 1).symm
    have e3 : child (child varlabel 1) 1 ≠ child (child varlabel 1) 2 := fun e => absurd (child_inj e).2 (by decide)
    simp [diagramOf, costNode, link, linkL, enter, leave, St.addNode, St.setLink, St.cnt, St.empty, PyDict.set, PyDict.get?, leaf, ha, hb, hda, hdb, e1, e2, e3, e4]
  have hs : shown 0 20 true (diagramOf S label v varlabel none (.lst none [.con a, .con b]) St.empty) =
      [((child (child varlabel 1) 1, child varlabel 1), 1), ((child (child varlabel 1) 2, child varlabel 1), -1)] := by
    rw [shown_few (by rw [hl]; simp), hl]
    simp
  rw [hs]
  intro h
  have := h.flow (child varlabel 1) (child_ne varlabel 1) ⟨_, by simp; exact .inl rfl, rfl⟩
  simp [inflow, outflow, child_ne] at this
  norm_num at this

/-! ### Examples -/

/-- A solution with two constraints: `true` has sensitivity 1, `false` has none; to the one variable they are one and minus one. -/
noncomputable def sankeySol : Sol Bool Unit :=
  ⟨fun c => if c then some 1 else none, fun c => some (fun _ => some (if c then 1 else -1)), fun _ _ => true, fun _ => "x <= 1".toList⟩

/-- A model with a constant, an array of constraints and one with a key. -/
noncomputable def sankeySet : CSet Bool :=
  .lst (some ("Wing".toList, [⟨none, false, [], "S = 2".toList, .val 2⟩])) [.arr "x[:] <= 1".toList [.con true, .con false], .dct none [("lift".toList, .con true)]]

example : sankeySet.Keyless := by simp [sankeySet, CSet.Keyless, CSet.KeylessL, CSet.KeylessD, CSet.Bare]
example : (none, false) ∈ sankeySet.cons none ∧ (some "lift".toList, true) ∈ sankeySet.cons none := by
  simp [sankeySet, CSet.cons, CSet.consL, CSet.consD]
example : ∀ f ∈ sankeySet.fixed, f.sens ≠ .nan := by simp [sankeySet, CSet.fixed, CSet.fixedL, CSet.fixedD]

/-- In all, three sensitivities of one, one, and two arrive at the end. -/
example : |inflow (diagram sankeySol "Wing".toList sankeySet St.empty).links "Wing".toList + 4| ≤ 1 / 10 ^ 10 * 4 := by
  have h := C90_total_partial sankeySol "Wing".toList (cset := sankeySet) (by simp [sankeySet, CSet.Keyless, CSet.KeylessL, CSet.KeylessD, CSet.Bare])
  simp [sankeySet, sankeySol, CSet.cons, CSet.consL, CSet.consD, CSet.fixed, CSet.fixedL, CSet.fixedD, Sens.size] at h ⊢
  norm_num at h ⊢
  exact h

example : sankeySol.vss true = some (fun _ => some 1) ∧ sankeySol.vss false = some (fun _ => some (-1)) ∧ sankeySol.csenss true = some 1 := by simp [sankeySol]
example : '.' ∉ "Wing".toList := by decide

/-- A constant, and few links. -/
example : [(⟨none, false, [], "S = 2".toList, .val 2⟩ : Fixed)] ∈ sankeySet.models := by simp [sankeySet, CSet.models]
example : ((⟨[(("Wing.0001".toList, "Wing".toList), -2), (("Wing.0002".toList, "Wing".toList), 0)], [], []⟩ : St).links.filter (fun e => decide (0 < |e.2|))).length ≤ 20 := by
  simp
example (l : List ((Sankey.Id × Sankey.Id) × ℝ)) (h : l.Sublist (⟨[(("Wing.0001".toList, "Wing".toList), -2), (("Wing.0002".toList, "Wing".toList), 0)], [], []⟩ : St).links) :
    l.length ≤ 20 := h.length_le.trans (by simp)
example : Untagged ⟨[], [], [("Wing.0001".toList, ⟨"Flap".toList, .plain⟩)]⟩ (("Wing.0001".toList, "Wing".toList), -2) ∧ "Wing.0001".toList.count '.' ≤ 1 :=
  ⟨by simp [Untagged, PyDict.get?], by decide⟩

end Verif
