import Verif.Lemmas.Names

/-! C79: names of variables in texts and files. -/

set_option linter.unusedSectionVars false

namespace Verif
open VK Names Lookup

section C79

namespace Names

/-- The keymap of a model or a solution after some lookups. -/
def looked (ord : List Var → List Var) (objs : List Obj) (us : List (Use Var Str)) : KeySet Var Str :=
  us.foldl (use (env ord)) (fresh (objs.map Obj.var))

/-- The flags under which texts are made. -/
def flagged (ord : List Var → List Var) (objs : List Obj) (us : List (Use Var Str)) (f : Flags) : Flags :=
  (collisions (env ord) (looked ord objs us) objs).2.foldl setFlag f

theorem mem_flagged {ord : List Var → List Var} (hE : OrdOK ord) {objs : List Obj} (us : List (Use Var Str)) (f : Flags) {o : Obj} (ho : o ∈ objs)
    (h : Collides objs o) : o.id ∈ flagged ord objs us f :=
  (mem_setFlags _ _ _).2 (.inr (List.mem_map_of_mem ((mem_collisions hE (inv_uses (env_ok hE) us (inv_fresh _ _)) o).2 ⟨ho, h⟩)))

theorem obj_eq {objs : List Obj} (hn : (objs.map Obj.var).Nodup) {a b : Obj} (ha : a ∈ objs) (hb : b ∈ objs) (h : a.var = b.var) : a = b :=
  List.inj_on_of_nodup_map hn ha hb h

end Names

/-- C79. In a text that leaves out unnecessary lineage, different variables have different names. Required: names without dots and brackets and models
whose names do not end in digits (`C79_numbers_fails`), no two variables that differ in units only (`C79_units_fails`), no vectors in several models
under one name, if their elements are shown (`C79_elements_fails`), and one object for each variable (`C79_objects_fails`). -/
theorem C79_distinct_partial {ord : List Var → List Var} (hE : OrdOK ord) {objs : List Obj} (hA : Apart objs) (us : List (Use Var Str)) (f : Flags)
    {e : Excl} (he : e.Short) {a b : Obj} (ha : a ∈ objs) (hb : b ∈ objs)
    (h : printName (flagged ord objs us f) e a = printName (flagged ord objs us f) e b) : a = b := by
  obtain ⟨h1, h2, h3⟩ := str_inj he (hA.clear a ha) (hA.clear b hb) h
  by_contra hne
  have hvar : a.var ≠ b.var := fun h => hne (obj_eq hA.nodup ha hb h)
  apply hvar
  refine hA.differ a ha b hb h1 ?_ h2
  by_cases hi : a.var.idx = []
  · have hib : b.var.idx = [] := by rw [← h2, hi]
    have hc : ∀ o : Obj, o.var.name = a.var.name → o.var.idx = [] → Collides objs o := by
      intro o hn ho
      refine ⟨a, ha, b, hb, ?_, ?_, hvar⟩
      · rw [short_scalar ho, hn]
        exact name_mem _
      · rw [short_scalar ho, hn, h1]
        exact name_mem _
    have hfa := mem_flagged hE us f ha (hc a rfl hi)
    have hfb := mem_flagged hE us f hb (hc b h1.symm hib)
    unfold shownModels at h3
    rw [decide_eq_true hfa, decide_eq_true hfb] at h3
    exact lineage_pieces (fun x hx => ((hA.clear a ha).models x hx).2.2) (fun x hx => ((hA.clear b hb).models x hx).2.2) h3
  · exact hA.vectors a ha b hb hi (h2 ▸ hi) h1

/-- C79: lineage is shown only where it is needed: a scalar or a vector whose name no other variable has is shown without it. -/
theorem C79_minimal_partial {ord : List Var → List Var} (hE : OrdOK ord) {objs : List Obj} (hA : Apart objs) (hi : Ids objs) (us : List (Use Var Str))
    {e : Excl} {o : Obj} (ho : o ∈ objs) (h0 : o.var.idx = []) (hu : ∀ a ∈ objs, a.var.name = o.var.name → a = o) (hun : e.unnecessary = true) :
    printName (flagged ord objs us []) e o = strWithout { e with lineage := true } false o.var := by
  have hn : o.id ∉ flagged ord objs us [] := by
    intro hm
    rcases (mem_setFlags _ _ _).1 hm with hm | hm
    · cases hm
    · obtain ⟨p, hp, hid⟩ := List.mem_map.1 hm
      obtain ⟨hpo, hc⟩ := (mem_collisions hE (inv_uses (env_ok hE) us (inv_fresh _ _)) p).1 hp
      have hpe : p = o := List.inj_on_of_nodup_map hi hpo ho hid
      subst hpe
      obtain ⟨a, ha, b, hb, h1, h2, hab⟩ := hc
      rw [short_scalar h0] at h1 h2
      have e1 := hu a ha (plain_key (hA.clear p ho).name h1).symm
      have e2 := hu b hb (plain_key (hA.clear p ho).name h2).symm
      exact hab (by rw [e1, e2])
  unfold printName
  rw [decide_eq_false hn]
  unfold strWithout
  simp [hun]

/-- C79: the flags are gone afterwards, so that later texts are not changed, unless an exception was raised (`C79_exception_fails`). -/
theorem C79_restored {A : Type} {objs : List Obj} (hi : Ids objs) (E : Env Var Str (List Nat)) (s : KeySet Var Str) {body : Flags → Except Err A} {a : A}
    (hb : body ((collisions E s objs).2.foldl setFlag []) = .ok a) : necessarily (collisions E s objs).2 body [] = (.ok a, []) := by
  have hc : ((collisions E s objs).2.map Obj.id).Nodup := hi.sublist ((collisions_sublist E objs s).map _)
  obtain ⟨h1, h2⟩ := necessarily_ok hc List.nodup_nil hb
  refine Prod.ext h1 (List.eq_nil_iff_forall_not_mem.2 (fun i hm => ?_))
  have := (h2 i).1 hm
  cases this.1

namespace Names

theorem set_new {α β : Type} [BEq α] [LawfulBEq α] : ∀ (d : PyDict α β) (k : α) (v : β), k ∉ d.map (·.1) → d.set k v = d ++ [(k, v)]
  | [], _, _, _ => rfl
  | (k', v') :: d, k, v, h => by
    rw [List.map_cons, List.mem_cons, not_or] at h
    rw [PyDict.set_cons, if_neg (by simpa using Ne.symm h.1), set_new d k v h.2]
    rfl

theorem namesDict_eq (f : Flags) (e : Excl) (l : List Obj) (h : (l.map (printName f e)).Nodup) : namesDict f e l = l.map (fun o => (printName f e o, o)) := by
  have key : ∀ (l : List Obj) (d : PyDict Str Obj), (d.map (·.1) ++ l.map (printName f e)).Nodup →
      l.foldl (fun d o => d.set (printName f e o) o) d = d ++ l.map (fun o => (printName f e o, o)) := by
    intro l
    induction l with
    | nil => intro d _; simp
    | cons o l ih =>
      intro d hd
      have hnot : printName f e o ∉ d.map (·.1) := by
        intro hm
        rw [List.map_cons] at hd
        exact (List.nodup_append.1 hd).2.2 _ hm _ (by simp) rfl
      rw [List.foldl_cons, set_new d _ _ hnot, ih]
      · simp
      · simpa using hd
  exact key l [] (by simpa using h)

theorem get_pairs {α β : Type} [BEq α] [LawfulBEq α] (k : β → α) : ∀ (l : List β), (l.map k).Nodup → ∀ n o,
    PyDict.get? (l.map (fun o => (k o, o))) n = some o ↔ o ∈ l ∧ n = k o
  | [], _, n, o => by simp
  | x :: l, h, n, o => by
    rw [List.map_cons, List.nodup_cons] at h
    rw [List.map_cons, PyDict.get?_cons]
    by_cases hx : k x = n
    · rw [if_pos (by simpa using hx)]
      constructor
      · intro he
        cases he
        exact ⟨by simp, hx.symm⟩
      · rintro ⟨ho, hn⟩
        rcases List.mem_cons.1 ho with rfl | ho
        · rfl
        · exact absurd (List.mem_map_of_mem (f := k) ho) (by rw [← hn, ← hx]; exact h.1)
    · rw [if_neg (by simpa using hx), get_pairs k l h.2 n o]
      constructor
      · rintro ⟨h1, h2⟩
        exact ⟨by simp [h1], h2⟩
      · rintro ⟨h1, h2⟩
        rcases List.mem_cons.1 h1 with rfl | h1
        · exact absurd h2.symm hx
        · exact ⟨h1, h2⟩

theorem printed_nodup {ord : List Var → List Var} (hE : OrdOK ord) {objs : List Obj} (hA : Apart objs) (us : List (Use Var Str)) (f : Flags) {e : Excl}
    (he : e.Short) {l : List Obj} (hl : l.Nodup) (hs : ∀ o ∈ l, o ∈ objs) : (l.map (printName (flagged ord objs us f) e)).Nodup := by
  refine List.Nodup.map_on ?_ hl
  intro a ha b hb h
  exact C79_distinct_partial hE hA us f he (hs a ha) (hs b hb) h

end Names

/-- C79: `varnames` lists each variable once, under the name it has in texts. -/
theorem C79_varnames_partial {ord : List Var → List Var} (hE : OrdOK ord) {objs shown : List Obj} (hA : Apart objs) (hi : Ids objs)
    (us : List (Use Var Str)) {e : Excl} (he : e.Short) (hn : shown.Nodup) (hs : ∀ o ∈ shown, o ∈ objs) :
    ∃ d, varnames (env ord) (looked ord objs us) objs shown e [] = (.ok d, []) ∧ d.length = (if shown = [] then objs else shown).length ∧
      ∀ n o, d.get? n = some o ↔ o ∈ (if shown = [] then objs else shown) ∧ n = printName (flagged ord objs us []) e o := by
  have hob : objs.Nodup := List.Nodup.of_map _ hi
  have hl : ∃ l : List Obj, (if shown.isEmpty then objs else shown) = l ∧ (if shown = [] then objs else shown) = l ∧ l.Nodup ∧ ∀ o ∈ l, o ∈ objs := by
    cases shown with
    | nil => exact ⟨objs, rfl, by simp, hob, fun o ho => ho⟩
    | cons x l => exact ⟨x :: l, rfl, by simp, hn, hs⟩
  obtain ⟨l, h1, h2, h3, h4⟩ := hl
  have hnd := printed_nodup hE hA us [] he h3 h4
  refine ⟨namesDict (flagged ord objs us []) e l, ?_, ?_, ?_⟩
  · unfold varnames
    rw [h1]
    exact C79_restored hi _ _ rfl
  · rw [namesDict_eq _ _ _ hnd, h2, List.length_map]
  · intro n o
    rw [namesDict_eq _ _ _ hnd, h2]
    exact get_pairs _ l hnd n o

namespace Names

theorem mem_indices : ∀ (sh i : List Nat), i ∈ indices sh ↔ List.Forall₂ (· < ·) i sh
  | [], i => by
    unfold indices
    rw [List.mem_singleton]
    constructor
    · rintro rfl; exact .nil
    · intro h; cases h; rfl
  | n :: l, i => by
    unfold indices
    rw [List.mem_flatMap]
    constructor
    · rintro ⟨j, hj, hm⟩
      obtain ⟨k, hk, rfl⟩ := List.mem_map.1 hm
      exact .cons (List.mem_range.1 hj) ((mem_indices l k).1 hk)
    · intro h
      cases h with
      | cons h1 h2 => exact ⟨_, List.mem_range.2 h1, List.mem_map.2 ⟨_, (mem_indices l _).2 h2, rfl⟩⟩

theorem indices_nodup : ∀ sh : List Nat, (indices sh).Nodup
  | [] => by simp [indices]
  | n :: l => by
    unfold indices
    rw [List.nodup_flatMap]
    refine ⟨fun i _ => (indices_nodup l).map (fun a b h => (List.cons.inj h).2), ?_⟩
    refine List.nodup_range.imp ?_
    intro i j hij
    show List.Disjoint _ _
    intro x hx hy
    obtain ⟨a, _, rfl⟩ := List.mem_map.1 hx
    obtain ⟨b, _, h⟩ := List.mem_map.1 hy
    exact hij (List.cons.inj h).1.symm

/-- The places of a variable's values: none for a scalar, the indices within the shape of its value for a vector. -/
def Place {K : Type} (value : Var → List Nat × (List Nat → K)) (v : Var) (i : List Nat) : Prop :=
  (v.shape = [] ∧ i = []) ∨ (v.shape ≠ [] ∧ List.Forall₂ (· < ·) i (value v).1)

theorem rowsOf_idx {K : Type} (value : Var → List Nat × (List Nat → K)) (o : Obj) :
    ∃ is : List (List Nat), is.Nodup ∧ (∀ i, i ∈ is ↔ Place value o.var i) ∧ rowsOf value o = is.map (fun i => ⟨o.var.name, i, (value o.var).2 i, o.var.lineage⟩) := by
  unfold rowsOf Place
  cases h : o.var.shape with
  | nil => exact ⟨[[]], by simp, by simp, rfl⟩
  | cons n l => exact ⟨indices (value o.var).1, indices_nodup _, by intro i; rw [mem_indices]; simp, rfl⟩

theorem filter_map_one {A B : Type} (p : B → Bool) (g : A → B) (a : A) : ∀ l : List A, l.Nodup → a ∈ l → (∀ b ∈ l, p (g b) = true ↔ b = a) → (l.map g).filter p = [g a]
  | [], _, h, _ => by cases h
  | x :: l, hn, h, hp => by
    rw [List.nodup_cons] at hn
    rw [List.map_cons]
    by_cases hx : x = a
    · subst hx
      rw [List.filter_cons_of_pos ((hp x (by simp)).2 rfl)]
      congr 1
      rw [List.filter_eq_nil_iff]
      intro b hb
      obtain ⟨y, hy, rfl⟩ := List.mem_map.1 hb
      intro hpy
      exact hn.1 ((hp y (by simp [hy])).1 hpy ▸ hy)
    · rw [List.filter_cons_of_neg (fun h' => hx ((hp x (by simp)).1 h'))]
      rcases List.mem_cons.1 h with rfl | h
      · exact absurd rfl hx
      · exact filter_map_one p g a l hn.2 h (fun b hb => hp b (by simp [hb]))

theorem filter_flatMap_one {A B : Type} (p : B → Bool) (g : A → List B) (a : A) (r : B) : ∀ l : List A, l.Nodup → a ∈ l → (g a).filter p = [r] →
    (∀ b ∈ l, b ≠ a → (g b).filter p = []) → (l.flatMap g).filter p = [r]
  | [], _, h, _, _ => by cases h
  | x :: l, hn, h, hr, hp => by
    rw [List.nodup_cons] at hn
    rw [List.flatMap_cons, List.filter_append]
    by_cases hx : x = a
    · subst hx
      rw [hr]
      have : (l.flatMap g).filter p = [] := by
        rw [List.filter_eq_nil_iff]
        intro b hb
        obtain ⟨y, hy, hby⟩ := List.mem_flatMap.1 hb
        have hye := hp y (by simp [hy]) (fun h' => hn.1 (h' ▸ hy))
        exact (List.filter_eq_nil_iff.1 hye) b hby
      rw [this]
      rfl
    · rw [hp x (by simp) hx, List.nil_append]
      rcases List.mem_cons.1 h with rfl | h
      · exact absurd rfl hx
      · exact filter_flatMap_one p g a r l hn.2 h hr (fun b hb => hp b (by simp [hb]))

end Names

/-- C79: a data frame has exactly one row for each value of each variable of a solution, with its name, models, index and value, and no others. -/
theorem C79_rows_partial {K : Type} {ord : List Var → List Var} (hE : OrdOK ord) {objs : List Obj} (hA : Apart objs) (hi : Ids objs)
    (us : List (Use Var Str)) (sort : List (Str × Obj) → List (Str × Obj)) (hsort : ∀ l, (sort l).Perm l)
    (value : Var → List Nat × (List Nat → K)) (h0 : ∀ o ∈ objs, o.var.idx = []) :
    ∃ rows, todataframe (env ord) (looked ord objs us) sort value objs [] saved [] = (.ok rows, []) ∧
      (∀ o ∈ objs, ∀ i, Place value o.var i →
        rows.filter (fun r => r.name = o.var.name ∧ r.lineage = o.var.lineage ∧ r.idx = i) = [⟨o.var.name, i, (value o.var).2 i, o.var.lineage⟩]) ∧
      ∀ r ∈ rows, ∃ o ∈ objs, Place value o.var r.idx ∧ r = ⟨o.var.name, r.idx, (value o.var).2 r.idx, o.var.lineage⟩ := by
  have hob : objs.Nodup := List.Nodup.of_map _ hi
  have he : saved.Short := ⟨rfl, rfl, rfl, rfl⟩
  have hnd := printed_nodup hE hA us [] he hob (fun o ho => ho)
  have hv : varnames (env ord) (looked ord objs us) objs [] saved [] =
      (.ok (objs.map (fun o => (printName (flagged ord objs us []) saved o, o))), []) := by
    unfold varnames
    rw [C79_restored hi _ _ (a := namesDict (flagged ord objs us []) saved objs) rfl, namesDict_eq _ _ _ hnd]
  have hperm : ((sort (objs.map (fun o => (printName (flagged ord objs us []) saved o, o)))).map (·.2)).Perm objs := by
    have := (hsort (objs.map (fun o => (printName (flagged ord objs us []) saved o, o)))).map (·.2)
    rwa [List.map_map, show ((fun x : Str × Obj => x.2) ∘ fun o => (printName (flagged ord objs us []) saved o, o)) = id from rfl, List.map_id] at this
  refine ⟨((sort (objs.map (fun o => (printName (flagged ord objs us []) saved o, o)))).map (·.2)).flatMap (rowsOf value), ?_, ?_, ?_⟩
  · unfold todataframe
    rw [hv, List.flatMap_map]
  · intro o ho i hp
    refine filter_flatMap_one _ _ o _ _ (hperm.nodup_iff.2 hob) (hperm.mem_iff.2 ho) ?_ ?_
    · obtain ⟨is, h1, h2, h3⟩ := rowsOf_idx value o
      rw [h3]
      refine filter_map_one _ _ i is h1 ((h2 i).2 hp) ?_
      intro b _
      simp
    · intro b hb hne
      rw [List.filter_eq_nil_iff]
      intro r hr hm
      obtain ⟨is, _, _, h3⟩ := rowsOf_idx value b
      rw [h3] at hr
      obtain ⟨j, _, rfl⟩ := List.mem_map.1 hr
      simp only [decide_eq_true_eq] at hm
      have hb' := hperm.mem_iff.1 hb
      exact hne (obj_eq hA.nodup hb' ho (hA.differ b hb' o ho hm.1 hm.2.1 (by rw [h0 b hb', h0 o ho])))
  · intro r hr
    obtain ⟨o, ho, hro⟩ := List.mem_flatMap.1 hr
    obtain ⟨is, _, h2, h3⟩ := rowsOf_idx value o
    rw [h3] at hro
    obtain ⟨i, hi', rfl⟩ := List.mem_map.1 hro
    exact ⟨o, hperm.mem_iff.1 ho, (h2 i).1 hi', rfl⟩

namespace Names

/-- Scalars `x` in models `A` and `B`, `y` and a vector `z`. -/
def exObjs : List Obj :=
  [⟨0, ⟨['x'], [(['A'], 0)], [], [], ['-']⟩⟩, ⟨1, ⟨['x'], [(['B'], 2)], [], [], ['-']⟩⟩, ⟨2, ⟨['y'], [(['A'], 0)], [], [], ['m']⟩⟩,
    ⟨3, ⟨['z'], [(['B'], 2)], [], [2], ['-']⟩⟩]

/-- The texts. -/
def texts (ord : List Var → List Var) (objs : List Obj) (e : Excl) : List String := objs.map (fun o => String.ofList (printName (flagged ord objs [] []) e o))

end Names

/-- In the example, `x` is shown with its models. -/
example : texts id exObjs { unnecessary := true } = ["A.x", "B2.x", "y", "z[:]"] := by decide +kernel

/-- The hypotheses can be met. -/
example : OrdOK id ∧ Apart exObjs ∧ Ids exObjs ∧ saved.Short ∧ ∀ o ∈ exObjs, o.var.idx = [] := by
  refine ⟨fun l => .refl l, ⟨?_, by decide, by decide, by decide⟩, by unfold Ids; decide, ⟨rfl, rfl, rfl, rfl⟩, by decide⟩
  intro o ho
  simp only [exObjs, List.mem_cons, List.not_mem_nil, or_false] at ho
  rcases ho with rfl | rfl | rfl | rfl <;> refine ⟨by decide, ?_⟩ <;> intro x hx <;> simp only [List.mem_singleton] at hx <;> subst hx <;>
    refine ⟨by decide, by decide, ?_⟩ <;> intro c hc <;> cases hc <;> rfl

/-- C79 fails for elements of vectors: the elements of a vector `x` in a model `A` and of one in a model `B` have the same names in the text of a
model. -/
theorem C79_elements_fails :
    texts id [⟨0, ⟨['x'], [(['A'], 0)], [0], [2], ['-']⟩⟩, ⟨1, ⟨['x'], [(['B'], 0)], [0], [2], ['-']⟩⟩] { unnecessary := true, units := true, root := true } =
      ["x[0]", "x[0]"] := by decide +kernel

/-- C79 (names to look up). A variable is found under its name, and under its name after the names of the models it is in, without their numbers. An element
of a vector is also found under the vector's. -/
theorem C79_keys (ord : List Var → List Var) (v : Var) :
    .str v.name ∈ (env ord).keys v ∧
    .str (path v ++ (if v.idx = [] then [] else idxStr v.idx)) ∈ (env ord).keys v ∧ (v.idx ≠ [] → .str (path v) ∈ (env ord).keys v) := by
  have hp : (if v.lineage.isEmpty then v.name else lineageStr false v.lineage ++ '.' :: v.name) = path v := by
    unfold path lineageStr
    have hpc : piece false = fun x => x.1 := by funext x; simp [piece]
    rw [hpc]
    generalize v.lineage = l
    induction l with
    | nil => rfl
    | cons a l ih =>
      cases l with
      | nil => simp [join]
      | cons b l =>
        simp only [List.isEmpty_cons, Bool.false_eq_true, if_false, List.map_cons, List.flatMap_cons, List.append_assoc] at ih ⊢
        rw [← ih]
        simp [join]
  have h1 : strWithout { modelnums := true, vec := true } false v = path v ++ (if v.idx = [] then [] else idxStr v.idx) := by
    rw [← hp]
    unfold strWithout
    cases v.idx <;> cases v.lineage <;> simp
  have h2 : strWithout { idx := true, modelnums := true } false v = path v := by
    rw [← hp]
    unfold strWithout
    cases v.lineage <;> simp
  refine ⟨?_, ?_, ?_⟩
  · simp [env, keys]
  · simp [env, keys, h1]
  · intro h
    simp [env, keys, h2, h]

/-- C79 fails for variables that differ in units only: `Variable("x", "m")` and `Variable("x", "ft")` are two variables, of which `varnames` lists one. -/
theorem C79_units_fails :
    ((varnames (env id) (looked id [⟨0, ⟨['x'], [], [], [], ['m']⟩⟩, ⟨1, ⟨['x'], [], [], [], "ft".toList⟩⟩] [])
      [⟨0, ⟨['x'], [], [], [], ['m']⟩⟩, ⟨1, ⟨['x'], [], [], [], "ft".toList⟩⟩] [] saved []).1.toOption) =
      some [(['x'], ⟨1, ⟨['x'], [], [], [], "ft".toList⟩⟩)] := by decide +kernel

/-- C79 fails for names of models that end in digits: `x` in the second model called `A` and `x` in a model called `A1` have the same name. -/
theorem C79_numbers_fails :
    texts id [⟨0, ⟨['x'], [(['A'], 1)], [], [], ['-']⟩⟩, ⟨1, ⟨['x'], [("A1".toList, 0)], [], [], ['-']⟩⟩] { unnecessary := true } = ["A1.x", "A1.x"] := by
  decide +kernel

/-- C79 fails for variables made twice: of two equal keys only the one in the set of keys is shown with its model. So the other one, in a
constraint of model `A`, has the name of a variable outside of all models. -/
theorem C79_objects_fails :
    let objs : List Obj := [⟨0, ⟨['x'], [(['A'], 0)], [], [], ['-']⟩⟩, ⟨1, ⟨['x'], [], [], [], ['-']⟩⟩]
    let other : Obj := ⟨2, ⟨['x'], [(['A'], 0)], [], [], ['-']⟩⟩
    printName (flagged id objs [] []) { unnecessary := true } other = printName (flagged id objs [] []) { unnecessary := true } ⟨1, ⟨['x'], [], [], [], ['-']⟩⟩ ∧
    other.var ≠ (⟨['x'], [], [], [], ['-']⟩ : Var) := by decide +kernel

/-- C79 fails for texts that are kept: after a model with `A.x` and `y` was printed, the expression `A.x + y` is printed without lineage in a model that
also has `B.x`, where it would be shown with it. It is shown with it if units are asked for: texts are kept under another key than they are looked up
with. -/
theorem C79_cached_fails :
    let ax : Obj := ⟨0, ⟨['x'], [(['A'], 0)], [], [], ['-']⟩⟩
    let bx : Obj := ⟨1, ⟨['x'], [(['B'], 0)], [], [], ['-']⟩⟩
    let y : Obj := ⟨2, ⟨['y'], [(['A'], 0)], [], [], ['-']⟩⟩
    let e : Excl := { unnecessary := true, units := true, root := true }
    let first := cachedText [] e (sumText (flagged id [ax, y] [] []) ax y)
    first.2 = "x + y".toList ∧
    (cachedText first.1 e (sumText (flagged id [ax, bx, y] [] []) ax y)).2 = "x + y".toList ∧
    (cachedText first.1 { e with units := false } (sumText (flagged id [ax, bx, y] [] []) ax y)).2 = "A.x + y".toList ∧
    (cachedText [] e (sumText (flagged id [ax, bx, y] [] []) ax y)).2 = "A.x + y".toList := by decide +kernel

/-- C79 fails for `savemat`, which writes underscores for dots: if there is a variable called `A_x`, it takes the place of `x` in model `A`. -/
theorem C79_mat_fails :
    let objs : List Obj := [⟨0, ⟨['x'], [(['A'], 0)], [], [], ['-']⟩⟩, ⟨1, ⟨['x'], [(['B'], 0)], [], [], ['-']⟩⟩, ⟨2, ⟨"A_x".toList, [], [], [], ['-']⟩⟩]
    (matNames (namesDict (flagged id objs [] []) saved objs)).map (fun no => (String.ofList no.1, no.2.id)) = [("A_x", 2), ("B_x", 1)] := by decide +kernel

/-- C79 fails after an exception: if making a table raises, the flags stay, and later texts show lineage that is not needed. -/
theorem C79_exception_fails :
    let objs : List Obj := [⟨0, ⟨['x'], [(['A'], 0)], [], [], ['-']⟩⟩, ⟨1, ⟨['x'], [(['B'], 0)], [], [], ['-']⟩⟩]
    let after := (necessarily (A := Unit) (collisions (env id) (looked id objs []) objs).2 (fun _ => .error .keyError) []).2
    printName after { unnecessary := true } ⟨0, ⟨['x'], [(['A'], 0)], [], [], ['-']⟩⟩ = "A.x".toList ∧
    printName [] { unnecessary := true } ⟨0, ⟨['x'], [(['A'], 0)], [], [], ['-']⟩⟩ = "x".toList := by decide +kernel

end C79
end Verif
