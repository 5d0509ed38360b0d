import Verif.Model.LatexNames
import Verif.Spec.LatexNames
import Verif.Lemmas.Names

/-! C93: names of variables in LaTeX. -/

set_option linter.unusedSectionVars false

namespace Verif
open VK Names

namespace Names

/-- A name with a subscript. -/
def wrap (s t : Str) : Str := '{' :: s ++ "}_{".toList ++ t ++ ['}']

theorem braced_free {s : Str} (h1 : '{' ∉ s) (h2 : '}' ∉ s) : Braced s := by
  refine ⟨fun p hp => ?_, ?_⟩
  · rw [List.count_eq_zero_of_not_mem (fun h => h2 (hp.subset h))]
    exact Nat.zero_le _
  · rw [List.count_eq_zero_of_not_mem h1, List.count_eq_zero_of_not_mem h2]

theorem prefix_append_cases {p s t : Str} (h : p <+: s ++ t) : p <+: s ∨ ∃ q, p = s ++ q ∧ q <+: t := by
  obtain ⟨r, h⟩ := h
  rcases List.append_eq_append_iff.1 h with ⟨a, e, -⟩ | ⟨a, e, e'⟩
  · exact Or.inl ⟨a, e.symm⟩
  · exact Or.inr ⟨a, e, ⟨r, e'.symm⟩⟩

theorem braced_append {s t : Str} (hs : Braced s) (ht : Braced t) : Braced (s ++ t) := by
  refine ⟨fun p hp => ?_, ?_⟩
  · rcases prefix_append_cases hp with h | ⟨q, rfl, hq⟩
    · exact hs.1 p h
    · rw [List.count_append, List.count_append, hs.2]
      have := ht.1 q hq
      omega
  · rw [List.count_append, List.count_append, hs.2, ht.2]

theorem braced_group {s : Str} (hs : Braced s) : Braced ('{' :: s ++ ['}']) := by
  have e : '{' :: s ++ ['}'] = ['{'] ++ (s ++ ['}']) := rfl
  refine ⟨fun p hp => ?_, ?_⟩
  · cases p with
    | nil => simp
    | cons c p =>
      rw [List.cons_append, List.cons_prefix_cons] at hp
      obtain ⟨rfl, hp⟩ := hp
      rcases prefix_append_cases hp with h | ⟨q, rfl, hq⟩
      · have := hs.1 p h
        simp only [List.count_cons]
        simp
        omega
      · have h2 := hs.2
        have h3 : q.count '}' ≤ 1 := by
          have := hq.sublist.count_le '}'
          simpa using this
        simp only [List.count_cons, List.count_append]
        simp
        omega
  · have h2 := hs.2
    simp [List.count_append, h2]

theorem braced_wrap {s t : Str} (hs : Braced s) (ht : Braced t) : Braced (wrap s t) := by
  have e : wrap s t = ('{' :: s ++ ['}']) ++ (['_'] ++ ('{' :: t ++ ['}'])) := by simp [wrap]
  rw [e]
  exact braced_append (braced_group hs) (braced_append (braced_free (by decide) (by decide)) (braced_group ht))

theorem close_inj {s s' r r' : Str} (hs : Braced s) (hs' : Braced s') (h : s ++ '}' :: r = s' ++ '}' :: r') : s = s' ∧ r = r' := by
  have key : ∀ {s s' a r : Str}, Braced s → Braced s' → s' = s ++ a → ∀ r', '}' :: r = a ++ '}' :: r' → a = [] := by
    intro s s' a r hs hs' e r' h
    cases a with
    | nil => rfl
    | cons c a =>
      rw [List.cons_append, List.cons.injEq] at h
      obtain ⟨rfl, -⟩ := h
      have := hs'.1 (s ++ ['}']) ⟨a, by rw [e]; simp⟩
      have h2 := hs.2
      simp only [List.count_append, List.count_singleton] at this
      simp at this
      omega
  rcases List.append_eq_append_iff.1 h with ⟨a, e, h'⟩ | ⟨a, e, h'⟩
  · have := key hs hs' e r' h'
    subst this
    simp only [List.append_nil] at e
    simp only [List.nil_append, List.cons.injEq, true_and] at h'
    exact ⟨e.symm, h'⟩
  · have := key hs' hs e r h'
    subst this
    simp only [List.append_nil] at e
    simp only [List.nil_append, List.cons.injEq, true_and] at h'
    exact ⟨e, h'.symm⟩

theorem wrap_inj {s s' t t' : Str} (hs : Braced s) (hs' : Braced s') (h : wrap s t = wrap s' t') : s = s' ∧ t = t' := by
  have h : s ++ '}' :: ('_' :: '{' :: t ++ ['}']) = s' ++ '}' :: ('_' :: '{' :: t' ++ ['}']) := by simpa [wrap] using h
  obtain ⟨h1, h2⟩ := close_inj hs hs' h
  exact ⟨h1, by simpa using h2⟩

theorem wrap_head (s t : Str) : (wrap s t).head? = some '{' := rfl

/-- The name, with an arrow if it is that of a vector. -/
def core (e : Excl) (v : Var) : Str := if !e.vec && !e.idx && !v.shape.isEmpty then "\\vec{".toList ++ v.name ++ ['}'] else v.name

theorem core_braced {e : Excl} {v : Var} (hv : Neat v) : Braced (core e v) := by
  unfold core
  split
  · have e : "\\vec{".toList ++ v.name ++ ['}'] = "\\vec".toList ++ ('{' :: v.name ++ ['}']) := by simp
    rw [e]
    exact braced_append (braced_free (by decide) (by decide)) (braced_group hv.braced)
  · exact hv.braced

theorem core_head {e : Excl} {v : Var} (hv : Neat v) : (core e v).head? ≠ some '{' := by
  unfold core
  split
  · simp
  · exact hv.bare

theorem core_inj {e : Excl} {v w : Var} (hv : Neat v) (hw : Neat w) (h : core e v = core e w) : v.name = w.name ∧ (e.vec = false → e.idx = false → (v.shape = [] ↔ w.shape = [])) := by
  unfold core at h
  split at h <;> split at h
  · rename_i h1 h2
    simp only [Bool.and_eq_true, Bool.not_eq_true', List.isEmpty_eq_false_iff] at h1 h2
    exact ⟨by simpa using h, fun _ _ => by simp [h1.2, h2.2]⟩
  · exact absurd ⟨v.name ++ ['}'], by rw [← h, List.append_assoc]⟩ hw.noVec
  · exact absurd ⟨w.name ++ ['}'], by rw [h, List.append_assoc]⟩ hv.noVec
  · rename_i h1 h2
    simp only [Bool.and_eq_true, Bool.not_eq_true', List.isEmpty_eq_false_iff, not_and, not_not] at h1 h2
    exact ⟨h, fun hvec hidx => by simp [h1 ⟨hvec, hidx⟩, h2 ⟨hvec, hidx⟩]⟩

theorem join_head {sep c : Str} {x : Char} {l : List Str} : (join sep ((x :: c) :: l)).head? = some x := by
  cases l <;> simp [join]

theorem idx_join_head {i : List Nat} (h : i ≠ []) : ∃ c, (join [','] (i.map num)).head? = some c ∧ c.isDigit = true := by
  cases i with
  | nil => exact absurd rfl h
  | cons n l =>
    cases hn : num n with
    | nil => exact absurd hn (num_ne_nil n)
    | cons c s =>
      rw [List.map_cons, hn]
      exact ⟨c, join_head, num_digit (n := n) (by rw [hn]; simp)⟩

theorem idx_braced (i : List Nat) : Braced (join [','] (i.map num)) := by
  have h : ∀ d : Char, d ≠ ',' → d.isDigit = false → d ∉ join [','] (i.map num) := by
    intro d hd hdig hm
    rcases mem_join hm with hm | ⟨a, ha, hc⟩
    · exact hd (by simpa using hm)
    · obtain ⟨n, -, rfl⟩ := List.mem_map.1 ha
      exact num_ne hc hdig rfl
  exact braced_free (h '{' (by decide) (by decide)) (h '}' (by decide) (by decide))

theorem idx_join_inj {i j : List Nat} (hi : i ≠ []) (hj : j ≠ []) (h : join [','] (i.map num) = join [','] (j.map num)) : i = j := by
  apply idxStr_inj
  cases i with
  | nil => exact absurd rfl hi
  | cons a i =>
    cases j with
    | nil => exact absurd rfl hj
    | cons b j =>
      show '[' :: join [','] ((a :: i).map num) ++ [']'] = '[' :: join [','] ((b :: j).map num) ++ [']']
      rw [h]

theorem lineage_head {v : Var} (hv : Neat v) (h : v.lineage ≠ []) (b : Bool) : ∃ c, (lineageStr b v.lineage).head? = some c ∧ c.isDigit = false := by
  have hm := hv.models
  cases hl : v.lineage with
  | nil => exact absurd hl h
  | cons x l =>
    rw [hl] at hm
    obtain ⟨-, -, -, ⟨c, s, e, hc⟩, -⟩ := hm x (by simp)
    refine ⟨c, ?_, hc⟩
    unfold lineageStr
    have : ∃ s', piece b x = c :: s' := by
      unfold piece
      rw [e]
      split
      · exact ⟨_, rfl⟩
      · exact ⟨s, rfl⟩
    obtain ⟨s', e'⟩ := this
    rw [List.map_cons, e']
    exact join_head

theorem lineage_braced {v : Var} (hv : Neat v) (b : Bool) : Braced (lineageStr b v.lineage) := by
  have h : ∀ d : Char, d ≠ '.' → d.isDigit = false → (∀ x ∈ v.lineage, d ∉ x.1) → d ∉ lineageStr b v.lineage := by
    intro d hd hdig hx hm
    rcases mem_join hm with hm | ⟨a, ha, hc⟩
    · exact hd (by simpa using hm)
    · obtain ⟨x, hx', rfl⟩ := List.mem_map.1 ha
      unfold piece at hc
      split at hc
      · rcases List.mem_append.1 hc with hc | hc
        · exact hx x hx' hc
        · exact num_ne hc hdig rfl
      · exact hx x hx' hc
  exact braced_free (h '{' (by decide) (by decide) (fun x hx => (hv.models x hx).2.1)) (h '}' (by decide) (by decide) (fun x hx => (hv.models x hx).2.2.1))

theorem lineage_str_inj {v w : Var} (hv : Neat v) (hw : Neat w) (h1 : v.lineage ≠ []) (h2 : w.lineage ≠ []) (h : lineageStr true v.lineage = lineageStr true w.lineage) :
    v.lineage = w.lineage := by
  have hdot : ∀ {v : Var}, Neat v → ∀ s ∈ v.lineage.map (piece true), '.' ∉ s := by
    intro v hv s hs hd
    obtain ⟨x, hx, rfl⟩ := List.mem_map.1 hs
    unfold piece at hd
    split at hd
    · rcases List.mem_append.1 hd with hd | hd
      · exact (hv.models x hx).1 hd
      · exact num_ne hd (by decide) rfl
    · exact (hv.models x hx).1 hd
  exact lineage_pieces (fun x hx => (hv.models x hx).2.2.2.2) (fun x hx => (hw.models x hx).2.2.2.2)
    (dotfree_join (by simpa using h1) (by simpa using h2) (hdot hv) (hdot hw) h)

/-- The name with its index. -/
def mid (e : Excl) (v : Var) : Str := if v.idx.isEmpty then core e v else wrap (core e v) (join [','] (v.idx.map num))

theorem mid_braced {e : Excl} {v : Var} (hv : Neat v) : Braced (mid e v) := by
  unfold mid
  split
  · exact core_braced hv
  · exact braced_wrap (core_braced hv) (idx_braced _)

theorem mid_inj {e : Excl} {v w : Var} (hv : Neat v) (hw : Neat w) (h : mid e v = mid e w) : core e v = core e w ∧ v.idx = w.idx := by
  unfold mid at h
  split at h <;> split at h
  · rename_i h1 h2
    exact ⟨h, by rw [List.isEmpty_iff.1 h1, List.isEmpty_iff.1 h2]⟩
  · exact absurd (congrArg List.head? h) (core_head hv)
  · exact absurd (congrArg List.head? h).symm (core_head hw)
  · rename_i h1 h2
    obtain ⟨e1, e2⟩ := wrap_inj (core_braced hv) (core_braced hw) h
    exact ⟨e1, idx_join_inj (by simpa using h1) (by simpa using h2) e2⟩

/-- A name with an index is not one with a lineage. -/
theorem mid_ne {e : Excl} {v w : Var} (hv : Neat v) (hw : Neat w) (h0 : v.lineage ≠ []) : wrap (mid e v) (lineageStr true v.lineage) ≠ mid e w := by
  intro h
  rw [mid.eq_def e w] at h
  split at h
  · exact core_head hw (congrArg List.head? h).symm
  · rename_i hw'
    obtain ⟨-, e2⟩ := wrap_inj (mid_braced hv) (core_braced hw) h
    obtain ⟨c, hc, hcd⟩ := lineage_head hv h0 true
    obtain ⟨d, hd, hdd⟩ := idx_join_head (i := w.idx) (by simpa using hw')
    rw [e2, hd] at hc
    cases hc
    rw [hdd] at hcd
    cases hcd

theorem latexName_eq {e : Excl} (hi : e.idx = false) (hl : e.lineage = false) (hm : e.modelnums = false) (n : Bool) (v : Var) :
    latexName e n v = if shownLineage e n v = [] then mid e v else wrap (mid e v) (lineageStr true v.lineage) := by
  have h1 : latexName e n v = if !v.lineage.isEmpty && (!e.unnecessary || n) then wrap (mid e v) (lineageStr true v.lineage) else mid e v := by
    have h2 : mid e v = if !v.idx.isEmpty then wrap (core e v) (join [','] (v.idx.map num)) else core e v := by
      unfold mid
      cases v.idx.isEmpty <;> rfl
    rw [h2]
    unfold latexName
    rw [hl, hm]
    unfold core wrap
    rw [hi]
    rfl
  rw [h1]
  unfold shownLineage
  generalize wrap (mid e v) (lineageStr true v.lineage) = a
  generalize mid e v = b
  cases v.lineage <;> cases e.unnecessary <;> cases n <;> simp

end Names

/-- C93, LaTeX of different variables differs, if names are neat; but for variables that differ in units only. With `vec` excluded, a vector is shown as a scalar is.
Missing: names that look like those of vectors or elements (`C93_name_fails`), models with digits at the end (`C93_numbers_fails`). -/
theorem C93_distinct_partial {e : Excl} (hi : e.idx = false) (hl : e.lineage = false) (hm : e.modelnums = false) {v w : Var} (hv : Neat v) (hw : Neat w) {n m : Bool}
    (h : latexName e n v = latexName e m w) :
    v.name = w.name ∧ v.idx = w.idx ∧ shownLineage e n v = shownLineage e m w ∧ (e.vec = false → (v.shape = [] ↔ w.shape = [])) := by
  rw [latexName_eq hi hl hm, latexName_eq hi hl hm] at h
  have hlin : ∀ {v : Var} {n : Bool}, shownLineage e n v ≠ [] → shownLineage e n v = v.lineage := by
    intro v n h
    unfold shownLineage at h ⊢
    split
    · rfl
    · rename_i h'
      rw [if_neg h'] at h
      exact absurd rfl h
  have fin : mid e v = mid e w → shownLineage e n v = shownLineage e m w →
      v.name = w.name ∧ v.idx = w.idx ∧ shownLineage e n v = shownLineage e m w ∧ (e.vec = false → (v.shape = [] ↔ w.shape = [])) := by
    intro h1 h2
    obtain ⟨h3, h4⟩ := mid_inj hv hw h1
    obtain ⟨h5, h6⟩ := core_inj hv hw h3
    exact ⟨h5, h4, h2, fun hvec => h6 hvec hi⟩
  split at h <;> split at h
  · rename_i h1 h2
    exact fin h (by rw [h1, h2])
  · rename_i h1 h2
    exact absurd h.symm (mid_ne hw hv (hlin h2 ▸ h2))
  · rename_i h1 h2
    exact absurd h (mid_ne hv hw (hlin h1 ▸ h1))
  · rename_i h1 h2
    obtain ⟨e1, e2⟩ := wrap_inj (mid_braced hv) (mid_braced hw) h
    refine fin e1 ?_
    rw [hlin h1, hlin h2]
    exact lineage_str_inj hv hw (hlin h1 ▸ h1) (hlin h2 ▸ h2) e2

/-- C93, the braces of a name match. -/
theorem C93_braces_partial {e : Excl} (hi : e.idx = false) (hl : e.lineage = false) (hm : e.modelnums = false) {v : Var} (hv : Neat v) (n : Bool) : Braced (latexName e n v) := by
  rw [latexName_eq hi hl hm]
  split
  · exact mid_braced hv
  · exact braced_wrap (mid_braced hv) (lineage_braced hv true)

/-- C93 fails for names that look like those of vectors or elements: a scalar called `\vec{x}` and a vector called `x`, and a scalar called `{\vec{x}}_{0}` and an element. -/
theorem C93_name_fails :
    latexName {} false ⟨"\\vec{x}".toList, [], [], [], ['-']⟩ = latexName {} false ⟨['x'], [], [], [3], ['-']⟩ ∧
    latexName {} false ⟨"{\\vec{x}}_{0}".toList, [], [], [], ['-']⟩ = latexName {} false ⟨['x'], [], [0], [3], ['-']⟩ := by decide +kernel

/-- C93 fails for models whose names end in digits: `x` in the second model called `A`, and in the model `A1`. -/
theorem C93_numbers_fails :
    latexName {} false ⟨['x'], [(['A'], 1)], [], [], ['-']⟩ = latexName {} false ⟨['x'], [("A1".toList, 0)], [], [], ['-']⟩ := by decide +kernel

/-- C93 fails for models called like `A_b_c`: TeX refuses the second subscript, whatever the variable. -/
theorem C93_underscore_fails (name : Str) (n : Nat) : Doubled (latexName {} false ⟨name, [("A_b_c".toList, n)], [], [], ['-']⟩) := by
  refine ⟨'{' :: name ++ "}_{A".toList, 'b', 'c' :: (if n ≠ 0 then num n else []) ++ ['}'], ?_, by decide, by decide, by decide⟩
  by_cases h : n = 0 <;> simp [latexName, lineageStr, piece, join, h]

/-! ### The hypotheses can be met -/

example : Neat ⟨"V_{max}".toList, [("Aircraft".toList, 0), ("Wing".toList, 2)], [1, 2], [3, 3], ['-']⟩ :=
  ⟨⟨fun p hp => by
    have : p ∈ "V_{max}".toList.inits := (List.mem_inits p _).2 hp
    clear hp
    revert p
    decide +kernel, by decide +kernel⟩, by decide, by decide +kernel, fun x hx => by
    rcases List.mem_cons.1 hx with rfl | hx
    · exact ⟨by decide, by decide, by decide, ⟨'A', "ircraft".toList, rfl, by decide⟩, fun c hc => by cases hc; decide⟩
    · rw [List.mem_singleton.1 hx]
      exact ⟨by decide, by decide, by decide, ⟨'W', "ing".toList, rfl, by decide⟩, fun c hc => by cases hc; decide⟩⟩
example : latexName {} false ⟨"V_{max}".toList, [("Aircraft".toList, 0), ("Wing".toList, 2)], [1, 2], [3, 3], ['-']⟩ =
    "{{\\vec{V_{max}}}_{1,2}}_{Aircraft.Wing2}".toList := by decide +kernel

end Verif
