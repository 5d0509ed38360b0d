import Verif.Lemmas.Notes
import Verif.Props.CSet

/-! # C84: notes of missing bounds in docstrings -/

set_option linter.unusedSectionVars false

namespace Verif
namespace Notes
open VK CSet GP PyDict

section
variable {V : Type}

theorem value_known {cond : Str → Option Bool} {look : List Str → Option (List V)} {n : Note} (h : n.Known cond look) :
    ∃ vs, n.value cond look = .ok vs ∧ ∀ v, v ∈ vs ↔ n.Holds cond ∧ n.About look v := by
  obtain ⟨h1, h2⟩ := h
  unfold Note.value
  cases hc : n.cond with
  | none =>
    have hh : n.Holds cond := by
      intro b c hb
      rw [hc] at hb
      cases hb
    obtain ⟨vs, hvs⟩ := Option.isSome_iff_exists.1 (h2 hh)
    refine ⟨vs, by rw [hvs], fun v => ⟨fun hv => ⟨hh, vs, hvs, hv⟩, ?_⟩⟩
    rintro ⟨_, vs', hvs', hv⟩
    rw [hvs] at hvs'
    cases hvs'
    exact hv
  | some bc =>
    obtain ⟨b, c⟩ := bc
    obtain ⟨x, hx⟩ := Option.isSome_iff_exists.1 (h1 b c hc)
    dsimp only
    rw [hx]
    dsimp only
    by_cases hxb : x = b
    · rw [if_pos hxb]
      refine ⟨[], rfl, fun v => ⟨by simp, ?_⟩⟩
      rintro ⟨hh, _⟩
      have := hh b c hc
      rw [hx, Option.some.injEq] at this
      rw [hxb] at this
      cases b <;> cases this
    · rw [if_neg hxb]
      have hh : n.Holds cond := by
        intro b' c' hb
        rw [hc] at hb
        cases hb
        rw [hx]
        congr 1
        revert hxb
        cases x <;> cases b <;> decide
      obtain ⟨vs, hvs⟩ := Option.isSome_iff_exists.1 (h2 hh)
      refine ⟨vs, by rw [hvs], fun v => ⟨fun hv => ⟨hh, vs, hvs, hv⟩, ?_⟩⟩
      rintro ⟨_, vs', hvs', hv⟩
      rw [hvs] at hvs'
      cases hvs'
      exact hv

theorem value_unknown {cond : Str → Option Bool} {look : List Str → Option (List V)} {n : Note} (h : ¬ n.Known cond look) :
    n.value cond look = .error .attributeError := by
  unfold Note.value
  cases hc : n.cond with
  | none =>
    cases hl : look n.path with
    | none => rfl
    | some vs =>
      exfalso
      apply h
      exact ⟨fun b c hb => (by rw [hc] at hb; cases hb), fun _ => (by rw [hl]; rfl)⟩
  | some bc =>
    obtain ⟨b, c⟩ := bc
    dsimp only
    cases hx : cond c with
    | none => rfl
    | some x =>
      dsimp only
      by_cases hxb : x = b
      · exfalso
        apply h
        refine ⟨fun b' c' hb => (by rw [hc] at hb; cases hb; rw [hx]; rfl), fun hh => ?_⟩
        have := hh b c hc
        rw [hx, Option.some.injEq, hxb] at this
        cases b <;> cases this
      · rw [if_neg hxb]
        cases hl : look n.path with
        | none => rfl
        | some vs =>
          exfalso
          apply h
          exact ⟨fun b' c' hb => (by rw [hc] at hb; cases hb; rw [hx]; rfl), fun _ => (by rw [hl]; rfl)⟩

theorem mapM_known {cond : Str → Option Bool} {look : List Str → Option (List V)} : ∀ {ns : List Note}, (∀ n ∈ ns, n.Known cond look) →
    ∃ vss, ns.mapM (Note.value cond look) = .ok vss ∧ ∀ v, v ∈ vss.flatten ↔ ∃ n ∈ ns, n.Holds cond ∧ n.About look v
  | [], _ => ⟨[], rfl, by simp⟩
  | n :: ns, h => by
    obtain ⟨vs, h1, h2⟩ := value_known (h n (by simp))
    obtain ⟨vss, h3, h4⟩ := mapM_known (ns := ns) (fun m hm => h m (List.mem_cons_of_mem _ hm))
    refine ⟨vs :: vss, by rw [List.mapM_cons, h1, h3]; rfl, fun v => ?_⟩
    rw [List.flatten_cons, List.mem_append, h2, h4]
    simp

theorem mapM_unknown {cond : Str → Option Bool} {look : List Str → Option (List V)} : ∀ {ns : List Note}, (∃ n ∈ ns, ¬ n.Known cond look) →
    ns.mapM (Note.value cond look) = .error .attributeError
  | [], h => by simp at h
  | n :: ns, h => by
    by_cases hn : n.Known cond look
    · obtain ⟨vs, h1, _⟩ := value_known hn
      have := mapM_unknown (cond := cond) (look := look) (ns := ns) (by
        obtain ⟨m, hm, hu⟩ := h
        rcases List.mem_cons.1 hm with rfl | hm
        · exact absurd hn hu
        · exact ⟨m, hm, hu⟩)
      rw [List.mapM_cons, h1, this]
      rfl
    · rw [List.mapM_cons, value_unknown hn]
      rfl

theorem mapM_text {ws : Char → Bool} (hw : White ws) (cond : Str → Option Bool) (look : List Str → Option (List V)) :
    ∀ {ns : List Note}, (∀ n ∈ ns, n.Plain ws) → (ns.map Note.text).mapM (item cond look) = ns.mapM (Note.value cond look)
  | [], _ => rfl
  | n :: ns, h => by
    rw [List.map_cons, List.mapM_cons, List.mapM_cons, item_text hw cond look (h n (by simp)),
      mapM_text hw cond look (fun m hm => h m (List.mem_cons_of_mem _ hm))]

end
end Notes

open Notes VK CSet GP PyDict

section
variable {V : Type}

/-- **C84.** The bounds read from a docstring are those noted in it: for every direction, the variables of the notes in its section whose
conditions hold, on however many lines they are, however indented, and for every condition, inverted or not. Proved for sections that are
ended by an empty line or are one line long, and written without commas at the ends of lines; for others see the violations below. -/
theorem C84_notes_partial (ws : Char → Bool) (hw : White ws) (cond : Str → Option Bool) (look : List Str → Option (List V)) (doc : Str)
    (notes : Side → List Note) (hn : ∀ d, Noted doc d (notes d)) (hp : ∀ d, ∀ n ∈ notes d, n.Plain ws) (hk : ∀ d, ∀ n ∈ notes d, n.Known cond look) :
    ∃ E, expected ws cond look doc = .ok E ∧ ∀ v d, (v, d) ∈ E ↔ ∃ n ∈ notes d, n.Holds cond ∧ n.About look v := by
  have key : ∀ d, ∃ vss : List (List V), direction ws cond look doc d = .ok (vss.flatten.map fun v => (v, d)) ∧
      ∀ v, v ∈ vss.flatten ↔ ∃ n ∈ notes d, n.Holds cond ∧ n.About look v := by
    intro d
    obtain ⟨vss, h1, h2⟩ := mapM_known (hk d)
    refine ⟨vss, ?_, h2⟩
    rw [direction_noted hw cond look (hn d) (hp d), mapM_text hw cond look (hp d), h1]
    rfl
  obtain ⟨us, hu1, hu2⟩ := key .upper
  obtain ⟨ls, hl1, hl2⟩ := key .lower
  refine ⟨us.flatten.map (fun v => (v, Side.upper)) ++ ls.flatten.map (fun v => (v, Side.lower)), ?_, ?_⟩
  · unfold expected
    rw [hu1, hl1]
    rfl
  · intro v d
    rw [List.mem_append, List.mem_map, List.mem_map]
    cases d with
    | upper =>
      rw [← hu2]
      constructor
      · rintro (⟨x, hx, he⟩ | ⟨x, hx, he⟩)
        · cases he; exact hx
        · cases he
      · exact fun hx => Or.inl ⟨v, hx, rfl⟩
    | lower =>
      rw [← hl2]
      constructor
      · rintro (⟨x, hx, he⟩ | ⟨x, hx, he⟩)
        · cases he
        · cases he; exact hx
      · exact fun hx => Or.inr ⟨v, hx, rfl⟩

/-- **C84.** A note of something that does not exist is not passed over: reading the docstring raises an `AttributeError`. -/
theorem C84_unknown (ws : Char → Bool) (hw : White ws) (cond : Str → Option Bool) (look : List Str → Option (List V)) (doc : Str)
    (notes : Side → List Note) (hn : ∀ d, Noted doc d (notes d)) (hp : ∀ d, ∀ n ∈ notes d, n.Plain ws)
    (hu : ∃ d, ∃ n ∈ notes d, ¬ n.Known cond look) : expected ws cond look doc = .error .attributeError := by
  have hd : ∀ d, direction ws cond look doc d = ((notes d).mapM (Note.value cond look)).map fun vss => vss.flatten.map fun v => (v, d) := by
    intro d
    rw [direction_noted hw cond look (hn d) (hp d), mapM_text hw cond look (hp d)]
  unfold expected
  rw [hd, hd]
  by_cases h1 : ∃ n ∈ notes .upper, ¬ n.Known cond look
  · rw [mapM_unknown h1]
    rfl
  · obtain ⟨us, hus, _⟩ := mapM_known (ns := notes .upper) (cond := cond) (look := look) (by
      intro n hn'
      by_contra hc
      exact h1 ⟨n, hn', hc⟩)
    have h2 : ∃ n ∈ notes .lower, ¬ n.Known cond look := by
      obtain ⟨d, hd⟩ := hu
      cases d with
      | upper => exact absurd hd h1
      | lower => exact hd
    rw [hus, mapM_unknown h2]
    rfl

end

section
variable {V K : Type} [DecidableEq V] [Field K] [LinearOrder K] [IsStrictOrderedRing K]

/-- **C84.** A model passes the verification of its docstring exactly if no bound noted in the docstring, under conditions that hold, follows
from its constraints and every other bound of its variables follows once the noted ones are supplied. Proved for docstrings as in
`C84_notes_partial` noting the model's own variables. -/
theorem C84_verify_partial (ws : Char → Bool) (hw : White ws) (cond : Str → Option Bool) (look : List Str → Option (List V)) (doc : Str)
    (notes : Side → List Note) (hn : ∀ d, Noted doc d (notes d)) (hp : ∀ d, ∀ n ∈ notes d, n.Plain ws) (hk : ∀ d, ∀ n ∈ notes d, n.Known cond look)
    (kids : List (Obj V K)) (own : List V) (fixed : V → Bool) (hok : ∀ c ∈ leavesL kids, c.OK) (t : St V)
    (h : state (.cset kids own fixed) = .ok t)
    (hown : ∀ d, ∀ n ∈ notes d, ∀ v, n.About look v → v ∈ t.vks) :
    ∃ r, verify ws cond look doc t = .ok r ∧ (r = false ↔
      (∀ d, ∀ n ∈ notes d, n.Holds cond → ∀ v, n.About look v →
        ¬ SetBounded (OwnBound (leavesL kids) (fixed1 (.cset kids own fixed))) (eqsOf (leavesL kids)) v d) ∧
      ∀ v ∈ vars1 (.cset kids own fixed), ∀ s, SetBounded (fun v s => OwnBound (leavesL kids) (fixed1 (.cset kids own fixed)) v s ∨
        ∃ n ∈ notes s, n.Holds cond ∧ n.About look v) (eqsOf (leavesL kids)) v s) := by
  obtain ⟨E, hE, hmem⟩ := C84_notes_partial ws hw cond look doc notes hn hp hk
  refine ⟨verifyRaises t E, by rw [verify, hE]; rfl, ?_⟩
  rw [C52_verify_partial kids own fixed hok t h E (by
    intro b hb
    obtain ⟨n, hn', _, ha⟩ := (hmem b.1 b.2).1 hb
    exact hown b.2 n hn' b.1 ha)]
  have e : (fun v s => OwnBound (leavesL kids) (fixed1 (.cset kids own fixed)) v s ∨ (v, s) ∈ E) =
      (fun v s => OwnBound (leavesL kids) (fixed1 (.cset kids own fixed)) v s ∨ ∃ n ∈ notes s, n.Holds cond ∧ n.About look v) := by
    funext v s
    rw [hmem]
  rw [e]
  refine and_congr_left (fun _ => ?_)
  constructor
  · intro hh d n hn' hho v ha
    exact hh (v, d) ((hmem v d).2 ⟨n, hn', hho, ha⟩)
  · intro hh b hb
    obtain ⟨n, hn', hho, ha⟩ := (hmem b.1 b.2).1 hb
    exact hh b.2 n hn' hho b.1 ha

end

namespace Notes
section
variable {V K : Type} [DecidableEq V] [Field K] [LinearOrder K] [IsStrictOrderedRing K]

/-- The missing bounds are those not in `B`. -/
theorem mem_missingBounds (vks : List V) (B : List (Bd V)) (q : Meq V) (hB : B.Nodup) (hs : ∀ b ∈ B, b.1 ∈ vks) (hw : WF q)
    (hk : ∀ b cs, q.get? b = some cs → b.1 ∈ vks) (hd : Done B q) (b : Bd V) :
    b ∈ missingBounds vks B q ↔ b.1 ∈ vks ∧ b ∉ B := by
  have hnd : (q.map (·.1)).Nodup := by
    unfold List.Nodup
    rw [List.pairwise_map]
    exact hw.imp (fun {a b} hab => by simpa using hab)
  have hkeys : ∀ b, b ∈ q.map (·.1) ↔ ∃ cs, PyDict.get? q b = some cs := by
    intro b
    constructor
    · intro hb
      obtain ⟨p, hp, rfl⟩ := List.mem_map.1 hb
      cases hg : PyDict.get? q p.1 with
      | some cs => exact ⟨cs, rfl⟩
      | none => exact absurd (get?_eq_none_iff.1 hg p hp) (by simp)
    · rintro ⟨cs, hcs⟩
      obtain ⟨k, hk, hkb⟩ := exists_mem_of_get? hcs
      exact List.mem_map.2 ⟨_, hk, by simpa using hkb⟩
  have hdis : ∀ b ∈ q.map (·.1), b.1 ∈ vks ∧ b ∉ B := by
    intro b hb
    obtain ⟨cs, hcs⟩ := (hkeys b).1 hb
    exact ⟨hk b cs hcs, (hd b cs hcs).1⟩
  unfold missingBounds
  dsimp only
  by_cases hc : B.length + (q.map (·.1)).length ≠ 2 * vks.length
  · rw [if_pos hc, List.mem_append, List.mem_filter, mem_sides]
    constructor
    · rintro (hb | ⟨hb, hx⟩)
      · exact hdis b hb
      · simp only [decide_eq_true_eq] at hx
        exact ⟨hb, hx.1⟩
    · rintro ⟨h1, h2⟩
      by_cases hq : b ∈ q.map (·.1)
      · exact Or.inl hq
      · exact Or.inr ⟨h1, by simpa [h2] using hq⟩
  · rw [if_neg hc]
    have hc : B.length + (q.map (·.1)).length = 2 * vks.length := not_not.1 hc
    refine ⟨hdis b, ?_⟩
    rintro ⟨h1, h2⟩
    have hall : (B ++ q.map (·.1)).Nodup := by
      rw [List.nodup_append]
      refine ⟨hB, hnd, ?_⟩
      rintro a ha b hb rfl
      exact (hdis _ hb).2 ha
    have hsub : ∀ b ∈ B ++ q.map (·.1), b ∈ vks.flatMap (fun v => [(v, Side.upper), (v, Side.lower)]) := by
      intro b hb
      rw [mem_sides]
      rcases List.mem_append.1 hb with hb | hb
      · exact hs b hb
      · exact (hdis b hb).1
    have hperm : (B ++ q.map (·.1)).Perm (vks.flatMap (fun v => [(v, Side.upper), (v, Side.lower)])) := by
      refine (List.subperm_of_subset hall hsub).perm_of_length_le ?_
      rw [length_sides, List.length_append, hc]
    have := hperm.mem_iff.2 ((mem_sides vks b).2 h1)
    rcases List.mem_append.1 this with hb | hb
    · exact absurd hb h2
    · exact hb

/-- The bounds found missing are those that do not follow from the constraints. -/
theorem mem_missing (kids : List (Obj V K)) (own : List V) (fixed : V → Bool) (hok : ∀ c ∈ leavesL kids, c.OK) (t : St V)
    (h : state (.cset kids own fixed) = .ok t) (v : V) (s : Side) :
    (v, s) ∈ missing t [] ↔ v ∈ t.vks ∧
      ¬ SetBounded (OwnBound (leavesL kids) (fixed1 (.cset kids own fixed))) (eqsOf (leavesL kids)) v s := by
  rw [state] at h
  obtain ⟨s', hs', rfl⟩ := except_map_ok h
  obtain ⟨hst, hd⟩ := finish_step (initL_step kids hok {} s' hs') own fixed
  have hf : fixed1 (.cset kids own fixed) = fixedL kids ++ (varsL kids ++ own).filter fixed := by rw [fixed1]
  rw [hf]
  set t := finish own fixed s' with ht
  have htidy : Tidy t := hst.tidy ⟨List.nodup_nil, List.nodup_nil, by simp, by simp [PyDict.get?]⟩
  have hwf := hst.wf wf_nil
  set F := fixedL kids ++ (varsL kids ++ own).filter fixed with hF
  have hA := fun P => addMeqBounds_spec P (setUnion t.bounded []) t.meq hwf
  obtain ⟨_, a2, a3, a4⟩ := hA (fun _ _ => True)
  obtain ⟨t1, t2, t3⟩ := addLoop_tidy (fun b => b.1 ∈ t.vks) (t.meq.length + 1) (setUnion t.bounded []) t.meq hwf
    (nodup_setUnion _ _ htidy.nd) (by
      intro b hb
      rcases (mem_setUnion _ _ _).1 hb with hb | hb
      · exact htidy.sub b hb
      · cases hb) htidy.key
  have hm0 : Mono t.bounded t.meq (setUnion t.bounded []) t.meq := by
    refine ⟨fun x hx => (mem_setUnion _ _ _).2 (Or.inl hx), ?_⟩
    rintro x c (hx | hx)
    · exact Or.inl ((mem_setUnion _ _ _).2 (Or.inl hx))
    · exact Or.inr hx
  have hfin : (v, s) ∈ (addMeqBounds (setUnion t.bounded []) t.meq).1 ↔ SetBounded (OwnBound (leavesL kids) F) (eqsOf (leavesL kids)) v s := by
    constructor
    · intro hm
      have hg : Good (SetBounded (OwnBound (leavesL kids) F) (eqsOf (leavesL kids))) t.bounded t.meq :=
        hst.good _ ⟨by simp, by simp [PyDict.get?]⟩ (leafOK_setBounded _ _ F (fun v s h => h)) (fun w hw d => .own (Or.inl hw))
      refine ((hA _).1 ⟨?_, hg.cond⟩).sound (v, s) hm
      intro b hb
      rcases (mem_setUnion _ _ _).1 hb with hb | hb
      · exact hg.sound b hb
      · cases hb
    · refine setBounded_mem hok _ ?_ (fun e he v x d hx => a2.rule _ _ (hm0.rule _ _ (hst.rule e he v x d hx))) a4 v s
      intro v s ho
      exact a2.has _ (hm0.has _ (hst.own v s ho))
  unfold missing
  dsimp only
  rw [mem_missingBounds t.vks (addMeqBounds (setUnion t.bounded []) t.meq).1 _ t1 t2 a3 t3 a4, hfin]

end

theorem heading_upper : heading .upper = ['U', 'p', 'p', 'e', 'r', ' ', 'U', 'n', 'b', 'o', 'u', 'n', 'd', 'e', 'd'] := rfl

theorem heading_lower : heading .lower = ['L', 'o', 'w', 'e', 'r', ' ', 'U', 'n', 'b', 'o', 'u', 'n', 'd', 'e', 'd'] := rfl

theorem heading_space (d : Side) : ' ' ∈ heading d := by
  cases d
  · rw [heading_upper]; simp
  · rw [heading_lower]; simp

theorem heading_U (d : Side) : 'U' ∈ heading d := by
  cases d
  · rw [heading_upper]; simp
  · rw [heading_lower]; simp

theorem heading_comma (d : Side) : ',' ∉ heading d := by
  cases d
  · rw [heading_upper]; decide
  · rw [heading_lower]; decide

theorem heading_first (d : Side) (s : Str) : ¬ heading d <+: ' ' :: s := by
  intro h
  cases d
  · rw [heading_upper] at h
    exact absurd (List.cons_prefix_cons.1 h).1 (by decide)
  · rw [heading_lower] at h
    exact absurd (List.cons_prefix_cons.1 h).1 (by decide)

theorem heading_length (d : Side) : (heading d).length = 15 := by
  cases d
  · rw [heading_upper]; rfl
  · rw [heading_lower]; rfl

theorem heading_inj {d d' : Side} (h : heading d = heading d') : d = d' := by
  cases d <;> cases d'
  · rfl
  · rw [heading_upper, heading_lower] at h
    exact absurd (List.cons.inj h).1 (by decide)
  · rw [heading_upper, heading_lower] at h
    exact absurd (List.cons.inj h).1 (by decide)
  · rfl

theorem heading_nil (d : Side) : ¬ heading d <:+: [] := by
  intro h
  have := h.length_le
  rw [heading_length] at this
  simp at this

theorem infix_lines {p : Str} (hp : '\n' ∉ p) {a b : Str} (ha : ¬ p <:+: a) (hb : ¬ p <:+: b) : ¬ p <:+: a ++ '\n' :: b := by
  rw [Str.infix_sep hp]
  exact fun h => h.elim ha hb

theorem heading_names {ws : Char → Bool} (hw : White ws) (d : Side) : ∀ {l : List Str}, (∀ s ∈ l, Word ws s) → ¬ heading d <:+: join [',', ' '] l
  | [], _, h => heading_nil d h
  | [a], ha, h => by
    have hsp : ' ' ∉ a := not_ws (fun c hc => ((ha a (by simp)).2 c hc).1) hw.space
    exact hsp (h.subset (heading_space d))
  | a :: b :: l, ha, h => by
    have hsp : ' ' ∉ a := not_ws (fun c hc => ((ha a (by simp)).2 c hc).1) hw.space
    have ih := heading_names hw d (l := b :: l) (fun s hs => ha s (List.mem_cons_of_mem _ hs))
    have e : join [',', ' '] (a :: b :: l) = a ++ ',' :: (' ' :: join [',', ' '] (b :: l)) := by rw [join]; simp
    rw [e, Str.infix_sep (heading_comma d), List.infix_cons_iff] at h
    rcases h with h | h | h
    · exact hsp (h.subset (heading_space d))
    · exact heading_first d _ h
    · exact ih h

/-- The line under a heading. -/
def ruleText : Str := List.replicate 15 '-'

theorem ruleText_eq : "---------------".toList = ruleText := rfl

theorem suggestOne_eq (d : Side) {names : List Str} (h : names ≠ []) :
    suggestOne d names = '\n' :: (heading d ++ ['\n'] ++ (ruleText ++ '\n' :: (join [',', ' '] names ++ ['\n']))) := by
  unfold suggestOne
  rw [if_neg (by simpa using h), flag_eq, ruleText_eq]
  simp

theorem not_heading_rule (d : Side) : ¬ heading d <:+: ruleText := by
  intro h
  have : 'U' ∈ ruleText := h.subset (heading_U d)
  exact absurd (List.eq_of_mem_replicate this) (by decide)

/-- The note of a name. -/
def noteOf (s : Str) : Note := ⟨[s], none⟩

theorem text_noteOf (l : List Str) : NoteLine.text ⟨0, l.map noteOf⟩ = join [',', ' '] l := by
  unfold NoteLine.text
  rw [List.map_map]
  have : (Note.text ∘ noteOf) = (id : Str → Str) := by
    funext s
    simp [Note.text, noteOf, join]
  rw [this]
  simp

/-- The section suggested is read as it is meant, whatever stands before it and if what comes after it is another section or blank. -/
theorem noted_suggestOne {ws : Char → Bool} (hw : White ws) (d : Side) {names : List Str} (hne : names ≠ []) (hnm : ∀ s ∈ names, Word ws s)
    {pre tail : Str} (hpre : ¬ heading d <:+: pre) (htail : ¬ heading d <:+: tail) (ht : (∃ t, tail = '\n' :: t) ∨ '\n' ∉ tail) :
    Noted (pre ++ (suggestOne d names ++ tail)) d (names.map noteOf) := by
  have hfl : ∀ {x : Str}, ¬ heading d <:+: x → ¬ (heading d ++ ['\n']) <:+: x := fun hx h => hx ((List.prefix_append _ _).isInfix.trans h)
  have hpre' : ¬ (heading d ++ ['\n']) <:+: pre ++ ['\n'] := by
    exact hfl (infix_lines (heading_line d) hpre (heading_nil d))
  have hrest : ¬ (heading d ++ ['\n']) <:+: ruleText ++ '\n' :: (join [',', ' '] names ++ '\n' :: tail) :=
    hfl (infix_lines (heading_line d) (not_heading_rule d) (infix_lines (heading_line d) (heading_names hw d hnm) htail))
  have hrule : '\n' ∉ ruleText := fun hm => absurd (List.eq_of_mem_replicate hm) (by decide)
  rcases ht with ⟨t, rfl⟩ | ht
  · have := Noted.lines (doc := pre ++ (suggestOne d names ++ '\n' :: t)) (d := d) (pre ++ ['\n']) ruleText t [⟨0, names.map noteOf⟩] (by simp)
      (by simpa using hne) (by
        rw [suggestOne_eq d hne, List.map_cons, List.map_nil, join, text_noteOf]
        simp) hrule hpre' (by
        rw [List.map_cons, List.map_nil, join, text_noteOf]
        exact hrest)
    simpa using this
  · refine Noted.last (pre ++ ['\n']) ruleText tail ⟨0, names.map noteOf⟩ (by simpa using hne) ?_ hrule hpre' ?_ ?_
    · rw [suggestOne_eq d hne, text_noteOf]
      simp
    · rw [text_noteOf]
      exact hrest
    · rw [List.infix_cons_iff]
      rintro (h | h)
      · rw [List.cons_prefix_cons] at h
        exact ht (h.2.subset (by simp))
      · exact ht (h.subset (by simp))

theorem not_heading_other (d d' : Side) (hd : d ≠ d') {ws : Char → Bool} (hw : White ws) {names : List Str} (hnm : ∀ s ∈ names, Word ws s)
    {tail : Str} (ht : ¬ heading d <:+: tail) : ¬ heading d <:+: suggestOne d' names ++ tail := by
  by_cases hne : names = []
  · subst hne
    exact ht
  · rw [suggestOne_eq d' hne]
    have e : '\n' :: (heading d' ++ ['\n'] ++ (ruleText ++ '\n' :: (join [',', ' '] names ++ ['\n']))) ++ tail =
        [] ++ '\n' :: (heading d' ++ '\n' :: (ruleText ++ '\n' :: (join [',', ' '] names ++ '\n' :: tail))) := by simp
    rw [e]
    refine infix_lines (heading_line d) ?_ (infix_lines (heading_line d) ?_
      (infix_lines (heading_line d) (not_heading_rule d) (infix_lines (heading_line d) (heading_names hw d hnm) ht)))
    · exact heading_nil d
    · intro h
      exact hd (heading_inj (h.eq_of_length (by rw [heading_length, heading_length])))

theorem not_heading_pre (d d' : Side) (hd : d ≠ d') {ws : Char → Bool} (hw : White ws) {names : List Str} (hnm : ∀ s ∈ names, Word ws s)
    {doc tail : Str} (hdoc : ¬ heading d <:+: doc) (ht : ¬ heading d <:+: tail) (hx : names ≠ [] ∨ tail = []) :
    ¬ heading d <:+: doc ++ (suggestOne d' names ++ tail) := by
  by_cases hne : names = []
  · subst hne
    rcases hx with hx | hx
    · exact absurd rfl hx
    · subst hx
      simpa [suggestOne] using hdoc
  · have h1 := not_heading_other d d' hd hw hnm ht
    rw [suggestOne_eq d' hne, List.cons_append] at h1 ⊢
    refine infix_lines (heading_line d) hdoc (fun h => h1 (h.trans (List.suffix_cons _ _).isInfix))

end Notes

section
variable {V K : Type} [DecidableEq V] [Field K] [LinearOrder K] [IsStrictOrderedRing K]

theorem SetBounded.weaken {own own' : V → Side → Prop} {eqs : List (List (V × K))} (h : ∀ v s, own v s → own' v s) {v : V} {s : Side}
    (hb : SetBounded own eqs v s) : SetBounded own' eqs v s := by
  induction hb with
  | own ho => exact .own (h _ _ ho)
  | same he hv _ _ ih1 ih2 => exact .same he hv ih1 ih2

/-- **C84.** If a docstring without notes fails the verification, adding the suggested text to it makes the verification pass: the suggested
sections are read as the bounds that are missing, whatever order the names come in. Proved for variables that are attributes of the model under
their own names, are not elements of vectors and have names that can be read back; for vectors see `C84_vector_fails`. -/
theorem C84_suggestion_partial (ws : Char → Bool) (hw : White ws) (cond : Str → Option Bool) (look : List Str → Option (List V)) (doc : Str)
    (hdoc : ∀ d, ¬ heading d <:+: doc) (kids : List (Obj V K)) (own : List V) (fixed : V → Bool) (hok : ∀ c ∈ leavesL kids, c.OK) (t : St V)
    (h : state (.cset kids own fixed) = .ok t) (name : V → Str) (names : Side → List Str)
    (hnames : ∀ d s, s ∈ names d ↔ ∃ v, (v, d) ∈ missing t [] ∧ name v = s)
    (hword : ∀ v d, (v, d) ∈ missing t [] → Word ws (name v) ∧ '.' ∉ name v)
    (hlook : ∀ v d, (v, d) ∈ missing t [] → look [name v] = some [v]) (blanks : Nat) :
    verify ws cond look (doc ++ suggestion names ++ List.replicate blanks ' ') t = .ok false := by
  have hnm : ∀ d, ∀ s ∈ names d, Word ws s := by
    intro d s hs
    obtain ⟨v, hv, rfl⟩ := (hnames d s).1 hs
    exact (hword v d hv).1
  set tail := List.replicate blanks ' ' with htail
  have htl : ∀ d, ¬ heading d <:+: tail := by
    intro d hi
    have : 'U' ∈ tail := hi.subset (heading_U d)
    exact absurd (List.eq_of_mem_replicate this) (by decide)
  have htn : '\n' ∉ tail := fun hm => absurd (List.eq_of_mem_replicate hm) (by decide)
  have hfl : ∀ {d : Side} {x : Str}, ¬ heading d <:+: x → ¬ (heading d ++ ['\n']) <:+: x :=
    fun hx h => hx ((List.prefix_append _ _).isInfix.trans h)
  -- blanks directly after the docstring
  have hdt : ∀ d, names .upper = [] → names .lower = [] → ¬ (heading d ++ ['\n']) <:+: doc ++ tail := by
    intro d _ _ hi
    by_cases hb : tail = []
    · rw [hb, List.append_nil] at hi
      exact hfl (hdoc d) hi
    · obtain ⟨j, hj, hp⟩ := Str.infix_iff_drop.1 hi
      rcases Nat.lt_or_ge doc.length j with hl | hl
      · rw [List.drop_append, List.drop_eq_nil_of_le (by omega), List.nil_append] at hp
        exact htn ((List.drop_suffix _ _).subset (hp.subset (by simp)))
      · rw [List.drop_append_of_le_length hl] at hp
        have hpp : heading d ++ ['\n'] <+: doc.drop j := by
          rcases Nat.lt_or_ge (doc.drop j).length (heading d ++ ['\n']).length with h1 | h1
          · exfalso
            have hpre : doc.drop j <+: heading d ++ ['\n'] := List.prefix_of_prefix_length_le (List.prefix_append _ _) hp (by omega)
            obtain ⟨r, hr⟩ := hpre
            rw [← hr, List.prefix_append_right_inj] at hp
            have hne : r ≠ [] := by
              rintro rfl
              rw [List.append_nil] at hr
              rw [hr] at h1
              omega
            have hlast := congrArg List.getLast? hr
            rw [List.getLast?_append_of_ne_nil _ hne] at hlast
            have : r.getLast? = some '\n' := by simpa using hlast
            exact htn (hp.subset (List.mem_of_getLast? this))
          · exact List.prefix_of_prefix_length_le hp (List.prefix_append _ _) h1
        exact hfl (hdoc d) (Str.infix_drop hpp)
  have hassoc : doc ++ suggestion names ++ tail = doc ++ (suggestOne .upper (names .upper) ++ (suggestOne .lower (names .lower) ++ tail)) := by
    simp [suggestion]
  have hnil : ∀ d, suggestOne d [] = [] := fun d => rfl
  have hn : ∀ d, Noted (doc ++ suggestion names ++ tail) d ((names d).map noteOf) := by
    rw [hassoc]
    intro d
    cases d with
    | upper =>
      by_cases hu : names .upper = []
      · rw [hu, hnil, List.nil_append, List.map_nil]
        refine .none ?_
        by_cases hl : names .lower = []
        · rw [hl, hnil, List.nil_append]
          exact hdt .upper hu hl
        · exact hfl (not_heading_pre .upper .lower (by decide) hw (hnm .lower) (hdoc .upper) (htl .upper) (Or.inl hl))
      · refine noted_suggestOne hw .upper hu (hnm .upper) (hdoc .upper)
          (not_heading_other .upper .lower (by decide) hw (hnm .lower) (htl .upper)) ?_
        by_cases hl : names .lower = []
        · rw [hl]
          exact Or.inr htn
        · rw [suggestOne_eq _ hl]
          exact Or.inl ⟨_, rfl⟩
    | lower =>
      by_cases hl : names .lower = []
      · rw [hl, hnil, List.nil_append, List.map_nil]
        refine .none ?_
        by_cases hu : names .upper = []
        · rw [hu, hnil, List.nil_append]
          exact hdt .lower hu hl
        · exact hfl (not_heading_pre .lower .upper (by decide) hw (hnm .upper) (hdoc .lower) (htl .lower) (Or.inl hu))
      · rw [← List.append_assoc]
        refine noted_suggestOne hw .lower hl (hnm .lower) ?_ (htl .lower) (Or.inr htn)
        have := not_heading_pre .lower .upper (by decide) hw (hnm .upper) (hdoc .lower) (tail := [])
          (heading_nil .lower) (Or.inr rfl)
        simpa using this
  have hp : ∀ d, ∀ n ∈ (names d).map noteOf, n.Plain ws := by
    intro d n hn'
    obtain ⟨s, hs, rfl⟩ := List.mem_map.1 hn'
    obtain ⟨v, hv, rfl⟩ := (hnames d s).1 hs
    refine ⟨by simp [noteOf], ?_, fun b c hb => (by cases hb)⟩
    intro s hs
    simp only [noteOf, List.mem_singleton] at hs
    subst hs
    exact hword v d hv
  have hholds : ∀ s, (noteOf s).Holds cond := fun s b c hb => by cases hb
  have hk : ∀ d, ∀ n ∈ (names d).map noteOf, n.Known cond look := by
    intro d n hn'
    obtain ⟨s, hs, rfl⟩ := List.mem_map.1 hn'
    obtain ⟨v, hv, rfl⟩ := (hnames d s).1 hs
    refine ⟨fun b c hb => (by cases hb), fun _ => ?_⟩
    change (look [name v]).isSome = true
    rw [hlook v d hv]
    rfl
  have habout : ∀ d v, (∃ n ∈ (names d).map noteOf, n.Holds cond ∧ n.About look v) ↔ (v, d) ∈ missing t [] := by
    intro d v
    constructor
    · rintro ⟨n, hn', _, vs, hvs, hv⟩
      obtain ⟨s, hs, rfl⟩ := List.mem_map.1 hn'
      obtain ⟨w, hw', rfl⟩ := (hnames d s).1 hs
      have hvs : look [name w] = some vs := hvs
      rw [hlook w d hw'] at hvs
      cases hvs
      rw [List.mem_singleton] at hv
      rw [hv]
      exact hw'
    · intro hv
      exact ⟨noteOf (name v), List.mem_map.2 ⟨_, (hnames d _).2 ⟨v, hv, rfl⟩, rfl⟩, hholds _, [v], hlook v d hv, by simp⟩
  have hmiss := mem_missing kids own fixed hok t h
  obtain ⟨r, hr, hiff⟩ := C84_verify_partial ws hw cond look _ (fun d => (names d).map noteOf) hn hp hk kids own fixed hok t h (by
    intro d n hn' v ha
    have hh : n.Holds cond := by
      obtain ⟨s, _, rfl⟩ := List.mem_map.1 hn'
      exact hholds s
    exact ((hmiss v d).1 ((habout d v).1 ⟨n, hn', hh, ha⟩)).1)
  rw [hr, hiff.2]
  constructor
  · intro d n hn' hh v ha
    exact ((hmiss v d).1 ((habout d v).1 ⟨n, hn', hh, ha⟩)).2
  · intro v hv s
    by_cases hb : SetBounded (OwnBound (leavesL kids) (fixed1 (.cset kids own fixed))) (eqsOf (leavesL kids)) v s
    · exact hb.weaken (fun v s ho => Or.inl ho)
    · refine .own (Or.inr ((habout s v).2 ((hmiss v s).2 ⟨?_, hb⟩)))
      have := (state_step (.cset kids own fixed) (by rw [leaves1]; exact hok) t h).vks v
      rw [this]
      simp [hv]

end

namespace Notes

/-- Spaces and newlines. -/
def exWs (c : Char) : Bool := c = ' ' || c = '\n'

theorem exWs_white : White exWs := ⟨rfl, rfl, rfl, rfl⟩

/-- An instance with attributes `x`, `y` and a vector `z`, which are its variables, a truth `fixed`, and nothing else. -/
def exLook (p : List Str) : Option (List String) :=
  if p = [['x']] then some ["x"]
  else if p = [['y']] then some ["y"]
  else if p = [['z']] then some ["z0", "z1"]
  else none

/-- See `exLook`. -/
def exCond (c : Str) : Option Bool := if c = ['f'] then some true else none

/-- A model with constraints like `x >= 1`, `y >= 1`: `x` and `y` have no upper bounds. -/
def exModel : Obj String ℚ := .cset [.con (.ineq [[(⟨[("x", -1)]⟩, 1)], [(⟨[("y", -1)]⟩, 1)]] ["x", "y"])] [] (fun _ => false)

/-- A model of a vector whose second element has an upper bound. -/
def exVector : Obj String ℚ :=
  .cset [.con (.ineq [[(⟨[("z0", -1)]⟩, 1)], [(⟨[("z1", -1)]⟩, 1)], [(⟨[("z1", 1)]⟩, 1)]] ["z0", "z1"])] [] (fun _ => false)

end Notes

/-- The hypotheses can be met: two lines, indented, with a condition that does not hold and one that does. -/
example : Noted "Wing\n\nUpper Unbounded\n----\n  x\n    y (if not f), z (if f)\n\n".toList .upper
    [⟨[['x']], none⟩, ⟨[['y']], some (true, ['f'])⟩, ⟨[['z']], some (false, ['f'])⟩] :=
  Noted.lines "Wing\n\n".toList "----".toList [] [⟨2, [⟨[['x']], none⟩]⟩, ⟨4, [⟨[['y']], some (true, ['f'])⟩, ⟨[['z']], some (false, ['f'])⟩]⟩]
    (by decide) (by simp) rfl (by decide +kernel) (by decide +kernel) (by decide +kernel)

/-- The docstring of the example is read as noting `x` and `z`. -/
example : expected exWs exCond exLook "Wing\n\nUpper Unbounded\n----\n  x\n    y (if not f), z (if f)\n\n".toList =
    .ok [("x", Side.upper), ("z0", Side.upper), ("z1", Side.upper)] := by decide +kernel

/-- The hypotheses of `C84_suggestion_partial` can be met: the model lacks two upper bounds, and the suggestion is taken. -/
example : (state exModel).map (fun t => (missing t [], verifyRaises t [])) = .ok ([("x", Side.upper), ("y", Side.upper)], true) ∧
    (state exModel).bind (verify exWs exCond exLook ("A model.".toList ++ suggestion (fun d => if d = .upper then [['y'], ['x']] else []))) = .ok false := by
  rw [exModel, state_single]
  decide +kernel

/-- **C84 does not hold** of the last section of a docstring if it has more than one line and no empty line after it: all lines but the first
are passed over without a word. Here `y` is noted and not read. -/
theorem C84_second_line_fails :
    expected exWs exCond exLook "Wing\n\nUpper Unbounded\n----\nx\ny\n".toList = .ok [("x", Side.upper)] ∧
    expected exWs exCond exLook "Wing\n\nUpper Unbounded\n----\nx\ny\n\n".toList = .ok [("x", Side.upper), ("y", Side.upper)] ∧
    (state exModel).bind (verify exWs exCond exLook "Wing\n\nUpper Unbounded\n----\nx\ny\n".toList) = .ok true ∧
    (state exModel).bind (verify exWs exCond exLook "Wing\n\nUpper Unbounded\n----\nx\ny\n\n".toList) = .ok false := by
  rw [exModel, state_single]
  decide +kernel

/-- **C84 does not hold** of lists continued after a comma: an `AttributeError` says that `x,` is no attribute. -/
theorem C84_comma_fails :
    expected exWs exCond exLook "Upper Unbounded\n----\nx,\ny\n\n".toList = .error .attributeError ∧
    expected exWs exCond exLook "Upper Unbounded\n----\nx, y\n\n".toList = .ok [("x", Side.upper), ("y", Side.upper)] := by
  decide +kernel

/-- **C84 does not hold** of a section ended by a line that only has spaces: what follows is read as names. -/
theorem C84_blank_fails :
    expected exWs exCond exLook "Upper Unbounded\n----\nx\n  \ny is large.\n\n".toList = .error .attributeError ∧
    expected exWs exCond exLook "Upper Unbounded\n----\nx\n\ny is large.\n\n".toList = .ok [("x", Side.upper)] := by
  decide +kernel

/-- **C84 does not hold** of an empty section: the next section is read as names. -/
theorem C84_empty_fails :
    expected exWs exCond exLook "Upper Unbounded\n----\n\nLower Unbounded\n----\nx\n\n".toList = .error .attributeError := by
  decide +kernel

/-- **C84 does not hold** of suggestions for docstrings that note something already: with a section there, adding the suggested one makes two,
which is an error. -/
theorem C84_twice_fails :
    (state exModel).map (fun t => missing t [("x", Side.upper)]) = .ok [("y", Side.upper)] ∧
    (state exModel).bind (verify exWs exCond exLook "Upper Unbounded\n----\nx\n".toList) = .ok true ∧
    (state exModel).bind (verify exWs exCond exLook ("Upper Unbounded\n----\nx\n".toList ++ suggestion (fun d => if d = .upper then [['y']] else []))) =
      .error .valueError := by
  rw [exModel, state_single]
  decide +kernel

/-- **C84 does not hold** of suggestions for vectors only some of whose elements lack a bound: the name suggested stands for all of them, and
the verification then complains about the others. -/
theorem C84_vector_fails :
    (state exVector).map (fun t => missing t []) = .ok [("z0", Side.upper)] ∧
    (state exVector).bind (verify exWs exCond exLook ("A model.".toList ++ suggestion (fun d => if d = .upper then [['z']] else []))) = .ok true := by
  rw [exVector, state_single]
  decide +kernel

end Verif
