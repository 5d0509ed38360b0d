import Verif.Model.ShowVars
import Verif.Spec.ShowVars
import Verif.Props.Lookup

/-! # C98: variables asked for in tables -/

set_option linter.unusedSectionVars false

namespace Verif
namespace Lookup
variable {A N I : Type} [DecidableEq A] [DecidableEq N] [DecidableEq I]

theorem mem_foldl_add (l m : List A) (a : A) : a ∈ l.foldl add m ↔ a ∈ m ∨ a ∈ l := by
  induction l generalizing m with
  | nil => simp
  | cons b l ih => rw [List.foldl_cons, ih, mem_add, List.mem_cons]; tauto

/-- One key. -/
theorem getItem_wanted {E : Env A N I} (hE : EnvOK E) {vks : List A} (hw : Whole E vks) {s : KeySet A N} (h : Inv E vks s) (k : MapKey A N)
    (a : A) : a ∈ (getItem E s (collapse E k)).2 ↔ a ∈ vks ∧ Wanted E k a := by
  have hkey : ∀ b : A, a ∈ (getItem E s (.key b)).2 ↔ a ∈ vks ∧ a = b := by
    intro b
    rw [getItem_snd]
    constructor
    · intro ha
      obtain ⟨h1, h2 | h2⟩ := h.sound _ a ha
      · cases h2; exact ⟨h1, rfl⟩
      · exact absurd h2 ((hw a h1).2 b)
    · rintro ⟨h1, rfl⟩
      exact h.self a h1
  cases k with
  | str n => exact getItem_str hE h n a
  | key b =>
    rw [collapse]
    cases hi : E.idx b with
    | none =>
      refine (hkey b).trans ?_
      simp [Wanted, hi]
    | some i =>
      cases hv : E.veckey b with
      | none =>
        refine (hkey b).trans ?_
        simp [Wanted, hv]
      | some v =>
        refine (hkey v).trans ?_
        constructor
        · rintro ⟨h1, rfl⟩
          exact ⟨h1, .inr ⟨by simp [hi], hv⟩⟩
        · rintro ⟨h1, h2 | ⟨_, h2⟩⟩
          · rw [← h2, (hw a h1).1] at hi; cases hi
          · rw [hv] at h2; exact ⟨h1, (Option.some.inj h2).symm⟩

theorem showSteps {E : Env A N I} (hE : EnvOK E) {vks : List A} (hw : Whole E vks) (ks : List (MapKey A N)) (st : KeySet A N × List A)
    (h : Inv E vks st.1) : Inv E vks (ks.foldl (showStep E) st).1 ∧
      ∀ a, a ∈ (ks.foldl (showStep E) st).2 ↔ a ∈ st.2 ∨ (a ∈ vks ∧ ∃ k ∈ ks, Wanted E k a) := by
  induction ks generalizing st with
  | nil => exact ⟨h, fun a => by simp⟩
  | cons k ks ih =>
    have h1 : Inv E vks (showStep E st k).1 := inv_getItem hE h _
    obtain ⟨h2, h3⟩ := ih (showStep E st k) h1
    refine ⟨h2, fun a => ?_⟩
    rw [List.foldl_cons, h3 a]
    have h4 : a ∈ (showStep E st k).2 ↔ a ∈ st.2 ∨ (a ∈ vks ∧ Wanted E k a) := by
      rw [← getItem_wanted hE hw h k a]
      exact mem_foldl_add _ _ a
    rw [h4]
    constructor
    · rintro ((h5 | ⟨h5, h6⟩) | ⟨h5, q, hq, h6⟩)
      · exact .inl h5
      · exact .inr ⟨h5, k, List.mem_cons_self, h6⟩
      · exact .inr ⟨h5, q, List.mem_cons_of_mem _ hq, h6⟩
    · rintro (h5 | ⟨h5, q, hq, h6⟩)
      · exact .inl (.inl h5)
      · rcases List.mem_cons.1 hq with rfl | hq
        · exact .inl (.inr ⟨h5, h6⟩)
        · exact .inr ⟨h5, q, hq, h6⟩

end Lookup

section C98
open Lookup
variable {A N I : Type} [DecidableEq A] [DecidableEq N] [DecidableEq I]

/-- **C98** (names). Whatever was looked up before, the variables found are exactly those asked for by name, by themselves or by one of their
elements. -/
theorem C98_found (E : Env A N I) (hE : EnvOK E) (vks : List A) (hw : Whole E vks) (us : List (Use A N)) (ks : List (MapKey A N)) (a : A) :
    a ∈ (parseShowvars E (us.foldl (use E) (fresh vks)) ks).2 ↔ a ∈ vks ∧ ∃ k ∈ ks, Wanted E k a := by
  have := (showSteps hE hw ks (us.foldl (use E) (fresh vks), []) (inv_uses hE us (inv_fresh E vks))).2 a
  unfold parseShowvars
  simpa using this

/-- **C98** (tables). If some variable of the solution is asked for, the table shows exactly those of its dict that are, in both passes over
them. Otherwise it shows all: `C98_unknown_fails`. -/
theorem C98_shown_partial {B : Type} (E : Env A N I) (hE : EnvOK E) (vks : List A) (hw : Whole E vks) (us : List (Use A N))
    (ks : List (MapKey A N)) (data : List (A × B)) (hd : ∀ kv ∈ data, kv.1 ∈ vks) (hk : ∃ k ∈ ks, ∃ a ∈ vks, Wanted E k a) (kv : A × B) :
    kv ∈ shownOf E (us.foldl (use E) (fresh vks)) ks data ↔ kv ∈ data ∧ ∃ k ∈ ks, Wanted E k kv.1 := by
  obtain ⟨hinv, hmem⟩ := showSteps hE hw ks (us.foldl (use E) (fresh vks), []) (inv_uses hE us (inv_fresh E vks))
  have hmem' : ∀ a, a ∈ (parseShowvars E (us.foldl (use E) (fresh vks)) ks).2 ↔ a ∈ vks ∧ ∃ k ∈ ks, Wanted E k a := by
    intro a; unfold parseShowvars; simpa using hmem a
  obtain ⟨k0, hk0, a0, ha0, hw0⟩ := hk
  have hne : (parseShowvars E (us.foldl (use E) (fresh vks)) ks).2.isEmpty = false := by
    rw [List.isEmpty_eq_false_iff]
    intro h0
    have := (hmem' a0).2 ⟨ha0, k0, hk0, hw0⟩
    rw [h0] at this
    cases this
  unfold shownOf
  dsimp only
  rw [hne, if_neg (by simp)]
  set r := parseShowvars E (us.foldl (use E) (fresh vks)) ks with hr
  have h2 : ∀ a, a ∈ (parseShowvars E r.1 ((E.ord r.2).map .key)).2 ↔ a ∈ r.2 := by
    intro a
    have := (showSteps hE hw ((E.ord r.2).map .key) (r.1, []) hinv).2 a
    unfold parseShowvars
    rw [this]
    constructor
    · rintro (h | ⟨h1, k, hk, h3⟩)
      · cases h
      · obtain ⟨b, hb, rfl⟩ := List.mem_map.1 hk
        have hb2 : b ∈ r.2 := (hE.ord _).mem_iff.1 hb
        rcases h3 with rfl | ⟨h3, _⟩
        · exact hb2
        · exact absurd (hw b ((hmem' b).1 hb2).1).1 h3
    · intro h
      exact .inr ⟨((hmem' a).1 h).1, .key a, List.mem_map.2 ⟨a, (hE.ord _).mem_iff.2 h, rfl⟩, .inl rfl⟩
  have hne2 : (parseShowvars E r.1 ((E.ord r.2).map .key)).2.isEmpty = false := by
    rw [List.isEmpty_eq_false_iff]
    intro h0
    have := (h2 a0).2 ((hmem' a0).2 ⟨ha0, k0, hk0, hw0⟩)
    rw [h0] at this
    cases this
  rw [List.mem_filter]
  refine and_congr_right (fun hkv => ?_)
  unfold Tables.picked
  rw [hne2, Bool.false_or, decide_eq_true_iff, h2, hmem']
  exact and_iff_right (hd kv hkv)

/-- **C98 fails** if nothing that is asked for is in the solution, for example for a name that is spelt wrongly: the table shows everything. -/
theorem C98_unknown_fails {B : Type} (E : Env A N I) (hE : EnvOK E) (vks : List A) (hw : Whole E vks) (us : List (Use A N))
    (ks : List (MapKey A N)) (data : List (A × B)) (hk : ∀ k ∈ ks, ∀ a ∈ vks, ¬ Wanted E k a) :
    shownOf E (us.foldl (use E) (fresh vks)) ks data = data := by
  have h0 : (parseShowvars E (us.foldl (use E) (fresh vks)) ks).2 = [] := by
    rw [List.eq_nil_iff_forall_not_mem]
    intro a ha
    obtain ⟨h1, k, h2, h3⟩ := (C98_found E hE vks hw us ks a).1 ha
    exact hk k h2 a h1 h3
  unfold shownOf
  dsimp only
  rw [h0]
  simp [Tables.picked]

/-- **C98 fails** for the solution: once a table was asked to show a name that nobody has, `name in sol["variables"]` is true, though it was
false before. -/
theorem C98_phantom_fails (E : Env A N I) (hE : EnvOK E) (vks : List A) (n : N) (hn : ∀ a ∈ vks, MapKey.str n ∉ E.keys a) :
    (Lookup.contains E (fresh vks) (.str n)).2 = false ∧
    (Lookup.contains E (parseShowvars E (fresh vks) [.str n]).1 (.str n)).2 = true := by
  have hfresh : ∀ (s : KeySet A N), Inv E vks s → s.keymap.get? (.str n) = none → (updateKeymap E s).keymap.get? (.str n) = none := by
    intro s hs h0
    have key : ∀ (l : List A) (km : PyDict (MapKey A N) (List A)), (∀ a ∈ l, a ∈ vks) → km.get? (.str n) = none →
        PyDict.get? (l.foldl (fun km a => (E.keys a).foldl (note a) km) km) (.str n) = none := by
      intro l
      induction l with
      | nil => intro km _ h; exact h
      | cons b l ih =>
        intro km hl h
        rw [List.foldl_cons]
        refine ih _ (fun a ha => hl a (List.mem_cons_of_mem _ ha)) ?_
        have hb := hn b (hl b List.mem_cons_self)
        generalize E.keys b = kk at hb
        induction kk generalizing km with
        | nil => exact h
        | cons q kk ih2 =>
          rw [List.foldl_cons]
          refine ih2 _ ?_ (fun hq => hb (List.mem_cons_of_mem _ hq))
          unfold note
          rw [PyDict.get?_set]
          have hne : q ≠ MapKey.str n := fun e => hb (e ▸ List.mem_cons_self)
          simpa [hne] using h
    exact key _ _ (fun a ha => hs.sub a ((hE.ord _).mem_iff.1 ha)) h0
  have hf : PyDict.get? (fresh (N := N) vks).keymap (.str n) = none := by
    unfold fresh
    have key : ∀ (l : List A) (km : PyDict (MapKey A N) (List A)), km.get? (.str n) = none →
        PyDict.get? (l.foldl (fun km a => note a km (.key a)) km) (.str n) = none := by
      intro l
      induction l with
      | nil => intro km h; exact h
      | cons b l ih =>
        intro km h
        rw [List.foldl_cons]
        refine ih _ ?_
        unfold note
        rw [PyDict.get?_set]
        simpa using h
    exact key vks [] rfl
  have hu := hfresh _ (inv_fresh E vks) hf
  constructor
  · unfold Lookup.contains parse
    simp [PyDict.contains, hu]
  · have hs : (parseShowvars E (fresh vks) [.str n]).1.keymap.contains (.str n) = true ∧
        (parseShowvars E (fresh vks) [.str n]).1.unmapped = [] := by
      unfold parseShowvars
      simp only [List.foldl_cons, List.foldl_nil, showStep, collapse, getItem, parse, hu]
      exact ⟨by simp [PyDict.contains, PyDict.get?_set], rfl⟩
    unfold Lookup.contains parse updateKeymap
    dsimp only
    rw [hs.2, (hE.ord []).eq_nil]
    simp [hs.1]

/-- A solution with the scalar 0 and the vector 5, whose elements 3 and 4 have other keys. -/
example : Whole exEnv [0, 5] := by
  intro a ha
  simp only [List.mem_cons, List.not_mem_nil, or_false] at ha
  rcases ha with rfl | rfl <;> exact ⟨by decide, fun b => by simp [exEnv]⟩

/-- Asked for an element the vector is shown, asked for a name its owner, and asked for 7, which nobody is called, all. -/
example : shownOf exEnv (fresh [0, 5]) [.key 3] [(0, 'a'), (5, 'b')] = [(5, 'b')] ∧
    shownOf exEnv (fresh [0, 5]) [.str 0] [(0, 'a'), (5, 'b')] = [(0, 'a')] ∧
    shownOf exEnv (fresh [0, 5]) [.str 7] [(0, 'a'), (5, 'b')] = [(0, 'a'), (5, 'b')] := by
  refine ⟨?_, ?_, ?_⟩ <;> decide +kernel

end C98
end Verif
