import Verif.Spec.SubCall
import Verif.Lemmas.Lookup
import Verif.Lemmas.Sub
import Verif.Props.ParseSubs
import Verif.Props.Units

/-! From the dict of substitutions to the numbers put in. -/

set_option linter.unusedSectionVars false

namespace Verif
namespace SubCall
open PyDict PS

/-! ### Names -/

section Names
variable {S N D F : Type} [DecidableEq S] [DecidableEq N]

theorem mem_vks {V : Type} [DecidableEq V] {h : NMap V ℝ D} {a : V} : a ∈ h.vks ↔ ∃ t ∈ h.terms, a ∈ t.1.items.map (·.1) := by
  unfold NMap.vks
  rw [List.mem_dedup, List.mem_flatMap]

theorem occurs_iff {h : NMap (Key S) ℝ D} {a : Key S} : a ∈ h.vks ↔ Occurs h a := mem_vks

theorem keymap_at {E : Lookup.Env (Key S) N Nat} (hE : Lookup.EnvOK E) (h : NMap (Key S) ℝ D) (k : Lookup.MapKey (Key S) N) (a : Key S) :
    a ∈ Lookup.at' (keymap E h) k ↔ Occurs h a ∧ Lookup.Refers E k a := by
  have hi := Lookup.inv_update hE (Lookup.inv_fresh (N := N) E h.vks)
  rw [← occurs_iff]
  constructor
  · exact hi.sound k a
  · rintro ⟨h1, h2 | h2⟩
    · rw [h2]
      exact hi.self a h1
    · exact hi.mapped a h1 (by simp [Lookup.updateKeymap]) k h2

theorem keymap_get {E : Lookup.Env (Key S) N Nat} (hE : Lookup.EnvOK E) (h : NMap (Key S) ℝ D) (k : Lookup.MapKey (Key S) N) (a : Key S) :
    (∃ l, (keymap E h).get? k = some l ∧ a ∈ l) ↔ Occurs h a ∧ Lookup.Refers E k a := by
  rw [← keymap_at hE h k a]
  unfold Lookup.at'
  cases (keymap E h).get? k <;> simp

end Names

/-! ### Sorting -/

section Sorting
variable {S D Q F : Type} [DecidableEq S]
local notation "K" => SubVal (Key S) Q D

/-- The state of `sweepsub`: as at the start, or nothing in the array is constant. -/
def Flag (sub : Sub K F) (b : Bool) : Prop := b = (split sub).1 ∨ ∃ cs, sub = .arr cs ∧ ∀ c ∈ cs, c.NotConstant

theorem place_get (p : Parsed S K F) (b : Bool) (key q : Key S) (o : Out K F) :
    (place p b key o).constants.get? q =
      if q = key then ((dest b o).bind (fun co => if co.1 = .constant then some co.2 else none)).or (p.constants.get? q) else p.constants.get? q := by
  unfold place dest
  cases b <;> repeat' split
  all_goals simp_all [get?_setK]

theorem value_put {shape : S → Option Nat} {sub : Sub K F} {key : Key S} {b b' : Bool} {o : Out K F} (hu : Unmixed sub) (hb : Flag sub b)
    (hv : valueOf shape b (split sub).2 key = .ok (b', o)) (hi : key.2 = none ↔ shape key.1 = none) (hs : key.2 = none → ∀ cs, sub ≠ .arr cs) :
    Flag sub b' ∧ (dest b' o).bind (fun co => if co.1 = .constant then some co.2 else none) = (constant sub key).map .num := by
  obtain ⟨q, idx⟩ := key
  unfold valueOf at hv
  dsimp only at *
  cases hq : shape q with
  | none =>
    rw [hq] at hv
    cases sub with
    | cell c =>
      have hb : b = (split (.cell c : Sub K F)).1 := by
        rcases hb with hb | ⟨cs, hc, _⟩
        · exact hb
        · cases hc
      subst hb
      cases c <;> simp only [split, Except.ok.injEq, Prod.mk.injEq] at hv <;> obtain ⟨rfl, rfl⟩ := hv <;>
        exact ⟨.inl rfl, by simp [dest, constant]⟩
    | arr cs => exact absurd rfl (hs (hi.2 hq) cs)
    | sweepMat m rows =>
      have hb : b = true := by
        rcases hb with hb | ⟨cs, hc, _⟩
        · exact hb
        · cases hc
      subst hb
      simp only [split, Except.ok.injEq, Prod.mk.injEq] at hv
      obtain ⟨rfl, rfl⟩ := hv
      exact ⟨.inl rfl, by simp [dest, constant]⟩
  | some n =>
    rw [hq] at hv
    cases sub with
    | cell c =>
      have hb : b = (split (.cell c : Sub K F)).1 := by
        rcases hb with hb | ⟨cs, hc, _⟩
        · exact hb
        · cases hc
      subst hb
      cases c with
      | sweep vs =>
        simp only [split] at hv
        by_cases h1 : vs.length = n
        · rw [if_pos h1] at hv
          cases hc : idx.bind (vs[·]?) with
          | none => rw [hc] at hv; cases hv
          | some k =>
            rw [hc] at hv
            simp only [Except.ok.injEq, Prod.mk.injEq] at hv
            obtain ⟨rfl, rfl⟩ := hv
            exact ⟨.inl rfl, by simp [dest, constant]⟩
        · rw [if_neg h1] at hv
          split at hv <;> cases hv
      | _ =>
        simp only [split, Except.ok.injEq, Prod.mk.injEq] at hv
        obtain ⟨rfl, rfl⟩ := hv
        exact ⟨.inl rfl, by simp [dest, constant]⟩
    | arr cs =>
      simp only [split] at hv
      by_cases h1 : cs.length = n
      · rw [if_pos h1] at hv
        cases hc : idx.bind (cs[·]?) with
        | none => rw [hc] at hv; cases hv
        | some c =>
          rw [hc] at hv
          have hmem : c ∈ cs := by
            cases idx with
            | none => cases hc
            | some i => exact List.mem_of_getElem? hc
          simp only [Except.ok.injEq] at hv
          obtain ⟨i, rfl⟩ : ∃ i, idx = some i := by
            cases idx with
            | none => cases hc
            | some i => exact ⟨i, rfl⟩
          rw [Option.bind_some] at hc
          unfold constant
          dsimp only
          rw [hc]
          rcases hu with hu | hu
          · have hns := hu c hmem
            have hf : Flag (.arr cs : Sub K F) b := hb
            cases c with
            | sweep vs => exact absurd trivial hns
            | sweepFn f => exact absurd trivial hns
            | fn f =>
              simp only [splitCell, Prod.mk.injEq] at hv
              obtain ⟨rfl, rfl⟩ := hv
              exact ⟨hf, by simp [dest]⟩
            | nan =>
              simp only [splitCell, Prod.mk.injEq] at hv
              obtain ⟨rfl, rfl⟩ := hv
              refine ⟨hf, ?_⟩
              cases b <;> simp [dest]
            | num v =>
              simp only [splitCell, Prod.mk.injEq] at hv
              obtain ⟨rfl, rfl⟩ := hv
              refine ⟨hf, ?_⟩
              rcases hb with hb | ⟨cs', hcs, hall⟩
              · subst hb
                simp [split, dest]
              · cases hcs
                exact (hall _ hmem).elim
          · have hns := hu c hmem
            refine ⟨.inr ⟨cs, rfl, hu⟩, ?_⟩
            cases c with
            | nan => exact hns.elim
            | num v => exact hns.elim
            | fn f =>
              simp only [splitCell, Prod.mk.injEq] at hv
              obtain ⟨rfl, rfl⟩ := hv
              simp [dest]
            | sweep vs =>
              simp only [splitCell, Prod.mk.injEq] at hv
              obtain ⟨rfl, rfl⟩ := hv
              simp [dest]
            | sweepFn f =>
              simp only [splitCell, Prod.mk.injEq] at hv
              obtain ⟨rfl, rfl⟩ := hv
              simp [dest]
      · rw [if_neg h1] at hv
        split at hv <;> cases hv
    | sweepMat m rows =>
      have hb : b = true := by
        rcases hb with hb | ⟨cs, hc, _⟩
        · exact hb
        · cases hc
      subst hb
      simp only [split] at hv
      split at hv
      · cases idx with
        | none => cases hv
        | some i =>
          dsimp only at hv
          split at hv
          · cases hcol : column rows i with
            | error e => rw [hcol] at hv; cases hv
            | ok vs =>
              rw [hcol] at hv
              simp only [Except.map, Except.ok.injEq, Prod.mk.injEq] at hv
              obtain ⟨rfl, rfl⟩ := hv
              exact ⟨.inl rfl, by simp [dest, constant]⟩
          · cases hv
      · cases hv

theorem loop_get {shape : S → Option Nat} {sub : Sub K F} (hu : Unmixed sub) (keys : List (Key S)) :
    ∀ (b : Bool) (p p' : Parsed S K F), Flag sub b → (∀ key ∈ keys, (key.2 = none ↔ shape key.1 = none) ∧ (key.2 = none → ∀ cs, sub ≠ .arr cs)) →
      appendLoop shape (split sub).2 b keys p = .ok p' →
      ∀ q, p'.constants.get? q = if q ∈ keys then ((constant sub q).map .num).or (p.constants.get? q) else p.constants.get? q := by
  induction keys with
  | nil =>
    intro b p p' _ _ h q
    cases h
    simp
  | cons key keys ih =>
    intro b p p' hb hk h q
    unfold appendLoop at h
    obtain ⟨⟨b', o⟩, h1, h2⟩ := except_bind_ok h
    obtain ⟨hb', hd⟩ := value_put hu hb h1 (hk key (by simp)).1 (hk key (by simp)).2
    have := ih b' _ p' hb' (fun key hkey => hk key (by simp [hkey])) h2 q
    rw [this, place_get]
    by_cases hq : q = key
    · subst hq
      rw [if_pos rfl, if_pos (List.mem_cons_self : q ∈ q :: keys), hd]
      split
      · cases constant sub q <;> rfl
      · cases constant sub q <;> rfl
    · rw [if_neg hq]
      simp only [List.mem_cons, hq, false_or]

theorem loop_total {shape : S → Option Nat} {sub : Sub K F} (keys : List (Key S)) :
    ∀ (b : Bool) (p : Parsed S K F), ((split sub).1 = true → b = true) → (∀ key ∈ keys, Fits shape sub key) →
      ∃ p', appendLoop shape (split sub).2 b keys p = .ok p' := by
  induction keys with
  | nil => intro b p _ _; exact ⟨p, rfl⟩
  | cons key keys ih =>
    intro b p hb hf
    unfold appendLoop
    rw [value_spec shape sub key (hf key (by simp)) b hb]
    exact ih _ _ (fun h => by simp [hb h]) (fun key hk => hf key (by simp [hk]))

/-- The entry that counts for a key. -/
def counts (q : Key S) (e : Sub K F × List (Key S)) : Option K := if q ∈ e.2 then constant e.1 q else none

theorem parse_get {shape : S → Option Nat} (L : List (Sub K F × List (Key S)))
    (hL : ∀ e ∈ L, Unmixed e.1 ∧ ∀ key ∈ e.2, (key.2 = none ↔ shape key.1 = none) ∧ (key.2 = none → ∀ cs, e.1 ≠ .arr cs)) :
    ∀ (p p' : Parsed S K F), L.foldlM (fun p sk => appendSub shape sk.1 sk.2 p) p = .ok p' →
      ∀ q, p'.constants.get? q = ((L.reverse.findSome? (counts q)).map .num).or (p.constants.get? q) := by
  induction L with
  | nil =>
    intro p p' h q
    cases h
    simp
  | cons e L ih =>
    intro p p' h q
    rw [List.foldlM_cons] at h
    obtain ⟨p1, h1, h2⟩ := except_bind_ok h
    rw [ih (fun e he => hL e (by simp [he])) p1 p' h2 q]
    rw [loop_get (hL e (by simp)).1 e.2 _ p p1 (.inl rfl) (hL e (by simp)).2 h1 q, List.reverse_cons, List.findSome?_append]
    cases L.reverse.findSome? (counts q) with
    | some v => simp
    | none =>
      simp only [Option.map_none, Option.none_or, List.findSome?_cons, List.findSome?_nil]
      unfold counts
      split
      · cases constant e.1 q <;> simp
      · simp

theorem parse_total {shape : S → Option Nat} (L : List (Sub K F × List (Key S))) (hL : ∀ e ∈ L, ∀ key ∈ e.2, Fits shape e.1 key) :
    ∀ p : Parsed S K F, ∃ p', L.foldlM (fun p sk => appendSub shape sk.1 sk.2 p) p = .ok p' := by
  induction L with
  | nil => intro p; exact ⟨p, rfl⟩
  | cons e L ih =>
    intro p
    obtain ⟨p1, h1⟩ := loop_total (shape := shape) (sub := e.1) e.2 (split e.1).1 p id (hL e (by simp))
    obtain ⟨p2, h2⟩ := ih (fun e he => hL e (by simp [he])) p1
    refine ⟨p2, ?_⟩
    rw [List.foldlM_cons]
    have : appendSub shape e.1 e.2 p = .ok p1 := h1
    rw [this]
    exact h2

end Sorting

/-! ### What is given -/

section Given
variable {S N D F : Type} [DecidableEq S] [DecidableEq N]

theorem findSome?_filterMap' {A B C : Type} (f : B → Option C) (g : A → Option B) (l : List A) :
    (l.filterMap g).findSome? f = l.findSome? (fun x => (g x).bind f) := by
  induction l with
  | nil => rfl
  | cons a l ih =>
    rw [List.findSome?_cons]
    cases hg : g a with
    | none => rw [List.filterMap_cons_none hg, ih]; rfl
    | some b => rw [List.filterMap_cons_some hg, List.findSome?_cons, ih]; rfl

theorem findSome?_one {A B : Type} {f : A → Option B} {l : List A} {v : B} (h : ∀ e ∈ l, f e = none ∨ f e = some v) (he : ∃ e ∈ l, f e = some v) :
    l.findSome? f = some v := by
  induction l with
  | nil => obtain ⟨e, he, _⟩ := he; cases he
  | cons a l ih =>
    rw [List.findSome?_cons]
    rcases h a (by simp) with ha | ha
    · rw [ha]
      refine ih (fun e he => h e (by simp [he])) ?_
      obtain ⟨e, he, hv⟩ := he
      rcases List.mem_cons.1 he with rfl | he
      · rw [ha] at hv; cases hv
      · exact ⟨e, he, hv⟩
    · rw [ha]

theorem keymap_wf {E : Lookup.Env (Key S) N Nat} {h : NMap (Key S) ℝ D} : WF (keymap E h) := by
  have hn : ∀ (ks : List (Lookup.MapKey (Key S) N)) (a : Key S) (km : PyDict (Lookup.MapKey (Key S) N) (List (Key S))), WF km →
      WF (ks.foldl (Lookup.note a) km) := by
    intro ks a
    induction ks with
    | nil => exact fun _ h => h
    | cons k ks ih => exact fun km h => ih _ (wf_set h _ _)
  have hl : ∀ (f : Key S → List (Lookup.MapKey (Key S) N)) (l : List (Key S)) (km : PyDict (Lookup.MapKey (Key S) N) (List (Key S))), WF km →
      WF (l.foldl (fun km a => (f a).foldl (Lookup.note a) km) km) := by
    intro f l
    induction l with
    | nil => exact fun _ h => h
    | cons a l ih => exact fun km h => ih _ (hn _ _ _ h)
  exact hl _ _ _ (hl (fun a => [.key a]) _ [] wf_nil)

theorem given_present {W : World S N ℝ D F} {h : NMap (Key S) ℝ D} {subs : Subs S N ℝ D F} (hE : Lookup.EnvOK W.E) (hs : SubsOK W h subs)
    (a : Key S) (ha : Occurs h a) : (present W.E h subs).reverse.findSome? (counts a) = given W.E subs.entries a := by
  have hmem : ∀ (k : Lookup.MapKey (Key S) N) l, (keymap W.E h).get? k = some l → (a ∈ W.E.ord l ↔ Lookup.Refers W.E k a) := by
    intro k l hl
    rw [(hE.ord l).mem_iff]
    constructor
    · intro hal
      exact ((keymap_get hE h k a).1 ⟨l, hl, hal⟩).2
    · intro hr
      obtain ⟨l', h1, h2⟩ := (keymap_get hE h k a).2 ⟨ha, hr⟩
      rw [hl] at h1
      cases h1
      exact h2
  cases subs with
  | dict l =>
    unfold present given
    rw [← List.filterMap_reverse, findSome?_filterMap']
    congr 1
    funext ks
    cases hk : (keymap W.E h).get? ks.1 with
    | none =>
      have : ¬ Lookup.Refers W.E ks.1 a := by
        intro hr
        obtain ⟨l', h1, _⟩ := (keymap_get hE h ks.1 a).2 ⟨ha, hr⟩
        rw [hk] at h1
        cases h1
      rw [if_neg (show ¬ (ks.1 = .key a ∨ ks.1 ∈ W.E.keys a) from this)]
      rfl
    | some l =>
      have := hmem ks.1 l hk
      simp only [Option.map_some, Option.bind_some, counts]
      by_cases hr : Lookup.Refers W.E ks.1 a
      · rw [if_pos (this.2 hr), if_pos (show ks.1 = .key a ∨ ks.1 ∈ W.E.keys a from hr)]
      · rw [if_neg (fun h' => hr (this.1 h')), if_neg (show ¬ (ks.1 = .key a ∨ ks.1 ∈ W.E.keys a) from hr)]
  | keydict l =>
    obtain ⟨_, hnd, huniq⟩ := hs
    have hwf : WF l := by
      unfold WF
      unfold List.Nodup at hnd
      rw [List.pairwise_map] at hnd
      exact hnd.imp (fun {a b} h => by simpa using h)
    have hmemL : ∀ e, e ∈ present W.E h (.keydict l) ↔ ∃ k keys, (keymap W.E h).get? k = some keys ∧ l.get? k = some e.1 ∧ e.2 = W.E.ord keys := by
      intro e
      unfold present
      rw [List.mem_filterMap]
      constructor
      · rintro ⟨⟨k, keys⟩, h1, h2⟩
        rw [Option.map_eq_some_iff] at h2
        obtain ⟨sub, h3, rfl⟩ := h2
        exact ⟨k, keys, get?_of_mem keymap_wf h1, h3, rfl⟩
      · rintro ⟨k, keys, h1, h2, h3⟩
        obtain ⟨k', hk', he⟩ := exists_mem_of_get? h1
        have : k' = k := by simpa using he
        subst this
        refine ⟨(k', keys), hk', ?_⟩
        rw [h2, ← h3]
        rfl
    have hmeml : ∀ k sub, l.get? k = some sub ↔ (k, sub) ∈ l := by
      intro k sub
      constructor
      · intro hg
        obtain ⟨k', hk', he⟩ := exists_mem_of_get? hg
        have : k' = k := by simpa using he
        exact this ▸ hk'
      · exact get?_of_mem hwf
    by_cases hex : ∃ ks ∈ l, Lookup.Refers W.E ks.1 a ∧ ∃ v, constant ks.2 a = some v
    · obtain ⟨ks, hks, hr, v, hv⟩ := hex
      have h1 : (present W.E h (.keydict l)).reverse.findSome? (counts a) = some v := by
        refine findSome?_one ?_ ?_
        · intro e he
          rw [List.mem_reverse, hmemL] at he
          obtain ⟨k, keys, hk, hsub, he2⟩ := he
          unfold counts
          by_cases hae : a ∈ e.2
          · rw [if_pos hae]
            rw [he2] at hae
            have hr' := (hmem k keys hk).1 hae
            have := huniq (k, e.1) ((hmeml _ _).1 hsub) ks hks a ha hr' hr
            right
            rw [← hv, ← this]
          · rw [if_neg hae]
            exact .inl rfl
        · obtain ⟨keys, hk, hak⟩ := (keymap_get hE h ks.1 a).2 ⟨ha, hr⟩
          refine ⟨(ks.2, W.E.ord keys), ?_, ?_⟩
          · rw [List.mem_reverse, hmemL]
            exact ⟨ks.1, keys, hk, (hmeml _ _).2 hks, rfl⟩
          · unfold counts
            rw [if_pos ((hE.ord keys).mem_iff.2 hak)]
            exact hv
      have h2 : given W.E (Subs.entries (.keydict l)) a = some v := by
        refine findSome?_one ?_ ⟨ks, List.mem_reverse.2 hks, (if_pos hr).trans hv⟩
        intro e he
        rw [List.mem_reverse] at he
        by_cases hre : Lookup.Refers W.E e.1 a
        · have := huniq e he ks hks a ha hre hr
          right
          rw [this]
          exact (if_pos hr).trans hv
        · exact .inl (if_neg hre)
      rw [h1, h2]
    · have h1 : (present W.E h (.keydict l)).reverse.findSome? (counts a) = none := by
        rw [List.findSome?_eq_none_iff]
        intro e he
        rw [List.mem_reverse, hmemL] at he
        obtain ⟨k, keys, hk, hsub, he2⟩ := he
        unfold counts
        by_cases hae : a ∈ e.2
        · rw [if_pos hae]
          rw [he2] at hae
          cases hc : constant e.1 a with
          | none => rfl
          | some v => exact absurd ⟨(k, e.1), (hmeml _ _).1 hsub, (hmem k keys hk).1 hae, v, hc⟩ hex
        · exact if_neg hae
      have h2 : given W.E (Subs.entries (.keydict l)) a = none := by
        unfold given
        rw [List.findSome?_eq_none_iff]
        intro e he
        rw [List.mem_reverse] at he
        by_cases hre : Lookup.Refers W.E e.1 a
        · rw [if_pos (show e.1 = .key a ∨ e.1 ∈ W.E.keys a from hre)]
          cases hc : constant e.2 a with
          | none => rfl
          | some v => exact absurd ⟨e, he, hre, v, hc⟩ hex
        · exact if_neg hre
      rw [h1, h2]

/-- The entries found stand for variables that occur and that their keys refer to. -/
theorem mem_present {W : World S N ℝ D F} {h : NMap (Key S) ℝ D} {subs : Subs S N ℝ D F} (hE : Lookup.EnvOK W.E)
    {e : Entry S ℝ D F × List (Key S)} (he : e ∈ present W.E h subs) :
    ∃ ks ∈ subs.entries, e.1 = ks.2 ∧ ∀ a ∈ e.2, Occurs h a ∧ Lookup.Refers W.E ks.1 a := by
  cases subs with
  | dict l =>
    unfold present at he
    rw [List.mem_filterMap] at he
    obtain ⟨ks, hks, h1⟩ := he
    rw [Option.map_eq_some_iff] at h1
    obtain ⟨keys, hk, rfl⟩ := h1
    exact ⟨ks, hks, rfl, fun a ha => (keymap_get hE h ks.1 a).1 ⟨keys, hk, (hE.ord keys).mem_iff.1 ha⟩⟩
  | keydict l =>
    unfold present at he
    rw [List.mem_filterMap] at he
    obtain ⟨⟨k, keys⟩, h0, h1⟩ := he
    rw [Option.map_eq_some_iff] at h1
    obtain ⟨sub, hk, rfl⟩ := h1
    obtain ⟨k', hk', hkk⟩ := exists_mem_of_get? hk
    have : k' = k := by simpa using hkk
    subst this
    exact ⟨(k', sub), hk', rfl, fun a ha => (keymap_get hE h k' a).1 ⟨keys, get?_of_mem keymap_wf h0, (hE.ord keys).mem_iff.1 ha⟩⟩

theorem inShape_iff {shape : S → Option Nat} {a : Key S} (h : InShape shape a) : a.2 = none ↔ shape a.1 = none := by
  unfold InShape at h
  cases hs : shape a.1 with
  | none => rw [hs] at h; simp [h]
  | some m =>
    rw [hs] at h
    obtain ⟨i, hi, _⟩ := h
    simp [hi]

/-- Single values fit all variables. -/
theorem fits_cell {K : Type} {shape : S → Option Nat} {a : Key S} (h : InShape shape a) (k : K) : Fits (F := F) shape (.cell (.num k)) a := by
  unfold InShape at h
  unfold Fits
  cases hs : shape a.1 with
  | none => rw [hs] at h; exact h
  | some m =>
    rw [hs] at h
    obtain ⟨i, hi, hlt⟩ := h
    exact ⟨i, hi, hlt, trivial⟩

/-- The constants that `parse_subs` finds are the values given. -/
theorem parsed_get {W : World S N ℝ D F} {h : NMap (Key S) ℝ D} {subs : Subs S N ℝ D F} {p : Parsed S (SubVal (Key S) ℝ D) F}
    [AddCommGroup D] (hW : WorldOK W h) (hs : SubsOK W h subs) (hp : parsed W.E W.shape h subs = .ok p) (a : Key S) :
    (Occurs h a → p.constants.get? a = (given W.E subs.entries a).map .num) ∧ (¬ Occurs h a → p.constants.get? a = none) := by
  have := parse_get (shape := W.shape) (present W.E h subs) (by
    intro e he
    obtain ⟨ks, hks, h1, h2⟩ := mem_present hW.env he
    rw [h1]
    exact ⟨(hs.1 ks hks).1, fun a ha => ⟨inShape_iff (hW.idx a (h2 a ha).1), fun hn => (hs.1 ks hks).2 a (h2 a ha).1 (h2 a ha).2 hn⟩⟩) _ p hp a
  rw [this]
  constructor
  · intro ha
    rw [given_present hW.env hs a ha]
    cases given W.E subs.entries a <;> simp
  · intro ha
    have : (present W.E h subs).reverse.findSome? (counts a) = none := by
      rw [List.findSome?_eq_none_iff]
      intro e he
      obtain ⟨ks, hks, h1, h2⟩ := mem_present hW.env (List.mem_reverse.1 he)
      exact if_neg (fun hae => ha (h2 a hae).1)
    rw [this]
    simp

end Given

/-! ### The numbers put in -/

section Numbers
variable {S N D F : Type} [DecidableEq S] [DecidableEq N] [AddCommGroup D] [DecidableEq D]

theorem subValue_iff {vu : Option (UnitQ D ℝ)} (hv : UnitOK vu) (v : SubVal (Key S) ℝ D) (x : ℝ) : subValue vu v = .ok x ↔ Means vu v x := by
  have hdim : (vu.getD dimless).dim = unitDim vu := by cases vu <;> simp [dimless, unitDim]
  have hscale : (vu.getD dimless).scale = unitScale vu := by cases vu <;> simp [dimless, unitScale]
  have hs : unitScale vu ≠ 0 := ne_of_gt hv
  cases v with
  | num c =>
    simp only [subValue, Means, Except.ok.injEq]
    exact eq_comm
  | qty c u =>
    simp only [subValue, Means, UnitQ.convert, hdim, hscale]
    by_cases h : u.dim = unitDim vu
    · rw [if_pos h]
      constructor
      · intro h'
        have : c * (u.scale / unitScale vu) = x := by cases h'; rfl
        refine ⟨h, ?_⟩
        rw [← this]
        field_simp
      · rintro ⟨_, h'⟩
        have : x = c * (u.scale / unitScale vu) := by
          field_simp
          linarith
        rw [this]
        rfl
    · rw [if_neg h]
      constructor
      · intro h'; cases h'
      · intro h'; exact absurd h'.1 h
  | nom n =>
    have hdn : (n.hmap.units.getD dimless).dim = unitDim n.hmap.units := by cases n.hmap.units <;> simp [dimless, unitDim]
    have hsn : (n.hmap.units.getD dimless).scale = unitScale n.hmap.units := by cases n.hmap.units <;> simp [dimless, unitScale]
    simp only [subValue, Means, NMap.convertTo, UnitQ.convert, hdim, hscale, hdn, hsn]
    by_cases he : n.hmap.terms.any (fun t => !t.1.items.isEmpty) = true
    · rw [if_pos he]
      constructor
      · intro h; cases h
      · rintro ⟨⟨c, hc⟩, _⟩
        rw [hc] at he
        simp at he
    · rw [if_neg he]
      by_cases h : unitDim n.hmap.units = unitDim vu
      · rw [if_pos h]
        have hterms : ((n.hmap.scale (unitScale n.hmap.units / unitScale vu)).unitsOfProduct (some (vu.getD dimless)) none).terms =
            n.hmap.terms.map (fun t => (t.1, t.2 * (unitScale n.hmap.units / unitScale vu))) := rfl
        simp only [bind, Except.bind, pure, Except.pure]
        rw [hterms]
        constructor
        · intro h'
          cases ht : n.hmap.terms with
          | nil => rw [ht] at h'; cases h'
          | cons t ts =>
            cases ts with
            | cons t' ts => rw [ht] at h'; cases h'
            | nil =>
              rw [ht] at h'
              have hx : t.2 * (unitScale n.hmap.units / unitScale vu) = x := by cases h'; rfl
              have hemp : t.1.items = [] := by
                rw [ht] at he
                simpa using he
              have ht1 : t = (⟨[]⟩, t.2) := by
                obtain ⟨⟨i⟩, c⟩ := t
                simp only at hemp
                rw [hemp]
              refine ⟨⟨t.2, by rw [← ht1]⟩, h, ?_⟩
              intro pt
              unfold physVal
              rw [ht, ht1, ← hx]
              simp only [termsVal, monVal, List.map_cons, List.map_nil, List.prod_nil, List.sum_cons, List.sum_nil]
              field_simp
              ring
        · rintro ⟨⟨c, hc⟩, _, hp⟩
          have h1 := hp (fun _ => 1)
          unfold physVal at h1
          rw [hc] at h1 ⊢
          simp only [termsVal, monVal, List.map_cons, List.map_nil, List.prod_nil, List.sum_cons, List.sum_nil] at h1
          have : x = c * (unitScale n.hmap.units / unitScale vu) := by
            field_simp
            linarith
          rw [this]
          rfl
      · rw [if_neg h]
        constructor
        · intro h'; cases h'
        · intro h'; exact absurd h'.2.1 h

theorem get?_inst {A B : Type} (i j : BEq A) [@LawfulBEq A i] [@LawfulBEq A j] (d : PyDict A B) (k : A) :
    @PyDict.get? A B i d k = @PyDict.get? A B j d k := by
  have : i = j := lawful_beq_subsingleton i j
  subst this
  rfl

/-- The numbers, where there are any. -/
noncomputable def numbers (vunits : Key S → Option (UnitQ D ℝ)) (fixed : PyDict (Key S) (Out (SubVal (Key S) ℝ D) F)) : PyDict (Key S) ℝ :=
  fixed.map (fun kv => (kv.1, match number (vunits kv.1) kv.2 with
    | .ok c => c
    | .error _ => 0))

theorem numbers_get (vunits : Key S → Option (UnitQ D ℝ)) (fixed : PyDict (Key S) (Out (SubVal (Key S) ℝ D) F)) (a : Key S) :
    @PyDict.get? (Key S) ℝ instBEqOfDecidableEq (numbers vunits fixed) a = (fixed.get? a).map (fun o => match number (vunits a) o with
    | .ok c => c
    | .error _ => 0) := by
  rw [get?_inst instBEqOfDecidableEq instBEqProd]
  induction fixed with
  | nil => rfl
  | cons kv fixed ih =>
    obtain ⟨k, o⟩ := kv
    unfold numbers at ih ⊢
    rw [List.map_cons, get?_cons, get?_cons, ih]
    by_cases h : k = a
    · subst h; simp
    · have : (k == a) = false := by simpa using h
      rw [this]; simp

theorem varlocs_keys {V : Type} [DecidableEq V] (h : PyDict (HV V ℝ) ℝ) {f g : PyDict V ℝ} (hfg : f.map (·.1) = g.map (·.1)) :
    varlocs h f = varlocs h g := by
  have hc : ∀ v, f.contains v = g.contains v := by
    intro v
    induction f generalizing g with
    | nil =>
      cases g with
      | nil => rfl
      | cons b g => cases hfg
    | cons a f ih =>
      cases g with
      | nil => cases hfg
      | cons b g =>
        rw [List.map_cons, List.map_cons, List.cons.injEq] at hfg
        have := ih hfg.2
        unfold PyDict.contains at this ⊢
        obtain ⟨a1, a2⟩ := a
        obtain ⟨b1, b2⟩ := b
        have hab : a1 = b1 := hfg.1
        subst hab
        rw [get?_cons, get?_cons]
        by_cases h : (a1 == v) = true
        · simp [h]
        · simp only [h, Bool.false_eq_true, if_false]
          exact this
  unfold varlocs varlocKeys
  simp only [hc]

theorem numbers_locations (vunits : Key S → Option (UnitQ D ℝ)) (h : NMap (Key S) ℝ D) (fixed : PyDict (Key S) (Out (SubVal (Key S) ℝ D) F)) :
    varlocs h.terms (numbers vunits fixed) = locations h fixed := by
  apply varlocs_keys
  unfold numbers
  rw [List.map_map, List.map_map]
  rfl

theorem round_eq {vunits : Key S → Option (UnitQ D ℝ)} {fixed : PyDict (Key S) (Out (SubVal (Key S) ℝ D) F)} {s : SubState (Key S) ℝ}
    {r : Key S × List (HV (Key S) ℝ)} {o : Out (SubVal (Key S) ℝ D) F} {c : ℝ} (ho : fixed.get? r.1 = some o) (hc : number (vunits r.1) o = .ok c) :
    round vunits fixed s r = subRound (numbers vunits fixed) s r := by
  unfold round subRound
  have h1 := numbers_get vunits fixed r.1
  rw [ho] at h1
  simp only [Option.map_some, hc] at h1
  rw [ho, h1]
  simp only [hc]
  rfl

theorem rounds_eq {vunits : Key S → Option (UnitQ D ℝ)} {fixed : PyDict (Key S) (Out (SubVal (Key S) ℝ D) F)}
    (rs : List (Key S × List (HV (Key S) ℝ))) (h : ∀ r ∈ rs, ∃ o c, fixed.get? r.1 = some o ∧ number (vunits r.1) o = .ok c) :
    ∀ s, rs.foldlM (round vunits fixed) s = rs.foldlM (subRound (numbers vunits fixed)) s := by
  induction rs with
  | nil => intro s; rfl
  | cons r rs ih =>
    intro s
    obtain ⟨o, c, h1, h2⟩ := h r (by simp)
    rw [List.foldlM_cons, List.foldlM_cons, round_eq h1 h2]
    congr 1
    funext s'
    exact ih (fun r hr => h r (by simp [hr])) s'

theorem rounds_numbers {vunits : Key S → Option (UnitQ D ℝ)} {fixed : PyDict (Key S) (Out (SubVal (Key S) ℝ D) F)}
    (rs : List (Key S × List (HV (Key S) ℝ))) : ∀ s s', rs.foldlM (round vunits fixed) s = .ok s' →
    ∀ r ∈ rs, ∃ o c, fixed.get? r.1 = some o ∧ number (vunits r.1) o = .ok c := by
  induction rs with
  | nil => intro s s' _ r hr; cases hr
  | cons r rs ih =>
    intro s s' h
    rw [List.foldlM_cons] at h
    obtain ⟨s1, h1, h2⟩ := except_bind_ok h
    intro q hq
    rcases List.mem_cons.1 hq with rfl | hq
    · unfold round at h1
      cases ho : fixed.get? q.1 with
      | none => rw [ho] at h1; cases h1
      | some o =>
        rw [ho] at h1
        obtain ⟨c, h3, _⟩ := except_bind_ok h1
        exact ⟨o, c, rfl, h3⟩
    · exact ih s1 s' h2 q hq

theorem hv_mem_of_get {V : Type} [DecidableEq V] {e : HV V ℝ} {a : V} {x : ℝ} (h : e.get? a = some x) : (a, x) ∈ e.items := by
  obtain ⟨k, hk, hkv⟩ := exists_mem_of_get? h
  have : k = a := eq_of_beq hkv
  exact this ▸ hk

theorem hv_get_ne {V : Type} [DecidableEq V] {e : HV V ℝ} {a : V} : e.get? a ≠ none ↔ a ∈ e.items.map (·.1) := by
  constructor
  · intro h
    obtain ⟨x, hx⟩ := Option.ne_none_iff_exists'.1 h
    exact List.mem_map.2 ⟨_, hv_mem_of_get hx, rfl⟩
  · intro h h3
    unfold HV.get? at h3
    rw [get?_eq_none_iff] at h3
    obtain ⟨p, hp, rfl⟩ := List.mem_map.1 h
    have := h3 p hp
    simp at this

/-- The variables visited are those that occur and have a constant. -/
theorem mem_locations {h : NMap (Key S) ℝ D} {fixed : PyDict (Key S) (Out (SubVal (Key S) ℝ D) F)} {rs : List (Key S × List (HV (Key S) ℝ))}
    (ho : SetOrder (locations h fixed) rs) (a : Key S) : a ∈ rs.map (·.1) ↔ Occurs h a ∧ fixed.get? a ≠ none := by
  rw [(setOrder_facts ho).1, mem_varlocKeys]
  have h1 : (@PyDict.contains (Key S) ℝ instBEqOfDecidableEq (fixed.map (fun kv => (kv.1, (0 : ℝ)))) a = true) ↔ fixed.get? a ≠ none := by
    unfold PyDict.contains
    rw [get?_inst instBEqOfDecidableEq instBEqProd]
    clear ho
    induction fixed with
    | nil => simp
    | cons kv fixed ih =>
      obtain ⟨k, o⟩ := kv
      rw [List.map_cons, get?_cons, get?_cons]
      by_cases hk : k = a
      · subst hk; simp
      · have : (k == a) = false := by simpa using hk
        rw [this]
        simpa using ih
  rw [h1]
  refine and_congr_left (fun _ => ?_)
  unfold Occurs
  simp only [hv_get_ne]

/-- What the number for each variable is. -/
def Numbers (W : World S N ℝ D F) (h : NMap (Key S) ℝ D) (l : List (Lookup.MapKey (Key S) N × Entry S ℝ D F)) (f : PyDict (Key S) ℝ) : Prop :=
  (∀ a, Occurs h a → match given W.E l a with
    | some v => ∃ x, @PyDict.get? (Key S) ℝ instBEqOfDecidableEq f a = some x ∧ Means (W.vunits a) v x
    | none => @PyDict.get? (Key S) ℝ instBEqOfDecidableEq f a = none) ∧
  ∀ a, ¬ Occurs h a → @PyDict.get? (Key S) ℝ instBEqOfDecidableEq f a = none

theorem subFixed_sub {vunits : Key S → Option (UnitQ D ℝ)} {h : NMap (Key S) ℝ D} {fixed : PyDict (Key S) (Out (SubVal (Key S) ℝ D) F)}
    {rs : List (Key S × List (HV (Key S) ℝ))} (hr : ∀ r ∈ rs, ∃ o c, fixed.get? r.1 = some o ∧ number (vunits r.1) o = .ok c) :
    subFixed vunits h fixed rs = h.sub (numbers vunits fixed) rs := by
  unfold subFixed NMap.sub subState
  have : (numbers vunits fixed).isEmpty = fixed.isEmpty := by
    unfold numbers
    cases fixed <;> rfl
  rw [this]
  by_cases hf : fixed.isEmpty
  · rw [if_pos hf, if_pos hf]; rfl
  · rw [if_neg hf, if_neg hf, rounds_eq rs hr]

theorem given_nil (E : Lookup.Env (Key S) N Nat) (a : Key S) : given (K := ℝ) (D := D) (F := F) E [] a = none := rfl

theorem numbers_spec {W : World S N ℝ D F} {h : NMap (Key S) ℝ D} {subs : Subs S N ℝ D F} {p : Parsed S (SubVal (Key S) ℝ D) F}
    (hW : WorldOK W h) (hs : SubsOK W h subs) (hp : parsed W.E W.shape h subs = .ok p)
    (hn : ∀ a v, Occurs h a → given W.E subs.entries a = some v → ∃ x, Means (W.vunits a) v x) :
    Numbers W h subs.entries (numbers W.vunits p.constants) := by
  refine ⟨fun a ha => ?_, fun a ha => ?_⟩
  · have hg := (parsed_get hW hs hp a).1 ha
    rw [numbers_get, hg]
    cases hv : given W.E subs.entries a with
    | none => rfl
    | some v =>
      obtain ⟨x, hx⟩ := hn a v ha hv
      have : number (F := F) (W.vunits a) (.num v) = .ok x := (subValue_iff (hW.units a) v x).2 hx
      refine ⟨x, ?_, hx⟩
      simp [this]
  · have hg := (parsed_get hW hs hp a).2 ha
    rw [numbers_get, hg]
    rfl

/-- Substitution puts the numbers in that are given. -/
theorem subMap_ok {W : World S N ℝ D F} {h h' : NMap (Key S) ℝ D} {subs : Subs S N ℝ D F} (hW : WorldOK W h) (hs : SubsOK W h subs)
    (hr : subMap W h subs = .ok h') :
    ∃ f rs, h.sub f rs = .ok h' ∧ SetOrder (varlocs h.terms f) rs ∧ Numbers W h subs.entries f := by
  unfold subMap at hr
  by_cases he : subs.entries.isEmpty
  · rw [if_pos he] at hr
    cases hr
    rw [List.isEmpty_iff] at he
    refine ⟨[], W.rounds h [], rfl, hW.rounds [], ?_⟩
    rw [he]
    exact ⟨fun a _ => rfl, fun a _ => rfl⟩
  · rw [if_neg he] at hr
    obtain ⟨p, hp, hr⟩ := except_bind_ok hr
    have hso := hW.rounds p.constants
    have hrounds : ∀ r ∈ W.rounds h p.constants, ∃ o c, p.constants.get? r.1 = some o ∧ number (W.vunits r.1) o = .ok c := by
      unfold subFixed at hr
      by_cases hf : p.constants.isEmpty
      · rw [List.isEmpty_iff] at hf
        intro r hr'
        have := (mem_locations hso r.1).1 (List.mem_map_of_mem hr')
        rw [hf] at this
        exact absurd rfl this.2
      · rw [if_neg hf] at hr
        obtain ⟨s, h1, _⟩ := except_bind_ok hr
        exact rounds_numbers _ _ _ h1
    refine ⟨numbers W.vunits p.constants, W.rounds h p.constants, ?_, ?_, ?_⟩
    · rw [← subFixed_sub hrounds]
      exact hr
    · rw [numbers_locations]
      exact hso
    · refine numbers_spec hW hs hp ?_
      intro a v ha hv
      have hg := (parsed_get hW hs hp a).1 ha
      rw [hv] at hg
      have : a ∈ (W.rounds h p.constants).map (·.1) := (mem_locations hso a).2 ⟨ha, by rw [hg]; simp⟩
      obtain ⟨r, hr', rfl⟩ := List.mem_map.1 this
      obtain ⟨o, c, h1, h2⟩ := hrounds r hr'
      rw [hg] at h1
      cases h1
      exact ⟨c, (subValue_iff (hW.units r.1) v c).1 h2⟩

/-- ... and succeeds if the values fit and their powers are numbers. -/
theorem subMap_total {W : World S N ℝ D F} {h : NMap (Key S) ℝ D} {subs : Subs S N ℝ D F} (hc : TermsTidy h.terms) (hW : WorldOK W h)
    (hs : SubsOK W h subs) (hf : ∀ ks ∈ subs.entries, ∀ a, Occurs h a → Lookup.Refers W.E ks.1 a → Fits W.shape ks.2 a)
    (hn : ∀ a v, Occurs h a → given W.E subs.entries a = some v →
      ∃ x, Means (W.vunits a) v x ∧ ∀ t ∈ h.terms, ∀ e, (a, e) ∈ t.1.items → pwDom x e = true) :
    ∃ h', subMap W h subs = .ok h' := by
  unfold subMap
  by_cases he : subs.entries.isEmpty
  · rw [if_pos he]; exact ⟨_, rfl⟩
  · rw [if_neg he]
    obtain ⟨p, hp⟩ := parse_total (shape := W.shape) (present W.E h subs) (by
      intro e he key hk
      obtain ⟨ks, hks, h1, h2⟩ := mem_present hW.env he
      rw [h1]
      exact hf ks hks key (h2 key hk).1 (h2 key hk).2) ⟨[], [], []⟩
    have hp' : parsed W.E W.shape h subs = .ok p := hp
    rw [hp']
    have hso := hW.rounds p.constants
    have hnum := numbers_spec hW hs hp' (fun a v ha hv => by obtain ⟨x, hx, _⟩ := hn a v ha hv; exact ⟨x, hx⟩)
    have hrounds : ∀ r ∈ W.rounds h p.constants, ∃ o c, p.constants.get? r.1 = some o ∧ number (W.vunits r.1) o = .ok c := by
      intro r hr
      obtain ⟨ha, hne⟩ := (mem_locations hso r.1).1 (List.mem_map_of_mem hr)
      have hg := (parsed_get hW hs hp' r.1).1 ha
      cases hv : given W.E subs.entries r.1 with
      | none => rw [hv] at hg; exact absurd hg hne
      | some v =>
        rw [hv] at hg
        obtain ⟨x, hx, _⟩ := hn r.1 v ha hv
        exact ⟨.num v, x, hg, (subValue_iff (hW.units r.1) v x).2 hx⟩
    show ∃ h', subFixed W.vunits h p.constants (W.rounds h p.constants) = .ok h'
    rw [subFixed_sub hrounds]
    unfold NMap.sub subState
    by_cases hf : (numbers W.vunits p.constants).isEmpty
    · rw [if_pos hf]; exact ⟨_, rfl⟩
    · rw [if_neg hf, subInit_eq hc.1]
      have hso' := hso
      rw [← numbers_locations W.vunits] at hso'
      obtain ⟨hk, hnd, hperm⟩ := setOrder_facts hso'
      have hne : h.terms ≠ [] := by
        intro h0
        apply hf
        rw [List.isEmpty_iff]
        have : p.constants = [] := by
          have hno : ∀ a, ¬ Occurs h a := by
            rintro a ⟨t, ht, _⟩
            rw [h0] at ht
            cases ht
          have hg := fun a => (parsed_get hW hs hp' a).2 (hno a)
          cases hcst : p.constants with
          | nil => rfl
          | cons kv l =>
            have := hg kv.1
            rw [hcst, get?_cons] at this
            simp at this
        rw [this]
        rfl
      obtain ⟨s', h1⟩ := subRounds_total hc.1 (fixed := numbers W.vunits p.constants) hnd (by simp) hperm
        (by
          intro r hr
          obtain ⟨ha, hne⟩ := (mem_locations hso r.1).1 (List.mem_map_of_mem hr)
          have hm := hnum.1 r.1 ha
          have hg := (parsed_get hW hs hp' r.1).1 ha
          cases hv : given W.E subs.entries r.1 with
          | none => rw [hv] at hg; exact absurd hg hne
          | some v =>
            rw [hv] at hm
            obtain ⟨x, hx, hxm⟩ := hm
            refine ⟨x, hx, ?_⟩
            obtain ⟨y, hy, hd⟩ := hn r.1 v ha hv
            have hxy : x = y := by
              have e1 := (subValue_iff (hW.units r.1) v x).2 hxm
              rw [(subValue_iff (hW.units r.1) v y).2 hy] at e1
              cases e1
              rfl
            intro t ht e hte
            rw [hxy]
            exact hd t ht e (hv_mem_of_get hte))
        (subInv_init hc hne)
      rw [h1]
      exact ⟨_, rfl⟩

end Numbers
end SubCall
end Verif
