import Verif.Spec.Names
import Verif.Lemmas.Lookup
import Verif.Props.VarKey
import Verif.Lemmas.Canonical

/-! Lemmas about names of variables. -/

set_option linter.unusedSectionVars false

namespace Verif
namespace Names
open VK Lookup

theorem env_ok {ord : List Var → List Var} (h : OrdOK ord) : EnvOK (env ord) where
  ord := h
  inj := by
    intro a b h1 h2 h3
    have h1 : (if a.idx.isEmpty then none else some { a with idx := [] }) ≠ none := h1
    have h2 : (if a.idx.isEmpty then none else some { a with idx := [] }) = (if b.idx.isEmpty then none else some { b with idx := [] }) := h2
    have h3 : (if a.idx.isEmpty then none else some a.idx) = (if b.idx.isEmpty then none else some b.idx) := h3
    by_cases ha : a.idx.isEmpty
    · rw [if_pos ha] at h1
      exact absurd rfl h1
    · rw [if_neg ha] at h2 h3
      by_cases hb : b.idx.isEmpty
      · rw [if_pos hb] at h2
        cases h2
      · rw [if_neg hb] at h2 h3
        have h3 := Option.some.inj h3
        have h2 := Option.some.inj h2
        rcases a with ⟨a1, a2, a3, a4, a5⟩
        rcases b with ⟨b1, b2, b3, b4, b5⟩
        simp only [Var.mk.injEq, true_and] at h2 h3 ⊢
        exact ⟨h2.1, h2.2.1, h3, h2.2.2⟩

theorem two_of_length {A : Type} {l : List A} (hn : l.Nodup) : 1 < l.length ↔ ∃ a ∈ l, ∃ b ∈ l, a ≠ b := by
  constructor
  · intro h
    match l, h, hn with
    | a :: b :: l, _, hn =>
      refine ⟨a, by simp, b, by simp, ?_⟩
      rintro rfl
      simp at hn
  · rintro ⟨a, ha, b, hb, hab⟩
    match l, ha, hb with
    | [x], ha, hb =>
      rw [List.mem_singleton] at ha hb
      exact absurd (ha.trans hb.symm) hab
    | _ :: _ :: _, _, _ => simp

theorem mem_keys (ord : List Var → List Var) (v : Var) (s : Str) : MapKey.str s ∈ (env ord).keys v ↔ s ∈ keys v := by
  show MapKey.str s ∈ (if v.idx.isEmpty then [] else [MapKey.key { v with idx := [] }]) ++ (keys v).map MapKey.str ↔ _
  rw [List.mem_append]
  constructor
  · rintro (h | h)
    · split at h
      · cases h
      · rw [List.mem_singleton] at h
        cases h
    · obtain ⟨t, ht, h⟩ := List.mem_map.1 h
      cases h
      exact ht
  · intro h
    exact .inr (List.mem_map.2 ⟨s, h, rfl⟩)

/-- Names collide if another variable has the name. -/
def Collides (objs : List Obj) (o : Obj) : Prop :=
  ∃ a ∈ objs, ∃ b ∈ objs, short o.var ∈ keys a.var ∧ short o.var ∈ keys b.var ∧ a.var ≠ b.var

theorem mem_collisions {ord : List Var → List Var} (hE : OrdOK ord) {objs : List Obj} : ∀ {l : List Obj} {s : KeySet Var Str},
    Inv (env ord) (objs.map Obj.var) s → ∀ o, o ∈ (collisions (env ord) s l).2 ↔ o ∈ l ∧ Collides objs o
  | [], s, _, o => by simp [collisions]
  | p :: l, s, hs, o => by
    have hr : 1 < (getItem (env ord) s (.str (short p.var))).2.length ↔ Collides objs p := by
      rw [two_of_length (getItem_nodup (env_ok hE) hs _)]
      constructor
      · rintro ⟨a, ha, b, hb, hab⟩
        obtain ⟨ha1, ha2⟩ := (getItem_str (env_ok hE) hs _ _).1 ha
        obtain ⟨hb1, hb2⟩ := (getItem_str (env_ok hE) hs _ _).1 hb
        obtain ⟨a', ha', rfl⟩ := List.mem_map.1 ha1
        obtain ⟨b', hb', rfl⟩ := List.mem_map.1 hb1
        exact ⟨a', ha', b', hb', (mem_keys ord _ _).1 ha2, (mem_keys ord _ _).1 hb2, hab⟩
      · rintro ⟨a, ha, b, hb, h1, h2, hab⟩
        exact ⟨a.var, (getItem_str (env_ok hE) hs _ _).2 ⟨List.mem_map_of_mem ha, (mem_keys ord _ _).2 h1⟩,
          b.var, (getItem_str (env_ok hE) hs _ _).2 ⟨List.mem_map_of_mem hb, (mem_keys ord _ _).2 h2⟩, hab⟩
    have ih := mem_collisions hE (l := l) (inv_getItem (env_ok hE) hs (.str (short p.var))) o
    show o ∈ (if 1 < (getItem (env ord) s (.str (short p.var))).2.length then p :: (collisions (env ord) _ l).2 else (collisions (env ord) _ l).2) ↔ _
    by_cases h : 1 < (getItem (env ord) s (.str (short p.var))).2.length
    · rw [if_pos h, List.mem_cons, ih, List.mem_cons]
      constructor
      · rintro (rfl | ⟨h1, h2⟩)
        · exact ⟨.inl rfl, hr.1 h⟩
        · exact ⟨.inr h1, h2⟩
      · rintro ⟨rfl | h1, h2⟩
        · exact .inl rfl
        · exact .inr ⟨h1, h2⟩
    · rw [if_neg h, ih, List.mem_cons]
      constructor
      · rintro ⟨h1, h2⟩
        exact ⟨.inr h1, h2⟩
      · rintro ⟨rfl | h1, h2⟩
        · exact absurd (hr.2 h2) h
        · exact ⟨h1, h2⟩

theorem collisions_sublist (E : Env Var Str (List Nat)) : ∀ (l : List Obj) (s : KeySet Var Str), (collisions E s l).2.Sublist l
  | [], s => by simp [collisions]
  | p :: l, s => by
    show (if 1 < (getItem E s (.str (short p.var))).2.length then p :: (collisions E _ l).2 else (collisions E _ l).2).Sublist _
    split
    · exact (collisions_sublist E l _).cons_cons p
    · exact (collisions_sublist E l _).cons p

/-! Flags. -/

theorem mem_setFlags (l : List Obj) (f : Flags) (i : Nat) : i ∈ l.foldl setFlag f ↔ i ∈ f ∨ i ∈ l.map Obj.id := by
  induction l generalizing f with
  | nil => simp
  | cons o l ih =>
    rw [List.foldl_cons, ih, List.map_cons, List.mem_cons]
    unfold setFlag
    split
    · rename_i h
      constructor
      · rintro (h1 | h1)
        · exact .inl h1
        · exact .inr (.inr h1)
      · rintro (h1 | rfl | h1)
        · exact .inl h1
        · exact .inl h
        · exact .inr h1
    · rw [List.mem_cons]
      tauto

theorem setFlags_nodup (l : List Obj) (f : Flags) (hf : f.Nodup) : (l.foldl setFlag f).Nodup := by
  induction l generalizing f with
  | nil => exact hf
  | cons o l ih =>
    rw [List.foldl_cons]
    apply ih
    unfold setFlag
    split
    · exact hf
    · rename_i h
      exact List.nodup_cons.2 ⟨h, hf⟩

theorem delFlags_ok : ∀ (l : List Obj) (f : Flags), (l.map Obj.id).Nodup → f.Nodup → (∀ o ∈ l, o.id ∈ f) →
    (delFlags l f).1 = .ok () ∧ ∀ i, i ∈ (delFlags l f).2 ↔ i ∈ f ∧ i ∉ l.map Obj.id
  | [], f, _, _, _ => by simp [delFlags]
  | o :: l, f, hl, hf, h => by
    unfold delFlags
    rw [if_pos (h o (by simp))]
    rw [List.map_cons, List.nodup_cons] at hl
    obtain ⟨h1, h2⟩ := delFlags_ok l (f.erase o.id) hl.2 (hf.erase _) (fun p hp => by
      refine (List.mem_erase_of_ne ?_).2 (h p (by simp [hp]))
      rintro he
      exact hl.1 (he ▸ List.mem_map_of_mem hp))
    refine ⟨h1, fun i => ?_⟩
    rw [h2, List.map_cons, List.mem_cons, hf.mem_erase_iff]
    tauto

theorem necessarily_ok {A : Type} {coll : List Obj} {body : Flags → Except Err A} {f : Flags} {a : A} (hc : (coll.map Obj.id).Nodup) (hf : f.Nodup)
    (hb : body (coll.foldl setFlag f) = .ok a) :
    (necessarily coll body f).1 = .ok a ∧ ∀ i, i ∈ (necessarily coll body f).2 ↔ i ∈ f ∧ i ∉ coll.map Obj.id := by
  obtain ⟨h1, h2⟩ := delFlags_ok coll (coll.foldl setFlag f) hc (setFlags_nodup _ _ hf) (fun o ho => (mem_setFlags _ _ _).2 (.inr (List.mem_map_of_mem ho)))
  unfold necessarily
  simp only [hb]
  rcases hd : delFlags coll (coll.foldl setFlag f) with ⟨r, f2⟩
  rw [hd] at h1 h2
  simp only at h1 h2
  subst h1
  refine ⟨rfl, fun i => ?_⟩
  show i ∈ f2 ↔ _
  rw [h2, mem_setFlags]
  tauto

/-! Texts. -/

theorem num_ne_nil (n : Nat) : num n ≠ [] := by
  unfold num
  exact Nat.toDigits_ne_nil

theorem dotfree_join {a b : List Str} : a ≠ [] → b ≠ [] → (∀ s ∈ a, '.' ∉ s) → (∀ s ∈ b, '.' ∉ s) → join ['.'] a = join ['.'] b → a = b := by
  have hp : ∀ c : Str, '.' ∉ c → ∀ x ∈ c, (decide (x ≠ '.')) = true := by
    intro c hc x hx
    simp only [decide_eq_true_eq]
    rintro rfl; exact hc hx
  induction a generalizing b with
  | nil => intro h; exact absurd rfl h
  | cons x a ih =>
    intro _ hb ha1 hb1 h
    cases b with
    | nil => exact absurd rfl hb
    | cons y b =>
      cases a with
      | nil =>
        cases b with
        | nil => exact congrArg (· :: []) h
        | cons z b =>
          simp only [join, List.append_assoc, List.cons_append, List.nil_append] at h
          exact absurd (h ▸ (by simp : '.' ∈ y ++ '.' :: join ['.'] (z :: b))) (ha1 x (by simp))
      | cons w a =>
        cases b with
        | nil =>
          simp only [join, List.append_assoc, List.cons_append, List.nil_append] at h
          exact absurd (h ▸ (by simp : '.' ∈ x ++ '.' :: join ['.'] (w :: a))) (hb1 y (by simp))
        | cons z b =>
          simp only [join, List.append_assoc, List.cons_append, List.nil_append] at h
          obtain ⟨h1, _, h2⟩ := split_at (hp x (ha1 x (by simp))) (hp y (hb1 y (by simp))) (by decide) (by decide) h
          rw [h1, ih (by simp) (by simp) (fun s hs => ha1 s (by simp [hs])) (fun s hs => hb1 s (by simp [hs])) h2]

theorem join_snoc (l : List Str) (s : Str) (h : l ≠ []) : join ['.'] l ++ '.' :: s = join ['.'] (l ++ [s]) := by
  induction l with
  | nil => exact absurd rfl h
  | cons a l ih =>
    cases l with
    | nil => simp [join]
    | cons b l =>
      have := ih (by simp)
      simp only [join, List.cons_append, List.append_assoc] at this ⊢
      rw [this]

/-- Digits at the end of a text. -/
theorem digits_inj {a b : Str} {m n : Nat} (ha : ∀ c, a.getLast? = some c → c.isDigit = false) (hb : ∀ c, b.getLast? = some c → c.isDigit = false)
    (h : piece true (a, m) = piece true (b, n)) : (a, m) = (b, n) := by
  let ds : Nat → Str := fun n => if n ≠ 0 then num n else []
  have hds : ∀ n, ∀ c ∈ ds n, c.isDigit = true := by
    intro n c hc
    simp only [ds] at hc
    split at hc
    · exact num_digit hc
    · cases hc
  have hpiece : ∀ a n, piece true (a, n) = a ++ ds n := by
    intro a n
    unfold piece
    simp only [ds]
    by_cases hn : n = 0 <;> simp [hn]
  have htake : ∀ (a : Str) n, (∀ c, a.getLast? = some c → c.isDigit = false) → (a ++ ds n).reverse.takeWhile Char.isDigit = (ds n).reverse := by
    intro a n ha
    rw [List.reverse_append, List.takeWhile_append_of_pos (by intro c hc; exact hds n c (List.mem_reverse.1 hc))]
    have : a.reverse.takeWhile Char.isDigit = [] := by
      cases hr : a.reverse with
      | nil => rfl
      | cons c r =>
        have : a.getLast? = some c := by rw [← List.head?_reverse, hr]; rfl
        rw [List.takeWhile_cons, ha c this]
        rfl
    rw [this, List.append_nil]
  rw [hpiece, hpiece] at h
  have hd : ds m = ds n := by
    have h1 := htake a m ha
    rw [h, htake b n hb] at h1
    simpa using h1.symm
  rw [hd] at h
  have hab := List.append_cancel_right h
  have hmn : m = n := by
    simp only [ds] at hd
    by_cases hm : m = 0
    · by_cases hn : n = 0
      · rw [hm, hn]
      · rw [if_neg (by simp [hm]), if_pos hn] at hd
        exact absurd hd.symm (num_ne_nil n)
    · by_cases hn : n = 0
      · rw [if_pos hm, if_neg (by simp [hn])] at hd
        exact absurd hd (num_ne_nil m)
      · rw [if_pos hm, if_pos hn] at hd
        exact num_inj hd
  rw [hab, hmn]

/-- The end of a name. -/
def suffix (e : Excl) (v : Var) : Str := if !v.idx.isEmpty then idxStr v.idx else if !e.vec && !v.shape.isEmpty then "[:]".toList else []

/-- The models shown before a name. -/
def shownModels (necessary : Bool) (v : Var) : List Str := if necessary then v.lineage.map (piece true) else []

theorem str_eq {e : Excl} (he : e.Short) (nec : Bool) (v : Var) :
    strWithout e nec v = join ['.'] (shownModels nec v ++ [v.name]) ++ suffix e v := by
  obtain ⟨h1, h2, h3, h4⟩ := he
  have hpre : (if !e.lineage && !v.lineage.isEmpty && (!e.unnecessary || nec) then lineageStr (!e.modelnums) v.lineage ++ '.' :: v.name else v.name) =
      join ['.'] (shownModels nec v ++ [v.name]) := by
    rw [h1, h2, h3]
    unfold shownModels lineageStr
    cases nec with
    | false => simp [join]
    | true =>
      cases hl : v.lineage with
      | nil => simp [join]
      | cons x l =>
        simp only [Bool.not_false, List.isEmpty_cons, Bool.and_self, Bool.not_true, Bool.or_true, if_true]
        exact join_snoc _ _ (by simp)
  unfold strWithout suffix
  simp only [hpre, h4, Bool.false_eq_true, if_false]
  split
  · rfl
  · split
    · rfl
    · rw [List.append_nil]

theorem join_nobracket {l : List Str} (h : ∀ s ∈ l, '[' ∉ s) : '[' ∉ join ['.'] l := by
  intro hm
  rcases mem_join hm with hm | ⟨a, ha, hc⟩
  · exact absurd hm (by decide)
  · exact h a ha hc

theorem models_free {v : Var} (h : Clear v) (nec : Bool) : ∀ s ∈ shownModels nec v ++ [v.name], '.' ∉ s ∧ '[' ∉ s := by
  intro s hs
  rw [List.mem_append] at hs
  rcases hs with hs | hs
  · unfold shownModels at hs
    split at hs
    · obtain ⟨x, hx, rfl⟩ := List.mem_map.1 hs
      obtain ⟨h1, h2, _⟩ := h.models x hx
      unfold piece
      split
      · refine ⟨?_, ?_⟩
        · intro hm
          rcases List.mem_append.1 hm with hm | hm
          · exact h1 hm
          · exact num_ne hm (d := '.') rfl rfl
        · intro hm
          rcases List.mem_append.1 hm with hm | hm
          · exact h2 hm
          · exact num_ne hm (d := '[') rfl rfl
      · exact ⟨h1, h2⟩
    · cases hs
  · rw [List.mem_singleton] at hs
    subst hs
    exact h.name

theorem suffix_form (e : Excl) (v : Var) : suffix e v = [] ∨ ∃ s, suffix e v = '[' :: s := by
  unfold suffix
  cases hi : v.idx with
  | nil =>
    simp only [List.isEmpty_nil, Bool.not_true, Bool.false_eq_true, if_false]
    split
    · exact .inr ⟨":]".toList, rfl⟩
    · exact .inl rfl
  | cons i l => exact .inr ⟨_, rfl⟩

theorem bracket_split {a b s t : Str} (ha : '[' ∉ a) (hb : '[' ∉ b) (hs : s = [] ∨ ∃ r, s = '[' :: r) (ht : t = [] ∨ ∃ r, t = '[' :: r)
    (h : a ++ s = b ++ t) : a = b ∧ s = t := by
  have hp : ∀ c : Str, '[' ∉ c → ∀ x ∈ c, (decide (x ≠ '[')) = true := by
    intro c hc x hx
    simp only [decide_eq_true_eq]
    rintro rfl; exact hc hx
  rcases hs with rfl | ⟨s, rfl⟩ <;> rcases ht with rfl | ⟨t, rfl⟩
  · simpa using h
  · rw [List.append_nil] at h
    exact absurd (h ▸ (by simp : '[' ∈ b ++ '[' :: t)) ha
  · rw [List.append_nil] at h
    exact absurd (h.symm ▸ (by simp : '[' ∈ a ++ '[' :: s)) hb
  · obtain ⟨h1, _, h2⟩ := split_at (hp a ha) (hp b hb) (by decide) (by decide) h
    exact ⟨h1, by rw [h2]⟩

theorem idx_head (i : Nat) (l : List Nat) : ∃ c s, idxStr (i :: l) = '[' :: c :: s ∧ c.isDigit = true := by
  unfold idxStr
  cases hn : num i with
  | nil => exact absurd hn (num_ne_nil i)
  | cons c s =>
    have hc : c.isDigit = true := num_digit (n := i) (by rw [hn]; simp)
    cases l with
    | nil => exact ⟨c, s ++ [']'], by simp [join, hn], hc⟩
    | cons j l => exact ⟨c, _, by simp only [List.map_cons, join, hn, List.cons_append]; rfl, hc⟩

theorem suffix_idx {e : Excl} {v w : Var} (h : suffix e v = suffix e w) : v.idx = w.idx := by
  unfold suffix at h
  cases hv : v.idx with
  | nil =>
    cases hw : w.idx with
    | nil => rfl
    | cons j m =>
      rw [hv, hw] at h
      obtain ⟨c, s, hc, hd⟩ := idx_head j m
      simp only [List.isEmpty_nil, List.isEmpty_cons, Bool.not_true, Bool.not_false, Bool.false_eq_true, if_false, if_true, hc] at h
      split at h
      · have : ':' = c := by
          have h' : '[' :: ':' :: [']'] = '[' :: c :: s := h
          simp only [List.cons.injEq, true_and] at h'
          exact h'.1
        subst this
        cases hd
      · cases h
  | cons i l =>
    cases hw : w.idx with
    | nil =>
      rw [hv, hw] at h
      obtain ⟨c, s, hc, hd⟩ := idx_head i l
      simp only [List.isEmpty_nil, List.isEmpty_cons, Bool.not_true, Bool.not_false, Bool.false_eq_true, if_false, if_true, hc] at h
      split at h
      · have : c = ':' := by
          have h' : '[' :: c :: s = '[' :: ':' :: [']'] := h
          simp only [List.cons.injEq, true_and] at h'
          exact h'.1
        subst this
        cases hd
      · cases h
    | cons j m =>
      rw [hv, hw] at h
      simp only [List.isEmpty_cons, Bool.not_false, if_true] at h
      exact idxStr_inj h

theorem lineage_pieces {a b : List (Str × Nat)} (ha : ∀ x ∈ a, ∀ c, x.1.getLast? = some c → c.isDigit = false)
    (hb : ∀ x ∈ b, ∀ c, x.1.getLast? = some c → c.isDigit = false) (h : a.map (piece true) = b.map (piece true)) : a = b := by
  induction a generalizing b with
  | nil =>
    cases b with
    | nil => rfl
    | cons y b => cases h
  | cons x a ih =>
    cases b with
    | nil => cases h
    | cons y b =>
      simp only [List.map_cons, List.cons.injEq] at h
      have hxy : x = y := digits_inj (ha x (by simp)) (hb y (by simp)) h.1
      rw [hxy, ih (fun z hz => ha z (by simp [hz])) (fun z hz => hb z (by simp [hz])) h.2]

/-- What can be read off a name. -/
theorem str_inj {e : Excl} (he : e.Short) {v w : Var} (hv : Clear v) (hw : Clear w) {n m : Bool} (h : strWithout e n v = strWithout e m w) :
    v.name = w.name ∧ v.idx = w.idx ∧ shownModels n v = shownModels m w := by
  rw [str_eq he, str_eq he] at h
  obtain ⟨h1, h2⟩ := bracket_split (join_nobracket (fun s hs => (models_free hv n s hs).2)) (join_nobracket (fun s hs => (models_free hw m s hs).2))
    (suffix_form e v) (suffix_form e w) h
  have h3 := dotfree_join (by simp) (by simp) (fun s hs => (models_free hv n s hs).1) (fun s hs => (models_free hw m s hs).1) h1
  have h4 := List.append_inj' h3 rfl
  exact ⟨(List.cons.inj h4.2).1, suffix_idx h2, h4.1⟩

theorem short_scalar {v : Var} (h : v.idx = []) : short v = v.name := by
  unfold short strWithout
  simp [h]

theorem name_mem (v : Var) : v.name ∈ keys v := by simp [keys]

/-- Names under which a variable is found, if it is not written with a dot or a bracket. -/
theorem plain_key {v : Var} {s : Str} (hs : '.' ∉ s ∧ '[' ∉ s) (h : s ∈ keys v) : s = v.name := by
  have key : ∀ e : Excl, e.lineage = false → e.unnecessary = false → e.vec = true ∨ e.idx = true → s = strWithout e false v → s = v.name := by
    intro e h1 h2 h3 h4
    unfold strWithout at h4
    rw [h1, h2] at h4
    simp only [Bool.not_false, Bool.true_and, Bool.true_or, Bool.and_true] at h4
    by_cases hl : v.lineage.isEmpty
    · rw [hl] at h4
      simp only [Bool.not_true, Bool.false_eq_true, if_false] at h4
      split at h4
      · exact h4
      · split at h4
        · rename_i hi
          cases hx : v.idx with
          | nil => rw [hx] at hi; simp at hi
          | cons i l =>
            rw [hx] at h4
            obtain ⟨c, r, hc, _⟩ := idx_head i l
            rw [hc] at h4
            exact absurd (h4 ▸ (by simp : '[' ∈ v.name ++ '[' :: c :: r)) hs.2
        · split at h4
          · rename_i hi _ hv
            rcases h3 with h3 | h3
            · rw [h3] at hv
              simp at hv
            · exact absurd h3 hi
          · exact h4
    · rw [Bool.not_eq_true] at hl
      rw [hl] at h4
      simp only [Bool.not_false, if_true] at h4
      exfalso
      have hdot : '.' ∈ s := by
        rw [h4]
        split
        · simp
        · split
          · simp
          · split <;> simp
      exact hs.1 hdot
  unfold keys at h
  rw [List.mem_append, List.mem_cons, List.mem_cons] at h
  rcases h with (h | h | h) | h
  · exact h
  · exact key _ rfl rfl (.inl rfl) h
  · cases h
  · split at h
    · cases h
    · rw [List.mem_singleton] at h
      exact key _ rfl rfl (.inr rfl) h

end Names
end Verif
