import Verif.Spec.Solvify
import Verif.Props.ParseSubs
import Verif.Props.Sweep
import Verif.Props.Pipeline

/-! `solve` as called by a user, with substitutions and sweeps: C67. -/

set_option linter.unusedSectionVars false

namespace Verif
namespace Solvify
open PS PyDict
variable {S K F R : Type} [DecidableEq S]

/-! ### Dictionaries of the parser have each key once -/

theorem wf_iff_nodup {A B : Type} [BEq B] [LawfulBEq B] (d : List (B × A)) : WF (d : PyDict B A) ↔ (d.map (·.1)).Nodup := by
  unfold WF List.Nodup
  rw [List.pairwise_map]
  constructor
  · intro h
    exact h.imp (fun {a b} h => by simpa using h)
  · intro h
    exact h.imp (fun {a b} h => by simpa using h)

theorem mem_iff_get? {A B : Type} [BEq B] [LawfulBEq B] {d : PyDict B A} (h : (d.map (·.1)).Nodup) {key : B} {a : A} : (key, a) ∈ d ↔ d.get? key = some a := by
  constructor
  · exact get?_of_mem ((wf_iff_nodup d).2 h)
  · intro hg
    obtain ⟨k, hk, he⟩ := exists_mem_of_get? hg
    have : k = key := by simpa using he
    exact this ▸ hk

/-- All three dictionaries have each key once. -/
def PWF (p : Parsed S K F) : Prop := (p.constants.map (·.1)).Nodup ∧ (p.sweep.map (·.1)).Nodup ∧ (p.linked.map (·.1)).Nodup

theorem set_nodup {A B : Type} [BEq B] [LawfulBEq B] {d : PyDict B A} (h : (d.map (·.1)).Nodup) (k : B) (v : A) : ((d.set k v).map (·.1)).Nodup :=
  (wf_iff_nodup _).1 (wf_set ((wf_iff_nodup _).2 h) k v)

theorem place_wf {p : Parsed S K F} (h : PWF p) (b : Bool) (key : Key S) (o : Out K F) : PWF (place p b key o) := by
  obtain ⟨h1, h2, h3⟩ := h
  unfold place
  split
  · exact ⟨h1, h2, set_nodup h3 _ _⟩
  · split
    · exact ⟨h1, set_nodup h2 _ _, h3⟩
    · split
      · exact ⟨h1, h2, h3⟩
      · exact ⟨h1, h2, h3⟩
      · exact ⟨set_nodup h1 _ _, h2, h3⟩

theorem appendLoop_wf (shape : S → Option Nat) (sub : Local K F) : ∀ (keys : List (Key S)) (b : Bool) (p p' : Parsed S K F), PWF p →
    appendLoop shape sub b keys p = .ok p' → PWF p' := by
  intro keys
  induction keys with
  | nil =>
    intro b p p' hp h
    cases h
    exact hp
  | cons key keys ih =>
    intro b p p' hp h
    rw [appendLoop] at h
    obtain ⟨x, hx, h⟩ := except_bind_ok h
    exact ih _ _ _ (place_wf hp _ _ _) h

theorem parse_wf (shape : S → Option Nat) (subs : S → Option (Sub K F)) (under : List (S × List (Key S))) {p : Parsed S K F}
    (h : parseSubs shape subs under = .ok p) : PWF p := by
  unfold parseSubs at h
  have key : ∀ (under : List (S × List (Key S))) (p p' : Parsed S K F), PWF p → under.foldlM (fun p qk => match subs qk.1 with
      | some sub => appendSub shape sub qk.2 p
      | none => .ok p) p = .ok p' → PWF p' := by
    intro under
    induction under with
    | nil =>
      intro p p' hp h
      cases h
      exact hp
    | cons qk under ih =>
      intro p p' hp h
      rw [List.foldlM_cons] at h
      obtain ⟨x, hx, h⟩ := except_bind_ok h
      refine ih _ _ ?_ h
      split at hx
      · exact appendLoop_wf shape _ _ _ _ _ hp hx
      · cases hx
        exact hp
  exact key under _ _ (by simp [PWF]) h

/-! ### Conversion of values -/

theorem conv_forall {A B : Type} {f : A → Except Err B} : ∀ {d : List (Key S × A)} {l : List (Key S × B)}, conv f d = .ok l →
    List.Forall₂ (fun kv kb => kb.1 = kv.1 ∧ f kv.2 = .ok kb.2) d l := by
  intro d
  induction d with
  | nil =>
    intro l h
    cases h
    exact .nil
  | cons kv d ih =>
    intro l h
    unfold conv at h
    rw [List.mapM_cons] at h
    obtain ⟨x, hx, h⟩ := except_bind_ok h
    obtain ⟨y, hy, h⟩ := except_bind_ok h
    cases h
    obtain ⟨b, hb, hx⟩ := except_bind_ok hx
    cases hx
    exact .cons ⟨rfl, hb⟩ (ih hy)

theorem conv_keys {A B : Type} {f : A → Except Err B} {d : List (Key S × A)} {l : List (Key S × B)} (h : conv f d = .ok l) :
    l.map (·.1) = d.map (·.1) := by
  have := conv_forall h
  clear h
  induction this with
  | nil => rfl
  | cons h1 _ ih => rw [List.map_cons, List.map_cons, h1.1, ih]

theorem conv_mem {A B : Type} {f : A → Except Err B} {d : List (Key S × A)} {l : List (Key S × B)} (h : conv f d = .ok l) {key : Key S} {b : B} :
    (key, b) ∈ l ↔ ∃ a, (key, a) ∈ d ∧ f a = .ok b := by
  have := conv_forall h
  clear h
  induction this with
  | nil => simp
  | @cons kv kb d l h1 _ ih =>
    rw [List.mem_cons]
    refine (or_congr Iff.rfl ih).trans ?_
    constructor
    · rintro (h | ⟨a, ha, hb⟩)
      · refine ⟨kv.2, ?_, ?_⟩
        · rw [List.mem_cons]
          left
          rw [← h] at h1
          exact Prod.ext h1.1 rfl
        · rw [← h] at h1
          exact h1.2
      · exact ⟨a, List.mem_cons_of_mem _ ha, hb⟩
    · rintro ⟨a, ha, hb⟩
      rw [List.mem_cons] at ha
      rcases ha with ha | ha
      · left
        rw [← ha] at h1
        refine Prod.ext h1.1.symm ?_
        have := hb.symm.trans h1.2
        exact Except.ok.inj this
      · exact Or.inr ⟨a, ha, hb⟩

theorem conv_ok {A B : Type} {f : A → Except Err B} {d : List (Key S × A)} {l : List (Key S × B)} (h : conv f d = .ok l) {key : Key S} {a : A}
    (ha : (key, a) ∈ d) : ∃ b, f a = .ok b := by
  have := conv_forall h
  clear h
  induction this with
  | nil => cases ha
  | @cons kv kb d l h1 _ ih =>
    rcases List.mem_cons.1 ha with rfl | ha
    · exact ⟨_, h1.2⟩
    · exact ih ha

theorem parsed_asked {shape : S → Option Nat} {subs : S → Option (Sub K F)} {under : List (S × List (Key S))} (hl : Listed shape subs under)
    (hu : ∀ v sub, subs v = some sub → Unmixed sub) {p : Parsed S K F} (h : parseSubs shape subs under = .ok p) (key : Key S) :
    p.Holds key (asked shape subs under key) := by
  obtain ⟨p', h1, h2, h3⟩ := C26_class_partial shape subs under hl hu
  rw [h] at h1
  cases h1
  unfold asked
  split
  · rename_i hk
    obtain ⟨vk, hvk, hkey⟩ := List.mem_flatMap.1 hk
    rw [hl.own vk hvk key hkey]
    exact h2 vk hvk key hkey
  · rename_i hk
    exact h3 key hk

theorem holds_mem {ask : Key S → Option (Class × Out K F)} {p : Parsed S K F} (hp : ∀ key, p.Holds key (ask key)) (hw : PWF p) (key : Key S) (o : Out K F) :
    ((key, o) ∈ p.constants ↔ ask key = some (.constant, o)) ∧ ((key, o) ∈ p.sweep ↔ ask key = some (.sweep, o)) ∧
    ((key, o) ∈ p.linked ↔ ask key = some (.linked, o)) := by
  rw [mem_iff_get? hw.1, mem_iff_get? hw.2.1, mem_iff_get? hw.2.2, (hp key).1, (hp key).2.1, (hp key).2.2]
  cases ask key with
  | none => simp
  | some co =>
    obtain ⟨c, o'⟩ := co
    cases c <;> simp

attribute [-instance] instBEqProd

/-- What the parts of a solve are, if nothing raised before the first program. -/
structure Parts (ask : Key S → Option (Class × Out K F)) (interp : F → Sweep.Fn (Key S) K) (base : PyDict (Key S) K) (sweep : List (Key S × List K))
    (linked : List (Key S × Sweep.Fn (Key S) K)) : Prop where
  wf : WF base
  constant : ∀ key k, base.get? key = some k ↔ ask key = some (.constant, .num k)
  isnum : ∀ key o, ask key = some (.constant, o) → ∃ k, o = .num k
  nodup : (sweep.map (·.1)).Nodup
  axis : ∀ key vs, (key, vs) ∈ sweep ↔ SweptOver ask key vs
  isaxis : ∀ key o, ask key = some (.sweep, o) → ∃ vs, (key, vs) ∈ sweep
  lnodup : (linked.map (·.1)).Nodup
  fn : ∀ key g, (key, g) ∈ linked ↔ ∃ f, ask key = some (.linked, .fn f) ∧ g = interp f
  isfn : ∀ key o, ask key = some (.linked, o) → ∃ f, o = .fn f

theorem parts {ask : Key S → Option (Class × Out K F)} {p : Parsed S K F} (hp : ∀ key, p.Holds key (ask key)) (hw : PWF p)
    {interp : F → Sweep.Fn (Key S) K} {base : PyDict (Key S) K} {sweep : List (Key S × List K)} {linked : List (Key S × Sweep.Fn (Key S) K)}
    {s : List (Key S × Out K F)} (hs : s.Perm p.sweep)
    (h1 : conv toNum p.constants = .ok base) (h2 : conv toAxis s = .ok sweep) (h3 : conv (toFn interp) p.linked = .ok linked) :
    Parts ask interp base sweep linked := by
  have mc : ∀ key o, (key, o) ∈ p.constants ↔ ask key = some (.constant, o) := fun key o => (holds_mem hp hw key o).1
  have ms : ∀ key o, (key, o) ∈ s ↔ ask key = some (.sweep, o) := fun key o => hs.mem_iff.trans (holds_mem hp hw key o).2.1
  have ml : ∀ key o, (key, o) ∈ p.linked ↔ ask key = some (.linked, o) := fun key o => (holds_mem hp hw key o).2.2
  have hbn : (base.map (·.1)).Nodup := by
    rw [conv_keys h1]
    exact hw.1
  have hbw : WF base := (wf_iff_nodup _).2 hbn
  refine ⟨hbw, ?_, ?_, ?_, ?_, ?_, ?_, ?_, ?_⟩
  · intro key k
    rw [← mem_iff_get? hbn, conv_mem h1]
    constructor
    · rintro ⟨a, ha, hb⟩
      have := (mc key a).1 ha
      cases a <;> simp [toNum] at hb
      rw [this, hb]
    · intro h
      exact ⟨.num k, (mc key _).2 h, rfl⟩
  · intro key o h
    obtain ⟨b, hb⟩ := conv_ok h1 ((mc key o).2 h)
    cases o <;> simp [toNum] at hb
    exact ⟨_, rfl⟩
  · rw [conv_keys h2]
    exact ((hs.map (·.1)).nodup_iff).2 hw.2.1
  · intro key vs
    rw [conv_mem h2]
    unfold SweptOver
    constructor
    · rintro ⟨a, ha, hb⟩
      have := (ms key a).1 ha
      cases a <;> simp [toAxis] at hb
      · exact Or.inr ⟨_, this, hb.symm⟩
      · exact Or.inl (hb ▸ this)
    · rintro (h | ⟨k, h, rfl⟩)
      · exact ⟨_, (ms key _).2 h, rfl⟩
      · exact ⟨_, (ms key _).2 h, rfl⟩
  · intro key o h
    have hm := (ms key o).2 h
    obtain ⟨b, hb⟩ := conv_ok h2 hm
    exact ⟨b, (conv_mem h2).2 ⟨o, hm, hb⟩⟩
  · rw [conv_keys h3]
    exact hw.2.2
  · intro key g
    rw [conv_mem h3]
    constructor
    · rintro ⟨a, ha, hb⟩
      have := (ml key a).1 ha
      cases a <;> simp [toFn] at hb
      exact ⟨_, this, hb.symm⟩
    · rintro ⟨f, h, rfl⟩
      exact ⟨_, (ml key _).2 h, rfl⟩
  · intro key o h
    obtain ⟨b, hb⟩ := conv_ok h3 ((ml key o).2 h)
    cases o <;> simp [toFn] at hb
    exact ⟨_, rfl⟩

variable {ask : Key S → Option (Class × Out K F)} {interp : F → Sweep.Fn (Key S) K} {base : PyDict (Key S) K} {sweep : List (Key S × List K)}
  {linked : List (Key S × Sweep.Fn (Key S) K)}

theorem Parts.mem_linked (h : Parts ask interp base sweep linked) (key : Key S) : key ∈ linked.map (·.1) ↔ IsLinked ask key := by
  rw [List.mem_map]
  constructor
  · rintro ⟨⟨k, g⟩, hm, rfl⟩
    obtain ⟨f, hf, -⟩ := (h.fn _ _).1 hm
    exact ⟨_, hf⟩
  · rintro ⟨o, ho⟩
    obtain ⟨f, rfl⟩ := h.isfn key o ho
    exact ⟨(key, interp f), (h.fn _ _).2 ⟨f, ho, rfl⟩, rfl⟩

theorem Parts.mem_sweep (h : Parts ask interp base sweep linked) (key : Key S) : key ∈ sweep.map (·.1) ↔ ∃ o, ask key = some (.sweep, o) := by
  rw [List.mem_map]
  constructor
  · rintro ⟨⟨k, g⟩, hm, rfl⟩
    rcases (h.axis _ _).1 hm with hf | ⟨x, hf, -⟩ <;> exact ⟨_, hf⟩
  · rintro ⟨o, ho⟩
    obtain ⟨vs, hv⟩ := h.isaxis key o ho
    exact ⟨_, hv, rfl⟩

theorem Parts.ok (h : Parts ask interp base sweep linked) (hp : Plain ask interp) : Sweep.Ok base sweep linked := by
  refine ⟨h.nodup, h.lnodup, ?_, ?_, ?_⟩
  · intro v h1 h2
    obtain ⟨o, ho⟩ := (h.mem_sweep v).1 h1
    obtain ⟨o', ho'⟩ := (h.mem_linked v).1 h2
    rw [ho] at ho'
    cases ho'
  · intro vf hm c c' hc
    obtain ⟨f, hf, e⟩ := (h.fn vf.1 vf.2).1 hm
    rw [e]
    exact hp.unchained _ f hf c c' (fun u hu => hc u (fun hm => hu ((h.mem_linked u).1 hm)))
  · intro vf hm c hc
    obtain ⟨f, hf, e⟩ := (h.fn vf.1 vf.2).1 hm
    rw [e]
    refine hp.defined _ f hf c (fun u hu hn => hc u ?_)
    cases ha : ask u with
    | none => exact absurd ha hn
    | some co =>
      obtain ⟨cl, o⟩ := co
      cases cl with
      | constant =>
        obtain ⟨k, rfl⟩ := h.isnum u o ha
        exact Or.inl (contains_iff.2 ⟨k, (h.constant u k).2 ha⟩)
      | sweep => exact Or.inr ((h.mem_sweep u).2 ⟨o, ha⟩)
      | linked => exact absurd ⟨o, ha⟩ hu

theorem Parts.meant (h : Parts ask interp base sweep linked) {pt : List (Key S × K)} (hpt : pt ∈ Sweep.combos sweep) {c : PyDict (Key S) K}
    (hr : Sweep.Right base linked pt c) : Meant ask interp pt c := by
  have hk := Sweep.combo_vars sweep pt hpt
  refine ⟨hr.swept, ?_, ?_, ?_⟩
  · intro key k hc
    rw [hr.other key, (h.constant key k).2 hc]
    · rw [hk, h.mem_sweep]
      rintro ⟨o, ho⟩
      rw [ho] at hc
      cases hc
    · rw [h.mem_linked]
      rintro ⟨o, ho⟩
      rw [ho] at hc
      cases hc
  · intro key f hf
    exact hr.fns (key, interp f) ((h.fn _ _).2 ⟨f, hf, rfl⟩)
  · intro key hn
    rw [hr.other key]
    · cases hg : base.get? key with
      | none => rfl
      | some k =>
        have := (h.constant key k).1 hg
        rw [hn] at this
        cases this
    · rw [hk, h.mem_sweep]
      rintro ⟨o, ho⟩
      rw [ho] at hn
      cases hn
    · rw [h.mem_linked]
      rintro ⟨o, ho⟩
      rw [ho] at hn
      cases hn

/-! ### Constants have each key once -/

theorem point_wf (vs : List (Key S × List K)) (i : Nat) : ∀ {c : PyDict (Key S) K}, WF c → WF (Sweep.point vs i c) := by
  unfold Sweep.point
  induction vs with
  | nil => exact fun h => h
  | cons v vs ih =>
    intro c h
    rw [List.foldl_cons]
    apply ih
    split
    · exact wf_set h _ _
    · exact h

theorem linkLoop_wf (kdc : PyDict (Key S) K) : ∀ (fs : List (Key S × Sweep.Fn (Key S) K)) (plain : Option (PyDict (Key S) K)) (c c' : PyDict (Key S) K),
    WF c → Sweep.linkLoop kdc plain fs c = .ok c' → WF c' := by
  intro fs
  induction fs with
  | nil =>
    intro plain c c' h e
    cases e
    exact h
  | cons vf fs ih =>
    intro plain c c' h e
    obtain ⟨v, f⟩ := vf
    rw [Sweep.linkLoop] at e
    split at e
    · exact ih _ _ _ (wf_set h _ _) e
    · split at e
      · exact ih _ _ _ (wf_set h _ _) e
      · cases e

theorem pass_wf (solve : PyDict (Key S) K → Except Err R) (skip : Bool) (linked : List (Key S × Sweep.Fn (Key S) K)) (vs : List (Key S × List K))
    (s : Sweep.St (Key S) K R) (i : Nat) (h : WF s.constants ∧ ∀ c ∈ s.built, WF c) :
    WF (Sweep.pass solve skip linked vs s i).1.constants ∧ ∀ c ∈ (Sweep.pass solve skip linked vs s i).1.built, WF c := by
  have hpw := point_wf vs i h.1
  have hlw : ∀ c', (if linked.isEmpty then .ok (Sweep.point vs i s.constants) else Sweep.evalLinked linked (Sweep.point vs i s.constants)) =
      (.ok c' : Except Err (PyDict (Key S) K)) → WF c' := by
    intro c' e
    split at e
    · cases e
      exact hpw
    · exact linkLoop_wf _ _ _ _ _ hpw e
  unfold Sweep.pass
  simp only
  split
  · exact ⟨hpw, h.2⟩
  · rename_i c' hc'
    have hc := hlw c' hc'
    have hb : ∀ c ∈ s.built ++ [c'], WF c := by
      intro c hm
      rcases List.mem_append.1 hm with hm | hm
      · exact h.2 c hm
      · rw [List.mem_singleton.1 hm]
        exact hc
    split <;> exact ⟨hc, hb⟩

theorem passes_wf (solve : PyDict (Key S) K → Except Err R) (skip : Bool) (linked : List (Key S × Sweep.Fn (Key S) K)) (vs : List (Key S × List K)) :
    ∀ (is : List Nat) (s : Sweep.St (Key S) K R), (WF s.constants ∧ ∀ c ∈ s.built, WF c) →
    ∀ c ∈ (Sweep.passes solve skip linked vs is s).1.built, WF c := by
  intro is
  induction is with
  | nil => exact fun s h => h.2
  | cons i is ih =>
    intro s h
    have hp := pass_wf solve skip linked vs s i h
    rw [Sweep.passes]
    split
    · rename_i s' he
      rw [he] at hp
      exact ih s' hp
    · rename_i s' e he
      rw [he] at hp
      exact hp.2

theorem runSweep_wf (solve : PyDict (Key S) K → Except Err R) (skip : Bool) (hb : WF base) :
    ∀ c ∈ (Sweep.runSweep solve skip base sweep linked).1.built, WF c := by
  have := passes_wf solve skip linked (Sweep.vects sweep) (List.range (Sweep.size (sweep.map (·.2)))) ⟨base, [], []⟩ ⟨hb, by simp⟩
  unfold Sweep.runSweep
  simp only
  split
  · rename_i s he
    rw [he] at this
    exact this
  · rename_i s e he
    rw [he] at this
    exact this

/-- Without sweeps there is one pass. -/
theorem single (solve : PyDict (Key S) K → Except Err R) {rs : List R}
    (h : (do
      let constants ← withLinked linked base
      let result ← solve constants
      pure [result]) = (.ok rs : Except Err (List R))) :
    (Sweep.runSweep solve false base [] linked).1.results = rs ∧ (Sweep.runSweep solve false base [] linked).2 = .ok () := by
  obtain ⟨c, hc, h⟩ := except_bind_ok h
  obtain ⟨r, hr, h⟩ := except_bind_ok h
  cases h
  have hc' : (if linked.isEmpty then .ok base else Sweep.evalLinked linked base) = (.ok c : Except Err (PyDict (Key S) K)) := hc
  have h0 : Sweep.pass solve false linked (Sweep.vects []) ⟨base, [], []⟩ 0 = (⟨c, [c], [r]⟩, .ok ()) := by
    unfold Sweep.pass
    have : Sweep.point (Sweep.vects ([] : List (Key S × List K))) 0 base = base := rfl
    simp only [this, hc', hr]
    rfl
  have hr' : List.range (Sweep.size (([] : List (Key S × List K)).map (·.2))) = [0] := rfl
  unfold Sweep.runSweep
  simp only [hr', Sweep.passes, h0]
  exact ⟨trivial, rfl⟩

end Solvify

open PS PyDict Solvify
variable {S K F R : Type} [DecidableEq S]
attribute [-instance] instBEqProd

/-- What a solve without skipped failures did. -/
theorem Solvify.run {le : Key S → Key S → Bool} {interp : F → Sweep.Fn (Key S) K} {solve : PyDict (Key S) K → Except Err R} {skip : Bool}
    {shape : S → Option Nat} {subs : S → Option (Sub K F)} {under : List (S × List (Key S))} (hl : Listed shape subs under)
    (hu : ∀ v sub, subs v = some sub → Unmixed sub) {rs : List R}
    (h : solvefn le interp solve skip shape subs under = .ok rs) :
    ∃ base sweep linked, Parts (asked shape subs under) interp base sweep linked ∧
      ∃ skip', (skip' = true → skip = true) ∧ (Sweep.runSweep solve skip' base sweep linked).1.results = rs ∧
        (Sweep.runSweep solve skip' base sweep linked).2 = .ok () := by
  unfold solvefn at h
  obtain ⟨p, hp, h⟩ := except_bind_ok h
  obtain ⟨base, hb, h⟩ := except_bind_ok h
  obtain ⟨linked, hk, h⟩ := except_bind_ok h
  have hh := parsed_asked hl hu hp
  have hw := parse_wf shape subs under hp
  split at h
  · rename_i he
    have he' : p.sweep = [] := by simpa using he
    have hP : Parts (asked shape subs under) interp base [] linked := parts hh hw (s := p.sweep) (List.Perm.refl _) hb (by rw [he']; rfl) hk
    exact ⟨base, [], linked, hP, false, by simp, single solve h⟩
  · obtain ⟨sweep, hs, h⟩ := except_bind_ok h
    have hP : Parts (asked shape subs under) interp base sweep linked := parts hh hw (List.mergeSort_perm _ _) hb hs hk
    refine ⟨base, sweep, linked, hP, skip, id, ?_⟩
    split at h
    · rename_i s he
      cases h
      rw [he]
      exact ⟨rfl, rfl⟩
    · cases h

/-- C67: a solve has one result for each combination of swept values, from constants that are those the substitutions ask for at this combination: nothing
else is fixed. Partial: no array mixes swept elements with others (see `C26_leak_fails`), and no function looks at the value of a function (see
`C27_linked_fails`). -/
theorem C67_points_partial {le : Key S → Key S → Bool} {interp : F → Sweep.Fn (Key S) K} {solve : PyDict (Key S) K → Except Err R}
    {shape : S → Option Nat} {subs : S → Option (Sub K F)} {under : List (S × List (Key S))} (hl : Listed shape subs under)
    (hu : ∀ v sub, subs v = some sub → Unmixed sub) (hp : Plain (asked shape subs under) interp)
    (hne : ∀ key, asked shape subs under key ≠ some (.sweep, .list [])) {rs : List R}
    (h : solvefn le interp solve false shape subs under = .ok rs) :
    ∃ sweep pts cs, (sweep.map (·.1)).Nodup ∧ (∀ key vs, (key, vs) ∈ sweep ↔ SweptOver (asked shape subs under) key vs) ∧
      List.Perm pts (Sweep.combos sweep) ∧ List.Forall₂ (Meant (asked shape subs under) interp) pts cs ∧
      List.Forall₂ (fun c r => WF c ∧ solve c = .ok r) cs rs := by
  obtain ⟨base, sweep, linked, hP, skip', hs, h1, h2⟩ := run hl hu h
  have hs' : skip' = false := by
    cases skip'
    · rfl
    · exact absurd (hs rfl) (by simp)
  subst hs'
  obtain ⟨pts, cs, g1, g2, g3⟩ := C27_halt_partial solve (hP.ok hp) (by
    rintro ⟨key, vs⟩ hm e
    simp only at e
    rcases (hP.axis key vs).1 hm with ha | ⟨k, -, ha⟩
    · rw [e] at ha
      exact hne key ha
    · rw [e] at ha
      cases ha)
  refine ⟨sweep, pts, cs, hP.nodup, hP.axis, g1, ?_, ?_⟩
  · have : ∀ (pts : List (List (Key S × K))) (cs : List (PyDict (Key S) K)), List.Forall₂ (Sweep.Right base linked) pts cs →
        (∀ pt ∈ pts, pt ∈ Sweep.combos sweep) → List.Forall₂ (Meant (asked shape subs under) interp) pts cs := by
      intro pts cs hf
      induction hf with
      | nil => exact fun _ => .nil
      | cons a _ ih => exact fun hm => .cons (hP.meant (hm _ (by simp)) a) (ih (fun pt hp => hm pt (List.mem_cons_of_mem _ hp)))
    exact this pts cs g2 (fun pt hm => g1.mem_iff.1 hm)
  · have hwf := runSweep_wf (sweep := sweep) (linked := linked) solve false hP.wf
    rcases g3 with ⟨rs', k1, k2, k3, k4⟩ | ⟨pre, c, post, rs', e, k1, k2, k3, k4, k5, k6⟩
    · rw [k3] at h1
      subst h1
      rw [k2] at hwf
      have : ∀ (cs : List (PyDict (Key S) K)) (rs : List R), List.Forall₂ (fun c r => solve c = .ok r) cs rs → (∀ c ∈ cs, WF c) →
          List.Forall₂ (fun c r => WF c ∧ solve c = .ok r) cs rs := by
        intro cs rs hf
        induction hf with
        | nil => exact fun _ => .nil
        | cons a _ ih => exact fun hm => .cons ⟨hm _ (by simp), a⟩ (ih (fun c hc => hm c (List.mem_cons_of_mem _ hc)))
      exact this cs _ k1 hwf
    · rw [k6] at h2
      cases h2

/-- C67 (`skipsweepfailures`): the same if infeasible combinations are skipped: the results are those of the feasible ones, in order. Partial: as in
`C67_points_partial`, and a solve ends in a result or in `Infeasible`. -/
theorem C67_skip_partial {le : Key S → Key S → Bool} {interp : F → Sweep.Fn (Key S) K} {solve : PyDict (Key S) K → Except Err R}
    {shape : S → Option Nat} {subs : S → Option (Sub K F)} {under : List (S × List (Key S))} (hl : Listed shape subs under)
    (hu : ∀ v sub, subs v = some sub → Unmixed sub) (hp : Plain (asked shape subs under) interp)
    (hne : ∀ key, asked shape subs under key ≠ some (.sweep, .list []))
    (hs : ∀ c, (∃ r, solve c = .ok r) ∨ solve c = .error .primalInfeasible) {rs : List R}
    (h : solvefn le interp solve true shape subs under = .ok rs) :
    ∃ sweep pts cs, (sweep.map (·.1)).Nodup ∧ (∀ key vs, (key, vs) ∈ sweep ↔ SweptOver (asked shape subs under) key vs) ∧
      List.Perm pts (Sweep.combos sweep) ∧ List.Forall₂ (Meant (asked shape subs under) interp) pts cs ∧
      rs = cs.filterMap (fun c => (solve c).toOption) := by
  obtain ⟨base, sweep, linked, hP, skip', -, h1, h2⟩ := run hl hu h
  have hM : ∀ (pts : List (List (Key S × K))) (cs : List (PyDict (Key S) K)), List.Forall₂ (Sweep.Right base linked) pts cs →
      (∀ pt ∈ pts, pt ∈ Sweep.combos sweep) → List.Forall₂ (Meant (asked shape subs under) interp) pts cs := by
    intro pts cs hf
    induction hf with
    | nil => exact fun _ => .nil
    | cons a _ ih => exact fun hm => .cons (hP.meant (hm _ (by simp)) a) (ih (fun pt hp => hm pt (List.mem_cons_of_mem _ hp)))
  cases skip' with
  | true =>
    obtain ⟨pts, cs, g1, g2, -, g4, -⟩ := C27_skip_partial solve (hP.ok hp) hs
    exact ⟨sweep, pts, cs, hP.nodup, hP.axis, g1, hM pts cs g2 (fun pt hm => g1.mem_iff.1 hm), by rw [← h1, g4]⟩
  | false =>
    obtain ⟨pts, cs, g1, g2, g3⟩ := C27_halt_partial solve (hP.ok hp) (by
      rintro ⟨key, vs⟩ hm e
      simp only at e
      rcases (hP.axis key vs).1 hm with ha | ⟨k, -, ha⟩
      · rw [e] at ha
        exact hne key ha
      · rw [e] at ha
        cases ha)
    refine ⟨sweep, pts, cs, hP.nodup, hP.axis, g1, hM pts cs g2 (fun pt hm => g1.mem_iff.1 hm), ?_⟩
    rcases g3 with ⟨rs', k1, k2, k3, k4⟩ | ⟨pre, c, post, rs', e, k1, k2, k3, k4, k5, k6⟩
    · rw [k3] at h1
      subst h1
      clear k2 k3 k4 g1 g2 h
      induction k1 with
      | nil => rfl
      | cons a _ ih =>
        rw [List.filterMap_cons, a, ← ih]
        rfl
    · rw [k6] at h2
      cases h2

/-- Values asked for are positive. -/
structure Solvify.Positive (ask : Key S → Option (Class × Out ℝ F)) (interp : F → Sweep.Fn (Key S) ℝ) : Prop where
  constant : ∀ key o, ask key = some (.constant, o) → ∃ k, o = .num k ∧ 0 < k
  swept : ∀ key o, ask key = some (.sweep, o) → ∃ vs, SweptOver ask key vs ∧ ∀ k ∈ vs, 0 < k
  linked : ∀ key o, ask key = some (.linked, o) → ∃ f, o = .fn f ∧ ∀ c : PyDict (Key S) ℝ,
    (∀ u x, ¬ IsLinked ask u → c.get? u = some x → 0 < x) → ∀ k, interp f c = .ok k → 0 < k

theorem Solvify.combo_mem {sweep : List (Key S × List K)} : ∀ {pt : List (Key S × K)}, pt ∈ Sweep.combos sweep → ∀ key vs, (key, vs) ∈ sweep →
    ∃ k ∈ vs, (key, k) ∈ pt := by
  unfold Sweep.combos
  induction sweep with
  | nil => intro pt _ key vs h; cases h
  | cons a sweep ih =>
    intro pt hpt key vs h
    rw [List.map_cons, Sweep.product] at hpt
    obtain ⟨x, hx, hpt⟩ := List.mem_flatMap.1 hpt
    obtain ⟨q, hq, rfl⟩ := List.mem_map.1 hpt
    obtain ⟨k, hk, rfl⟩ := List.mem_map.1 hx
    rcases List.mem_cons.1 h with rfl | h
    · exact ⟨k, hk, by simp⟩
    · obtain ⟨k', h1, h2⟩ := ih hq key vs h
      exact ⟨k', h1, List.mem_cons_of_mem _ h2⟩

theorem Solvify.Meant.pos {ask : Key S → Option (Class × Out ℝ F)} {interp : F → Sweep.Fn (Key S) ℝ} (hpos : Solvify.Positive ask interp)
    {sweep : List (Key S × List ℝ)} (hs : ∀ key vs, (key, vs) ∈ sweep ↔ SweptOver ask key vs)
    {pt : List (Key S × ℝ)} (hpt : pt ∈ Sweep.combos sweep) {c : PyDict (Key S) ℝ} (hm : Meant ask interp pt c) (v : Key S) (x : ℝ)
    (h : c.get? v = some x) : 0 < x := by
  have main : ∀ v x, ¬ IsLinked ask v → c.get? v = some x → 0 < x := by
    intro v x hv h
    cases ha : ask v with
    | none =>
      rw [hm.free v ha] at h
      cases h
    | some co =>
      obtain ⟨cl, o⟩ := co
      cases cl with
      | constant =>
        obtain ⟨k, rfl, hk⟩ := hpos.constant v o ha
        rw [hm.constant v k ha] at h
        cases h
        exact hk
      | sweep =>
        obtain ⟨vs, hv1, hv2⟩ := hpos.swept v o ha
        obtain ⟨k, hk, hkp⟩ := combo_mem hpt v vs ((hs v vs).2 hv1)
        rw [hm.swept (v, k) hkp] at h
        cases h
        exact hv2 _ hk
      | linked => exact absurd ⟨o, ha⟩ hv
  by_cases hv : IsLinked ask v
  · obtain ⟨o, ho⟩ := hv
    obtain ⟨f, rfl, hf⟩ := hpos.linked v o ho
    obtain ⟨k, h1, h2⟩ := hm.linked v f ho
    rw [h2] at h
    cases h
    exact hf c main _ h1
  · exact main v x hv h

section
variable {D : Type} [AddCommGroup D] [DecidableEq D]
open Pipeline

/-- C67: if `solve` returns and no check of a solution warned, there is one result for each combination of swept values, in which constants, swept variables
and functions have the values asked for, all values are positive, and every constraint of the model holds as written, up to the tolerances; the reported
cost is that of the model. Partial: as in `C67_points_partial` and `C60_feasible_partial`. -/
theorem C67_feasible_partial {feastol tol abstol : ℝ} (hf : 0 ≤ feastol) {optimize : GP.Data (Key S) ℝ → Except Err SolverOut} {cost : NMap (Key S) ℝ D}
    (hcc : TermsCanonical cost.terms) (hcne : cost.terms ≠ []) {cons : List (Con (Key S) D)} (hcons : ∀ c ∈ cons, ConOK c)
    {ord : Orders (Key S) ℝ} (hord : ord.Valid) {le : Key S → Key S → Bool} {interp : F → Sweep.Fn (Key S) ℝ} {shape : S → Option Nat}
    {subs : S → Option (Sub ℝ F)} {under : List (S × List (Key S))} (hl : Listed shape subs under) (hu : ∀ v sub, subs v = some sub → Unmixed sub)
    (hp : Plain (asked shape subs under) interp) (hpos : Solvify.Positive (asked shape subs under) interp)
    (hne : ∀ key, asked shape subs under key ≠ some (.sweep, .list [])) {rs : List (Result (Key S) × Bool)}
    (h : solvefn le interp (fun c => solve feastol tol abstol optimize cost cons c ord) false shape subs under = .ok rs) (hchk : ∀ r ∈ rs, r.2 = true) :
    ∃ sweep pts, (sweep.map (·.1)).Nodup ∧ (∀ key vs, (key, vs) ∈ sweep ↔ SweptOver (asked shape subs under) key vs) ∧
      List.Perm pts (Sweep.combos sweep) ∧ List.Forall₂ (fun pt r => ∃ c, Meant (asked shape subs under) interp pt c ∧
        (∀ v x, c.get? v = some x → r.1.vars.get? v = some x) ∧ (∀ v x, r.1.vars.get? v = some x → 0 < x) ∧
        ∀ q : Key S → ℝ, (∀ v, 0 < q v) → Agrees q r.1.vars →
          (∀ c ∈ cons, c.Holds (1 + max feastol tol) q) ∧ Close tol abstol (termsVal q cost.terms) r.1.cost) pts rs := by
  obtain ⟨sweep, pts, cs, h1, h2, h3, h4, h5⟩ := C67_points_partial hl hu hp hne h
  refine ⟨sweep, pts, h1, h2, h3, ?_⟩
  have hall : ∀ pt ∈ pts, pt ∈ Sweep.combos sweep := fun pt hm => h3.mem_iff.1 hm
  clear h3 h
  induction h4 generalizing rs with
  | nil =>
    cases h5
    exact .nil
  | @cons pt c pts cs hm _ ih =>
    cases h5 with
    | cons hs hrest =>
      rename_i r rs
      refine .cons ⟨c, hm, ?_⟩ (ih (fun r' hr => hchk r' (List.mem_cons_of_mem _ hr)) hrest (fun pt' hpt' => hall pt' (List.mem_cons_of_mem _ hpt')))
      obtain ⟨hwf, hs⟩ := hs
      have hr2 := hchk r (by simp)
      obtain ⟨r1, r2⟩ := r
      cases hr2
      exact feasible_of_pos hf hcc hcne hcons hwf (hm.pos hpos h2 (hall pt (by simp))) hord hs

/-- C67: with exact checks, no point that has the values asked for at a combination and satisfies the constraints of the model costs less than the result
for that combination. Partial: as in `C67_points_partial` and `C60_optimal_partial`. -/
theorem C67_optimal_partial {feastol : ℝ} (hf : 0 ≤ feastol) {optimize : GP.Data (Key S) ℝ → Except Err SolverOut} {cost : NMap (Key S) ℝ D}
    (hcc : TermsCanonical cost.terms) (hcne : cost.terms ≠ []) {cons : List (Con (Key S) D)} (hcons : ∀ c ∈ cons, ConOK c)
    {ord : Orders (Key S) ℝ} (hord : ord.Valid)
    (hopt : ∀ d out l, optimize d = .ok out → out.dual = .la l → l.length = d.mIdxs.length ∨ l.length + 1 = d.mIdxs.length)
    {le : Key S → Key S → Bool} {interp : F → Sweep.Fn (Key S) ℝ} {shape : S → Option Nat}
    {subs : S → Option (Sub ℝ F)} {under : List (S × List (Key S))} (hl : Listed shape subs under) (hu : ∀ v sub, subs v = some sub → Unmixed sub)
    (hp : Plain (asked shape subs under) interp) (hpos : Solvify.Positive (asked shape subs under) interp)
    (hne : ∀ key, asked shape subs under key ≠ some (.sweep, .list [])) {rs : List (Result (Key S) × Bool)}
    (h : solvefn le interp (fun c => solve feastol 0 0 optimize cost cons c ord) false shape subs under = .ok rs) (hchk : ∀ r ∈ rs, r.2 = true) :
    ∃ sweep pts, (sweep.map (·.1)).Nodup ∧ (∀ key vs, (key, vs) ∈ sweep ↔ SweptOver (asked shape subs under) key vs) ∧
      List.Perm pts (Sweep.combos sweep) ∧ List.Forall₂ (fun pt r => ∃ c, Meant (asked shape subs under) interp pt c ∧
        ∀ q : Key S → ℝ, (∀ v, 0 < q v) → Agrees q c → (∀ c ∈ cons, c.Holds 1 q) → r.1.cost ≤ termsVal q cost.terms) pts rs := by
  obtain ⟨sweep, pts, cs, h1, h2, h3, h4, h5⟩ := C67_points_partial hl hu hp hne h
  refine ⟨sweep, pts, h1, h2, h3, ?_⟩
  have hall : ∀ pt ∈ pts, pt ∈ Sweep.combos sweep := fun pt hm => h3.mem_iff.1 hm
  clear h3 h
  induction h4 generalizing rs with
  | nil =>
    cases h5
    exact .nil
  | @cons pt c pts cs hm _ ih =>
    cases h5 with
    | cons hs hrest =>
      rename_i r rs
      refine .cons ⟨c, hm, ?_⟩ (ih (fun r' hr => hchk r' (List.mem_cons_of_mem _ hr)) hrest (fun pt' hpt' => hall pt' (List.mem_cons_of_mem _ hpt')))
      obtain ⟨hwf, hs⟩ := hs
      have hr2 := hchk r (by simp)
      obtain ⟨r1, r2⟩ := r
      cases hr2
      exact fun q hq hag hh => optimal_of_pos hf hcc hcne hcons (hm.pos hpos h2 (hall pt (by simp))) hord hopt hs q hq hag hh

end

/-- The substitutions `x = 2`, `y` swept over 1 and 3, `z` a function. -/
def Solvify.exSubs : String → Option (Sub ℚ Unit) := fun s =>
  if s = "x" then some (.cell (.num 2)) else if s = "y" then some (.cell (.sweep [1, 3])) else some (.cell (.fn ()))

/-- The function `x + y`. -/
def Solvify.exFn : Unit → Sweep.Fn (Key String) ℚ := fun _ c => match c.get? ("x", none), c.get? ("y", none) with
  | some a, some b => .ok (a + b)
  | _, _ => .error .keyError

/-- The keys. -/
def Solvify.exUnder : List (String × List (Key String)) := [("x", [("x", none)]), ("y", [("y", none)]), ("z", [("z", none)])]

/-- A case of `C67_points_partial`, with a solver that returns its constants: 2 and 1 give 3, 2 and 3 give 5. -/
example : solvefn (fun _ _ => true) exFn (fun c => .ok c) false (fun _ => none) exSubs exUnder =
    .ok [[(("x", none), 2), (("y", none), 1), (("z", none), 3)], [(("x", none), 2), (("y", none), 3), (("z", none), 5)]] ∧
    Listed (fun _ => none) exSubs exUnder ∧ (∀ v sub, exSubs v = some sub → Unmixed sub) ∧ Plain (asked (fun _ => none) exSubs exUnder) exFn := by
  have hask : ∀ key, asked (fun _ => none) exSubs exUnder key = if key = ("x", none) then some (.constant, .num 2)
      else if key = ("y", none) then some (.sweep, .list [1, 3]) else if key = ("z", none) then some (.linked, .fn ()) else none := by
    intro key
    by_cases h1 : key = ("x", none)
    · subst h1; rfl
    by_cases h2 : key = ("y", none)
    · subst h2; rfl
    by_cases h3 : key = ("z", none)
    · subst h3; rfl
    unfold asked
    rw [if_neg h1, if_neg h2, if_neg h3, if_neg]
    simp [exUnder, h1, h2, h3]
  have hx : ¬ IsLinked (asked (fun _ => none) exSubs exUnder) ("x", none) := by
    rintro ⟨o, ho⟩
    rw [hask] at ho
    simp at ho
  have hy : ¬ IsLinked (asked (fun _ => none) exSubs exUnder) ("y", none) := by
    rintro ⟨o, ho⟩
    rw [hask] at ho
    simp at ho
  refine ⟨by decide +kernel, ⟨by decide, by decide, ?_⟩, ?_, ⟨?_, ?_⟩⟩
  · intro vk hvk sub _ key hk
    simp only [exUnder, List.mem_cons, List.not_mem_nil, or_false] at hvk
    rcases hvk with rfl | rfl | rfl <;> (rw [List.mem_singleton] at hk; subst hk; rfl)
  · intro v sub h
    unfold exSubs at h
    split at h
    · cases h; trivial
    · split at h <;> (cases h; trivial)
  · intro key f _ c c' h
    unfold exFn
    rw [h _ hx, h _ hy]
  · intro key f _ c h
    obtain ⟨a, ha⟩ := contains_iff.1 (h _ hx (by rw [hask]; simp))
    obtain ⟨b, hb⟩ := contains_iff.1 (h _ hy (by rw [hask]; simp))
    refine ⟨a + b, ?_⟩
    unfold exFn
    rw [ha, hb]

end Verif
