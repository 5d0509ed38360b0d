import Verif.Lemmas.KeyDictBasic

/-!
# C24: copies of a `KeyDict`

`KeyDict(other)` shares the arrays of `other` and copies an array before it writes to it (gpkit/keydict.py 140-153).
-/

set_option linter.unusedSectionVars false

namespace Verif
open PyDict
namespace KD
variable {S N K F : Type} [DecidableEq S] [DecidableEq N]

/-- Something a user does with a dict. -/
inductive Act (S N K F : Type) where
  /-- writing a value that is not an array -/
  | set (k : Key S N) (c : Cell K F)
  /-- writing a list -/
  | setList (k : Key S N) (cs : List (Cell K F)) (ints : Bool)
  /-- writing a new array -/
  | setArr (k : Key S N) (a : Arr K F)
  /-- reading a vector and writing to an element of the array received -/
  | poke (k : S) (i : Nat) (c : Cell K F)
  /-- reading -/
  | get (k : Key S N)
  /-- asking whether a key is present -/
  | has (k : Key S N)

/-- The state after doing it, whether or not it raised. -/
def act (E : Env S N K) (s : St S N K F) : Act S N K F → St S N K F
  | .set k c => (setItem E s k (.one c)).1
  | .setList k cs ints => (setItem E s k (.list cs ints)).1
  | .setArr k a => (setItem E ⟨s.heap ++ [a], s.dict⟩ k (.arr s.heap.length)).1
  | .poke k i c =>
    match E.shape k, getItem E s (.whole k) with
    | some _, (s, .ok (.one (.arr r))) =>
      match s.heap[r]? with
      | some a => ⟨s.heap.set r { a with cells := a.cells.set i c }, s.dict⟩
      | none => s
    | _, (s, _) => s
  | .get k => (getItem E s k).1
  | .has k => (hasItem E s k).1

/-- In an index of names each variable stands for itself. -/
structure Sound (km : PyDict (Obj S N) (List (Obj S N))) : Prop where
  ix : ∀ k l, km.get? (.var k) = some l → l = [.var k]
  uniq : PyDict.WF km

theorem sound_set {km : PyDict (Obj S N) (List (Obj S N))} (h : Sound km) (o : Obj S N) (l : List (Obj S N))
    (ho : ∀ k, o = .var k → l = [.var k]) : Sound (km.set o l) := by
  refine ⟨?_, wf_set h.uniq _ _⟩
  intro k l' hl
  rw [get?_setO] at hl
  by_cases hk : Obj.var k = o
  · rw [if_pos hk] at hl
    rw [← Option.some.inj hl]
    exact ho k hk.symm
  · rw [if_neg hk] at hl
    exact h.ix k l' hl

theorem sound_del {km : PyDict (Obj S N) (List (Obj S N))} (h : Sound km) (o : Obj S N) : Sound (km.del o) := by
  refine ⟨?_, wf_del h.uniq _⟩
  intro k l' hl
  rw [get?_del h.uniq] at hl
  split_ifs at hl
  exact h.ix k l' hl

theorem sound_mapNames (E : Env S N K) {km : PyDict (Obj S N) (List (Obj S N))} (h : Sound km) (q : S) : Sound (mapNames E km q) := by
  have key : ∀ (ns : List N) (km : PyDict (Obj S N) (List (Obj S N))), Sound km →
      Sound (ns.foldl (fun km n => km.set (.str n) (add ((km.get? (.str n)).getD []) (.var q))) km) := by
    intro ns
    induction ns with
    | nil => intro km h; exact h
    | cons n ns ih => intro km h; exact ih _ (sound_set h _ _ (fun k hk => by cases hk))
  exact key _ _ h

/-- The arrays `h` are as they were, and none of them is owned. -/
structure Keep (h : Heap K F) (s : St S N K F) : Prop where
  pre : h <+: s.heap
  own : ∀ k ∈ s.dict.owned, ∀ r, s.dict.store.get? k = some (.arr r) → h.length ≤ r
  ix : Sound s.dict.keymap

/-- The key is owned, if the statement succeeded. -/
def Owns (k : S) (x : Res S N K F Unit) : Prop := x.2 = .ok () → k ∈ x.1.dict.owned

theorem keep_bind {α β : Type} {h : Heap K F} {x : Res S N K F α} {f : St S N K F → α → Res S N K F β} (hx : Keep h x.1)
    (hf : ∀ a, x.2 = .ok a → Keep h (f x.1 a).1) : Keep h (x.bind f).1 := by
  obtain ⟨s, r⟩ := x
  cases r with
  | error e => exact hx
  | ok a => exact hf a rfl

theorem keep_alloc {h : Heap K F} {s : St S N K F} (hk : Keep h s) (a : Arr K F) : Keep h ⟨s.heap ++ [a], s.dict⟩ :=
  ⟨hk.pre.trans (List.prefix_append _ _), hk.own, hk.ix⟩

theorem keep_put {h : Heap K F} {s : St S N K F} (hk : Keep h s) (k : S) (v : Val K F) (hv : ∀ r, v = .arr r → h.length ≤ r) :
    Keep h (put s k v) := by
  refine ⟨hk.pre, ?_, hk.ix⟩
  intro q hq r hr
  simp only [put, get?_set'] at hr hq
  by_cases he : q = k
  · rw [if_pos he] at hr
    exact hv r (Option.some.inj hr)
  · rw [if_neg he] at hr
    rcases mem_add.1 hq with h1 | h1
    · exact absurd h1 he
    · exact hk.own q h1 r hr

theorem keep_putNew {h : Heap K F} {s : St S N K F} (hk : Keep h s) (k : S) (a : Arr K F) : Keep h (putNew s k a) := by
  have := keep_put (keep_alloc hk a) k (.arr s.heap.length) (by
    intro r hr
    cases hr
    exact hk.pre.length_le)
  exact this

theorem owned_putNew (s : St S N K F) (k : S) (a : Arr K F) : k ∈ (putNew s k a).dict.owned := by
  unfold putNew
  exact mem_add.2 (Or.inl rfl)

theorem keep_copyOnWrite {h : Heap K F} {s : St S N K F} (hk : Keep h s) (k : S) :
    Keep h (copyOnWrite s k).1 ∧ Owns k (copyOnWrite s k) := by
  unfold copyOnWrite Owns
  split_ifs with ho
  · exact ⟨hk, fun _ => ho⟩
  · cases hg : PyDict.get? s.dict.store k with
    | none => exact ⟨hk, fun h' => by cases h'⟩
    | some v =>
      cases v with
      | cell c => exact ⟨hk, fun h' => by cases h'⟩
      | arr r =>
        dsimp only
        cases hr : s.heap[r]? with
        | none => exact ⟨hk, fun h' => by cases h'⟩
        | some a => exact ⟨keep_putNew hk k a, fun _ => owned_putNew s k a⟩

theorem keep_toObject {h : Heap K F} {s : St S N K F} (hk : Keep h s) (k : S) :
    Keep h (toObject s k).1 ∧ Owns k (toObject s k) := by
  unfold toObject Owns
  cases hg : PyDict.get? s.dict.store k with
  | none => exact ⟨hk, fun h' => by cases h'⟩
  | some v =>
    cases v with
    | cell c => exact ⟨hk, fun h' => by cases h'⟩
    | arr r =>
      dsimp only
      cases hr : s.heap[r]? with
      | none => exact ⟨hk, fun h' => by cases h'⟩
      | some a => exact ⟨keep_putNew hk k _, fun _ => owned_putNew s k _⟩

theorem prefix_set {α : Type} {h l : List α} (hp : h <+: l) {r : Nat} (hr : h.length ≤ r) (a : α) : h <+: l.set r a := by
  obtain ⟨t, rfl⟩ := hp
  rw [List.set_append_right _ _ hr]
  exact List.prefix_append _ _

theorem keep_heapSet {h : Heap K F} {s : St S N K F} (hk : Keep h s) {k : S} (ho : k ∈ s.dict.owned) {r : Nat}
    (hr : s.dict.store.get? k = some (.arr r)) (a : Arr K F) : Keep h { s with heap := s.heap.set r a } :=
  ⟨prefix_set hk.pre (hk.own k ho r hr) a, hk.own, hk.ix⟩

theorem keep_setCell (E : Env S N K) {h : Heap K F} {s : St S N K F} (hk : Keep h s) {k : S} (ho : k ∈ s.dict.owned) (i : Nat)
    (c : Cell K F) : Keep h (setCell E s k i c).1 := by
  unfold setCell
  cases hg : PyDict.get? s.dict.store k with
  | none => exact hk
  | some v =>
    cases v with
    | cell c => exact hk
    | arr r =>
      dsimp only
      cases hr : s.heap[r]? with
      | none => exact hk
      | some a =>
        dsimp only
        split_ifs
        · cases cast E a.dtype c with
          | error e => exact hk
          | ok c => exact keep_heapSet hk ho hg _
        · exact hk

theorem owns_bind {α : Type} {h : Heap K F} {k : S} {x : Res S N K F α} {f : St S N K F → α → Res S N K F Unit} (hx : Keep h x.1)
    (hf : ∀ a, x.2 = .ok a → Keep h (f x.1 a).1 ∧ Owns k (f x.1 a)) : Keep h (x.bind f).1 ∧ Owns k (x.bind f) := by
  obtain ⟨s, r⟩ := x
  cases r with
  | error e => exact ⟨hx, fun h' => by cases h'⟩
  | ok a => exact hf a rfl

theorem keep_setElem (E : Env S N K) {h : Heap K F} {s : St S N K F} (hk : Keep h s) (k : S) (i : Nat) (c : Cell K F) :
    Keep h (setElem E s k i c).1 := by
  have h1 : Keep h (match c with | .sweep _ => toObject s k | _ => (s, .ok ()) : Res S N K F Unit).1 := by
    cases c <;> first | exact hk | exact (keep_toObject hk k).1
  have h2 := owns_bind (k := k) h1 (f := fun s _ => copyOnWrite s k) (fun _ _ => keep_copyOnWrite h1 k)
  have h3 := owns_bind (k := k) h2.1 (f := fun s _ => match c with | .fn _ => toObject s k | _ => (s, .ok ())) (by
    intro a ha
    cases c <;> first | exact ⟨h2.1, fun _ => h2.2 ha⟩ | exact keep_toObject h2.1 k)
  unfold setElem
  exact keep_bind h3.1 (fun a ha => keep_setCell E h3.1 (h3.2 ha) i c)

theorem keep_setOver (E : Env S N K) {h : Heap K F} {s : St S N K F} (hk : Keep h s) (k : S) (a : Arr K F) :
    Keep h (setOver E s k a).1 := by
  unfold setOver
  cases hg : PyDict.get? s.dict.store k with
  | none => exact hk
  | some v =>
    cases v with
    | cell c => exact hk
    | arr r =>
      dsimp only
      cases hr : s.heap[r]? with
      | none => exact hk
      | some old =>
        dsimp only
        have h1 : Keep h (if old.dtype = a.dtype then (s, .ok ()) else
            match castAll E a.dtype old.cells with
            | .error e => (s, .error e)
            | .ok cs => (putNew s k ⟨a.dtype, cs⟩, .ok ()) : Res S N K F Unit).1 := by
          split_ifs
          · exact hk
          · cases castAll E a.dtype old.cells with
            | error e => exact hk
            | ok cs => exact keep_putNew hk k _
        have h2 := owns_bind (k := k) h1 (f := fun s _ => copyOnWrite s k) (fun _ _ => keep_copyOnWrite h1 k)
        revert h2
        generalize (Res.bind _ (fun (s : St S N K F) (_ : Unit) => copyOnWrite s k) : Res S N K F Unit) = x
        intro h2
        refine keep_bind h2.1 (fun b hb => ?_)
        have ho := h2.2 hb
        cases hg2 : PyDict.get? x.1.dict.store k with
        | none => exact h2.1
        | some v =>
          cases v with
          | cell c => exact h2.1
          | arr r2 =>
            dsimp only
            cases hr2 : x.1.heap[r2]? with
            | none => exact h2.1
            | some old2 =>
              dsimp only
              split_ifs
              · exact keep_heapSet h2.1 ho hg2 _
              · exact h2.1

theorem keep_setVec (E : Env S N K) {h : Heap K F} {s : St S N K F} (hk : Keep h s) (k : S) (n : Nat) (v : In K F)
    (hv : ∀ r, v = .arr r → h.length ≤ r) : Keep h (setVec E s k n v).1 := by
  unfold setVec
  cases v with
  | arr r =>
    dsimp only
    cases hr : s.heap[r]? with
    | none => exact hk
    | some a =>
      dsimp only
      split_ifs
      · exact keep_setOver E hk k _
      · exact keep_putNew hk k _
      · exact keep_setOver E hk k _
      · exact keep_put hk k _ (fun r' hr' => by cases hr'; exact hv r rfl)
  | one c =>
    cases c with
    | sweep f => exact keep_put hk k _ (fun r' hr' => by cases hr')
    | fn f => exact hk
    | nan => exact keep_putNew hk k _
    | num x => exact keep_putNew hk k _
  | list cs ints => exact keep_putNew hk k _

theorem keep_dict {h : Heap K F} {s s' : St S N K F} (hk : Keep h s) (h1 : s'.heap = s.heap) (h2 : s'.dict.store = s.dict.store)
    (h3 : s'.dict.owned = s.dict.owned) (h4 : Sound s'.dict.keymap) : Keep h s' := by
  refine ⟨?_, ?_, h4⟩
  · rw [h1]; exact hk.pre
  · rw [h2, h3]; exact hk.own

theorem keep_updateKeymap (E : Env S N K) {h : Heap K F} {s : St S N K F} (hk : Keep h s) : Keep h (updateKeymap E s).1 := by
  unfold updateKeymap
  split_ifs
  · exact hk
  · refine keep_dict hk rfl rfl rfl ?_
    have key : ∀ (os : List (Obj S N)) (km : PyDict (Obj S N) (List (Obj S N))), Sound km →
        Sound (os.foldl (fun km o => match o with | .str _ => km | .var v => mapNames E km v) km) := by
      intro os
      induction os with
      | nil => intro km h; exact h
      | cons o os ih =>
        intro km h
        refine ih _ ?_
        cases o with
        | str n => exact h
        | var v => exact sound_mapNames E h v
    exact key _ _ hk.ix

theorem keep_enter (E : Env S N K) {h : Heap K F} {s : St S N K F} (hk : Keep h s) (k : S) (e : Bool) (v : In K F) :
    Keep h (enter s E k e v) := by
  unfold enter
  split_ifs
  · exact hk
  · refine keep_putNew (keep_dict (s := s) hk ?_ ?_ ?_ (sound_set hk.ix (.var k) [.var k] (fun q hq => by cases hq; rfl))) k _ <;> rfl
  · exact keep_dict (s := s) hk rfl rfl rfl (sound_set hk.ix (.var k) [.var k] (fun q hq => by cases hq; rfl))

theorem keep_setItem (E : Env S N K) {h : Heap K F} {s : St S N K F} (hk : Keep h s) (key : Key S N) (v : In K F)
    (hv : ∀ r, v = .arr r → h.length ≤ r) : Keep h (setItem E s key v).1 := by
  unfold setItem
  cases key with
  | str n =>
    refine keep_bind (keep_updateKeymap E hk) (fun _ _ => ?_)
    split_ifs
    · exact keep_updateKeymap E hk
    · exact keep_dict (keep_updateKeymap E hk) rfl rfl rfl (sound_set (keep_updateKeymap E hk).ix _ _ (fun q hq => by cases hq))
  | elem k i =>
    cases v with
    | one c => exact keep_setElem E (keep_enter E hk k true _) k i c
    | arr r => exact keep_enter E hk k true (.arr r)
    | list cs ints => exact keep_enter E hk k true (.list cs ints)
  | whole k =>
    dsimp only
    cases hs : E.shape k with
    | some n => exact keep_setVec E (keep_enter E hk k false _) k n v hv
    | none =>
      cases v with
      | one c => exact keep_put (keep_enter E hk k false _) k _ (fun r' hr' => by cases hr')
      | arr r => exact keep_put (keep_enter E hk k false _) k _ (fun r' hr' => by cases hr'; exact hv r rfl)
      | list cs ints => exact keep_putNew (keep_enter E hk k false _) k _

theorem keep_readKey (E : Env S N K) {h : Heap K F} {s : St S N K F} (hk : Keep h s) (idx : Option Nat) (o : Obj S N) :
    Keep h (readKey E s idx o).1 := by
  unfold readKey
  cases o with
  | str n => exact hk
  | var k =>
    dsimp only
    refine keep_bind ?_ (fun _ _ => ?_)
    · split_ifs
      · exact (keep_copyOnWrite hk k).1
      · exact hk
    · have h1 : Keep h (if idx.isNone ∧ (E.shape k).isSome then copyOnWrite s k else (s, .ok ())).1 := by
        split_ifs
        · exact (keep_copyOnWrite hk k).1
        · exact hk
      revert h1
      generalize (if idx.isNone ∧ (E.shape k).isSome then copyOnWrite s k else (s, .ok ())) = x
      intro h1
      repeat' split
      all_goals exact h1

theorem keep_readKeys (E : Env S N K) {h : Heap K F} (idx : Option Nat) (os : List (Obj S N)) : ∀ {s : St S N K F}, Keep h s →
    Keep h (readKeys E idx s os).1 := by
  induction os with
  | nil => intro s hk; exact hk
  | cons o os ih =>
    intro s hk
    unfold readKeys
    refine keep_bind (keep_readKey E hk idx o) (fun _ _ => ?_)
    exact keep_bind (ih (keep_readKey E hk idx o)) (fun _ _ => ih (keep_readKey E hk idx o))

theorem keep_getParsed (E : Env S N K) {h : Heap K F} {s : St S N K F} (hk : Keep h s) (o : Obj S N) (idx : Option Nat) :
    Keep h (getParsed E s o idx).1 := by
  unfold getParsed
  match (PyDict.get? s.dict.keymap o).getD [] with
  | [] => exact keep_dict hk rfl rfl rfl (sound_del hk.ix o)
  | [k] => exact keep_bind (keep_readKey E hk idx k) (fun _ _ => keep_readKey E hk idx k)
  | k :: k' :: ks => exact keep_bind (keep_readKeys E idx _ hk) (fun _ _ => keep_readKeys E idx _ hk)

theorem keep_poke (E : Env S N K) {h : Heap K F} {s : St S N K F} (hk : Keep h s) (k : S) (i : Nat) (c : Cell K F) :
    Keep h (act E s (.poke k i c)) := by
  have hg := keep_getParsed E hk (.var k) none
  have howner : ∀ n s' r, E.shape k = some n → getItem E s (.whole k) = (s', .ok (.one (.arr r))) →
      k ∈ s'.dict.owned ∧ s'.dict.store.get? k = some (.arr r) := by
    intro n s' r hn hget
    have hc := (keep_copyOnWrite hk k).2
    unfold getItem getParsed at hget
    dsimp only at hget
    cases hl : PyDict.get? s.dict.keymap (.var k) with
    | none => rw [hl] at hget; simp at hget
    | some l =>
      rw [hl, hk.ix.ix k l hl] at hget
      simp only [Option.getD_some, readKey, Option.isNone_none, hn, Option.isSome_some, and_self, if_true] at hget
      cases hx : copyOnWrite s k with
      | mk s1 r1 =>
        rw [hx] at hget hc
        cases r1 with
        | error e => simp [Res.bind] at hget
        | ok u =>
          simp only [Res.bind] at hget
          cases hv : PyDict.get? s1.dict.store k with
          | none => rw [hv] at hget; simp at hget
          | some v =>
            rw [hv] at hget
            simp only [Prod.mk.injEq, Except.ok.injEq, Got.one.injEq] at hget
            obtain ⟨rfl, rfl⟩ := hget
            exact ⟨hc rfl, hv⟩
  unfold act
  dsimp only
  have hg' : Keep h (getItem E s (.whole k)).1 := hg
  revert hg' howner
  generalize getItem E s (.whole k) = x
  intro howner hg'
  obtain ⟨s', r⟩ := x
  cases hn : E.shape k with
  | none => exact hg'
  | some n =>
    cases r with
    | error e => exact hg'
    | ok g =>
      cases g with
      | many l => exact hg'
      | one v =>
        cases v with
        | cell c => exact hg'
        | arr r =>
          dsimp only
          obtain ⟨ho, hr⟩ := howner n s' r hn rfl
          cases hh : s'.heap[r]? with
          | none => exact hg'
          | some a => exact keep_heapSet hg' ho hr _

theorem keep_act (E : Env S N K) {h : Heap K F} {s : St S N K F} (hk : Keep h s) (a : Act S N K F) : Keep h (act E s a) := by
  cases a with
  | set k c => exact keep_setItem E hk k _ (fun r hr => by cases hr)
  | setList k cs ints => exact keep_setItem E hk k _ (fun r hr => by cases hr)
  | setArr k a => exact keep_setItem E (keep_alloc hk a) k _ (fun r hr => by cases hr; exact hk.pre.length_le)
  | poke k i c => exact keep_poke E hk k i c
  | get k =>
    cases k with
    | whole k => exact keep_getParsed E hk _ _
    | elem k i => exact keep_getParsed E hk _ _
    | str n => exact keep_bind (keep_updateKeymap E hk) (fun _ _ => keep_getParsed E (keep_updateKeymap E hk) _ _)
  | has k =>
    cases k with
    | whole k => exact hk
    | elem k i =>
      show Keep h (hasItem E s (.elem k i)).1
      unfold hasItem
      dsimp only
      repeat' split
      all_goals exact hk
    | str n => exact keep_bind (keep_updateKeymap E hk) (fun _ _ => keep_updateKeymap E hk)

/-- All arrays of a dict exist. -/
def Valid (h : Heap K F) (d : Dict S N K F) : Prop := ∀ k r, d.store.get? k = some (.arr r) → r < h.length

theorem readKey_elem_frame (E : Env S N K) {h h' : Heap K F} (hp : h <+: h') {d : Dict S N K F} (hd : Valid h d) (i : Nat) (o : Obj S N) :
    ∃ r, readKey E ⟨h, d⟩ (some i) o = (⟨h, d⟩, r) ∧ readKey E ⟨h', d⟩ (some i) o = (⟨h', d⟩, r) := by
  unfold readKey
  cases o with
  | str n => exact ⟨_, rfl, rfl⟩
  | var k =>
    simp only [Option.isNone_some, Bool.false_eq_true, false_and, if_false, Res.bind]
    cases hg : PyDict.get? d.store k with
    | none => exact ⟨_, rfl, rfl⟩
    | some v =>
      cases v with
      | cell c => exact ⟨_, rfl, rfl⟩
      | arr r =>
        dsimp only
        have : h'[r]? = h[r]? := by
          obtain ⟨t, rfl⟩ := hp
          exact List.getElem?_append_left (hd k r hg)
        rw [this]
        cases h[r]? with
        | none => exact ⟨_, rfl, rfl⟩
        | some a =>
          dsimp only
          cases a.cells[i]? with
          | none => exact ⟨_, rfl, rfl⟩
          | some c => exact ⟨_, rfl, rfl⟩

theorem readKeys_elem_frame (E : Env S N K) {h h' : Heap K F} (hp : h <+: h') {d : Dict S N K F} (hd : Valid h d) (i : Nat)
    (os : List (Obj S N)) :
    ∃ r, readKeys E (some i) ⟨h, d⟩ os = (⟨h, d⟩, r) ∧ readKeys E (some i) ⟨h', d⟩ os = (⟨h', d⟩, r) := by
  induction os with
  | nil => exact ⟨_, rfl, rfl⟩
  | cons o os ih =>
    obtain ⟨r, h1, h2⟩ := readKey_elem_frame E hp hd i o
    obtain ⟨r', h3, h4⟩ := ih
    unfold readKeys
    rw [h1, h2]
    cases r with
    | error e => exact ⟨_, rfl, rfl⟩
    | ok kv =>
      simp only [Res.bind]
      rw [h3, h4]
      cases r' with
      | error e => exact ⟨_, rfl, rfl⟩
      | ok l => exact ⟨_, rfl, rfl⟩

theorem get_elem_frame (E : Env S N K) {h h' : Heap K F} (hp : h <+: h') {d : Dict S N K F} (hd : Valid h d) (k : S) (i : Nat) :
    (getItem E ⟨h', d⟩ (.elem k i)).2 = (getItem E ⟨h, d⟩ (.elem k i)).2 := by
  unfold getItem getParsed
  dsimp only
  match (PyDict.get? d.keymap (.var k)).getD [] with
  | [] => rfl
  | [o] =>
    obtain ⟨r, h1, h2⟩ := readKey_elem_frame E hp hd i o
    dsimp only
    rw [h1, h2]
    cases r <;> rfl
  | o :: o' :: os =>
    obtain ⟨r, h1, h2⟩ := readKeys_elem_frame E hp hd i (o :: o' :: os)
    dsimp only
    rw [h1, h2]
    cases r <;> rfl

theorem has_frame (E : Env S N K) {h h' : Heap K F} (hp : h <+: h') {d : Dict S N K F} (hd : Valid h d) (key : Key S N) :
    (hasItem E ⟨h', d⟩ key).2 = (hasItem E ⟨h, d⟩ key).2 := by
  cases key with
  | whole k => rfl
  | elem k i =>
    unfold hasItem
    dsimp only
    cases hg : PyDict.get? d.store k with
    | none => rfl
    | some v =>
      cases v with
      | cell c => rfl
      | arr r =>
        dsimp only
        have : h'[r]? = h[r]? := by
          obtain ⟨t, rfl⟩ := hp
          exact List.getElem?_append_left (hd k r hg)
        rw [this]
        cases h[r]? with
        | none => rfl
        | some a =>
          dsimp only
          cases a.cells[i]? <;> rfl
  | str n =>
    unfold hasItem updateKeymap
    dsimp only
    split_ifs <;> rfl

end KD

section C24
open KD
variable {S N K F : Type} [DecidableEq S] [DecidableEq N]

/-- C24 for writes and reads of the copy: whatever is written to or read from `KeyDict(src)`, or written into arrays read from it, and
whether or not it raises, every array that existed keeps its contents, so every element of `src` reads as before and the same keys are in it. -/
theorem C24_copy_partial (E : Env S N K) (heap : Heap K F) (src : Dict S N K F) (hv : Valid heap src)
    (hs : Sound src.keymap) (acts : List (Act S N K F)) :
    let s := acts.foldl (act E) ⟨heap, copyOf src⟩
    (∀ (r : Nat) a, heap[r]? = some a → s.heap[r]? = some a) ∧
    (∀ k i, (getItem E ⟨s.heap, src⟩ (.elem k i)).2 = (getItem E ⟨heap, src⟩ (.elem k i)).2) ∧
    ∀ key, (hasItem E ⟨s.heap, src⟩ key).2 = (hasItem E ⟨heap, src⟩ key).2 := by
  have key : ∀ (acts : List (Act S N K F)) (s : St S N K F), Keep heap s → Keep heap (acts.foldl (act E) s) := by
    intro acts
    induction acts with
    | nil => intro s hs; exact hs
    | cons a acts ih => intro s hs; exact ih _ (keep_act E hs a)
  have hk := key acts ⟨heap, copyOf src⟩ ⟨List.prefix_rfl, fun k hk => (List.not_mem_nil hk).elim, hs⟩
  refine ⟨?_, fun k i => get_elem_frame E hk.pre hv k i, fun k => has_frame E hk.pre hv k⟩
  intro r a hr
  obtain ⟨t, ht⟩ := hk.pre
  rw [← ht]
  rw [List.getElem?_append_left (List.getElem?_eq_some_iff.1 hr).1]
  exact hr

/-- A vector `x` with values 1 and 2. -/
abbrev kd1 : St String String ℚ Unit :=
  (setItem kdEnv (setItem kdEnv kd0 (.elem "x" 0) (.one (.num 1))).1 (.elem "x" 1) (.one (.num 2))).1

/-- The hypothesis can be met, and the copy is written to. -/
example : Valid kd1.heap kd1.dict ∧ Sound kd1.dict.keymap ∧
    (getItem kdEnv (act kdEnv ⟨kd1.heap, copyOf kd1.dict⟩ (.set (.elem "x" 0) (.num 5))) (.elem "x" 0)).2 = .ok (.one (.cell (.num 5))) := by
  constructor
  · intro k r hr
    have h : kd1.dict.store = [("x", .arr 0)] := by decide +kernel
    have hl : kd1.heap.length = 1 := by decide +kernel
    rw [h] at hr
    rw [hl]
    simp only [PyDict.get?] at hr
    split at hr
    · cases hr; decide
    · cases hr
  refine ⟨?_, ?_⟩
  · have h : kd1.dict.keymap = [(.var "x", [.var "x"])] := by decide +kernel
    rw [h]
    refine ⟨?_, by simp [PyDict.WF]⟩
    intro k l hl
    simp only [PyDict.get?] at hl
    split at hl
    · rename_i hk
      have : (Obj.var "x" : Obj String String) = Obj.var k := by simpa using hk
      cases this
      cases hl
      rfl
    · cases hl
  · decide +kernel

/-- C24 fails for writes to the original: they are visible in a copy made before. -/
theorem C24_source_fails :
    let c := copyOf kd1.dict
    let s := setItem kdEnv kd1 (.elem "x" 0) (.one (.num 5))
    (getItem kdEnv ⟨kd1.heap, c⟩ (.elem "x" 0)).2 = .ok (.one (.cell (.num 1))) ∧ s.2 = .ok () ∧
    (getItem kdEnv ⟨s.1.heap, c⟩ (.elem "x" 0)).2 = .ok (.one (.cell (.num 5))) := by decide +kernel

/-- C24 fails for deletions from the copy: the element is lost in the original. -/
theorem C24_delete_fails :
    let d := delItem kdEnv ⟨kd1.heap, copyOf kd1.dict⟩ (.elem "x" 0)
    d.2 = .ok () ∧ (hasItem kdEnv kd1 (.elem "x" 0)).2 = .ok true ∧ (hasItem kdEnv ⟨d.1.heap, kd1.dict⟩ (.elem "x" 0)).2 = .ok false := by
  decide +kernel

/-- C24 fails for `update` of a dict that is not empty: it then owns the arrays of the other, so a write to it changes the other. -/
theorem C24_update_fails :
    let b := setItem kdEnv ⟨kd1.heap, empty⟩ (.whole "z") (.one (.num 7))
    let u := updateFrom kdEnv b.1 kd1.dict
    let w := setItem kdEnv u.1 (.elem "x" 0) (.one (.num 5))
    u.2 = .ok () ∧ w.2 = .ok () ∧ (getItem kdEnv kd1 (.elem "x" 0)).2 = .ok (.one (.cell (.num 1))) ∧
    (getItem kdEnv ⟨w.1.heap, kd1.dict⟩ (.elem "x" 0)).2 = .ok (.one (.cell (.num 5))) := by decide +kernel

end C24
end Verif
