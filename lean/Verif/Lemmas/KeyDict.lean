import Verif.Lemmas.KeyDictBasic
import Mathlib.Data.List.Nodup
import Mathlib.Data.List.Induction

/-! Lemmas about the model of `KeyDict`. -/

set_option linter.unusedSectionVars false

namespace Verif
open PyDict
namespace KD
variable {S N K F : Type} [DecidableEq S] [DecidableEq N]

/-- The array stored under `q`. -/
def arrOf (s : St S N K F) (q : S) : Option (Arr K F) :=
  match s.dict.store.get? q with
  | some (.arr r) => s.heap[r]?
  | _ => none

/-- The single value stored under `q`. -/
def cellOf (s : St S N K F) (q : S) : Option (Cell K F) :=
  match s.dict.store.get? q with
  | some (.cell c) => some c
  | _ => none

/-- References exist and no two keys share one. -/
structure Wf (s : St S N K F) : Prop where
  valid : ∀ q r, s.dict.store.get? q = some (.arr r) → r < s.heap.length
  inj : ∀ q q' r, s.dict.store.get? q = some (.arr r) → s.dict.store.get? q' = some (.arr r) → q = q'
  uniq : PyDict.WF s.dict.store

theorem wf_empty (h : Heap K F) : Wf (⟨h, empty⟩ : St S N K F) := by
  constructor
  · intro q r hq; simp [empty] at hq
  · intro q q' r hq; simp [empty] at hq
  · exact wf_nil

theorem contains_iff_of {s : St S N K F} (hw : Wf s) (q : S) :
    s.dict.store.contains q = true ↔ (∃ a, arrOf s q = some a) ∨ ∃ c, cellOf s q = some c := by
  unfold arrOf cellOf PyDict.contains
  cases hg : PyDict.get? s.dict.store q with
  | none => simp
  | some v =>
    cases v with
    | cell c => simp
    | arr r =>
      have := hw.valid q r hg
      simp [List.getElem?_eq_getElem this]

/-- One key of the store changes to an array; the index stays. -/
structure ToArr (s s' : St S N K F) (k : S) (a : Arr K F) : Prop where
  wf : Wf s'
  arr : ∀ q, arrOf s' q = if q = k then some a else arrOf s q
  cell : ∀ q, cellOf s' q = if q = k then none else cellOf s q
  keymap : s'.dict.keymap = s.dict.keymap
  unmapped : s'.dict.unmapped = s.dict.unmapped

theorem ToArr.trans {s s' s'' : St S N K F} {k : S} {a b : Arr K F} (h : ToArr s s' k a) (h' : ToArr s' s'' k b) : ToArr s s'' k b := by
  refine ⟨h'.wf, ?_, ?_, h'.keymap.trans h.keymap, h'.unmapped.trans h.unmapped⟩
  · intro q
    rw [h'.arr q]
    by_cases hq : q = k
    · rw [if_pos hq, if_pos hq]
    · rw [if_neg hq, if_neg hq, h.arr q, if_neg hq]
  · intro q
    rw [h'.cell q]
    by_cases hq : q = k
    · rw [if_pos hq, if_pos hq]
    · rw [if_neg hq, if_neg hq, h.cell q, if_neg hq]

theorem cell_none_of_arr {s : St S N K F} {k : S} {a : Arr K F} (h : arrOf s k = some a) : cellOf s k = none := by
  unfold arrOf at h
  unfold cellOf
  split at h
  · next r hr => rw [hr]
  · cases h

theorem ToArr.refl {s : St S N K F} (hw : Wf s) {k : S} {a : Arr K F} (h : arrOf s k = some a) : ToArr s s k a := by
  refine ⟨hw, ?_, ?_, rfl, rfl⟩
  · intro q
    by_cases hq : q = k
    · rw [if_pos hq, hq, h]
    · rw [if_neg hq]
  · intro q
    by_cases hq : q = k
    · rw [if_pos hq, hq, cell_none_of_arr h]
    · rw [if_neg hq]

theorem arrOf_some {s : St S N K F} {k : S} {a : Arr K F} (h : arrOf s k = some a) :
    ∃ r, s.dict.store.get? k = some (.arr r) ∧ s.heap[r]? = some a := by
  unfold arrOf at h
  split at h
  · next r hr => exact ⟨r, hr, h⟩
  · cases h

theorem putNew_spec {s : St S N K F} (hw : Wf s) (k : S) (a : Arr K F) : ToArr s (putNew s k a) k a := by
  have hg : ∀ q, PyDict.get? (putNew s k a).dict.store q = if q = k then some (.arr s.heap.length) else PyDict.get? s.dict.store q :=
    fun q => get?_set' _ _ _ _
  have hh : (putNew s k a).heap = s.heap ++ [a] := rfl
  refine ⟨⟨?_, ?_, wf_set hw.uniq _ _⟩, ?_, ?_, rfl, rfl⟩
  · intro q r hq
    rw [hg q] at hq
    rw [hh, List.length_append, List.length_singleton]
    by_cases h : q = k
    · rw [if_pos h] at hq
      cases hq; omega
    · rw [if_neg h] at hq
      have := hw.valid q r hq
      omega
  · intro q q' r hq hq'
    rw [hg] at hq hq'
    by_cases h : q = k
    · by_cases h' : q' = k
      · rw [h, h']
      · rw [if_pos h] at hq
        rw [if_neg h'] at hq'
        cases hq
        have := hw.valid q' _ hq'
        omega
    · by_cases h' : q' = k
      · rw [if_neg h] at hq
        rw [if_pos h'] at hq'
        cases hq'
        have := hw.valid q _ hq
        omega
      · rw [if_neg h] at hq
        rw [if_neg h'] at hq'
        exact hw.inj q q' r hq hq'
  · intro q
    by_cases h : q = k
    · rw [if_pos h]
      unfold arrOf
      rw [hg q, if_pos h, hh]
      simp
    · rw [if_neg h]
      unfold arrOf
      rw [hg q, if_neg h, hh]
      cases hq : PyDict.get? s.dict.store q with
      | none => rfl
      | some v =>
        cases v with
        | cell c => rfl
        | arr r =>
          have := hw.valid q r hq
          simp [List.getElem?_append_left this]
  · intro q
    unfold cellOf
    rw [hg q]
    by_cases h : q = k
    · rw [if_pos h, if_pos h]
    · rw [if_neg h, if_neg h]

theorem heapSet_spec {s : St S N K F} (hw : Wf s) {k : S} {r : Nat} (hk : s.dict.store.get? k = some (.arr r)) (a : Arr K F) :
    ToArr s { s with heap := s.heap.set r a } k a := by
  have hr := hw.valid k r hk
  refine ⟨⟨?_, hw.inj, hw.uniq⟩, ?_, ?_, rfl, rfl⟩
  · intro q r' hq
    simpa using hw.valid q r' hq
  · intro q
    unfold arrOf
    by_cases h : q = k
    · rw [if_pos h, h]
      simp only [hk]
      simp [hr]
    · rw [if_neg h]
      simp only
      cases hq : PyDict.get? s.dict.store q with
      | none => rfl
      | some v =>
        cases v with
        | cell c => rfl
        | arr r' =>
          have hne : r ≠ r' := by
            rintro rfl
            exact h (hw.inj q k r hq hk)
          simp [List.getElem?_set_ne hne]
  · intro q
    by_cases h : q = k
    · rw [if_pos h, h]
      unfold cellOf
      simp only [hk]
    · rw [if_neg h]
      rfl

theorem copyOnWrite_spec {s : St S N K F} (hw : Wf s) {k : S} {a : Arr K F} (hk : arrOf s k = some a) :
    ∃ s', copyOnWrite s k = (s', .ok ()) ∧ ToArr s s' k a := by
  obtain ⟨r, hr, ha⟩ := arrOf_some hk
  unfold copyOnWrite
  by_cases h : k ∈ s.dict.owned
  · rw [if_pos h]
    exact ⟨s, rfl, ToArr.refl hw hk⟩
  · rw [if_neg h, hr]
    dsimp only
    rw [ha]
    exact ⟨_, rfl, putNew_spec hw k a⟩

theorem toObject_spec {s : St S N K F} (hw : Wf s) {k : S} {a : Arr K F} (hk : arrOf s k = some a) :
    ∃ s', toObject s k = (s', .ok ()) ∧ ToArr s s' k { a with dtype := .obj } := by
  obtain ⟨r, hr, ha⟩ := arrOf_some hk
  unfold toObject
  rw [hr]
  dsimp only
  rw [ha]
  exact ⟨_, rfl, putNew_spec hw k _⟩

theorem setCell_spec (E : Env S N K) {s : St S N K F} (hw : Wf s) {k : S} {a : Arr K F} (hk : arrOf s k = some a) {i : Nat}
    (hi : i < a.cells.length) {c : Cell K F} (hc : cast E a.dtype c = .ok c) :
    ∃ s', setCell E s k i c = (s', .ok ()) ∧ ToArr s s' k { a with cells := a.cells.set i c } := by
  obtain ⟨r, hr, ha⟩ := arrOf_some hk
  unfold setCell
  rw [hr]
  dsimp only
  rw [ha]
  dsimp only
  rw [if_pos hi, hc]
  exact ⟨_, rfl, heapSet_spec hw hr _⟩

/-- Arrays as they are stored by fine writes. -/
structure Typed (r32 : K → K) (n : Nat) (a : Arr K F) : Prop where
  len : a.cells.length = n
  noint : a.dtype ≠ .int
  num : a.dtype ≠ .obj → ∀ c ∈ a.cells, c.Numeric
  single : ∀ c ∈ a.cells, c.Single r32

theorem cast_id (E : Env S N K) {d : DType} {c : Cell K F} (hd : d ≠ .int) (hn : d ≠ .obj → c.Numeric) (hs : c.Single E.r32) :
    cast E d c = .ok c := by
  cases d with
  | int => exact absurd rfl hd
  | obj => cases c <;> rfl
  | f64 =>
    have := hn (by decide)
    cases c with
    | nan => rfl
    | num k => rfl
    | fn f => exact this.elim
    | sweep f => exact this.elim
  | f32 =>
    have := hn (by decide)
    cases c with
    | nan => rfl
    | num k =>
      have : E.r32 k = k := hs
      simp [cast, this]
    | fn f => exact this.elim
    | sweep f => exact this.elim

theorem typed_set {r32 : K → K} {n : Nat} {a : Arr K F} (ht : Typed r32 n a) {i : Nat} {c : Cell K F} (hn : a.dtype ≠ .obj → c.Numeric)
    (hs : c.Single r32) : Typed r32 n { a with cells := a.cells.set i c } := by
  refine ⟨by simpa using ht.len, ht.noint, ?_, ?_⟩
  · intro hd c' hc'
    rcases List.mem_or_eq_of_mem_set hc' with h | rfl
    · exact ht.num hd c' h
    · exact hn hd
  · intro c' hc'
    rcases List.mem_or_eq_of_mem_set hc' with h | rfl
    · exact ht.single c' h
    · exact hs

theorem typed_obj {r32 : K → K} {n : Nat} {a : Arr K F} (ht : Typed r32 n a) : Typed r32 n { a with dtype := .obj } :=
  ⟨ht.len, by simp, fun h => absurd rfl h, ht.single⟩

theorem setElem_spec (E : Env S N K) {s : St S N K F} (hw : Wf s) {k : S} {a : Arr K F} {n : Nat} (ht : Typed E.r32 n a)
    (hk : arrOf s k = some a) {i : Nat} (hi : i < n) {c : Cell K F} (hs : c.Single E.r32) :
    ∃ s' a', setElem E s k i c = (s', .ok ()) ∧ ToArr s s' k a' ∧ Typed E.r32 n a' ∧ a'.cells = a.cells.set i c := by
  have key : ∀ (s : St S N K F) (a : Arr K F), Wf s → Typed E.r32 n a → arrOf s k = some a → (a.dtype ≠ .obj → c.Numeric) →
      ∃ s' a', setCell E s k i c = (s', .ok ()) ∧ ToArr s s' k a' ∧ Typed E.r32 n a' ∧ a'.cells = a.cells.set i c := by
    intro s a hw ht hk hn
    obtain ⟨s', h1, h2⟩ := setCell_spec E hw hk (by rw [ht.len]; exact hi) (cast_id E ht.noint hn hs)
    exact ⟨s', _, h1, h2, typed_set ht hn hs, rfl⟩
  have self : ∀ (s s' : St S N K F) (a : Arr K F), ToArr s s' k a → arrOf s' k = some a := by
    intro s s' a h
    rw [h.arr k, if_pos rfl]
  unfold setElem
  cases c with
  | nan =>
    obtain ⟨s1, h1, t1⟩ := copyOnWrite_spec hw hk
    obtain ⟨s2, a2, h2, t2, t3, t4⟩ := key s1 a t1.wf ht (self _ _ _ t1) (fun _ => trivial)
    exact ⟨s2, a2, by simp only [Res.bind, h1, h2], t1.trans t2, t3, t4⟩
  | num x =>
    obtain ⟨s1, h1, t1⟩ := copyOnWrite_spec hw hk
    obtain ⟨s2, a2, h2, t2, t3, t4⟩ := key s1 a t1.wf ht (self _ _ _ t1) (fun _ => trivial)
    exact ⟨s2, a2, by simp only [Res.bind, h1, h2], t1.trans t2, t3, t4⟩
  | fn f =>
    obtain ⟨s1, h1, t1⟩ := copyOnWrite_spec hw hk
    obtain ⟨s2, h2, t2⟩ := toObject_spec t1.wf (self _ _ _ t1)
    obtain ⟨s3, a3, h3, t3, t4, t5⟩ := key s2 _ t2.wf (typed_obj ht) (self _ _ _ t2) (fun h => absurd rfl h)
    exact ⟨s3, a3, by simp only [Res.bind, h1, h2, h3], (t1.trans t2).trans t3, t4, t5⟩
  | sweep f =>
    obtain ⟨s1, h1, t1⟩ := toObject_spec hw hk
    obtain ⟨s2, h2, t2⟩ := copyOnWrite_spec t1.wf (self _ _ _ t1)
    obtain ⟨s3, a3, h3, t3, t4, t5⟩ := key s2 _ t2.wf (typed_obj ht) (self _ _ _ t2) (fun h => absurd rfl h)
    exact ⟨s3, a3, by simp only [Res.bind, h1, h2, h3], (t1.trans t2).trans t3, t4, t5⟩

theorem castAll_id (E : Env S N K) {d : DType} (hd : d ≠ .int) (cs : List (Cell K F)) (hn : d ≠ .obj → ∀ c ∈ cs, c.Numeric)
    (hs : ∀ c ∈ cs, c.Single E.r32) : castAll E d cs = .ok cs := by
  unfold castAll
  induction cs with
  | nil => rfl
  | cons c cs ih =>
    rw [List.mapM_cons, cast_id E hd (fun h => hn h c (by simp)) (hs c (by simp)),
      ih (fun h c' hc' => hn h c' (by simp [hc'])) (fun c' hc' => hs c' (by simp [hc']))]
    rfl

theorem merge_get (old new : List (Cell K F)) (h : old.length = new.length) (i : Nat) :
    (merge old new).getD i .nan = match new.getD i .nan with | .nan => old.getD i .nan | c => c := by
  unfold merge
  by_cases hi : i < old.length
  · have hi' : i < new.length := h ▸ hi
    simp only [List.getD_eq_getElem?_getD, List.getElem?_zipWith, List.getElem?_eq_getElem hi, List.getElem?_eq_getElem hi', Option.getD_some]
    cases new[i] <;> rfl
  · have hi' : ¬ i < new.length := h ▸ hi
    simp only [List.getD_eq_getElem?_getD, List.getElem?_zipWith, List.getElem?_eq_none (Nat.le_of_not_lt hi),
      List.getElem?_eq_none (Nat.le_of_not_lt hi'), Option.getD_none]

theorem merge_mem {old new : List (Cell K F)} {c : Cell K F} (h : c ∈ merge old new) : c ∈ old ∨ c ∈ new := by
  unfold merge at h
  obtain ⟨i, hi⟩ := List.mem_iff_getElem?.1 h
  rw [List.getElem?_zipWith] at hi
  cases ho : old[i]? with
  | none => rw [ho] at hi; cases hi
  | some o =>
    cases hv : new[i]? with
    | none => rw [ho, hv] at hi; cases hi
    | some v =>
      rw [ho, hv] at hi
      cases v with
      | nan => left; rw [← Option.some.inj hi]; exact List.mem_of_getElem? ho
      | num k => right; rw [← Option.some.inj hi]; exact List.mem_of_getElem? hv
      | fn k => right; rw [← Option.some.inj hi]; exact List.mem_of_getElem? hv
      | sweep k => right; rw [← Option.some.inj hi]; exact List.mem_of_getElem? hv

theorem typed_merge {r32 : K → K} {n : Nat} {a b : Arr K F} (ha : Typed r32 n a) (hb : Typed r32 n b) (hd : a.dtype = b.dtype) :
    Typed r32 n { a with cells := merge a.cells b.cells } := by
  refine ⟨by simp [merge, ha.len, hb.len], ha.noint, ?_, ?_⟩
  · intro h c hc
    rcases merge_mem hc with hc | hc
    · exact ha.num h c hc
    · exact hb.num (hd ▸ h) c hc
  · intro c hc
    rcases merge_mem hc with hc | hc
    · exact ha.single c hc
    · exact hb.single c hc

theorem setOver_spec (E : Env S N K) {s : St S N K F} (hw : Wf s) {k : S} {a b : Arr K F} {n : Nat} (ha : Typed E.r32 n a)
    (hb : Typed E.r32 n b) (hk : arrOf s k = some a) (hn : b.dtype ≠ .obj → ∀ c ∈ a.cells, c.Numeric) :
    ∃ s' a', setOver E s k b = (s', .ok ()) ∧ ToArr s s' k a' ∧ Typed E.r32 n a' ∧ a'.cells = merge a.cells b.cells := by
  obtain ⟨r, hr, hra⟩ := arrOf_some hk
  have key : ∀ s1 : St S N K F, Wf s1 → ∀ a1, arrOf s1 k = some a1 → Typed E.r32 n a1 → a1.dtype = b.dtype → a1.cells = a.cells →
      ∃ s' a', ((copyOnWrite s1 k).bind (fun s _ =>
        match s.dict.store.get? k with
        | some (.arr r) =>
          match s.heap[r]? with
          | some old =>
            if old.cells.length = b.cells.length then
              ({ s with heap := s.heap.set r { old with cells := merge old.cells b.cells } }, .ok ())
            else (s, .error .indexError)
          | none => (s, .error .notModelled)
        | _ => (s, .error .notModelled)) : Res S N K F Unit) = (s', .ok ()) ∧ ToArr s1 s' k a' ∧ Typed E.r32 n a' ∧
          a'.cells = merge a.cells b.cells := by
    intro s1 hw1 a1 hk1 ht1 hd1 hc1
    obtain ⟨s2, h2, t2⟩ := copyOnWrite_spec hw1 hk1
    have hk2 : arrOf s2 k = some a1 := by rw [t2.arr k, if_pos rfl]
    obtain ⟨r2, hr2, ha2⟩ := arrOf_some hk2
    rw [h2]
    simp only [Res.bind, hr2, ha2]
    rw [if_pos (by rw [ht1.len, hb.len])]
    exact ⟨_, _, rfl, t2.trans (heapSet_spec t2.wf hr2 _), typed_merge ht1 hb hd1, by simp only [hc1]⟩
  unfold setOver
  rw [hr]
  dsimp only
  rw [hra]
  dsimp only
  by_cases hd : a.dtype = b.dtype
  · rw [if_pos hd]
    obtain ⟨s', a', h1, h2, h3⟩ := key s hw a hk ha hd rfl
    exact ⟨s', a', h1, h2, h3⟩
  · rw [if_neg hd, castAll_id E hb.noint a.cells hn ha.single]
    dsimp only
    have ht1 : Typed E.r32 n (⟨b.dtype, a.cells⟩ : Arr K F) := ⟨ha.len, hb.noint, hn, ha.single⟩
    have t1 := putNew_spec hw k (⟨b.dtype, a.cells⟩ : Arr K F)
    obtain ⟨s', a', h1, h2, h3⟩ := key _ t1.wf _ (by rw [t1.arr k, if_pos rfl]) ht1 rfl rfl
    exact ⟨s', a', h1, t1.trans h2, h3⟩

/-! ## The index -/

/-- What the index says under a name. -/
def under (km : PyDict (Obj S N) (List (Obj S N))) (n : N) : List (Obj S N) := (km.get? (.str n)).getD []

/-- The index describes the keys `P`. -/
structure Idx (E : Env S N K) (km : PyDict (Obj S N) (List (Obj S N))) (um : List (Obj S N)) (P : S → Prop) : Prop where
  wf : WF km
  var : ∀ s, P s → km.get? (.var s) = some [.var s]
  novar : ∀ s, ¬ P s → km.get? (.var s) = none
  umv : ∀ o ∈ um, ∃ s, o = .var s ∧ P s
  nm : ∀ n s, (Obj.var s ∈ under km n ∨ (Obj.var s ∈ um ∧ n ∈ E.names s)) ↔ P s ∧ n ∈ E.names s
  vr : ∀ n o, o ∈ under km n → ∃ s, o = .var s
  nd : ∀ n, (under km n).Nodup
  ne : ∀ n, km.get? (.str n) ≠ some []

theorem idx_empty (E : Env S N K) : Idx E ([] : PyDict (Obj S N) (List (Obj S N))) [] (fun _ => False) := by
  constructor <;> simp [under]

theorem Idx.congr {E : Env S N K} {km : PyDict (Obj S N) (List (Obj S N))} {um : List (Obj S N)} {P Q : S → Prop} (h : Idx E km um P)
    (hq : ∀ s, P s ↔ Q s) : Idx E km um Q := by
  have : P = Q := funext fun s => propext (hq s)
  exact this ▸ h

theorem nodup_add {α : Type} [DecidableEq α] {l : List α} {a : α} (h : l.Nodup) : (add l a).Nodup := by
  unfold add
  by_cases ha : a ∈ l
  · rwa [if_pos ha]
  · rw [if_neg ha]
    exact List.nodup_append.2 ⟨h, by simp, by rintro x hx y hy rfl; simp at hy; subst hy; exact ha hx⟩

/-- A key that is new is entered. -/
theorem idx_enter {E : Env S N K} {km : PyDict (Obj S N) (List (Obj S N))} {um : List (Obj S N)} {P : S → Prop} (h : Idx E km um P) (k : S) :
    Idx E (km.set (.var k) [.var k]) (add um (.var k)) (fun s => s = k ∨ P s) := by
  have hu : ∀ n, under (PyDict.set km (.var k) [.var k]) n = under km n := by
    intro n
    unfold under
    rw [get?_setO, if_neg (by simp)]
  refine ⟨wf_set h.wf _ _, ?_, ?_, ?_, ?_, ?_, ?_, ?_⟩
  · intro s hs
    rw [get?_setO]
    by_cases he : s = k
    · rw [he, if_pos rfl]
    · rw [if_neg (by simpa using he)]
      exact h.var s (hs.resolve_left he)
  · intro s hs
    rw [get?_setO, if_neg (by simpa using fun he => hs (Or.inl he))]
    exact h.novar s (fun hp => hs (Or.inr hp))
  · intro o ho
    rcases mem_add.1 ho with rfl | ho
    · exact ⟨k, rfl, Or.inl rfl⟩
    · obtain ⟨s, hs, hp⟩ := h.umv o ho
      exact ⟨s, hs, Or.inr hp⟩
  · intro n s
    rw [hu, mem_add]
    have := h.nm n s
    constructor
    · rintro (h1 | ⟨h1, h2⟩)
      · exact ⟨Or.inr (this.1 (Or.inl h1)).1, (this.1 (Or.inl h1)).2⟩
      · rcases h1 with h1 | h1
        · cases h1; exact ⟨Or.inl rfl, h2⟩
        · exact ⟨Or.inr (this.1 (Or.inr ⟨h1, h2⟩)).1, h2⟩
    · rintro ⟨h1 | h1, h2⟩
      · exact Or.inr ⟨Or.inl (by rw [h1]), h2⟩
      · rcases this.2 ⟨h1, h2⟩ with h3 | h3
        · exact Or.inl h3
        · exact Or.inr ⟨Or.inr h3.1, h3.2⟩
  · intro n o ho
    rw [hu] at ho
    exact h.vr n o ho
  · intro n
    rw [hu]
    exact h.nd n
  · intro n
    rw [get?_setO, if_neg (by simp)]
    exact h.ne n

/-- What `mapNames` does to the entry of a name. -/
theorem nameFold_spec (s : S) (ns : List N) : ∀ km : PyDict (Obj S N) (List (Obj S N)), WF km →
    WF (ns.foldl (fun km n => PyDict.set km (.str n) (add ((PyDict.get? km (.str n)).getD []) (.var s))) km) ∧
    (∀ q, PyDict.get? (ns.foldl (fun km n => PyDict.set km (.str n) (add ((PyDict.get? km (.str n)).getD []) (.var s))) km) (.var q) =
      PyDict.get? km (.var q)) ∧
    (∀ n o, o ∈ under (ns.foldl (fun km n => PyDict.set km (.str n) (add ((PyDict.get? km (.str n)).getD []) (.var s))) km) n ↔
      o ∈ under km n ∨ (o = .var s ∧ n ∈ ns)) ∧
    ((∀ n, (under km n).Nodup) →
      ∀ n, (under (ns.foldl (fun km n => PyDict.set km (.str n) (add ((PyDict.get? km (.str n)).getD []) (.var s))) km) n).Nodup) ∧
    ((∀ n, PyDict.get? km (.str n) ≠ some []) → ∀ n,
      PyDict.get? (ns.foldl (fun km n => PyDict.set km (.str n) (add ((PyDict.get? km (.str n)).getD []) (.var s))) km) (.str n) ≠ some []) := by
  induction ns with
  | nil => intro km hw; exact ⟨hw, fun _ => rfl, by simp, fun h => h, fun h => h⟩
  | cons m ns ih =>
    intro km hw
    rw [List.foldl_cons]
    have hu : ∀ n, under (PyDict.set km (.str m) (add ((PyDict.get? km (.str m)).getD []) (.var s))) n =
        if n = m then add (under km m) (.var s) else under km n := by
      intro n
      unfold under
      rw [get?_setO]
      by_cases h : n = m
      · rw [if_pos (by rw [h]), if_pos h]; rfl
      · rw [if_neg (by simpa using h), if_neg h]
    obtain ⟨i1, i2, i3, i4, i5⟩ := ih (PyDict.set km (.str m) (add ((PyDict.get? km (.str m)).getD []) (.var s))) (wf_set hw _ _)
    refine ⟨i1, ?_, ?_, ?_, ?_⟩
    · intro q
      rw [i2, get?_setO, if_neg (by simp)]
    · intro n o
      rw [i3, hu]
      by_cases h : n = m
      · rw [if_pos h, mem_add, h]
        simp only [List.mem_cons, true_or, and_true]
        constructor
        · rintro ((h1 | h1) | ⟨h1, _⟩)
          · exact Or.inr h1
          · exact Or.inl h1
          · exact Or.inr h1
        · rintro (h1 | h1)
          · exact Or.inl (Or.inr h1)
          · exact Or.inl (Or.inl h1)
      · rw [if_neg h]
        simp only [List.mem_cons, h, false_or]
    · intro hn
      apply i4
      intro n
      rw [hu]
      by_cases h : n = m
      · rw [if_pos h]; exact nodup_add (hn m)
      · rw [if_neg h]; exact hn n
    · intro hn
      apply i5
      intro n
      rw [get?_setO]
      by_cases h : n = m
      · rw [if_pos (by rw [h])]
        intro hc
        have : Obj.var s ∈ add ((PyDict.get? km (.str m)).getD []) (Obj.var s) := mem_add.2 (Or.inl rfl)
        rw [Option.some.inj hc] at this
        cases this
      · rw [if_neg (by simpa using h)]
        exact hn n

theorem updateFold_spec (E : Env S N K) : ∀ (um : List (Obj S N)) (km : PyDict (Obj S N) (List (Obj S N))), WF km →
    let km' := um.foldl (fun km o => match o with | .str _ => km | .var v => mapNames E km v) km
    WF km' ∧ (∀ q, PyDict.get? km' (.var q) = PyDict.get? km (.var q)) ∧
    (∀ n o, o ∈ under km' n ↔ o ∈ under km n ∨ ∃ s, o = .var s ∧ Obj.var s ∈ um ∧ n ∈ E.names s) ∧
    ((∀ n, (under km n).Nodup) → ∀ n, (under km' n).Nodup) ∧
    ((∀ n, PyDict.get? km (.str n) ≠ some []) → ∀ n, PyDict.get? km' (.str n) ≠ some []) := by
  intro um
  induction um with
  | nil => intro km hw; exact ⟨hw, fun _ => rfl, by simp, fun h => h, fun h => h⟩
  | cons o um ih =>
    intro km hw
    cases o with
    | str m =>
      obtain ⟨i1, i2, i3, i4, i5⟩ := ih km hw
      refine ⟨i1, i2, ?_, i4, i5⟩
      intro n o
      rw [List.foldl_cons]
      rw [i3]
      simp
    | var v =>
      obtain ⟨j1, j2, j3, j4, j5⟩ := nameFold_spec v (E.names v) km hw
      obtain ⟨i1, i2, i3, i4, i5⟩ := ih (mapNames E km v) j1
      refine ⟨i1, ?_, ?_, fun h => i4 (j4 h), fun h => i5 (j5 h)⟩
      · intro q
        rw [List.foldl_cons]
        rw [i2]
        exact j2 q
      · intro n o
        rw [List.foldl_cons]
        rw [i3]
        unfold mapNames
        rw [j3]
        constructor
        · rintro ((h | ⟨h, h'⟩) | ⟨s, h1, h2, h3⟩)
          · exact Or.inl h
          · exact Or.inr ⟨v, h, by simp, h'⟩
          · exact Or.inr ⟨s, h1, by simp [h2], h3⟩
        · rintro (h | ⟨s, h1, h2, h3⟩)
          · exact Or.inl (Or.inl h)
          · rcases List.mem_cons.1 h2 with h2 | h2
            · cases h2
              exact Or.inl (Or.inr ⟨h1, h3⟩)
            · exact Or.inr ⟨s, h1, h2, h3⟩

/-- `update_keymap` completes the index and changes nothing else. -/
theorem updateKeymap_spec {E : Env S N K} {s : St S N K F} {P : S → Prop} (h : Idx E s.dict.keymap s.dict.unmapped P) :
    ∃ km, updateKeymap E s = (⟨s.heap, ⟨s.dict.store, km, [], s.dict.owned⟩⟩, .ok ()) ∧ Idx E km [] P ∧
      ∀ n o, o ∈ under km n ↔ ∃ q, o = .var q ∧ P q ∧ n ∈ E.names q := by
  have hany : s.dict.unmapped.any (fun o => match o with | .str _ => true | .var _ => false) = false := by
    rw [List.any_eq_false]
    intro o ho
    obtain ⟨q, rfl, _⟩ := h.umv o ho
    simp
  obtain ⟨i1, i2, i3, i4, i5⟩ := updateFold_spec E s.dict.unmapped s.dict.keymap h.wf
  have hu : ∀ n o, o ∈ under (s.dict.unmapped.foldl (fun km o => match o with | .str _ => km | .var v => mapNames E km v) s.dict.keymap) n ↔
      ∃ q, o = .var q ∧ P q ∧ n ∈ E.names q := by
    intro n o
    rw [i3]
    constructor
    · rintro (h1 | ⟨q, rfl, h2, h3⟩)
      · obtain ⟨q, rfl⟩ := h.vr n o h1
        have := (h.nm n q).1 (Or.inl h1)
        exact ⟨q, rfl, this.1, this.2⟩
      · have := (h.nm n q).1 (Or.inr ⟨h2, h3⟩)
        exact ⟨q, rfl, this.1, this.2⟩
    · rintro ⟨q, rfl, hp, hn⟩
      rcases (h.nm n q).2 ⟨hp, hn⟩ with h1 | ⟨h1, h2⟩
      · exact Or.inl h1
      · exact Or.inr ⟨q, rfl, h1, h2⟩
  refine ⟨_, ?_, ⟨i1, ?_, ?_, by simp, ?_, ?_, i4 h.nd, i5 h.ne⟩, hu⟩
  · unfold updateKeymap
    rw [if_neg (by rw [Bool.not_eq_true]; exact hany)]
    rfl
  · intro q hq; rw [i2]; exact h.var q hq
  · intro q hq; rw [i2]; exact h.novar q hq
  · intro n q
    rw [hu]
    simp
  · intro n o ho
    obtain ⟨q, hq, _⟩ := (hu n o).1 ho
    exact ⟨q, hq⟩

/-! ## Histories of writes -/

theorem lastElem_append (ws : List (Write S K F)) (w : Write S K F) (s : S) (i : Nat) :
    lastElem (ws ++ [w]) s i = w.onElem s i (lastElem ws s i) := by
  unfold lastElem; rw [List.foldl_append]; rfl

theorem lastScalar_append (ws : List (Write S K F)) (w : Write S K F) (s : S) :
    lastScalar (ws ++ [w]) s = w.onScalar s (lastScalar ws s) := by
  unfold lastScalar; rw [List.foldl_append]; rfl

theorem touched_append (ws : List (Write S K F)) (w : Write S K F) (s : S) : Touched (ws ++ [w]) s ↔ s = w.target ∨ Touched ws s := by
  unfold Touched
  constructor
  · rintro ⟨v, hv, rfl⟩
    rcases List.mem_append.1 hv with h | h
    · exact Or.inr ⟨v, h, rfl⟩
    · rw [List.mem_singleton.1 h]; exact Or.inl rfl
  · rintro (rfl | ⟨v, hv, h⟩)
    · exact ⟨w, by simp, rfl⟩
    · exact ⟨v, by simp [hv], h⟩

theorem onElem_other {w : Write S K F} {s : S} (h : s ≠ w.target) (i : Nat) (c : Cell K F) : w.onElem s i c = c := by
  cases w with
  | elem s' j c' => exact if_neg (fun hh => h hh.1.symm)
  | fill s' c' => exact if_neg (fun hh => h hh.symm)
  | list s' c' => exact if_neg (fun hh => h hh.symm)
  | arr s' d c' => exact if_neg (fun hh => h hh.symm)
  | scalar s' c' => rfl

theorem onScalar_other {w : Write S K F} {s : S} (h : s ≠ w.target) (c : Option (Cell K F)) : w.onScalar s c = c := by
  cases w with
  | scalar s' c' => exact if_neg (fun hh => h hh.symm)
  | _ => rfl

theorem lastElem_untouched {ws : List (Write S K F)} {s : S} (h : ¬ Touched ws s) (i : Nat) : lastElem ws s i = .nan := by
  induction ws using List.reverseRecOn with
  | nil => rfl
  | append_singleton ws w ih =>
    rw [touched_append, not_or] at h
    rw [lastElem_append, ih h.2, onElem_other h.1]

/-- The state after the writes `ws`. -/
structure Rel (E : Env S N K) (ws : List (Write S K F)) (s : St S N K F) : Prop where
  wf : Wf s
  idx : Idx E s.dict.keymap s.dict.unmapped (Touched ws)
  scal : ∀ q, E.shape q = none → cellOf s q = lastScalar ws q ∧ arrOf s q = none ∧ (lastScalar ws q ≠ none ↔ Touched ws q)
  vec : ∀ q n, E.shape q = some n → cellOf s q = none ∧ (¬ Touched ws q → arrOf s q = none) ∧
    (Touched ws q → ∃ a, arrOf s q = some a ∧ Typed E.r32 n a ∧ ∀ i, i < n → a.cells.getD i .nan = lastElem ws q i)

theorem rel_empty (E : Env S N K) (h : Heap K F) : Rel E [] (⟨h, empty⟩ : St S N K F) := by
  refine ⟨wf_empty h, (idx_empty E).congr (by simp [Touched]), ?_, ?_⟩
  · intro q _
    exact ⟨rfl, rfl, by simp [lastScalar, Touched]⟩
  · intro q n _
    exact ⟨rfl, fun _ => rfl, by simp [Touched]⟩

theorem rel_vec {E : Env S N K} {ws : List (Write S K F)} {s s' : St S N K F} (h : Rel E ws s) {w : Write S K F} {n : Nat}
    (hn : E.shape w.target = some n) {a : Arr K F} (hw : Wf s')
    (hi : Idx E s'.dict.keymap s'.dict.unmapped (fun q => q = w.target ∨ Touched ws q))
    (ha : ∀ q, arrOf s' q = if q = w.target then some a else arrOf s q)
    (hc : ∀ q, cellOf s' q = if q = w.target then none else cellOf s q) (ht : Typed E.r32 n a)
    (hv : ∀ i, i < n → a.cells.getD i .nan = w.onElem w.target i (lastElem ws w.target i)) : Rel E (ws ++ [w]) s' := by
  refine ⟨hw, hi.congr (fun q => (touched_append ws w q).symm), ?_, ?_⟩
  · intro q hq
    have hne : q ≠ w.target := by rintro rfl; rw [hn] at hq; cases hq
    rw [ha q, hc q, if_neg hne, if_neg hne, lastScalar_append, onScalar_other hne, touched_append]
    obtain ⟨h1, h2, h3⟩ := h.scal q hq
    exact ⟨h1, h2, by rw [h3]; simp [hne]⟩
  · intro q m hq
    rw [ha q, hc q]
    by_cases he : q = w.target
    · rw [if_pos he, if_pos he]
      refine ⟨rfl, fun h' => absurd ((touched_append ws w q).2 (Or.inl he)) h', fun _ => ⟨a, rfl, ?_, ?_⟩⟩
      · rw [he, hn] at hq
        cases hq; exact ht
      · rw [he, hn] at hq
        cases hq
        intro i hi
        rw [he, lastElem_append]
        exact hv i hi
    · rw [if_neg he, if_neg he, touched_append]
      obtain ⟨h1, h2, h3⟩ := h.vec q m hq
      refine ⟨h1, fun h' => h2 (fun ht => h' (Or.inr ht)), fun h' => ?_⟩
      obtain ⟨b, hb, hbt, hbv⟩ := h3 (h'.resolve_left he)
      refine ⟨b, hb, hbt, ?_⟩
      intro i hi
      rw [lastElem_append, onElem_other he]
      exact hbv i hi

theorem rel_scal {E : Env S N K} {ws : List (Write S K F)} {s s' : St S N K F} (h : Rel E ws s) {k : S} {c : Cell K F}
    (hn : E.shape k = none) (hw : Wf s') (hi : Idx E s'.dict.keymap s'.dict.unmapped (fun q => q = k ∨ Touched ws q))
    (ha : ∀ q, arrOf s' q = if q = k then none else arrOf s q)
    (hc : ∀ q, cellOf s' q = if q = k then some c else cellOf s q) : Rel E (ws ++ [.scalar k c]) s' := by
  refine ⟨hw, hi.congr (fun q => (touched_append ws (.scalar k c) q).symm), ?_, ?_⟩
  · intro q hq
    rw [ha q, hc q, lastScalar_append, touched_append]
    by_cases he : q = k
    · rw [if_pos he, if_pos he, he]
      refine ⟨by simp [Write.onScalar], rfl, by simp [Write.onScalar, Write.target]⟩
    · rw [if_neg he, if_neg he, onScalar_other (w := .scalar k c) he]
      obtain ⟨h1, h2, h3⟩ := h.scal q hq
      refine ⟨h1, h2, by rw [h3]; simp [Write.target, he]⟩
  · intro q m hq
    have hne : q ≠ k := by rintro rfl; rw [hn] at hq; cases hq
    rw [ha q, hc q, if_neg hne, if_neg hne, touched_append]
    obtain ⟨h1, h2, h3⟩ := h.vec q m hq
    refine ⟨h1, fun h' => h2 (fun ht => h' (Or.inr ht)), fun h' => ?_⟩
    obtain ⟨b, hb, hbt, hbv⟩ := h3 (h'.resolve_left hne)
    refine ⟨b, hb, hbt, ?_⟩
    intro i hi
    rw [lastElem_append, onElem_other (w := .scalar k c) hne]
    exact hbv i hi

/-- Only the index differs. -/
theorem enter_whole {E : Env S N K} {ws : List (Write S K F)} {s : St S N K F} (h : Rel E ws s) (k : S) (v : In K F) :
    (enter s E k false v).heap = s.heap ∧ (enter s E k false v).dict.store = s.dict.store ∧
    Idx E (enter s E k false v).dict.keymap (enter s E k false v).dict.unmapped (fun q => q = k ∨ Touched ws q) := by
  unfold enter
  by_cases ht : Touched ws k
  · rw [if_pos (by rw [contains_iff]; exact ⟨_, h.idx.var k ht⟩)]
    exact ⟨rfl, rfl, h.idx.congr (fun q => ⟨Or.inr, fun hq => hq.elim (fun he => he ▸ ht) id⟩)⟩
  · rw [if_neg (by rw [Bool.not_eq_true, contains_eq_false]; exact h.idx.novar k ht)]
    exact ⟨rfl, rfl, idx_enter h.idx k⟩

theorem arrOf_congr {s s' : St S N K F} (h1 : s'.heap = s.heap) (h2 : s'.dict.store = s.dict.store) : arrOf s' = arrOf s := by
  funext q; unfold arrOf; rw [h1, h2]

theorem cellOf_congr {s s' : St S N K F} (h2 : s'.dict.store = s.dict.store) : cellOf s' = cellOf s := by
  funext q; unfold cellOf; rw [h2]

theorem wf_congr {s s' : St S N K F} (h1 : s'.heap = s.heap) (h2 : s'.dict.store = s.dict.store) (hw : Wf s) : Wf s' := by
  constructor
  · rw [h1, h2]; exact hw.valid
  · rw [h2]; exact hw.inj
  · rw [h2]; exact hw.uniq

theorem enter_elem {E : Env S N K} {ws : List (Write S K F)} {s : St S N K F} (h : Rel E ws s) {k : S} {n : Nat} (hn : E.shape k = some n)
    (v : In K F) :
    ∃ a, Wf (enter s E k true v) ∧ (∀ q, arrOf (enter s E k true v) q = if q = k then some a else arrOf s q) ∧
      (∀ q, cellOf (enter s E k true v) q = if q = k then none else cellOf s q) ∧ Typed E.r32 n a ∧
      (∀ i, i < n → a.cells.getD i .nan = lastElem ws k i) ∧
      Idx E (enter s E k true v).dict.keymap (enter s E k true v).dict.unmapped (fun q => q = k ∨ Touched ws q) := by
  by_cases ht : Touched ws k
  · have : enter s E k true v = s := by
      unfold enter
      rw [if_pos (by rw [contains_iff]; exact ⟨_, h.idx.var k ht⟩)]
    rw [this]
    obtain ⟨_, _, h3⟩ := h.vec k n hn
    obtain ⟨a, ha, hat, hav⟩ := h3 ht
    have t := ToArr.refl h.wf ha
    exact ⟨a, h.wf, t.arr, t.cell, hat, hav, h.idx.congr (fun q => ⟨Or.inr, fun hq => hq.elim (fun he => he ▸ ht) id⟩)⟩
  · have hwf := h.wf
    obtain ⟨d, hd⟩ : ∃ d : DType, d ≠ .int ∧ enter s E k true v = putNew { s with dict := { s.dict with
        keymap := s.dict.keymap.set (.var k) [.var k], unmapped := add s.dict.unmapped (.var k) } } k ⟨d, List.replicate n .nan⟩ := by
      unfold enter
      rw [if_neg (by rw [Bool.not_eq_true, contains_eq_false]; exact h.idx.novar k ht)]
      simp only [hn, Option.getD_some, if_true]
      refine ⟨_, ?_, rfl⟩
      split_ifs <;> decide
    rw [hd.2]
    set s0 : St S N K F := { s with dict := { s.dict with
        keymap := s.dict.keymap.set (.var k) [.var k], unmapped := add s.dict.unmapped (.var k) } } with hs0
    have t := putNew_spec (s := s0) (wf_congr (s := s) rfl rfl hwf) k (⟨d, List.replicate n .nan⟩ : Arr K F)
    refine ⟨_, t.wf, t.arr, t.cell, ⟨by simp, hd.1, ?_, ?_⟩, ?_, ?_⟩
    · intro _ c hc
      rw [List.eq_of_mem_replicate hc]; exact trivial
    · intro c hc
      rw [List.eq_of_mem_replicate hc]; exact trivial
    · intro i hi
      rw [lastElem_untouched ht]
      simp [List.getD_eq_getElem?_getD, hi]
    · rw [t.keymap, t.unmapped]
      exact idx_enter h.idx k

end KD
end Verif
