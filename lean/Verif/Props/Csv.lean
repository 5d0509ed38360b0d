import Verif.Props.Table

/-! Files with comma separated values: C65. -/

set_option linter.unusedSectionVars false

namespace Verif
open Vectors Tables
variable {Q K A : Type}

namespace Tables

theorem lines_append {s : Str} (hs : '\n' ∉ s) (t : Str) : Str.lines (s ++ '\n' :: t) = s :: Str.lines t := by
  induction s with
  | nil => simp [Str.lines]
  | cons c s ih =>
    simp only [List.mem_cons, not_or] at hs
    rw [List.cons_append, Str.lines, if_neg (Ne.symm hs.1), ih hs.2]

theorem fields_clean {s : Str} (hs : ',' ∉ s) : fields s = [s] := by
  induction s with
  | nil => rfl
  | cons c s ih =>
    simp only [List.mem_cons, not_or] at hs
    rw [fields, if_neg (Ne.symm hs.1), ih hs.2]

theorem fields_append {s : Str} (hs : ',' ∉ s) (t : Str) : fields (s ++ ',' :: t) = s :: fields t := by
  induction s with
  | nil => simp [fields]
  | cons c s ih =>
    simp only [List.mem_cons, not_or] at hs
    rw [List.cons_append, fields, if_neg (Ne.symm hs.1), ih hs.2]

theorem fields_commas (n : Nat) (t : Str) : fields (commas n ++ t) = List.replicate n [] ++ fields t := by
  induction n with
  | zero => rfl
  | succ n ih =>
    have := fields_append (s := []) (by simp) (commas n ++ t)
    rw [List.nil_append, ih] at this
    rw [List.replicate_succ, List.cons_append, ← this]
    rfl

theorem fields_vals {fmt : Option K → Str} (hf : ∀ x, Clean (fmt x)) (vals : List (Option K)) (t : Str) :
    fields (vals.flatMap (fun x => fmt x ++ [',']) ++ t) = vals.map fmt ++ fields t := by
  induction vals with
  | nil => rfl
  | cons x l ih =>
    rw [List.flatMap_cons, List.append_assoc, List.append_assoc, List.singleton_append, fields_append (hf x).1, ih]
    rfl

/-- The fields of a row. -/
theorem fields_row {fmt : Option K → Str} (hf : ∀ x, Clean (fmt x)) {m k u l : Str} (hm : Clean m) (hk : Clean k) (hu : Clean u) (hl : Clean l)
    (vals : List (Option K)) (n : Nat) :
    fields (m ++ ',' :: (k ++ ',' :: (vals.flatMap (fun x => fmt x ++ [',']) ++ (commas (n - vals.length) ++ (u ++ ',' :: l))))) =
      m :: k :: (vals.map fmt ++ (List.replicate (n - vals.length) [] ++ [u, l])) := by
  rw [fields_append hm.1, fields_append hk.1, fields_vals hf, fields_commas, fields_append hu.1, fields_clean hl.1]

theorem row_clean {fmt : Option K → Str} (hf : ∀ x, Clean (fmt x)) {m k u l : Str} (hm : Clean m) (hk : Clean k) (hu : Clean u) (hl : Clean l)
    (vals : List (Option K)) (n : Nat) :
    '\n' ∉ m ++ ',' :: (k ++ ',' :: (vals.flatMap (fun x => fmt x ++ [',']) ++ (commas (n - vals.length) ++ (u ++ ',' :: l)))) := by
  have h1 : ∀ x, '\n' ∉ fmt x := fun x => (hf x).2
  have hc : '\n' ≠ ',' := by decide
  simp only [List.mem_append, List.mem_cons, List.mem_flatMap, commas, List.mem_replicate, not_or, not_exists, not_and]
  refine ⟨hm.2, hc, hk.2, hc, ?_, by simp, hu.2, hc, hl.2⟩
  intro x _
  exact ⟨h1 x, hc, by simp⟩

variable {n : Nat}

/-- What is read of a row. -/
theorem read_row {fmt : Option K → Str} (hf : ∀ x, Clean (fmt x)) (hf0 : ∀ x, fmt x ≠ []) {m k u l : Str} (hm : Clean m) (hk : Clean k) (hu : Clean u)
    (hl : Clean l) {vals : List (Option K)} (hv : vals.length ≤ n) (pm pk : Str) (t : Str) :
    readCsv n pm pk ((Str.lines (m ++ ',' :: (k ++ ',' :: (vals.flatMap (fun x => fmt x ++ [',']) ++ (commas (n - vals.length) ++
      (u ++ ',' :: l)))) ++ '\n' :: t)).map fields) =
    (if m = [] then pm else m, if k = [] then pk else k, vals.map fmt, u, l) ::
      readCsv n (if m = [] then pm else m) (if k = [] then pk else k) ((Str.lines t).map fields) := by
  rw [lines_append (row_clean hf hm hk hu hl vals n), List.map_cons, fields_row hf hm hk hu hl, readCsv]
  have hlen : (m :: k :: (vals.map fmt ++ (List.replicate (n - vals.length) [] ++ [u, l]))).length = n + 4 := by
    simp
    omega
  rw [if_pos hlen]
  have hX : (vals.map fmt ++ List.replicate (n - vals.length) ([] : Str)).length = n := by
    simp
    omega
  have e1 : (((m :: k :: (vals.map fmt ++ (List.replicate (n - vals.length) [] ++ [u, l]))).drop 2).take n).filter (fun f => !f.isEmpty) =
      vals.map fmt := by
    rw [List.drop_succ_cons, List.drop_succ_cons, List.drop_zero, ← List.append_assoc, List.take_append_of_le_length (by rw [hX]),
      List.take_of_length_le (by rw [hX]), List.filter_append]
    have : (List.replicate (n - vals.length) ([] : Str)).filter (fun f => !f.isEmpty) = [] := by
      rw [List.filter_eq_nil_iff]
      intro x hx
      rw [(List.mem_replicate.1 hx).2]
      simp
    rw [this, List.append_nil, List.filter_eq_self]
    intro x hx
    obtain ⟨y, -, rfl⟩ := List.mem_map.1 hx
    simpa using hf0 y
  have e2 : (m :: k :: (vals.map fmt ++ (List.replicate (n - vals.length) [] ++ [u, l]))).getD (n + 2) [] = u := by
    rw [List.getD_cons_succ, List.getD_cons_succ, ← List.append_assoc, List.getD_eq_getElem?_getD, List.getElem?_append_right (by rw [hX])]
    simp [hX]
  have e3 : (m :: k :: (vals.map fmt ++ (List.replicate (n - vals.length) [] ++ [u, l]))).getD (n + 3) [] = l := by
    rw [List.getD_cons_succ, List.getD_cons_succ, ← List.append_assoc, List.getD_eq_getElem?_getD, List.getElem?_append_right (by rw [hX]; omega), hX]
    simp
  simp only [e1, e2, e3, List.getD_cons_zero, List.getD_cons_succ]

/-- Names, units, descriptions and texts of numbers can be fields. -/
structure Tidy (T : Attrs Q) (fmt : Option K → Str) : Prop where
  model : ∀ k, Clean (T.model k)
  text : ∀ k, Clean (T.text k) ∧ T.text k ≠ []
  units : ∀ k, Clean (T.units k)
  label : ∀ k, Clean (T.label k)
  num : ∀ x, Clean (fmt x) ∧ fmt x ≠ []

theorem clean_nil : Clean [] := by simp [Clean]

variable {T : Attrs Q} {fmt : Option K → Str}

theorem read_entry (h : Tidy T fmt) (k : Q) {vals : List (Option K)} (hv : vals.length ≤ n) {m : Str} (hm : Clean m) (pm pk t : Str) :
    readCsv n pm pk ((Str.lines (m ++ (csvItem T fmt n (.entry k vals) ++ t))).map fields) =
    (if m = [] then pm else m, T.text k, vals.map fmt, T.units k, T.label k) ::
      readCsv n (if m = [] then pm else m) (T.text k) ((Str.lines t).map fields) := by
  have := read_row (fun x => (h.num x).1) (fun x => (h.num x).2) hm (h.text k).1 (h.units k) (h.label k) hv pm pk t
  rw [if_neg (h.text k).2] at this
  rw [← this]
  congr 3
  simp [csvItem]

theorem read_more (h : Tidy T fmt) {vals : List (Option K)} (hv : vals.length ≤ n) (pm pk t : Str) :
    readCsv n pm pk ((Str.lines (csvItem T fmt n (.more vals) ++ t)).map fields) =
    (pm, pk, vals.map fmt, [], []) :: readCsv n pm pk ((Str.lines t).map fields) := by
  have := read_row (fun x => (h.num x).1) (fun x => (h.num x).2) clean_nil clean_nil clean_nil clean_nil hv pm pk t
  simp only [if_true] at this
  rw [← this]
  congr 3
  simp [csvItem]

theorem read_mores (h : Tidy T fmt) {ls : List (List (Option K))} (hv : ∀ l ∈ ls, l.length ≤ n) (pm pk t : Str) :
    readCsv n pm pk ((Str.lines ((ls.map Item.more).flatMap (csvItem T fmt n) ++ t)).map fields) =
    ls.map (fun l => (pm, pk, l.map fmt, [], [])) ++ readCsv n pm pk ((Str.lines t).map fields) := by
  induction ls with
  | nil => rfl
  | cons l ls ih =>
    rw [List.map_cons, List.flatMap_cons, List.append_assoc, read_more h (hv l (by simp)), ih (fun l' hl => hv l' (List.mem_cons_of_mem _ hl))]
    rfl

theorem read_spacer (pm pk t : Str) : readCsv n pm pk ((Str.lines ('\n' :: t)).map fields) = readCsv n [] pk ((Str.lines t).map fields) := by
  have : Str.lines ('\n' :: t) = [] :: Str.lines t := lines_append (s := []) (by simp) t
  rw [this, List.map_cons, readCsv]
  simp [fields]

section
variable [Field K] [LinearOrder K]

/-- The lines of a variable, below the name of a model if not empty. -/
theorem read_rowItems (h : Tidy T fmt) {w : Row Q K} {cols : Nat} (hne : w.val.lines cols ≠ []) (hv : ∀ l ∈ w.val.lines cols, l.length ≤ n) {m pm : Str}
    (hm : Clean m) (he : (if m = [] then pm else m) = T.model w.key) (pk t : Str) :
    readCsv n pm pk ((Str.lines (m ++ ((w.items cols).flatMap (csvItem T fmt n) ++ t))).map fields) =
    meantCsv T fmt w.key (w.val.lines cols) ++ readCsv n (T.model w.key) (T.text w.key) ((Str.lines t).map fields) := by
  unfold Row.items
  cases hl : w.val.lines cols with
  | nil => exact absurd hl hne
  | cons l ls =>
    rw [hl] at hv
    simp only
    rw [List.flatMap_cons, List.append_assoc, read_entry h w.key (hv l (by simp)) hm, he, read_mores h (fun l' hl' => hv l' (List.mem_cons_of_mem _ hl'))]
    rfl

/-- Reading the rows of a table. -/
theorem read_layoutCsv (h : Tidy T fmt) {cols : Nat} {ws : List (Row Q K)} (hne : ∀ w ∈ ws, w.val.lines cols ≠ [])
    (hv : ∀ w ∈ ws, ∀ l ∈ w.val.lines cols, l.length ≤ n) (hmod : ∀ w ∈ ws, w.model = T.model w.key) (prev : Option Str) (pk : Str) :
    readCsv n (prev.getD []) pk ((Str.lines ((layout cols prev ws).flatMap (csvItem T fmt n))).map fields) =
      ws.flatMap (fun w => meantCsv T fmt w.key (w.val.lines cols)) := by
  induction ws generalizing prev pk with
  | nil => simp [layout, Str.lines, fields, readCsv]
  | cons w ws ih =>
    have ih' := ih (fun w' h' => hne w' (List.mem_cons_of_mem _ h')) (fun w' h' => hv w' (List.mem_cons_of_mem _ h'))
      (fun w' h' => hmod w' (List.mem_cons_of_mem _ h')) (some w.model) (T.text w.key)
    have hm := hmod w (by simp)
    have hc : Clean w.model := by
      rw [hm]
      exact h.model _
    have step : ∀ (m pm : Str), Clean m → (if m = [] then pm else m) = T.model w.key →
        readCsv n pm pk ((Str.lines (m ++ ((w.items cols).flatMap (csvItem T fmt n) ++ (layout cols (some w.model) ws).flatMap (csvItem T fmt n)))).map
          fields) = (w :: ws).flatMap (fun w => meantCsv T fmt w.key (w.val.lines cols)) := by
      intro m pm hcm he
      rw [read_rowItems h (hne w (by simp)) (hv w (by simp)) hcm he, List.flatMap_cons]
      rw [Option.getD_some, hm] at ih'
      rw [hm, ih']
    rw [layout, List.flatMap_append, List.flatMap_append, List.append_assoc]
    by_cases hp : prev = some w.model
    · rw [if_pos hp, hp]
      exact step [] w.model clean_nil (by simpa using hm)
    · rw [if_neg hp]
      cases prev with
      | none =>
        by_cases h0 : w.model = []
        · simpa [h0] using step [] [] clean_nil (by simpa [h0] using hm)
        · simpa [h0, csvItem] using step w.model [] hc (by simpa [h0] using hm)
      | some p =>
        by_cases h0 : w.model = []
        · have := step [] [] clean_nil (by simpa [h0] using hm)
          rw [← this]
          simp only [Option.isSome_some, if_true, h0, List.append_nil, List.flatMap_cons, List.flatMap_nil, csvItem, List.singleton_append, read_spacer,
            List.nil_append]
        · have := step w.model [] hc (by simpa [h0] using hm)
          rw [← this]
          simp only [Option.isSome_some, if_true, h0, if_false, List.flatMap_cons, List.flatMap_nil, csvItem, List.cons_append,
            List.nil_append, List.append_nil, read_spacer]

end

theorem chunks_le (c : Nat) : ∀ (p : Nat) (l : List A), ∀ x ∈ chunks c p l, x.length ≤ c := by
  intro p
  induction p with
  | zero => intro l x hx; cases hx
  | succ p ih =>
    intro l x hx
    rw [chunks] at hx
    split at hx
    · cases hx
    · rcases List.mem_cons.1 hx with rfl | hx
      · exact List.length_take_le _ _
      · exact ih _ _ hx

theorem arrange_le {cols : Nat} (h : 0 < cols) (a : Arr A) : ∀ l ∈ arrange cols a, l.length ≤ cols := by
  intro l hl
  unfold arrange at hl
  refine (chunks_le _ _ _ l hl).trans ?_
  rcases pick_spec cols a.shape with ⟨-, e⟩ | ⟨i, d, ⟨e, h1, h2, -⟩, h3, -, e'⟩
  · rw [e]
    exact h
  · rw [e']
    rw [h1] at h3
    exact (Option.some.inj h3) ▸ h2

theorem lines_le {cols : Nat} (h : 0 < cols) (v : Cell K) : ∀ l ∈ v.lines cols, l.length ≤ cols := by
  cases v with
  | num x =>
    intro l hl
    rw [Cell.lines, List.mem_singleton] at hl
    rw [hl]
    exact h
  | arr a => exact arrange_le h a

theorem foldl_max_le (l : List Nat) (a : Nat) : a ≤ l.foldl max a := by
  induction l generalizing a with
  | nil => exact le_rfl
  | cons b l ih => exact (le_max_left a b).trans (ih _)

theorem valCols_pos {valcols : Nat} (h : 0 < valcols) (data : List (Q × Cell K)) : 0 < valCols valcols data := by
  unfold valCols
  have h1 : 0 < (data.flatMap (fun kv => sides kv.2)).foldl max 1 := foldl_max_le _ 1
  have key : ∀ v : Nat, 0 < v → 0 < if (data.flatMap (fun kv => sides kv.2)).foldl max 1 < v then (data.flatMap (fun kv => sides kv.2)).foldl max 1 else v := by
    intro v hv
    split
    · exact h1
    · exact hv
  apply key
  split
  · split
    · exact one_pos
    · exact h
  · exact h

end Tables

section
variable [Field K] [LinearOrder K] [IsStrictOrderedRing K]
open Classical in
/-- C65: each variable with a value that is not zero is read back from the file, below its model, with all its lines, units and description. Missing: names,
units and descriptions with commas, see `C65_comma_fails`, and variables whose values are zero, see `C65_zero_fails`. -/
theorem C65_read_partial {T : Attrs Q} {fmt : Option K → Str} (h : Tidy T fmt) (r : K → K) {header tail : Str} (hh : '\n' ∉ header) (ht : '\n' ∉ tail)
    {valcols : Nat} (hc : 0 < valcols) {data : List (Q × Cell K)} (hd : Proper data) :
    ∃ vs : List (Q × Cell K), vs.Perm (data.filter (fun kv => decide (∃ x, some x ∈ kv.2.entries ∧ x ≠ 0))) ∧
      readCsv (valCols valcols data) [] [] ((Str.lines (csv T r fmt header tail valcols data)).tail.map fields) =
        vs.flatMap (fun kv => meantCsv T fmt kv.1 (kv.2.lines (valCols valcols data))) := by
  set n := valCols valcols data with hn
  have hn0 : 0 < n := valCols_pos hc data
  set o : Opts K := { minval := 0, cols := n, msenss := fun _ => 0 } with ho
  obtain ⟨ms, h1, h2⟩ := rows_spec T r o data
  refine ⟨ms.map (·.1), h2.trans (List.Perm.of_eq (List.filter_congr (fun kv _ => ?_))), ?_⟩
  · apply decide_eq_decide.2
    simp [Shown, ho]
  · have hcsv : csv T r fmt header tail valcols data =
        (header ++ commas n ++ tail) ++ '\n' :: (varTable T r o data).flatMap (csvItem T fmt n) := rfl
    have hcl : '\n' ∉ header ++ commas n ++ tail := by
      simp [commas, hh, ht]
    rw [hcsv, lines_append hcl, List.tail_cons, varTable, h1]
    have hsh : ∀ kvi ∈ ms, Shown T o kvi.1 ∧ kvi.1 ∈ data := by
      intro kvi hk
      have := h2.subset (List.mem_map_of_mem hk)
      rw [List.mem_filter, decide_eq_true_eq] at this
      exact ⟨this.2, this.1⟩
    have hid : ∀ v : Cell K, v.hidden o = v := by
      intro v
      cases v <;> simp [Cell.hidden, ho]
    have := read_layoutCsv (n := n) h (cols := o.cols) (ws := ms.map (rowOf T r o)) ?_ ?_ ?_ none []
    · rw [Option.getD_none] at this
      rw [this, List.flatMap_map, List.flatMap_map]
      apply List.flatMap_congr
      intro kvi _
      unfold rowOf
      simp only [hid]
      rfl
    · intro w hw
      obtain ⟨kvi, hk, rfl⟩ := List.mem_map.1 hw
      obtain ⟨hs, hin⟩ := hsh kvi hk
      unfold rowOf
      simp only [hid]
      refine lines_ne (hd _ hin) ?_ o.cols
      obtain ⟨x, hx, -⟩ := hs.1
      intro e'
      rw [e'] at hx
      cases hx
    · intro w _
      exact lines_le hn0 w.val
    · intro w hw
      obtain ⟨kvi, hk, rfl⟩ := List.mem_map.1 hw
      rfl

end

/-- C65: the first line has a column for each field, the names of the last two being those of `tail`. -/
theorem C65_header [Field K] [LinearOrder K] (T : Attrs Q) (r : K → K) (fmt : Option K → Str) {valcols : Nat} (hc : 0 < valcols)
    (data : List (Q × Cell K)) :
    ∃ l, (Str.lines (csv T r fmt "Model Name,Variable Name,Value(s)".toList "Units,Description".toList valcols data)).head? = some l ∧
      fields l = ["Model Name".toList, "Variable Name".toList, "Value(s)".toList] ++ List.replicate (valCols valcols data - 1) [] ++
        ["Units".toList, "Description".toList] ∧ (fields l).length = valCols valcols data + 4 := by
  have hn0 := valCols_pos hc data
  set n := valCols valcols data with hn
  have hcl : '\n' ∉ "Model Name,Variable Name,Value(s)".toList ++ commas n ++ "Units,Description".toList := by
    simp only [List.mem_append, not_or]
    refine ⟨⟨by decide, by simp [commas]⟩, by decide⟩
  have hf : fields ("Model Name,Variable Name,Value(s)".toList ++ commas n ++ "Units,Description".toList) =
      ["Model Name".toList, "Variable Name".toList, "Value(s)".toList] ++ List.replicate (n - 1) [] ++
        ["Units".toList, "Description".toList] := by
    obtain ⟨p, hp⟩ : ∃ p, n = p + 1 := ⟨n - 1, by omega⟩
    have e1 : "Model Name,Variable Name,Value(s)".toList ++ commas n ++ "Units,Description".toList =
        "Model Name".toList ++ ',' :: ("Variable Name".toList ++ ',' :: ("Value(s)".toList ++ ',' :: (commas p ++ "Units,Description".toList))) := by
      rw [hp]
      rfl
    rw [e1, fields_append (by decide), fields_append (by decide), fields_append (by decide), fields_commas, hp, Nat.add_sub_cancel]
    rfl
  refine ⟨_, ?_, hf, ?_⟩
  · have hcsv : csv T r fmt "Model Name,Variable Name,Value(s)".toList "Units,Description".toList valcols data =
        ("Model Name,Variable Name,Value(s)".toList ++ commas n ++ "Units,Description".toList) ++ '\n' ::
          (varTable T r { minval := 0, cols := n, msenss := fun _ => 0 } data).flatMap (csvItem T fmt n) := rfl
    rw [hcsv, lines_append hcl]
    rfl
  · rw [hf]
    simp
    omega

/-- C65 is violated: a variable whose value is zero is not in the file, whatever its name. -/
theorem C65_zero_fails [Field K] [LinearOrder K] (T : Attrs Q) (r : K → K) (fmt : Option K → Str) (header tail : Str) (valcols : Nat) (k : Q) :
    csv T r fmt header tail valcols [(k, Cell.num (some 0))] = csv T r fmt header tail valcols [] := by
  have h1 : valCols (K := K) valcols [(k, Cell.num (some 0))] = valCols (K := K) (Q := Q) valcols [] := rfl
  have h2 : ∀ o : Opts K, o.minval = 0 → decorate T r o [(k, Cell.num (some 0))] = [] := by
    intro o ho
    have hb : (Cell.num (some (0 : K))).below o.minval = true := by
      rw [ho, Cell.below, Cell.entries]
      simp [abs]
    simp [decorate, List.zipIdx, hb]
  unfold csv varTable
  rw [h1]
  simp only
  rw [h2 _ rfl]
  rfl

/-- Attributes of the variable "C_{D,0}" of model "Wing". -/
def comma : Attrs Unit where
  model := fun _ => "Wing".toList
  text := fun _ => "C_{D,0}".toList
  name := fun _ => "C_{D,0}".toList
  units := fun _ => []
  label := fun _ => "drag".toList

/-- C65 is violated: the name of a variable may have a comma. Its row then has a field more than the first line, and its value is in the column after. -/
theorem C65_comma_fails : (Str.lines (csv (K := ℚ) comma id (fun _ => ['2']) [] [] 5 [((), .num (some 2))])).tail.map fields =
      [["Wing".toList, "C_{D".toList, "0}".toList, ['2'], [], "drag".toList], [[]]] ∧
    valCols (K := ℚ) 5 [((), Cell.num (some 2))] + 4 = 5 := by
  decide +kernel

/-- Attributes of two variables, in models "A" and none. -/
def tidy : Attrs Bool where
  model := fun b => if b then ['A'] else []
  text := fun b => if b then ['x'] else ['y']
  name := fun b => if b then ['x'] else ['y']
  units := fun _ => ['m']
  label := fun _ => []

/-- A case of `C65_read_partial`: a number and an array with an element missing. -/
example : Tidy tidy (fun x : Option ℚ => if x = none then ['-'] else ['7']) ∧
    Proper [(true, Cell.num (some (7 : ℚ))), (false, .arr ⟨[2], fun i => if i = [0] then some 7 else none⟩)] := by
  refine ⟨⟨?_, ?_, ?_, ?_, ?_⟩, ?_⟩
  · intro b; cases b <;> simp [tidy, Clean]
  · intro b; cases b <;> simp [tidy, Clean]
  · intro b; simp [tidy, Clean]
  · intro b; simp [tidy, Clean]
  · intro x; by_cases hx : x = none <;> simp [hx, Clean]
  · simp [Proper]

/-- The file for the number. -/
example : csv tidy id (fun x : Option ℚ => if x = none then ['-'] else ['7']) [] [] 5 [(true, Cell.num (some (7 : ℚ)))] =
    ",\nA,x,7,m,\n".toList := by
  decide +kernel

end Verif
