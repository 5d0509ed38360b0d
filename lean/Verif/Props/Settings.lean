import Verif.Lemmas.Notes
import Verif.Model.Settings
import Verif.Props.Solve

/-! # C86: settings -/

set_option linter.unusedSectionVars false

namespace Verif
namespace Settings
open Str

theorem keepLines_append {a b : Str} (h : '\n' ∉ a) : keepLines (a ++ '\n' :: b) = (a ++ ['\n']) :: keepLines b := by
  induction a with
  | nil => simp [keepLines]
  | cons c a ih =>
    simp only [List.mem_cons, not_or] at h
    rw [List.cons_append, keepLines, if_neg (Ne.symm h.1), ih h.2]
    rfl

theorem keepLines_write : ∀ {ps : List (Str × Str)}, (∀ p ∈ ps, '\n' ∉ p.1 ∧ '\n' ∉ p.2) → keepLines (write ps) = ps.map (fun p => p.1 ++ sep ++ p.2 ++ ['\n'])
  | [], _ => rfl
  | p :: ps, h => by
    have hp := h p (by simp)
    have e : write (p :: ps) = (p.1 ++ sep ++ p.2) ++ '\n' :: write ps := by simp [write]
    rw [e, keepLines_append, keepLines_write (fun q hq => h q (List.mem_cons_of_mem _ hq)), List.map_cons]
    simp only [List.mem_append, not_or]
    exact ⟨⟨hp.1, by decide⟩, hp.2⟩

/-- A setting that can be read back. -/
structure Clean (p : Str × Str) : Prop where
  space : ' ' ∉ p.1
  line : '\n' ∉ p.1
  vline : '\n' ∉ p.2
  colon : ¬ sep <:+: p.2

theorem split_item {p : Str × Str} (h : Clean p) : split sep (p.1 ++ sep ++ p.2) = [p.1, p.2] := by
  have hs : split sep (p.1 ++ (sep ++ p.2)) = p.1 :: split sep p.2 := split_at (by decide) (no_start_char (c := ' ') (p := [':', ' ']) h.space)
  rw [List.append_assoc, hs, split_none h.colon]

theorem split_item_line {p : Str × Str} (h : Clean p) : split sep (p.1 ++ sep ++ p.2 ++ ['\n']) = [p.1, p.2 ++ ['\n']] := by
  have hs : split sep (p.1 ++ (sep ++ (p.2 ++ ['\n']))) = p.1 :: split sep (p.2 ++ ['\n']) :=
    split_at (by decide) (no_start_char (c := ' ') (p := [':', ' ']) h.space)
  rw [List.append_assoc, List.append_assoc, hs, split_none]
  rw [infix_sep (by decide)]
  rintro (hi | hi)
  · exact h.colon hi
  · have := hi.length_le
    simp [sep] at this

theorem read_write {ps : List (Str × Str)} (h : ∀ p ∈ ps, Clean p) : read (write ps) = .ok (ps.map (fun p => (p.1, flatten p.1 (split comma p.2)))) := by
  unfold read
  rw [keepLines_write (fun p hp => ⟨(h p hp).line, (h p hp).vline⟩), List.filter_eq_self.2]
  · induction ps with
    | nil => rfl
    | cons p ps ih =>
      rw [List.map_cons, List.mapM_cons, List.dropLast_concat, split_item (h p (by simp)), ih (fun q hq => h q (List.mem_cons_of_mem _ hq))]
      rfl
  · intro l hl
    obtain ⟨p, hp, rfl⟩ := List.mem_map.1 hl
    rw [split_item_line (h p hp)]
    rfl

theorem get_map {ps : List (Str × Str)} (hd : (ps.map (·.1)).Nodup) {p : Str × Str} (hp : p ∈ ps) (f : Str × Str → Value) :
    get (ps.map (fun p => (p.1, f p))) p.1 = some (f p) := by
  unfold get
  have hx : ∃ x, ((ps.map (fun p => (p.1, f p))).reverse.find? (fun q => decide (q.1 = p.1))) = some x := by
    rw [← Option.isSome_iff_exists, List.find?_isSome]
    exact ⟨(p.1, f p), by rw [List.mem_reverse]; exact List.mem_map.2 ⟨p, hp, rfl⟩, by simp⟩
  obtain ⟨x, hx⟩ := hx
  rw [hx]
  have hm := List.mem_of_find?_eq_some hx
  have hk := List.find?_some hx
  rw [List.mem_reverse] at hm
  obtain ⟨q, hq, rfl⟩ := List.mem_map.1 hm
  simp only [decide_eq_true_eq] at hk
  have : q = p := List.inj_on_of_nodup_map hd hq hp hk
  rw [this]
  rfl

theorem get_map_none {ps : List (Str × Str)} {n : Str} (h : ∀ p ∈ ps, p.1 ≠ n) (f : Str × Str → Value) : get (ps.map (fun p => (p.1, f p))) n = none := by
  unfold get
  rw [Option.map_eq_none_iff, List.find?_eq_none]
  intro q hq
  rw [List.mem_reverse] at hq
  obtain ⟨p, hp, rfl⟩ := List.mem_map.1 hq
  simpa using h p hp

theorem mem_ite {b : Bool} {a x : Str} (h : x ∈ if b = true then [a] else []) : x = a := by
  cases b
  · exact absurd h (List.not_mem_nil)
  · exact List.mem_singleton.1 h

theorem mem_found {cli conif cvx : Bool} {x : Str} (h : x ∈ found cli conif cvx) : x = "mosek_cli".toList ∨ x = "mosek_conif".toList ∨ x = "cvxopt".toList := by
  unfold found at h
  generalize "mosek_cli".toList = a at h ⊢
  generalize "mosek_conif".toList = b at h ⊢
  generalize "cvxopt".toList = c at h ⊢
  simp only [List.mem_append] at h
  rcases h with (h | h) | h
  · exact Or.inl (mem_ite h)
  · exact Or.inr (Or.inl (mem_ite h))
  · exact Or.inr (Or.inr (mem_ite h))

theorem found_ne {cli conif cvx : Bool} (h : cli = true ∨ conif = true ∨ cvx = true) : found cli conif cvx ≠ [] := by
  unfold found
  generalize "mosek_cli".toList = a
  generalize "mosek_conif".toList = b
  generalize "cvxopt".toList = c
  revert h
  cases cli <;> cases conif <;> cases cvx <;> simp

theorem found_cli {conif cvx : Bool} {d : Str} {l : List Str} (h : found true conif cvx = d :: l) : d = "mosek_cli".toList := by
  unfold found at h
  exact (List.cons.inj h).1.symm

theorem found_conif {cvx : Bool} {d : Str} {l : List Str} (h : found false true cvx = d :: l) : d = "mosek_conif".toList := by
  unfold found at h
  exact (List.cons.inj h).1.symm

end Settings

open Settings Str Slv

/-- **C86.** What is written to the file of settings is read back from it: every name with its value, lists as lists, and nothing else. Proved for values on one line
without ` : `. -/
theorem C86_roundtrip_partial (ps : List (Str × Str)) (hd : (ps.map (·.1)).Nodup)
    (hn : ∀ p ∈ ps, ' ' ∉ p.1 ∧ '\n' ∉ p.1) (hv : ∀ p ∈ ps, '\n' ∉ p.2 ∧ ¬ " : ".toList <:+: p.2) :
    ∃ s, read (write ps) = .ok s ∧ (∀ n, (∀ p ∈ ps, p.1 ≠ n) → Settings.get s n = none) ∧
      (∀ p ∈ ps, p.1 ≠ "installed_solvers".toList → ¬ ", ".toList <:+: p.2 → Settings.get s p.1 = some (.one p.2)) ∧
      ∀ p ∈ ps, ∀ l : List Str, l ≠ [] → (∀ x ∈ l, ',' ∉ x) → p.2 = VK.join ", ".toList l → (p.1 = "installed_solvers".toList ∨ 1 < l.length) →
        Settings.get s p.1 = some (.many l) := by
  refine ⟨_, read_write (fun p hp => ⟨(hn p hp).1, (hn p hp).2, (hv p hp).1, (hv p hp).2⟩), ?_, ?_, ?_⟩
  · intro n h
    exact get_map_none h (fun p => flatten p.1 (split comma p.2))
  · intro p hp hne hc
    rw [get_map hd hp (fun p => flatten p.1 (split comma p.2)), split_none (p := comma) hc]
    exact congrArg some (if_neg hne)
  · intro p hp l hl hx he hor
    rw [get_map hd hp (fun p => flatten p.1 (split comma p.2)), he]
    have : split comma (VK.join ", ".toList l) = l := split_join hl hx
    rw [this]
    cases l with
    | nil => exact absurd rfl hl
    | cons a l =>
      cases l with
      | nil =>
        rcases hor with hor | hor
        · exact congrArg some (if_pos hor)
        · simp at hor
      | cons b l => rfl

/-- **C86.** After a build, the solvers that were found are the installed ones, the default is the first of them in the order of preference, and a directory found for
mosek is used as it was found. -/
theorem C86_found_partial (cli conif cvx : Bool) (hfound : cli = true ∨ conif = true ∨ cvx = true) (dir : Option Str)
    (hdir : ∀ d, dir = some d → '\n' ∉ d ∧ ¬ " : ".toList <:+: d ∧ ¬ ", ".toList <:+: d) (rebuilt : Str) :
    ∃ s d, load (some (write (toWrite (found cli conif cvx) none dir))) rebuilt = .ok (s, d) ∧
      Settings.get s "installed_solvers".toList = some (.many (found cli conif cvx)) ∧
      (found cli conif cvx).head? = some d ∧ (d = "mosek_cli".toList ∨ d = "mosek_conif".toList ∨ d = "cvxopt".toList) ∧
      (cli = true → d = "mosek_cli".toList) ∧ (cli = false → conif = true → d = "mosek_conif".toList) ∧
      Settings.get s "mosek_bin_dir".toList = dir.map .one := by
  have hsol : ∀ x ∈ found cli conif cvx, x = "mosek_cli".toList ∨ x = "mosek_conif".toList ∨ x = "cvxopt".toList := by
    intro x hx
    exact mem_found hx
  have hchars : ∀ x ∈ found cli conif cvx, ',' ∉ x ∧ ' ' ∉ x ∧ '\n' ∉ x ∧ ':' ∉ x := by
    intro x hx
    rcases hsol x hx with rfl | rfl | rfl <;> decide +kernel
  have hne : found cli conif cvx ≠ [] := by
    exact found_ne hfound
  have hjoin : ∀ c, c ∈ VK.join comma (found cli conif cvx) → c = ',' ∨ c = ' ' ∨ ∃ x ∈ found cli conif cvx, c ∈ x := by
    intro c hc
    rcases VK.mem_join hc with hc | hc
    · simp only [comma, List.mem_cons, List.not_mem_nil, or_false] at hc
      rcases hc with h | h
      · exact Or.inl h
      · exact Or.inr (Or.inl h)
    · exact Or.inr (Or.inr hc)
  have hv1 : '\n' ∉ VK.join comma (found cli conif cvx) := by
    intro hc
    rcases hjoin _ hc with h | h | ⟨x, hx, h⟩
    · exact absurd h (by decide)
    · exact absurd h (by decide)
    · exact (hchars x hx).2.2.1 h
  have hv2 : ¬ " : ".toList <:+: VK.join comma (found cli conif cvx) := by
    intro hi
    have hc : ':' ∈ VK.join comma (found cli conif cvx) := hi.subset (by decide)
    rcases hjoin _ hc with h | h | ⟨x, hx, h⟩
    · exact absurd h (by decide)
    · exact absurd h (by decide)
    · exact (hchars x hx).2.2.2 h
  have hmem : ∀ p, p ∈ toWrite (found cli conif cvx) none dir ↔ p = (installedName, VK.join comma (found cli conif cvx)) ∨ ∃ d, dir = some d ∧ p = (binName, d) := by
    intro p
    cases dir <;> simp [toWrite]
  have hnb : installedName ≠ binName := by decide +kernel
  obtain ⟨s, h1, h2, h3, h4⟩ := C86_roundtrip_partial (toWrite (found cli conif cvx) none dir) (by
      cases dir <;> simp [toWrite, hnb])
    (by
      intro p hp
      rcases (hmem p).1 hp with rfl | ⟨d, hd, rfl⟩
      · exact (show ' ' ∉ installedName ∧ '\n' ∉ installedName by decide +kernel)
      · exact (show ' ' ∉ binName ∧ '\n' ∉ binName by decide +kernel))
    (by
      intro p hp
      rcases (hmem p).1 hp with rfl | ⟨d, hd, rfl⟩
      · exact ⟨hv1, hv2⟩
      · exact ⟨(hdir d hd).1, (hdir d hd).2.1⟩)
  have hinst : Settings.get s installedName = some (.many (found cli conif cvx)) :=
    h4 _ ((hmem _).2 (Or.inl rfl)) _ hne (fun x hx => (hchars x hx).1) rfl (Or.inl rfl)
  cases hf : found cli conif cvx with
  | nil => exact absurd hf hne
  | cons d l =>
    have hd0 := hsol d (by rw [hf]; simp)
    have hdne : d ≠ [] := by
      rcases hd0 with rfl | rfl | rfl <;> decide
    rw [hf] at h1 hinst h2 h3 hmem
    refine ⟨s, d, ?_, hinst, rfl, hd0, ?_, ?_, ?_⟩
    · unfold load
      rw [Option.elim, h1]
      show choose rebuilt s = _
      unfold choose
      rw [hinst]
      dsimp only
      rw [if_neg (by
        intro he
        rw [Value.many.injEq, List.cons.injEq] at he
        exact hdne he.1)]
      unfold withDefault
      rw [hinst]
    · rintro rfl
      exact (found_cli hf)
    · rintro rfl rfl
      exact (found_conif hf)
    · cases dir with
      | none =>
        refine h2 binName ?_
        intro p hp
        rcases (hmem p).1 hp with rfl | ⟨d, hd, _⟩
        · exact hnb
        · cases hd
      | some b =>
        exact h3 (binName, b) ((hmem _).2 (Or.inr ⟨b, rfl, rfl⟩)) (fun he => hnb he.symm) (hdir b rfl).2.2

/-- **C86.** So a solve for which no solver is named uses the first solver that was found. -/
theorem C86_default {O Val Out : Type} [BEq O] [LawfulBEq O] (impl : String → Solver O Val Out) (cli conif cvx : Bool) (hfound : cli = true ∨ conif = true ∨ cvx = true)
    (dir : Option Str) (hdir : ∀ d, dir = some d → '\n' ∉ d ∧ ¬ " : ".toList <:+: d ∧ ¬ ", ".toList <:+: d) (rebuilt : Str) :
    ∃ s d, load (some (write (toWrite (found cli conif cvx) none dir))) rebuilt = .ok (s, d) ∧ (found cli conif cvx).head? = some d ∧
      getSolver impl (some (String.ofList d)) .default = .ok (String.ofList d, impl (String.ofList d)) := by
  obtain ⟨s, d, h1, _, h3, h4, _⟩ := C86_found_partial cli conif cvx hfound dir hdir rebuilt
  refine ⟨s, d, h1, h3, (C37_solver impl none (String.ofList d) ?_).2.1⟩
  rcases h4 with rfl | rfl | rfl <;> simp

/-- **C86.** Without a file of settings, or with one that names no solver, a build is made and its settings are used. -/
theorem C86_rebuild (file : Option Str) (rebuilt : Str) (h : file = none ∨ ∃ f s, file = some f ∧ read f = .ok s ∧ Settings.get s "installed_solvers".toList = some (.many [[]])) :
    load file rebuilt = (read rebuilt).bind withDefault := by
  unfold load
  rcases h with rfl | ⟨f, s, rfl, hs, hg⟩
  · rfl
  · rw [Option.elim, hs]
    have hg : Settings.get s installedName = some (.many [[]]) := hg
    show choose rebuilt s = _
    unfold choose
    rw [hg]
    rfl

/-- **C86.** If the build finds no solver, none is made up: a solve for which no solver is named stops with an error. -/
theorem C86_none {O Val Out : Type} (impl : String → Solver O Val Out) (file : Option Str) (dir : Option Str)
    (hdir : ∀ d, dir = some d → '\n' ∉ d ∧ ¬ " : ".toList <:+: d)
    (h : file = none ∨ ∃ f s, file = some f ∧ read f = .ok s ∧ Settings.get s "installed_solvers".toList = some (.many [[]])) :
    ∃ s d, load file (write (toWrite (found false false false) none dir)) = .ok (s, d) ∧ Settings.get s "installed_solvers".toList = some (.many [[]]) ∧
      getSolver impl (some (String.ofList d)) .default = .error .value := by
  have hnb : installedName ≠ binName := by decide +kernel
  have hmem : ∀ p, p ∈ toWrite (found false false false) none dir ↔ p = (installedName, []) ∨ ∃ d, dir = some d ∧ p = (binName, d) := by
    intro p
    cases dir <;> simp [toWrite, found, VK.join]
  obtain ⟨s, h1, _, _, h4⟩ := C86_roundtrip_partial (toWrite (found false false false) none dir) (by
      cases dir <;> simp [toWrite, hnb])
    (by
      intro p hp
      rcases (hmem p).1 hp with rfl | ⟨d, hd, rfl⟩
      · exact (show ' ' ∉ installedName ∧ '\n' ∉ installedName by decide +kernel)
      · exact (show ' ' ∉ binName ∧ '\n' ∉ binName by decide +kernel))
    (by
      intro p hp
      rcases (hmem p).1 hp with rfl | ⟨d, hd, rfl⟩
      · exact (show '\n' ∉ ([] : Str) ∧ ¬ " : ".toList <:+: ([] : Str) by decide +kernel)
      · exact hdir d hd)
  have hg : Settings.get s installedName = some (.many [[]]) :=
    h4 (installedName, []) ((hmem _).2 (Or.inl rfl)) [[]] (by simp) (by simp) rfl (Or.inl rfl)
  refine ⟨s, [], ?_, hg, rfl⟩
  rw [C86_rebuild file _ h, h1]
  show withDefault s = _
  unfold withDefault
  rw [hg]

/-- The hypotheses can be met: two solvers and a directory. -/
example : load (some (write (toWrite (found true false true) none (some "/opt/mosek/8/bin".toList)))) [] =
    .ok ([("installed_solvers".toList, .many ["mosek_cli".toList, "cvxopt".toList]), ("mosek_bin_dir".toList, .one "/opt/mosek/8/bin".toList)], "mosek_cli".toList) := by
  decide +kernel

/-- **C86 does not hold** of directories with a comma before a space: the setting read is a list, which is no directory. -/
theorem C86_comma_fails : (read (write (toWrite (found true false false) none (some "/opt/a, b/bin".toList)))).map (fun s => Settings.get s "mosek_bin_dir".toList) =
    .ok (some (.many ["/opt/a".toList, "b/bin".toList])) := by
  decide +kernel

/-- **C86 does not hold** of directories with a colon between spaces: the setting is passed over. -/
theorem C86_colon_fails : (read (write (toWrite (found true false false) none (some "/opt/a : b/bin".toList)))).map (fun s => Settings.get s "mosek_bin_dir".toList) =
    .ok none := by
  decide +kernel

/-- **C86 does not hold** of the environment variable with solvers separated by commas alone: they are taken for one solver, which does not exist. -/
theorem C86_env_fails : (load (some (write (toWrite [] (some "cvxopt,mosek_cli".toList) none))) []).map (·.2) = .ok "cvxopt,mosek_cli".toList ∧
    ∀ {O Val Out : Type} (impl : String → Solver O Val Out), getSolver impl (some "cvxopt,mosek_cli") .default = .error .value := by
  refine ⟨by decide +kernel, fun impl => ?_⟩
  rfl

/-- **C86 does not hold** of files whose last line has no newline: the last character of its value is cut off. -/
theorem C86_newline_fails : (load (some "installed_solvers : cvxopt".toList) []).map (·.2) = .ok "cvxop".toList := by
  decide +kernel

end Verif
