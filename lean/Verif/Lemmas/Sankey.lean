import Verif.Spec.Sankey
import Verif.Lemmas.PyDict
import Verif.Props.VarKey
import Mathlib.Tactic.Linarith
import Mathlib.Tactic.NormNum

/-! Lemmas about Sankey diagrams. -/

set_option linter.unusedSectionVars false

namespace Verif
namespace Sankey
open VK PyDict

/-! ### Nodes -/

theorem pad4_digit {n : Nat} {c : Char} (h : c ∈ pad4 n) : c.isDigit = true := by
  unfold pad4 at h
  rcases List.mem_append.1 h with h | h
  · rw [(List.mem_replicate.1 h).2]; decide
  · exact num_digit h

theorem pad4_inj {m n : Nat} (h : pad4 m = pad4 n) : m = n := by
  have key : ∀ k, Nat.ofDigitChars 10 (pad4 k) 0 = k := by
    intro k
    unfold pad4 num
    rw [Nat.ofDigitChars_append, Nat.ofDigitChars_replicate_zero, Nat.mul_zero, Nat.ofDigitChars_ten_toDigits]
  rw [← key m, h, key]

theorem child_inj {t u : Id} {m n : Nat} (h : child t m = child u n) : t = u ∧ m = n := by
  unfold child at h
  have h' := congrArg List.reverse h
  simp only [List.reverse_append, List.reverse_cons, List.append_assoc, List.singleton_append] at h'
  have hd : ∀ k, ∀ c ∈ (pad4 k).reverse, c.isDigit = true := fun k c hc => pad4_digit (List.mem_reverse.1 hc)
  obtain ⟨h1, -, h3⟩ := split_at (p := Char.isDigit) (fun c => hd m c) (fun c => hd n c) rfl rfl h'
  exact ⟨List.reverse_injective h3, pad4_inj (List.reverse_injective h1)⟩

theorem child_length (t : Id) (n : Nat) : t.length < (child t n).length := by
  unfold child
  simp

/-! ### Sums over links -/

theorem inflow_nil (n : Id) : inflow [] n = 0 := rfl
theorem outflow_nil (n : Id) : outflow [] n = 0 := rfl

theorem inflow_append (a b : List ((Id × Id) × ℝ)) (n : Id) : inflow (a ++ b) n = inflow a n + inflow b n := by
  simp [inflow]

theorem outflow_append (a b : List ((Id × Id) × ℝ)) (n : Id) : outflow (a ++ b) n = outflow a n + outflow b n := by
  simp [outflow]

theorem inflow_single (k : Id × Id) (x : ℝ) (n : Id) : inflow [(k, x)] n = if k.2 = n then x else 0 := by
  unfold inflow
  by_cases h : k.2 = n <;> simp [h]

theorem outflow_single (k : Id × Id) (x : ℝ) (n : Id) : outflow [(k, x)] n = if k.1 = n then x else 0 := by
  unfold outflow
  by_cases h : k.1 = n <;> simp [h]

theorem inflow_zero {l : List ((Id × Id) × ℝ)} {n : Id} (h : ∀ e ∈ l, e.1.2 ≠ n) : inflow l n = 0 := by
  unfold inflow
  rw [List.filter_eq_nil_iff.2 (fun e he => by simpa using h e he)]
  rfl

theorem outflow_zero {l : List ((Id × Id) × ℝ)} {n : Id} (h : ∀ e ∈ l, e.1.1 ≠ n) : outflow l n = 0 := by
  unfold outflow
  rw [List.filter_eq_nil_iff.2 (fun e he => by simpa using h e he)]
  rfl

theorem inflow_wsum (l : PyDict (Id × Id) ℝ) (n : Id) : inflow l n = wsum (fun k => if k.2 = n then 1 else 0) l := by
  unfold inflow wsum
  induction l with
  | nil => rfl
  | cons e l ih =>
    rw [List.filter_cons, List.map_cons, List.sum_cons, ← ih]
    by_cases h : e.1.2 = n <;> simp [h]

theorem outflow_wsum (l : PyDict (Id × Id) ℝ) (n : Id) : outflow l n = wsum (fun k => if k.1 = n then 1 else 0) l := by
  unfold outflow wsum
  induction l with
  | nil => rfl
  | cons e l ih =>
    rw [List.filter_cons, List.map_cons, List.sum_cons, ← ih]
    by_cases h : e.1.1 = n <;> simp [h]

theorem inflow_addTo (l : PyDict (Id × Id) ℝ) (k : Id × Id) (x : ℝ) (n : Id) : inflow (addTo l k x) n = inflow l n + if k.2 = n then x else 0 := by
  unfold addTo
  rw [inflow_wsum, inflow_wsum, wsum_set (fun a b h => by rw [eq_of_beq h])]
  by_cases h : k.2 = n <;> simp only [h, if_true, if_false] <;> ring

theorem outflow_addTo (l : PyDict (Id × Id) ℝ) (k : Id × Id) (x : ℝ) (n : Id) : outflow (addTo l k x) n = outflow l n + if k.1 = n then x else 0 := by
  unfold addTo
  rw [outflow_wsum, outflow_wsum, wsum_set (fun a b h => by rw [eq_of_beq h])]
  by_cases h : k.1 = n <;> simp only [h, if_true, if_false] <;> ring

/-- Adding in turn. -/
noncomputable def addAll (l : PyDict (Id × Id) ℝ) (ops : List ((Id × Id) × ℝ)) : PyDict (Id × Id) ℝ := ops.foldl (fun l o => addTo l o.1 o.2) l

theorem addAll_append (l : PyDict (Id × Id) ℝ) (a b : List ((Id × Id) × ℝ)) : addAll l (a ++ b) = addAll (addAll l a) b := by
  simp [addAll]

theorem inflow_addAll (l : PyDict (Id × Id) ℝ) (ops : List ((Id × Id) × ℝ)) (n : Id) : inflow (addAll l ops) n = inflow l n + inflow ops n := by
  induction ops generalizing l with
  | nil => simp [addAll, inflow_nil]
  | cons o ops ih =>
    show inflow (addAll (addTo l o.1 o.2) ops) n = _
    rw [ih, inflow_addTo, ← List.singleton_append, inflow_append, inflow_single (k := o.1)]
    ring

theorem outflow_addAll (l : PyDict (Id × Id) ℝ) (ops : List ((Id × Id) × ℝ)) (n : Id) : outflow (addAll l ops) n = outflow l n + outflow ops n := by
  induction ops generalizing l with
  | nil => simp [addAll, outflow_nil]
  | cons o ops ih =>
    show outflow (addAll (addTo l o.1 o.2) ops) n = _
    rw [ih, outflow_addTo, ← List.singleton_append, outflow_append, outflow_single (k := o.1)]
    ring

theorem get?_addTo_ne {l : PyDict (Id × Id) ℝ} {k q : Id × Id} {x : ℝ} (h : k ≠ q) : (addTo l k x).get? q = l.get? q := by
  unfold addTo
  rw [get?_set, if_neg (by simpa using h)]

theorem get?_addAll {l : PyDict (Id × Id) ℝ} {ops : List ((Id × Id) × ℝ)} {q : Id × Id} (h : ∀ o ∈ ops, o.1 ≠ q) : (addAll l ops).get? q = l.get? q := by
  induction ops generalizing l with
  | nil => rfl
  | cons o ops ih =>
    show (addAll (addTo l o.1 o.2) ops).get? q = _
    rw [ih (fun o' ho' => h o' (by simp [ho'])), get?_addTo_ne (h o (by simp))]

theorem wf_addAll {l : PyDict (Id × Id) ℝ} (h : WF l) (ops : List ((Id × Id) × ℝ)) : WF (addAll l ops) := by
  induction ops generalizing l with
  | nil => exact h
  | cons o ops ih => exact ih (wf_set h _ _)

theorem mem_addAll {l : PyDict (Id × Id) ℝ} {ops : List ((Id × Id) × ℝ)} {e : (Id × Id) × ℝ} (h : e ∈ addAll l ops) :
    (∃ e' ∈ l, e'.1 = e.1) ∨ ∃ o ∈ ops, o.1 = e.1 := by
  induction ops generalizing l with
  | nil => exact .inl ⟨e, h, rfl⟩
  | cons o ops ih =>
    rcases ih h with ⟨e', he', hk⟩ | ⟨o', ho', hk⟩
    · rcases keys_beq_of_mem_set he' with h1 | h1
      · exact .inr ⟨o, by simp, by rw [← hk, eq_of_beq h1.1]⟩
      · exact .inl ⟨e', h1, hk⟩
    · exact .inr ⟨o', by simp [ho'], hk⟩

/-! ### Counting and titles -/

theorem cnt_addNode (s : St) (t : Id) (title : Str) (tag : Tag) (u : Id) :
    (s.addNode t title tag).2.cnt u = if u = t then s.cnt t + 1 else s.cnt u := by
  unfold St.addNode St.cnt
  dsimp only
  rw [get?_set]
  by_cases h : u = t
  · subst h; simp
  · rw [if_neg (by simpa using fun e => h e.symm), if_neg h]

theorem addNode_id (s : St) (t : Id) (title : Str) (tag : Tag) : (s.addNode t title tag).1 = child t (s.cnt t + 1) := rfl
theorem addNode_links (s : St) (t : Id) (title : Str) (tag : Tag) : (s.addNode t title tag).2.links = s.links := rfl

/-- Every link goes from a node to the one it was made for. -/
def Inv (s : St) : Prop := WF s.links ∧ ∀ e ∈ s.links, ∃ k, e.1.1 = child e.1.2 k ∧ k ≤ s.cnt e.1.2

/-- What a call with target `t` does: links it adds to, and that what flows into each node it makes flows out. -/
structure Eff (t : Id) (s s' : St) (ops : List ((Id × Id) × ℝ)) (x : ℝ) : Prop where
  links : s'.links = addAll s.links ops
  mono : ∀ u, s.cnt u ≤ s'.cnt u
  src : ∀ o ∈ ops, ∃ k, o.1.1 = child o.1.2 k ∧ s.cnt o.1.2 < k ∧ k ≤ s'.cnt o.1.2
  tgt : ∀ o ∈ ops, o.1.2 = t ∨ (t.length < o.1.2.length ∧ ∃ w k, o.1.2 = child w k ∧ s.cnt w < k ∧ k ≤ s'.cnt w)
  total : inflow ops t = x
  bal : ∀ n, n ≠ t → (∃ o ∈ ops, o.1.2 = n) → inflow ops n = outflow ops n
  nodes : ∀ w k, k ≤ s.cnt w → s'.nodes.get? (child w k) = s.nodes.get? (child w k)

theorem Eff.inv {t : Id} {s s' : St} {ops : List ((Id × Id) × ℝ)} {x : ℝ} (h : Eff t s s' ops x) (hs : Inv s) : Inv s' := by
  refine ⟨by rw [h.links]; exact wf_addAll hs.1 _, fun e he => ?_⟩
  rw [h.links] at he
  rcases mem_addAll he with ⟨e', he', hk⟩ | ⟨o, ho, hk⟩
  · obtain ⟨k, h1, h2⟩ := hs.2 e' he'
    rw [hk] at h1 h2
    exact ⟨k, h1, h2.trans (h.mono _)⟩
  · obtain ⟨k, h1, -, h2⟩ := h.src o ho
    rw [hk] at h1 h2
    exact ⟨k, h1, h2⟩

theorem Eff.refl (t : Id) (s : St) : Eff t s s [] 0 :=
  ⟨rfl, fun _ => le_rfl, by simp, by simp, rfl, by simp, fun _ _ _ => rfl⟩

/-- Links made before are left alone. -/
theorem Eff.keep {t : Id} {s s' : St} {ops : List ((Id × Id) × ℝ)} {x : ℝ} (h : Eff t s s' ops x) {u : Id} {k : Nat} (hk : k ≤ s.cnt u) :
    s'.links.get? (child u k, u) = s.links.get? (child u k, u) := by
  rw [h.links]
  refine get?_addAll (fun o ho e => ?_)
  obtain ⟨j, h1, h2, -⟩ := h.src o ho
  rw [e] at h1 h2
  have h3 := (child_inj h1).2
  dsimp only at h2
  omega

theorem Eff.seq {t : Id} {s s1 s2 : St} {a b : List ((Id × Id) × ℝ)} {x y : ℝ} (h : Eff t s s1 a x) (h' : Eff t s1 s2 b y) :
    Eff t s s2 (a ++ b) (x + y) where
  links := by rw [h'.links, h.links, addAll_append]
  mono u := (h.mono u).trans (h'.mono u)
  src o ho := by
    rcases List.mem_append.1 ho with ho | ho
    · obtain ⟨k, h1, h2, h3⟩ := h.src o ho
      exact ⟨k, h1, h2, h3.trans (h'.mono _)⟩
    · obtain ⟨k, h1, h2, h3⟩ := h'.src o ho
      exact ⟨k, h1, (h.mono _).trans_lt h2, h3⟩
  tgt o ho := by
    rcases List.mem_append.1 ho with ho | ho
    · rcases h.tgt o ho with e | ⟨hl, w, k, h1, h2, h3⟩
      · exact .inl e
      · exact .inr ⟨hl, w, k, h1, h2, h3.trans (h'.mono _)⟩
    · rcases h'.tgt o ho with e | ⟨hl, w, k, h1, h2, h3⟩
      · exact .inl e
      · exact .inr ⟨hl, w, k, h1, (h.mono _).trans_lt h2, h3⟩
  total := by rw [inflow_append, h.total, h'.total]
  bal n hn := by
    rintro ⟨o, ho, rfl⟩
    rw [inflow_append, outflow_append]
    rcases List.mem_append.1 ho with ho | ho
    · obtain ⟨-, w, k, h1, h2, h3⟩ := (h.tgt o ho).resolve_left hn
      rw [h.bal _ hn ⟨o, ho, rfl⟩, inflow_zero (l := b), outflow_zero (l := b)]
      · intro e he hk
        obtain ⟨j, g1, g2, -⟩ := h'.src e he
        rw [hk, h1] at g1
        obtain ⟨rfl, rfl⟩ := child_inj g1
        omega
      · intro e he hk
        obtain ⟨-, v, j, g1, g2, -⟩ := (h'.tgt e he).resolve_left (by rw [hk]; exact hn)
        rw [hk, h1] at g1
        obtain ⟨rfl, rfl⟩ := child_inj g1
        omega
    · obtain ⟨-, w, k, h1, h2, h3⟩ := (h'.tgt o ho).resolve_left hn
      rw [h'.bal _ hn ⟨o, ho, rfl⟩, inflow_zero (l := a), outflow_zero (l := a)]
      · intro e he hk
        obtain ⟨j, g1, -, g2⟩ := h.src e he
        rw [hk, h1] at g1
        obtain ⟨rfl, rfl⟩ := child_inj g1
        omega
      · intro e he hk
        obtain ⟨-, v, j, g1, -, g2⟩ := (h.tgt e he).resolve_left (by rw [hk]; exact hn)
        rw [hk, h1] at g1
        obtain ⟨rfl, rfl⟩ := child_inj g1
        omega
  nodes w k hk := by rw [h'.nodes w k (hk.trans (h.mono _)), h.nodes w k hk]

/-- Making a node. -/
theorem Eff.addNode (t : Id) (s : St) (v : Id) (title : Str) (tag : Tag) : Eff t s (s.addNode v title tag).2 [] 0 where
  links := rfl
  mono u := by
    rw [cnt_addNode]
    by_cases h : u = v
    · subst h; simp
    · rw [if_neg h]
  src := by simp
  tgt := by simp
  total := rfl
  bal := by simp
  nodes w k hk := by
    show (s.nodes.set (child v (s.cnt v + 1)) _).get? _ = _
    rw [get?_set, if_neg]
    simp only [beq_iff_eq]
    intro e
    obtain ⟨rfl, rfl⟩ := child_inj e
    omega

/-- Links into a node that was made, and one out of it. -/
theorem Eff.down {t : Id} {s s1 s2 : St} {a b : List ((Id × Id) × ℝ)} {x0 x : ℝ} {j : Nat} (h0 : Eff t s s1 a x0) (hj : s.cnt t < j) (hj' : j ≤ s1.cnt t)
    (hfree : ∀ o ∈ a, o.1.1 ≠ child t j ∧ o.1.2 ≠ child t j) (h1 : Eff (child t j) s1 s2 b x ∨ (s2 = s1 ∧ b = [])) :
    Eff t s (s2.addLink (child t j, t) x) (a ++ b ++ [((child t j, t), x)]) (x0 + x) := by
  have hlen := child_length t j
  have hmono : ∀ u, s1.cnt u ≤ s2.cnt u := by
    rcases h1 with h1 | ⟨rfl, -⟩
    · exact h1.mono
    · exact fun _ => le_rfl
  have hlk : s2.links = addAll s1.links b := by
    rcases h1 with h1 | ⟨rfl, rfl⟩
    · exact h1.links
    · rfl
  have hsrc : ∀ o ∈ b, ∃ k, o.1.1 = child o.1.2 k ∧ s1.cnt o.1.2 < k ∧ k ≤ s2.cnt o.1.2 := by
    rcases h1 with h1 | ⟨-, rfl⟩
    · exact h1.src
    · simp
  have htgt : ∀ o ∈ b, o.1.2 = child t j ∨ ((child t j).length < o.1.2.length ∧ ∃ w k, o.1.2 = child w k ∧ s1.cnt w < k ∧ k ≤ s2.cnt w) := by
    rcases h1 with h1 | ⟨-, rfl⟩
    · exact h1.tgt
    · simp
  have hnodes : ∀ w k, k ≤ s1.cnt w → s2.nodes.get? (child w k) = s1.nodes.get? (child w k) := by
    rcases h1 with h1 | ⟨rfl, -⟩
    · exact h1.nodes
    · exact fun _ _ _ => rfl
  have hbt : ∀ o ∈ b, t.length < o.1.2.length := by
    intro o ho
    rcases htgt o ho with e | ⟨e, -⟩
    · rw [e]; exact hlen
    · omega
  have hbs : ∀ o ∈ b, (child t j).length < o.1.1.length := by
    intro o ho
    obtain ⟨k, e, -⟩ := hsrc o ho
    rw [e]
    rcases htgt o ho with e' | ⟨e', -⟩
    · rw [e']; exact child_length _ _
    · exact e'.trans (child_length _ _)
  have hne : child t j ≠ t := fun e => by rw [e] at hlen; omega
  constructor
  · show addTo s2.links _ _ = _
    rw [hlk, h0.links, addAll_append, addAll_append]
    rfl
  · exact fun u => (h0.mono u).trans (hmono u)
  · intro o ho
    simp only [List.mem_append, List.mem_singleton] at ho
    rcases ho with (ho | ho) | rfl
    · obtain ⟨k, g1, g2, g3⟩ := h0.src o ho
      exact ⟨k, g1, g2, g3.trans (hmono _)⟩
    · obtain ⟨k, g1, g2, g3⟩ := hsrc o ho
      exact ⟨k, g1, (h0.mono _).trans_lt g2, g3⟩
    · exact ⟨j, rfl, hj, hj'.trans (hmono _)⟩
  · intro o ho
    simp only [List.mem_append, List.mem_singleton] at ho
    rcases ho with (ho | ho) | rfl
    · rcases h0.tgt o ho with e | ⟨hl, w, k, g1, g2, g3⟩
      · exact .inl e
      · exact .inr ⟨hl, w, k, g1, g2, g3.trans (hmono _)⟩
    · refine .inr ⟨hbt o ho, ?_⟩
      rcases htgt o ho with e | ⟨-, w, k, g1, g2, g3⟩
      · exact ⟨t, j, e, hj, hj'.trans (hmono _)⟩
      · exact ⟨w, k, g1, (h0.mono _).trans_lt g2, g3⟩
    · exact .inl rfl
  · rw [inflow_append, inflow_append, h0.total, inflow_zero (l := b), inflow_single, if_pos rfl, add_zero]
    intro e he hk
    have := hbt e he
    rw [hk] at this
    omega
  · rintro n hn ⟨o, ho, hon⟩
    rw [inflow_append, inflow_append, outflow_append, outflow_append, inflow_single, outflow_single, if_neg (fun e => hn e.symm)]
    by_cases hnc : n = child t j
    · subst hnc
      rw [inflow_zero (l := a) (fun e he => (hfree e he).2), outflow_zero (l := a) (fun e he => (hfree e he).1),
        outflow_zero (l := b) (fun e he hk => by have := hbs e he; rw [hk] at this; omega), if_pos rfl]
      rcases h1 with h1 | ⟨-, rfl⟩
      · rw [h1.total]; ring
      · simp only [List.append_nil, List.mem_append, List.mem_singleton] at ho
        rcases ho with ho | rfl
        · exact absurd hon (hfree o ho).2
        · exact absurd hon hn.symm
    · rw [if_neg (fun e => hnc e.symm)]
      simp only [List.mem_append, List.mem_singleton] at ho
      rcases ho with (ho | ho) | rfl
      · obtain ⟨-, w, k, g1, g2, g3⟩ := (h0.tgt o ho).resolve_left (by rw [hon]; exact hn)
        rw [hon] at g1
        rw [h0.bal n hn ⟨o, ho, hon⟩, inflow_zero (l := b), outflow_zero (l := b)]
        · intro e he hk
          obtain ⟨i, f1, f2, -⟩ := hsrc e he
          rw [hk, g1] at f1
          obtain ⟨rfl, rfl⟩ := child_inj f1
          omega
        · intro e he hk
          obtain ⟨-, v, i, f1, f2, -⟩ := (htgt e he).resolve_left (by rw [hk]; exact hnc)
          rw [hk, g1] at f1
          obtain ⟨rfl, rfl⟩ := child_inj f1
          omega
      · rcases h1 with h1 | ⟨-, rfl⟩
        · obtain ⟨-, w, k, g1, g2, g3⟩ := (h1.tgt o ho).resolve_left (by rw [hon]; exact hnc)
          rw [hon] at g1
          rw [h1.bal n hnc ⟨o, ho, hon⟩, inflow_zero (l := a), outflow_zero (l := a)]
          · intro e he hk
            obtain ⟨i, f1, -, f2⟩ := h0.src e he
            rw [hk, g1] at f1
            obtain ⟨rfl, rfl⟩ := child_inj f1
            omega
          · intro e he hk
            obtain ⟨-, v, i, f1, -, f2⟩ := (h0.tgt e he).resolve_left (by rw [hk]; exact hn)
            rw [hk, g1] at f1
            obtain ⟨rfl, rfl⟩ := child_inj f1
            omega
        · simp at ho
      · exact absurd hon hn.symm
  · intro w k hk
    show s2.nodes.get? _ = _
    rw [hnodes w k (hk.trans (h0.mono _)), h0.nodes w k hk]

theorem get?_fresh {s : St} (hs : Inv s) {t : Id} {k : Nat} (hk : s.cnt t < k) : s.links.get? (child t k, t) = none := by
  rw [get?_eq_none_iff]
  intro p hp
  rw [Bool.eq_false_iff]
  intro e
  have e := eq_of_beq e
  obtain ⟨j, h1, h2⟩ := hs.2 p hp
  rw [e] at h1 h2
  have := (child_inj h1).2
  dsimp only at h2
  omega

/-- Setting the link of a new node is adding to it. -/
theorem setLink_fresh {s : St} (hs : Inv s) (t : Id) (title : Str) (tag : Tag) (x : ℝ) :
    (s.addNode t title tag).2.setLink ((s.addNode t title tag).1, t) x = (s.addNode t title tag).2.addLink ((s.addNode t title tag).1, t) x := by
  unfold St.setLink St.addLink addTo
  rw [addNode_id, addNode_links, get?_fresh hs (Nat.lt_succ_self _)]
  simp

/-- A node without links into it. -/
theorem Eff.leaf {s : St} (hs : Inv s) (t : Id) (title : Str) (tag : Tag) (x : ℝ) :
    Eff t s ((s.addNode t title tag).2.setLink ((s.addNode t title tag).1, t) x) [((child t (s.cnt t + 1), t), x)] x := by
  rw [setLink_fresh hs]
  have h := Eff.down (t := t) (s := s) (x := x) (j := s.cnt t + 1) (Eff.addNode t s t title tag) (Nat.lt_succ_self _) (by rw [cnt_addNode, if_pos rfl]) (by simp)
    (.inr ⟨rfl, rfl⟩)
  rw [zero_add] at h
  exact h

/-- A node with links into it. -/
theorem Eff.node {s s2 : St} {b : List ((Id × Id) × ℝ)} (t : Id) (title : Str) (tag : Tag) {x : ℝ}
    (h : Eff (child t (s.cnt t + 1)) (s.addNode t title tag).2 s2 b x ∨ (s2 = (s.addNode t title tag).2 ∧ b = [])) :
    Eff t s (s2.addLink (child t (s.cnt t + 1), t) x) (b ++ [((child t (s.cnt t + 1), t), x)]) x := by
  have h := Eff.down (t := t) (s := s) (x := x) (j := s.cnt t + 1) (Eff.addNode t s t title tag) (Nat.lt_succ_self _) (by rw [cnt_addNode, if_pos rfl]) (by simp) h
  rw [zero_add] at h
  exact h

/-- An element of a vector. -/
theorem Eff.elem {t : Id} {s s1 : St} {a : List ((Id × Id) × ℝ)} {x : ℝ} {j : Nat} (h : Eff t s s1 a x) (hi : Inv s1) (hj : s.cnt t < j) (hj' : j ≤ s1.cnt t)
    (hbal : inflow a (child t j) = outflow a (child t j)) (title : Str) (tag : Tag) (d : ℝ) :
    Eff t s (((s1.addNode (child t j) title tag).2.setLink ((s1.addNode (child t j) title tag).1, child t j) d).addLink (child t j, t) d)
      (a ++ [((child (child t j) (s1.cnt (child t j) + 1), child t j), d), ((child t j, t), d)]) (x + d) := by
  rw [setLink_fresh hi]
  have hlen := child_length t j
  have hlen' := child_length (child t j) (s1.cnt (child t j) + 1)
  have hm := (Eff.addNode t s1 (child t j) title tag).mono
  have hne : child t j ≠ t := fun e => by rw [e] at hlen; omega
  have hne2 : child (child t j) (s1.cnt (child t j) + 1) ≠ child t j := fun e => by rw [e] at hlen'; omega
  constructor
  · show addTo (addTo _ _ _) _ _ = _
    rw [addNode_id, addNode_links, h.links, addAll_append]
    rfl
  · exact fun u => (h.mono u).trans (hm u)
  · intro o ho
    simp only [List.mem_append, List.mem_cons, List.not_mem_nil, or_false] at ho
    rcases ho with ho | rfl | rfl
    · obtain ⟨k, g1, g2, g3⟩ := h.src o ho
      exact ⟨k, g1, g2, g3.trans (hm _)⟩
    · refine ⟨_, rfl, (h.mono _).trans_lt (Nat.lt_succ_self _), ?_⟩
      show _ ≤ St.cnt (s1.addNode (child t j) title tag).2 _
      rw [cnt_addNode, if_pos rfl]
    · exact ⟨j, rfl, hj, hj'.trans (hm _)⟩
  · intro o ho
    simp only [List.mem_append, List.mem_cons, List.not_mem_nil, or_false] at ho
    rcases ho with ho | rfl | rfl
    · rcases h.tgt o ho with e | ⟨hl, w, k, g1, g2, g3⟩
      · exact .inl e
      · exact .inr ⟨hl, w, k, g1, g2, g3.trans (hm _)⟩
    · exact .inr ⟨hlen, t, j, rfl, hj, hj'.trans (hm _)⟩
    · exact .inl rfl
  · rw [inflow_append, ← List.singleton_append, inflow_append, inflow_single, inflow_single, if_neg hne, if_pos rfl, h.total, zero_add]
  · rintro n hn ⟨o, ho, hon⟩
    rw [inflow_append, outflow_append, ← List.singleton_append, inflow_append, outflow_append, inflow_single, outflow_single, inflow_single, outflow_single,
      if_neg (fun e : t = n => hn e.symm)]
    dsimp only
    by_cases hnc : n = child t j
    · subst hnc
      rw [if_pos rfl, if_neg hne2, hbal]
      ring
    · simp only [List.mem_append, List.mem_cons, List.not_mem_nil, or_false] at ho
      rcases ho with ho | rfl | rfl
      · have hz : child (child t j) (s1.cnt (child t j) + 1) ≠ n := ?_
        · rw [if_neg (fun e => hnc e.symm), if_neg hz, h.bal n hn ⟨o, ho, hon⟩]
        intro e
        obtain ⟨-, w, k, g1, g2, g3⟩ := (h.tgt o ho).resolve_left (by rw [hon]; exact hn)
        rw [hon, ← e] at g1
        obtain ⟨rfl, rfl⟩ := child_inj g1
        omega
      · exact absurd hon.symm hnc
      · exact absurd hon.symm hn
  · intro w k hk
    show (s1.addNode (child t j) title tag).2.nodes.get? _ = _
    rw [(Eff.addNode t s1 (child t j) title tag).nodes w k (hk.trans (h.mono _)), h.nodes w k hk]

/-- What holds in the loop over constants. -/
def FInv (t : Id) (s : St) (a : Fst) (ops : List ((Id × Id) × ℝ)) : Prop :=
  Inv s ∧ Inv a.st ∧ Eff t s a.st ops a.total ∧
    ∀ v n, a.vecs.get? v = some n → ∃ j, n = child t j ∧ s.cnt t < j ∧ j ≤ a.st.cnt t ∧ inflow ops n = outflow ops n

theorem vecNode_inv {t : Id} {s : St} {a : Fst} {ops : List ((Id × Id) × ℝ)} (h : FInv t s a ops) (f : Fixed) : FInv t s (vecNode t f a) ops := by
  unfold vecNode
  cases f.vec with
  | none => exact h
  | some v =>
    dsimp only
    split
    · obtain ⟨h0, h1, h2, h3⟩ := h
      have he := h2.seq (Eff.addNode t a.st t f.vecTitle .constraint)
      rw [List.append_nil, add_zero] at he
      refine ⟨h0, (Eff.addNode t a.st t f.vecTitle .constraint).inv h1, he, fun w n hw => ?_⟩
      dsimp only at hw ⊢
      rw [get?_set] at hw
      rw [cnt_addNode, if_pos rfl]
      split at hw
      · cases hw
        refine ⟨_, rfl, Nat.lt_succ_of_le (h2.mono t), le_rfl, ?_⟩
        rw [addNode_id, inflow_zero, outflow_zero]
        · intro e he hk
          obtain ⟨k, g1, -, g2⟩ := h2.src e he
          rw [hk] at g1
          obtain ⟨g3, g4⟩ := child_inj g1
          rw [← g3] at g2
          omega
        · intro e he hk
          rcases h2.tgt e he with g | ⟨-, w, k, g1, -, g2⟩
          · rw [g] at hk
            have := child_length t (a.st.cnt t + 1)
            rw [← hk] at this
            omega
          · rw [hk] at g1
            obtain ⟨rfl, rfl⟩ := child_inj g1
            omega
      · obtain ⟨j, g1, g2, g3, g4⟩ := h3 w n hw
        exact ⟨j, g1, g2, g3.trans (Nat.le_succ _), g4⟩
    · exact h

theorem fixStep_inv {t : Id} {s : St} {a : Fst} {ops : List ((Id × Id) × ℝ)} (h : FInv t s a ops) (f : Fixed) : ∃ ops', FInv t s (fixStep t a f) ops' := by
  have hb := vecNode_inv h f
  unfold fixStep
  generalize vecNode t f a = b at hb ⊢
  obtain ⟨h0, h1, h2, h3⟩ := hb
  dsimp only
  split
  · rename_i vt hvt
    obtain ⟨v, hv, hget⟩ := Option.bind_eq_some_iff.1 hvt
    obtain ⟨j, rfl, g2, g3, g4⟩ := h3 v vt hget
    have he := h2.elem h1 g2 g3 g4 f.title .subarray f.sens.value
    refine ⟨_, h0, he.inv h0, he, fun w n hw => ?_⟩
    obtain ⟨i, rfl, f2, f3, f4⟩ := h3 w n hw
    refine ⟨i, rfl, f2, f3.trans ((Eff.addNode t b.st (child t j) f.title .subarray).mono _), ?_⟩
    have hz : child (child t j) (b.st.cnt (child t j) + 1) ≠ child t i := by
      intro e
      have e1 := (child_inj e).1
      have := child_length t j
      rw [e1] at this
      exact absurd this (lt_irrefl _)
    have hz' : t ≠ child t i := by
      intro e
      have := child_length t i
      rw [← e] at this
      exact absurd this (lt_irrefl _)
    rw [inflow_append, outflow_append, ← List.singleton_append, inflow_append, outflow_append, inflow_single, outflow_single, inflow_single, outflow_single,
      if_neg hz, if_neg hz', f4]
    ring
  · have he := h2.seq (Eff.leaf h1 t f.title .constraint f.sens.value)
    refine ⟨_, h0, (Eff.leaf h1 t f.title .constraint f.sens.value).inv h1, he, fun w n hw => ?_⟩
    obtain ⟨j, rfl, g2, g3, g4⟩ := h3 w n hw
    refine ⟨j, rfl, g2, g3.trans ((Eff.leaf h1 t f.title .constraint f.sens.value).mono _), ?_⟩
    rw [inflow_append, outflow_append, inflow_single, outflow_single, if_neg, if_neg, g4]
    · intro e
      have := (child_inj e).2
      omega
    · intro e
      have := child_length t j
      rw [← e] at this
      exact absurd this (lt_irrefl _)

theorem linkFixed_eff {s : St} (hs : Inv s) (t : Id) (fs : List Fixed) :
    ∃ ops, Eff t s (linkFixed t fs s).1 ops (linkFixed t fs s).2 := by
  have key : ∀ (fs : List Fixed) (a : Fst), (∃ ops, FInv t s a ops) → ∃ ops, FInv t s (fs.foldl (fixStep t) a) ops := by
    intro fs
    induction fs with
    | nil => exact fun a h => h
    | cons f fs ih => exact fun a ⟨ops, h⟩ => ih _ (fixStep_inv h f)
  obtain ⟨ops, -, -, h, -⟩ := key fs ⟨s, [], 0⟩ ⟨[], hs, hs, Eff.refl t s, by simp⟩
  exact ⟨ops, h⟩

theorem linkFixed_total (t : Id) (fs : List Fixed) (s : St) : (linkFixed t fs s).2 = (fs.map (fun f => f.sens.value)).sum := by
  have h1 : ∀ (a : Fst) (f : Fixed), (fixStep t a f).total = a.total + f.sens.value := by
    intro a f
    have : (vecNode t f a).total = a.total := by
      unfold vecNode
      cases f.vec with
      | none => rfl
      | some v => dsimp only; split <;> rfl
    unfold fixStep
    dsimp only
    split <;> simp [this]
  have key : ∀ (fs : List Fixed) (a : Fst), (fs.foldl (fixStep t) a).total = a.total + (fs.map (fun f => f.sens.value)).sum := by
    intro fs
    induction fs with
    | nil => simp
    | cons f fs ih =>
      intro a
      rw [List.foldl_cons, ih, h1, List.map_cons, List.sum_cons]
      ring
  show (fs.foldl (fixStep t) ⟨s, [], 0⟩).total = _
  rw [key, zero_add]

/-! ### Links -/

variable {C V : Type}

theorem enter_eff {s : St} (hs : Inv s) (labeled top isVar : Bool) (model : Option (Str × List Fixed)) (t : Id) :
    let e := enter labeled top isVar model t s
    Inv e.2.2.1 ∧ ((e.1 = t ∧ e.2.1 = none ∧ ∃ ops, Eff t s e.2.2.1 ops e.2.2.2) ∨
      (e.1 = child t (s.cnt t + 1) ∧ e.2.1 = some t ∧ ∃ title tag ops, Eff e.1 (s.addNode t title tag).2 e.2.2.1 ops e.2.2.2)) := by
  unfold enter
  cases model with
  | none => exact ⟨hs, .inl ⟨rfl, rfl, [], Eff.refl t s⟩⟩
  | some m =>
    dsimp only
    cases labeled with
    | true => exact ⟨hs, .inl ⟨rfl, rfl, [], Eff.refl t s⟩⟩
    | false =>
      rw [if_neg (by simp)]
      cases top with
      | true =>
        cases isVar with
        | true => exact ⟨hs, .inl ⟨rfl, rfl, [], Eff.refl t s⟩⟩
        | false =>
          obtain ⟨ops, h⟩ := linkFixed_eff hs t m.2
          exact ⟨h.inv hs, .inl ⟨rfl, rfl, ops, h⟩⟩
      | false =>
        have hn := (Eff.addNode t s t m.1 .plain).inv hs
        cases isVar with
        | true => exact ⟨hn, .inr ⟨rfl, rfl, m.1, .plain, [], Eff.refl _ _⟩⟩
        | false =>
          obtain ⟨ops, h⟩ := linkFixed_eff hn (child t (s.cnt t + 1)) m.2
          exact ⟨h.inv hn, .inr ⟨rfl, rfl, m.1, .plain, ops, h⟩⟩

theorem leave_total (t : Id) (o : Option Id) (s : St) (x : ℝ) : (leave t o s x).2 = x := by
  cases o <;> rfl

theorem leave_eff {s : St} {labeled top isVar : Bool} {model : Option (Str × List Fixed)} {t : Id} (hs : Inv s) {r : St × ℝ}
    (h : let e := enter labeled top isVar model t s; ∃ ops, Eff e.1 e.2.2.1 r.1 ops r.2) :
    let e := enter labeled top isVar model t s
    ∃ ops, Eff t s (leave e.1 e.2.1 r.1 (e.2.2.2 + r.2)).1 ops (leave e.1 e.2.1 r.1 (e.2.2.2 + r.2)).2 := by
  obtain ⟨-, he⟩ := enter_eff hs labeled top isVar model t
  dsimp only at he h ⊢
  generalize enter labeled top isVar model t s = e at he h ⊢
  obtain ⟨ops, h⟩ := h
  rcases he with ⟨e1, e2, ops', h'⟩ | ⟨e1, e2, title, tag, ops', h'⟩
  · rw [e1] at h ⊢
    rw [e2]
    exact ⟨_, h'.seq h⟩
  · rw [e2]
    have h1 := h'.seq h
    rw [e1] at h1 ⊢
    exact ⟨_, Eff.node t title tag (.inl h1)⟩

mutual
theorem link_eff (S : Sol C V) (var : Option V) (labeled subarray top : Bool) (t : Id) {s : St} (hs : Inv s) :
    (c : CSet C) → (∃ ops, Eff t s (link S var labeled subarray top t s c).1 ops (link S var labeled subarray top t s c).2) ∨
      (labeled = true ∧ (link S var labeled subarray top t s c).1 = s)
  | .con c => by
    unfold link
    cases labeled with
    | true => exact .inr ⟨rfl, rfl⟩
    | false => exact .inl ⟨_, Eff.leaf hs t _ _ _⟩
  | .arr title cs => by
    left
    unfold link
    split
    · obtain ⟨ops, h⟩ := linkL_eff S var true (child t (s.cnt t + 1)) ((Eff.addNode t s t (short title) .constraint).inv hs) cs
      exact ⟨_, Eff.node t _ _ (.inl h)⟩
    · exact linkL_eff S var subarray t hs cs
  | .lst model cs => by
    left
    unfold link
    exact leave_eff hs (linkL_eff S var subarray _ (enter_eff hs labeled top var.isSome model t).1 cs)
  | .dct model cs => by
    left
    unfold link
    exact leave_eff hs (linkD_eff S var _ (enter_eff hs labeled top var.isSome model t).1 cs)
theorem linkL_eff (S : Sol C V) (var : Option V) (subarray : Bool) (t : Id) {s : St} (hs : Inv s) :
    (cs : List (CSet C)) → ∃ ops, Eff t s (linkL S var subarray t s cs).1 ops (linkL S var subarray t s cs).2
  | [] => ⟨[], Eff.refl t s⟩
  | c :: cs => by
    unfold linkL
    rcases link_eff S var false subarray false t hs c with ⟨ops, h⟩ | ⟨h, -⟩
    · obtain ⟨ops', h'⟩ := linkL_eff S var subarray t (h.inv hs) cs
      exact ⟨_, h.seq h'⟩
    · cases h
theorem linkD_eff (S : Sol C V) (var : Option V) (t : Id) {s : St} (hs : Inv s) :
    (cs : List (Str × CSet C)) → ∃ ops, Eff t s (linkD S var t s cs).1 ops (linkD S var t s cs).2
  | [] => ⟨[], Eff.refl t s⟩
  | (k, c) :: cs => by
    unfold linkD
    have hn := (Eff.addNode t s t k .plain).inv hs
    have h : ∃ ops, Eff t s ((link S var true false false (child t (s.cnt t + 1)) (s.addNode t k .plain).2 c).1.addLink (child t (s.cnt t + 1), t)
        (link S var true false false (child t (s.cnt t + 1)) (s.addNode t k .plain).2 c).2) ops
        (link S var true false false (child t (s.cnt t + 1)) (s.addNode t k .plain).2 c).2 := by
      rcases link_eff S var true false false (child t (s.cnt t + 1)) hn c with ⟨ops, h⟩ | ⟨-, h⟩
      · exact ⟨_, Eff.node t k .plain (.inl h)⟩
      · exact ⟨_, Eff.node t k .plain (.inr ⟨h, rfl⟩)⟩
    obtain ⟨ops, h⟩ := h
    obtain ⟨ops', h'⟩ := linkD_eff S var t (h.inv hs) cs
    exact ⟨_, h.seq h'⟩
end

/-! ### Totals -/

theorem enter_total {labeled top isVar : Bool} {model : Option (Str × List Fixed)} {t : Id} {s : St}
    (h : isVar = false → labeled = true → (model.map (·.2)).getD [] = []) :
    (enter labeled top isVar model t s).2.2.2 = if isVar then 0 else (((model.map (·.2)).getD []).map (fun f => f.sens.value)).sum := by
  unfold enter
  cases model with
  | none => cases isVar <;> simp
  | some m =>
    cases isVar with
    | true => cases labeled <;> cases top <;> simp
    | false =>
      cases labeled with
      | true =>
        have h := h rfl rfl
        simp only [Option.map_some, Option.getD_some] at h
        simp [h]
      | false => cases top <;> simp [linkFixed_total]

theorem bare_model {model : Option (Str × List Fixed)} {cs : List (CSet C)} (h : (CSet.lst model cs).Bare) : (model.map (·.2)).getD [] = [] := by
  cases model with
  | none => rfl
  | some m => exact h

theorem bare_model' {model : Option (Str × List Fixed)} {cs : List (Str × CSet C)} (h : (CSet.dct model cs).Bare) : (model.map (·.2)).getD [] = [] := by
  cases model with
  | none => rfl
  | some m => exact h

/-- What the links of a set bring in all. -/
noncomputable def worth (S : Sol C V) (var : Option V) (cons : List (Option Str × C)) (fixed : List Fixed) : ℝ :=
  (cons.map (fun c => leaf S var c.2)).sum + if var.isSome then 0 else (fixed.map (fun f => f.sens.value)).sum

theorem worth_append (S : Sol C V) (var : Option V) (a b : List (Option Str × C)) (f g : List Fixed) :
    worth S var (a ++ b) (f ++ g) = worth S var a f + worth S var b g := by
  unfold worth
  cases var with
  | none => simp; ring
  | some v => simp

mutual
theorem link_total (S : Sol C V) (var : Option V) (labeled subarray top : Bool) (t : Id) (s : St) (key : Option Str) :
    (c : CSet C) → (var = none → c.Keyless ∧ (labeled = true → c.Bare)) →
      (link S var labeled subarray top t s c).2 = worth S var (c.cons key) c.fixed
  | .con c, _ => by
    unfold link
    cases labeled <;> cases var <;> simp [worth, CSet.cons, CSet.fixed]
  | .arr title cs, h => by
    unfold link
    have hk : var = none → CSet.KeylessL cs := fun e => by simpa [CSet.Keyless] using (h e).1
    rw [show (CSet.arr title cs).cons key = CSet.consL cs by simp [CSet.cons], show (CSet.arr title cs).fixed = CSet.fixedL cs by simp [CSet.fixed]]
    split
    · dsimp only
      rw [leave_total]
      exact linkL_total S var true _ _ cs hk
    · exact linkL_total S var subarray _ _ cs hk
  | .lst model cs, h => by
    unfold link
    have hk : var = none → CSet.KeylessL cs := fun e => by simpa [CSet.Keyless] using (h e).1
    dsimp only
    rw [leave_total, linkL_total S var subarray _ _ cs hk, enter_total (fun e e' => bare_model ((h (by cases var <;> simp_all)).2 e')),
      show (CSet.lst model cs).cons key = [] ++ CSet.consL cs by simp [CSet.cons], show (CSet.lst model cs).fixed = (model.map (·.2)).getD [] ++ CSet.fixedL cs by simp [CSet.fixed],
      worth_append]
    simp [worth]
  | .dct model cs, h => by
    unfold link
    have hk : var = none → CSet.KeylessD cs := fun e => by simpa [CSet.Keyless] using (h e).1
    dsimp only
    rw [leave_total, linkD_total S var _ _ cs hk, enter_total (fun e e' => bare_model' ((h (by cases var <;> simp_all)).2 e')),
      show (CSet.dct model cs).cons key = [] ++ CSet.consD cs by simp [CSet.cons], show (CSet.dct model cs).fixed = (model.map (·.2)).getD [] ++ CSet.fixedD cs by simp [CSet.fixed],
      worth_append]
    simp [worth]
theorem linkL_total (S : Sol C V) (var : Option V) (subarray : Bool) (t : Id) (s : St) :
    (cs : List (CSet C)) → (var = none → CSet.KeylessL cs) → (linkL S var subarray t s cs).2 = worth S var (CSet.consL cs) (CSet.fixedL cs)
  | [], _ => by
    unfold linkL
    simp [worth, CSet.consL, CSet.fixedL]
  | c :: cs, h => by
    unfold linkL
    have hk : var = none → c.Keyless ∧ CSet.KeylessL cs := fun e => by simpa [CSet.KeylessL] using h e
    dsimp only
    rw [link_total S var false subarray false t s none c (fun e => ⟨(hk e).1, by simp⟩), linkL_total S var subarray t _ cs (fun e => (hk e).2),
      show CSet.consL (c :: cs) = c.cons none ++ CSet.consL cs by simp [CSet.consL], show CSet.fixedL (c :: cs) = c.fixed ++ CSet.fixedL cs by simp [CSet.fixedL], worth_append]
theorem linkD_total (S : Sol C V) (var : Option V) (t : Id) (s : St) :
    (cs : List (Str × CSet C)) → (var = none → CSet.KeylessD cs) → (linkD S var t s cs).2 = worth S var (CSet.consD cs) (CSet.fixedD cs)
  | [], _ => by
    unfold linkD
    simp [worth, CSet.consD, CSet.fixedD]
  | (k, c) :: cs, h => by
    unfold linkD
    have hk : var = none → c.Bare ∧ c.Keyless ∧ CSet.KeylessD cs := fun e => by simpa [CSet.KeylessD] using h e
    dsimp only
    rw [link_total S var true false false _ _ (some k) c (fun e => ⟨(hk e).2.1, fun _ => (hk e).1⟩), linkD_total S var t _ cs (fun e => (hk e).2.2),
      show CSet.consD ((k, c) :: cs) = c.cons (some k) ++ CSet.consD cs by simp [CSet.consD], show CSet.fixedD ((k, c) :: cs) = c.fixed ++ CSet.fixedD cs by simp [CSet.fixedD],
      worth_append]
end

/-! ### Constraints in the diagram -/

/-- A constraint has a node with its text, or its key, at or above `t`, and a link with its sensitivity. -/
def Has (S : Sol C V) (var : Option V) (t : Id) (s : St) (kc : Option Str × C) : Prop :=
  ∃ u k tag, t.length ≤ u.length ∧ k ≤ s.cnt u ∧ s.nodes.get? (child u k) = some ⟨kc.1.getD (short (S.text kc.2)), tag⟩ ∧
    s.links.get? (child u k, u) = some (leaf S var kc.2)

theorem Has.keep {S : Sol C V} {var : Option V} {s s' : St} {t t' : Id} {ops : List ((Id × Id) × ℝ)} {x : ℝ} {kc : Option Str × C} (h : Has S var t s kc)
    (he : Eff t' s s' ops x) : Has S var t s' kc := by
  obtain ⟨u, k, tag, h0, h1, h2, h3⟩ := h
  exact ⟨u, k, tag, h0, h1.trans (he.mono u), by rw [he.nodes u k h1, h2], by rw [he.keep h1, h3]⟩

theorem Has.down {S : Sol C V} {var : Option V} {s : St} {t : Id} {j : Nat} {x : ℝ} {kc : Option Str × C} (h : Has S var (child t j) s kc) :
    Has S var t (s.addLink (child t j, t) x) kc := by
  obtain ⟨u, k, tag, h0, h1, h2, h3⟩ := h
  have hl := child_length t j
  refine ⟨u, k, tag, by omega, h1, h2, ?_⟩
  show (addTo _ _ _).get? _ = _
  rw [get?_addTo_ne, h3]
  intro e
  have e := (Prod.mk.inj e).2
  rw [← e] at h0
  omega

theorem leave_has {S : Sol C V} {var : Option V} {s s' : St} {labeled top isVar : Bool} {model : Option (Str × List Fixed)} {t : Id} {x : ℝ} {kc : Option Str × C}
    (hs : Inv s) (h : Has S var (enter labeled top isVar model t s).1 s' kc) :
    Has S var t (leave (enter labeled top isVar model t s).1 (enter labeled top isVar model t s).2.1 s' x).1 kc := by
  obtain ⟨-, ⟨e1, e2, -⟩ | ⟨e1, e2, -⟩⟩ := enter_eff hs labeled top isVar model t
  · rw [e1] at h
    rw [e2]
    exact h
  · rw [e2]
    rw [e1] at h ⊢
    exact h.down

mutual
theorem link_has (S : Sol C V) (var : Option V) (labeled subarray top : Bool) (t : Id) {s : St} (hs : Inv s) :
    (c : CSet C) → (labeled = false ∨ ∀ x, c ≠ .con x) → ∀ kc ∈ c.cons none, Has S var t (link S var labeled subarray top t s c).1 kc
  | .con c, h, kc, hkc => by
    rcases h with rfl | h
    · unfold link
      rw [CSet.cons, List.mem_singleton] at hkc
      subst hkc
      refine ⟨t, s.cnt t + 1, if subarray then .subarray else .constraint, le_rfl, ?_, ?_, ?_⟩
      · show _ ≤ St.cnt (s.addNode t (short (S.text c)) (if subarray then .subarray else .constraint)).2 t
        rw [cnt_addNode, if_pos rfl]
      · show (PyDict.set _ _ _).get? _ = _
        rw [get?_set, if_pos (by rw [beq_iff_eq])]
        rfl
      · show (PyDict.set _ _ _).get? _ = _
        rw [get?_set, if_pos (by rw [beq_iff_eq]; rfl)]
    · exact absurd rfl (h c)
  | .arr title cs, _, kc, hkc => by
    unfold link
    rw [CSet.cons] at hkc
    split
    · exact (linkL_has S var true (child t (s.cnt t + 1)) ((Eff.addNode t s t (short title) .constraint).inv hs) cs kc hkc).down
    · exact linkL_has S var subarray t hs cs kc hkc
  | .lst model cs, _, kc, hkc => by
    unfold link
    rw [CSet.cons] at hkc
    exact leave_has hs (linkL_has S var subarray _ (enter_eff hs labeled top var.isSome model t).1 cs kc hkc)
  | .dct model cs, _, kc, hkc => by
    unfold link
    rw [CSet.cons] at hkc
    exact leave_has hs (linkD_has S var _ (enter_eff hs labeled top var.isSome model t).1 cs kc hkc)
theorem linkL_has (S : Sol C V) (var : Option V) (subarray : Bool) (t : Id) {s : St} (hs : Inv s) :
    (cs : List (CSet C)) → ∀ kc ∈ CSet.consL cs, Has S var t (linkL S var subarray t s cs).1 kc
  | [], kc, hkc => by simp [CSet.consL] at hkc
  | c :: cs, kc, hkc => by
    unfold linkL
    rcases link_eff S var false subarray false t hs c with ⟨ops, h⟩ | ⟨h, -⟩
    · rw [CSet.consL, List.mem_append] at hkc
      rcases hkc with hkc | hkc
      · obtain ⟨ops', h'⟩ := linkL_eff S var subarray t (h.inv hs) cs
        exact (link_has S var false subarray false t hs c (.inl rfl) kc hkc).keep h'
      · exact linkL_has S var subarray t (h.inv hs) cs kc hkc
    · cases h
theorem linkD_has (S : Sol C V) (var : Option V) (t : Id) {s : St} (hs : Inv s) :
    (cs : List (Str × CSet C)) → ∀ kc ∈ CSet.consD cs, Has S var t (linkD S var t s cs).1 kc
  | [], kc, hkc => by simp [CSet.consD] at hkc
  | (k, c) :: cs, kc, hkc => by
    unfold linkD
    have hn := (Eff.addNode t s t k .plain).inv hs
    have h : ∃ ops, Eff t s ((link S var true false false (child t (s.cnt t + 1)) (s.addNode t k .plain).2 c).1.addLink (child t (s.cnt t + 1), t)
        (link S var true false false (child t (s.cnt t + 1)) (s.addNode t k .plain).2 c).2) ops
        (link S var true false false (child t (s.cnt t + 1)) (s.addNode t k .plain).2 c).2 := by
      rcases link_eff S var true false false (child t (s.cnt t + 1)) hn c with ⟨ops, h⟩ | ⟨-, h⟩
      · exact ⟨_, Eff.node t k .plain (.inl h)⟩
      · exact ⟨_, Eff.node t k .plain (.inr ⟨h, rfl⟩)⟩
    obtain ⟨ops, h⟩ := h
    rw [CSet.consD, List.mem_append] at hkc
    rcases hkc with hkc | hkc
    · obtain ⟨ops', h'⟩ := linkD_eff S var t (h.inv hs) cs
      refine Has.keep (?_ : Has S var t ((link S var true false false (child t (s.cnt t + 1)) (s.addNode t k .plain).2 c).1.addLink (child t (s.cnt t + 1), t)
        (link S var true false false (child t (s.cnt t + 1)) (s.addNode t k .plain).2 c).2) kc) h'
      cases c with
      | con c =>
        rw [CSet.cons, List.mem_singleton] at hkc
        subst hkc
        simp only [link, if_true]
        refine ⟨t, s.cnt t + 1, .plain, le_rfl, ?_, ?_, ?_⟩
        · show _ ≤ St.cnt (s.addNode t k .plain).2 t
          rw [cnt_addNode, if_pos rfl]
        · show (PyDict.set _ _ _).get? _ = _
          rw [get?_set, if_pos (by rw [beq_iff_eq])]
          rfl
        · show (addTo _ _ _).get? _ = _
          unfold addTo
          rw [get?_set, if_pos (by rw [beq_iff_eq]), addNode_links, get?_fresh hs (Nat.lt_succ_self _)]
          simp
      | arr title cs' =>
        exact (link_has S var true false false (child t (s.cnt t + 1)) hn _ (.inr (by simp)) kc (by rw [CSet.cons] at hkc ⊢; exact hkc)).down
      | lst model cs' =>
        exact (link_has S var true false false (child t (s.cnt t + 1)) hn _ (.inr (by simp)) kc (by rw [CSet.cons] at hkc ⊢; exact hkc)).down
      | dct model cs' =>
        exact (link_has S var true false false (child t (s.cnt t + 1)) hn _ (.inr (by simp)) kc (by rw [CSet.cons] at hkc ⊢; exact hkc)).down
    · exact linkD_has S var t (h.inv hs) cs kc hkc
end

/-! ### Diagrams -/

theorem inv_empty : Inv St.empty := ⟨by simp [St.empty, WF], by simp [St.empty]⟩

theorem inv_nodes {s : St} (hs : Inv s) (n : PyDict Id Node) : Inv { s with nodes := n } := hs

/-- From what was done to the links themselves. -/
theorem conserved {t : Id} {s : St} {ops : List ((Id × Id) × ℝ)} {x : ℝ} {n : PyDict Id Node} (h : Eff t { St.empty with nodes := n } s ops x) :
    Conserved t s.links ∧ inflow s.links t = x := by
  have hi := h.inv (inv_nodes inv_empty n)
  have hl : s.links = addAll [] ops := h.links
  refine ⟨⟨fun e he e' he' hk => ?_, fun m hm hex => ?_⟩, ?_⟩
  · obtain ⟨k, h1, -⟩ := hi.2 e he
    obtain ⟨k', h1', -⟩ := hi.2 e' he'
    have h2 : e.1 = e'.1 := Prod.ext hk ((child_inj (h1.symm.trans (hk.trans h1'))).1)
    obtain ⟨q, x⟩ := e
    obtain ⟨q', x'⟩ := e'
    dsimp only at h2
    subst h2
    have h3 := get?_of_mem hi.1 he
    rw [get?_of_mem hi.1 he'] at h3
    rw [Option.some.inj h3]
  · obtain ⟨e, he, rfl⟩ := hex
    rw [hl] at he ⊢
    rw [inflow_addAll, outflow_addAll, inflow_nil, outflow_nil, zero_add, zero_add]
    rcases mem_addAll he with ⟨e', he', -⟩ | ⟨o, ho, hk⟩
    · simp at he'
    · exact h.bal _ hm ⟨o, ho, by rw [hk]⟩
  · rw [hl, inflow_addAll, inflow_nil, zero_add, h.total]

theorem diagram_eff (S : Sol C V) (label : Str) (cset : CSet C) {s : St} (hs : Inv s) :
    ∃ ops, Eff label { s with nodes := s.nodes.set label ⟨label, .plain⟩ } (diagram S label cset s) ops
      (link S none false false true label { s with nodes := s.nodes.set label ⟨label, .plain⟩ } cset).2 := by
  rcases link_eff S none false false true label (inv_nodes hs (s.nodes.set label ⟨label, .plain⟩)) cset with h | ⟨h, -⟩
  · exact h
  · cases h

theorem costNode_eff {s : St} (hs : Inv s) (t : Id) (cost : Option ℝ) :
    ∃ ops, Eff t s (costNode t cost s) ops (cost.getD 0) ∧ (∀ o ∈ ops, o.1 = (child t (s.cnt t + 1), t)) ∧ s.cnt t ≤ (costNode t cost s).cnt t := by
  cases cost with
  | none => exact ⟨[], Eff.refl t s, by simp, le_rfl⟩
  | some x =>
    have h := Eff.leaf hs t "[cost function]".toList .plain x
    exact ⟨_, h, by simp, h.mono t⟩

theorem diagramOf_eff (S : Sol C V) (label : Str) (v : V) (varlabel : Str) (cost : Option ℝ) (cset : CSet C) {s : St} (hs : Inv s) :
    let s0 : St := { s with nodes := s.nodes.set varlabel ⟨varlabel, .plain⟩ }
    let n := s0.addNode varlabel label .plain
    ∃ ops, Eff varlabel s0 (diagramOf S label v varlabel cost cset s) ops (cost.getD 0 + (link S (some v) false false true n.1 (costNode varlabel cost n.2) cset).2) := by
  intro s0 n
  have h0 : Inv s0 := hs
  have hn := Eff.addNode varlabel s0 varlabel label .plain
  have hni := hn.inv h0
  obtain ⟨a, ha, hk, hm⟩ := costNode_eff hni varlabel cost
  have hc : (s0.addNode varlabel label .plain).2.cnt varlabel = s0.cnt varlabel + 1 := by rw [cnt_addNode, if_pos rfl]
  have hai := ha.inv hni
  have hseq := hn.seq ha
  rw [List.nil_append, zero_add] at hseq
  rcases link_eff S (some v) false false true (child varlabel (s0.cnt varlabel + 1)) hai cset with ⟨b, h⟩ | ⟨h, -⟩
  · have hfin := Eff.down hseq (j := s0.cnt varlabel + 1) (Nat.lt_succ_self _) (hc ▸ hm) (fun o ho => by
        rw [hk o ho]
        refine ⟨fun e => ?_, fun e => ?_⟩
        · have := (child_inj e).2
          omega
        · have := child_length varlabel (s0.cnt varlabel + 1)
          dsimp only at e
          rw [← e] at this
          omega) (.inl h)
    have heq : diagramOf S label v varlabel cost cset s = (link S (some v) false false true (child varlabel (s0.cnt varlabel + 1)) (costNode varlabel cost n.2) cset).1.addLink
        (child varlabel (s0.cnt varlabel + 1), varlabel) (link S (some v) false false true (child varlabel (s0.cnt varlabel + 1)) (costNode varlabel cost n.2) cset).2 := by
      have hnone : (link S (some v) false false true (child varlabel (s0.cnt varlabel + 1)) (costNode varlabel cost n.2) cset).1.links.get?
          (child varlabel (s0.cnt varlabel + 1), varlabel) = none := by
        show PyDict.get? (link S (some v) false false true (child varlabel (s0.cnt varlabel + 1)) (costNode varlabel cost (s0.addNode varlabel label .plain).2) cset).1.links _ = none
        rw [h.links, get?_addAll, ha.links, get?_addAll]
        · exact get?_fresh h0 (Nat.lt_succ_self _)
        · intro o ho e
          rw [hk o ho] at e
          have := (child_inj (Prod.mk.inj e).1).2
          omega
        · intro o ho e
          have hl := child_length varlabel (s0.cnt varlabel + 1)
          rcases h.tgt o ho with g | ⟨g, -⟩
          · rw [e] at g
            dsimp only at g
            rw [← g] at hl
            omega
          · rw [e] at g
            dsimp only at g
            omega
      unfold St.addLink addTo
      rw [hnone, Option.getD_none, zero_add]
      rfl
    rw [heq]
    exact ⟨_, hfin⟩
  · cases h

theorem diagram_has (S : Sol C V) (label : Str) (cset : CSet C) {s : St} (hs : Inv s) : ∀ kc ∈ cset.cons none, Has S none label (diagram S label cset s) kc :=
  link_has S none false false true label (inv_nodes hs _) cset (.inl rfl)

theorem diagramOf_has (S : Sol C V) (label : Str) (v : V) (varlabel : Str) (cost : Option ℝ) (cset : CSet C) {s : St} (hs : Inv s) :
    ∀ kc ∈ cset.cons none, Has S (some v) varlabel (diagramOf S label v varlabel cost cset s) kc := by
  intro kc hkc
  have hni := (Eff.addNode varlabel { s with nodes := s.nodes.set varlabel ⟨varlabel, .plain⟩ } varlabel label .plain).inv (inv_nodes hs _)
  obtain ⟨a, ha, -, -⟩ := costNode_eff hni varlabel cost
  obtain ⟨u, k, tag, h0, h1, h2, h3⟩ := link_has S (some v) false false true (child varlabel (s.cnt varlabel + 1)) (ha.inv hni) cset (.inl rfl) kc hkc
  have hl := child_length varlabel (s.cnt varlabel + 1)
  refine ⟨u, k, tag, by omega, h1, h2, ?_⟩
  show (PyDict.set _ _ _).get? _ = _
  rw [get?_set, if_neg]
  · exact h3
  · rw [beq_iff_eq]
    intro e
    have e := (Prod.mk.inj e).2
    rw [← e] at h0
    omega

/-- A further diagram adds to what is there. -/
theorem inflow_more {t : Id} {s s' : St} {ops : List ((Id × Id) × ℝ)} {x : ℝ} (h : Eff t s s' ops x) : inflow s'.links t = inflow s.links t + x := by
  rw [h.links, inflow_addAll, h.total]

/-! ### Sizes -/

theorem eps_pos : 0 < eps := by unfold eps; positivity

theorem leaf_near (S : Sol C V) (var : Option V) (c : C) : |leaf S var c - S.sens var c| ≤ eps := by
  have he := eps_pos
  cases var with
  | none =>
    simp only [leaf, Sol.sens]
    cases S.csenss c with
    | none => simp [he.le]
    | some x =>
      simp only [Option.getD_some]
      split
      · rename_i h
        rw [h, sub_zero, abs_neg, abs_of_pos he]
      · simp [he.le]
  | some v =>
    simp only [leaf, Sol.sens]
    cases S.vss c with
    | none =>
      simp only [Option.bind_none, Option.getD_none, sub_zero]
      split
      · rw [abs_of_pos he]
      · simp [he.le]
    | some d =>
      simp only [Option.bind_some]
      cases d v with
      | none => simp [he.le]
      | some x =>
        simp only [Option.getD_some]
        split
        · rename_i h
          rw [h, sub_zero, abs_of_pos he]
        · simp [he.le]

theorem value_near (x : Sens) : |x.value - -x.size| ≤ eps := by
  have he := eps_pos
  cases x with
  | missing => simp [Sens.value, Sens.size, abs_of_pos he]
  | nan => simp [Sens.value, Sens.size, abs_of_pos he]
  | val x => simp [Sens.value, Sens.size, he.le]

theorem sum_near {α : Type} (f g : α → ℝ) (h : ∀ a, |f a - g a| ≤ eps) (l : List α) : |(l.map f).sum - (l.map g).sum| ≤ eps * l.length := by
  induction l with
  | nil => simp
  | cons a l ih =>
    simp only [List.map_cons, List.sum_cons, List.length_cons, Nat.cast_add, Nat.cast_one]
    have := h a
    have h2 := abs_add_le (f a - g a) ((l.map f).sum - (l.map g).sum)
    rw [show f a + (l.map f).sum - (g a + (l.map g).sum) = f a - g a + ((l.map f).sum - (l.map g).sum) by ring]
    linarith

/-! ### Signs -/

/-- No link has a value above zero. -/
def Down (s : St) : Prop := ∀ e ∈ s.links, e.2 ≤ 0

theorem Down.addLink {s : St} (h : Down s) {k : Id × Id} {x : ℝ} (hx : x ≤ 0) : Down (s.addLink k x) := by
  intro e he
  rcases keys_beq_of_mem_set he with ⟨-, h1⟩ | h1
  · rw [h1]
    have : (s.links.get? k).getD 0 ≤ 0 := by
      cases hg : s.links.get? k with
      | none => simp
      | some y =>
        obtain ⟨q, hy, hq⟩ := exists_mem_of_get? hg
        simpa using h _ hy
    linarith
  · exact h e h1

theorem Down.setLink {s : St} (h : Down s) {k : Id × Id} {x : ℝ} (hx : x ≤ 0) : Down (s.setLink k x) := by
  intro e he
  rcases keys_beq_of_mem_set he with ⟨-, h1⟩ | h1
  · rw [h1]; exact hx
  · exact h e h1

theorem Down.addNode {s : St} (h : Down s) (t : Id) (title : Str) (tag : Tag) : Down (s.addNode t title tag).2 := h

theorem leaf_nonpos (S : Sol C V) (c : C) : leaf S none c ≤ 0 := by
  have he := eps_pos
  simp only [leaf]
  cases S.csenss c with
  | none => simp
  | some x =>
    dsimp only
    split
    · linarith
    · simp

theorem linkFixed_down {t : Id} {fs : List Fixed} (hf : ∀ f ∈ fs, f.sens.value ≤ 0) {s : St} (hs : Down s) :
    Down (linkFixed t fs s).1 ∧ (linkFixed t fs s).2 ≤ 0 := by
  have key : ∀ (fs : List Fixed) (a : Fst), (∀ f ∈ fs, f.sens.value ≤ 0) → Down a.st → a.total ≤ 0 →
      Down (fs.foldl (fixStep t) a).st ∧ (fs.foldl (fixStep t) a).total ≤ 0 := by
    intro fs
    induction fs with
    | nil => exact fun a _ h h' => ⟨h, h'⟩
    | cons f fs ih =>
      intro a hf h h'
      have hx := hf f (by simp)
      have hv : Down (vecNode t f a).st ∧ (vecNode t f a).total ≤ 0 := by
        unfold vecNode
        cases f.vec with
        | none => exact ⟨h, h'⟩
        | some v =>
          dsimp only
          split
          · exact ⟨h.addNode _ _ _, h'⟩
          · exact ⟨h, h'⟩
      refine ih _ (fun g hg => hf g (by simp [hg])) ?_ ?_
      · unfold fixStep
        dsimp only
        split
        · exact ((hv.1.addNode _ _ _).setLink hx).addLink hx
        · exact (hv.1.addNode _ _ _).setLink hx
      · unfold fixStep
        dsimp only
        split
        · show _ + _ ≤ _
          linarith [hv.2]
        · show _ + _ ≤ _
          linarith [hv.2]
  exact key fs ⟨s, [], 0⟩ hf hs le_rfl

theorem enter_down {labeled top isVar : Bool} {model : Option (Str × List Fixed)} {t : Id} {s : St} (hs : Down s)
    (hf : ∀ f ∈ (model.map (·.2)).getD [], f.sens.value ≤ 0) :
    Down (enter labeled top isVar model t s).2.2.1 ∧ (enter labeled top isVar model t s).2.2.2 ≤ 0 := by
  unfold enter
  cases model with
  | none => exact ⟨hs, le_rfl⟩
  | some m =>
    have hf : ∀ f ∈ m.2, f.sens.value ≤ 0 := hf
    cases labeled <;> cases top <;> cases isVar
    · exact linkFixed_down hf (hs.addNode _ _ _)
    · exact ⟨hs.addNode _ _ _, le_rfl⟩
    · exact linkFixed_down hf hs
    all_goals exact ⟨hs, le_rfl⟩

theorem leave_down {t : Id} {o : Option Id} {s : St} {x : ℝ} (hs : Down s) (hx : x ≤ 0) : Down (leave t o s x).1 ∧ (leave t o s x).2 ≤ 0 := by
  cases o with
  | none => exact ⟨hs, hx⟩
  | some p => exact ⟨hs.addLink hx, hx⟩

mutual
theorem link_down (S : Sol C V) (labeled subarray top : Bool) (t : Id) {s : St} (hs : Down s) :
    (c : CSet C) → (∀ f ∈ c.fixed, f.sens.value ≤ 0) →
      Down (link S none labeled subarray top t s c).1 ∧ (link S none labeled subarray top t s c).2 ≤ 0
  | .con c, _ => by
    unfold link
    dsimp only
    split
    · exact ⟨hs, leaf_nonpos S c⟩
    · exact ⟨(hs.addNode _ _ _).setLink (leaf_nonpos S c), leaf_nonpos S c⟩
  | .arr title cs, h => by
    unfold link
    rw [CSet.fixed] at h
    split
    · have hr := linkL_down S true (s.addNode t (short title) .constraint).1 (hs.addNode t (short title) .constraint) cs h
      exact leave_down hr.1 hr.2
    · exact linkL_down S subarray t hs cs h
  | .lst model cs, h => by
    unfold link
    rw [CSet.fixed] at h
    have he := enter_down (labeled := labeled) (top := top) (isVar := (none : Option V).isSome) (t := t) hs (fun f hf => h f (List.mem_append_left _ hf))
    have hr := linkL_down S subarray (enter labeled top (none : Option V).isSome model t s).1 he.1 cs (fun f hf => h f (List.mem_append_right _ hf))
    exact leave_down hr.1 (by linarith [he.2, hr.2])
  | .dct model cs, h => by
    unfold link
    rw [CSet.fixed] at h
    have he := enter_down (labeled := labeled) (top := top) (isVar := (none : Option V).isSome) (t := t) hs (fun f hf => h f (List.mem_append_left _ hf))
    have hr := linkD_down S (enter labeled top (none : Option V).isSome model t s).1 he.1 cs (fun f hf => h f (List.mem_append_right _ hf))
    exact leave_down hr.1 (by linarith [he.2, hr.2])
theorem linkL_down (S : Sol C V) (subarray : Bool) (t : Id) {s : St} (hs : Down s) :
    (cs : List (CSet C)) → (∀ f ∈ CSet.fixedL cs, f.sens.value ≤ 0) → Down (linkL S none subarray t s cs).1 ∧ (linkL S none subarray t s cs).2 ≤ 0
  | [], _ => ⟨hs, le_rfl⟩
  | c :: cs, h => by
    unfold linkL
    rw [CSet.fixedL] at h
    have h1 := link_down S false subarray false t hs c (fun f hf => h f (List.mem_append_left _ hf))
    have h2 := linkL_down S subarray t h1.1 cs (fun f hf => h f (List.mem_append_right _ hf))
    exact ⟨h2.1, by dsimp only; linarith [h1.2, h2.2]⟩
theorem linkD_down (S : Sol C V) (t : Id) {s : St} (hs : Down s) :
    (cs : List (Str × CSet C)) → (∀ f ∈ CSet.fixedD cs, f.sens.value ≤ 0) → Down (linkD S none t s cs).1 ∧ (linkD S none t s cs).2 ≤ 0
  | [], _ => ⟨hs, le_rfl⟩
  | (k, c) :: cs, h => by
    unfold linkD
    rw [CSet.fixedD] at h
    have h1 := link_down S true false false (s.addNode t k .plain).1 (hs.addNode t k .plain) c (fun f hf => h f (List.mem_append_left _ hf))
    have h2 := linkD_down S t (h1.1.addLink (k := ((s.addNode t k .plain).1, t)) h1.2) cs (fun f hf => h f (List.mem_append_right _ hf))
    exact ⟨h2.1, by dsimp only; linarith [h1.2, h2.2]⟩
end

/-! ### What is shown -/

theorem filterLinks_few {m : Nat} {f : (Id × Id) × ℝ → Bool} {l : PyDict (Id × Id) ℝ} (h : l.length ≤ m) : filterLinks m false f l = l := by
  unfold filterLinks
  rw [if_neg]
  simp only [Bool.or_false, decide_eq_true_eq]
  omega

theorem cull_few {m d : Nat} {l : PyDict (Id × Id) ℝ} (h : l.length ≤ m) : cull m d l = l := by
  cases d with
  | zero => rfl
  | succ d =>
    unfold cull
    rw [if_neg (fun e => by omega)]

theorem shown_few {m : Nat} {c : ℝ} {s : St} (h : (s.links.filter (fun e => decide (c < |e.2|))).length ≤ m) :
    shown c m true s = s.links.filter (fun e => decide (c < |e.2|)) := by
  unfold shown
  have h1 : filterLinks m true (fun e => decide (c < |e.2|)) s.links = s.links.filter (fun e => decide (c < |e.2|)) := by
    unfold filterLinks
    rw [if_pos (by simp)]
  dsimp only
  rw [h1, if_pos rfl, filterLinks_few h, filterLinks_few h, cull_few h, filterLinks_few h]

theorem sum_filter_ne {l : List ((Id × Id) × ℝ)} (p : (Id × Id) × ℝ → Bool) : (((l.filter (fun e => decide (0 < |e.2|))).filter p).map (·.2)).sum = ((l.filter p).map (·.2)).sum := by
  induction l with
  | nil => rfl
  | cons e l ih =>
    by_cases h : 0 < |e.2|
    · rw [List.filter_cons_of_pos (by simpa using h), List.filter_cons, List.filter_cons]
      split
      · rw [List.map_cons, List.sum_cons, ih, List.map_cons, List.sum_cons]
      · exact ih
    · rw [List.filter_cons_of_neg (by simpa using h), ih, List.filter_cons]
      have h0 : e.2 = 0 := by
        by_contra hne
        exact h (abs_pos.2 hne)
      split
      · rw [List.map_cons, List.sum_cons, h0, zero_add]
      · rfl

theorem conserved_filter {root : Id} {l : List ((Id × Id) × ℝ)} (h : Conserved root l) : Conserved root (l.filter (fun e => decide (0 < |e.2|))) where
  one e he e' he' := h.one e (List.mem_of_mem_filter he) e' (List.mem_of_mem_filter he')
  flow n hn := by
    rintro ⟨e, he, hk⟩
    have := h.flow n hn ⟨e, List.mem_of_mem_filter he, hk⟩
    unfold inflow outflow at this ⊢
    rw [sum_filter_ne, sum_filter_ne, this]

theorem inflow_abs {l : List ((Id × Id) × ℝ)} (h : ∀ e ∈ l, e.2 ≤ 0) (n : Id) : inflow (l.map (fun e => (e.1, |e.2|))) n = -inflow l n := by
  induction l with
  | nil => simp [inflow]
  | cons e l ih =>
    rw [List.map_cons, ← List.singleton_append, inflow_append, inflow_single, ← List.singleton_append (l := l), inflow_append, ih (fun e he => h e (by simp [he])),
      show [e] = [(e.1, e.2)] from rfl, inflow_single, abs_of_nonpos (h e (by simp))]
    split <;> ring

theorem outflow_abs {l : List ((Id × Id) × ℝ)} (h : ∀ e ∈ l, e.2 ≤ 0) (n : Id) : outflow (l.map (fun e => (e.1, |e.2|))) n = -outflow l n := by
  induction l with
  | nil => simp [outflow]
  | cons e l ih =>
    rw [List.map_cons, ← List.singleton_append, outflow_append, outflow_single, ← List.singleton_append (l := l), outflow_append, ih (fun e he => h e (by simp [he])),
      show [e] = [(e.1, e.2)] from rfl, outflow_single, abs_of_nonpos (h e (by simp))]
    split <;> ring

theorem conserved_abs {root : Id} {l : List ((Id × Id) × ℝ)} (h : Conserved root l) (hl : ∀ e ∈ l, e.2 ≤ 0) : Conserved root (l.map (fun e => (e.1, |e.2|))) where
  one := by
    simp only [List.mem_map]
    rintro _ ⟨e, he, rfl⟩ _ ⟨e', he', rfl⟩ hk
    rw [h.one e he e' he' hk]
  flow n hn := by
    rintro ⟨_, he, hk⟩
    obtain ⟨e, he', rfl⟩ := List.mem_map.1 he
    rw [inflow_abs hl, outflow_abs hl, h.flow n hn ⟨e, he', hk⟩]

theorem sum_map_neg' {α : Type} (f : α → ℝ) (l : List α) : (l.map (fun a => -f a)).sum = -(l.map f).sum := by
  induction l with
  | nil => simp
  | cons a l ih => rw [List.map_cons, List.sum_cons, ih, List.map_cons, List.sum_cons]; ring

theorem child_ne (t : Id) (n : Nat) : child t n ≠ t := fun e => by
  have := child_length t n
  rw [e] at this
  exact absurd this (lt_irrefl _)

theorem count_child (t : Id) (n : Nat) : (child t n).count '.' = t.count '.' + 1 := by
  unfold child
  rw [List.count_append, List.count_cons_self, List.count_eq_zero.2 (?_ : '.' ∉ pad4 n)]
  intro h
  exact absurd (pad4_digit h) (by decide)

/-- All links are of nodes just below `label` that have no tag. -/
def Flat (label : Id) (s : St) : Prop := ∀ e ∈ s.links, ∃ k, k ≤ s.cnt label ∧ e.1.1 = child label k ∧ (∃ title, s.nodes.get? e.1.1 = some ⟨title, .plain⟩) ∧ e.2 ≠ 0

theorem linkD_flat (S : Sol C V) (label : Id) (key : Str) (c : C) (hc : leaf S none c ≠ 0) (n : Nat) {s : St} (hs : Inv s) (hf : Flat label s) :
    Flat label (linkD S none label s (List.replicate n (key, .con c))).1 ∧
      (linkD S none label s (List.replicate n (key, .con c))).1.links.length = s.links.length + n := by
  induction n generalizing s with
  | zero => exact ⟨hf, rfl⟩
  | succ n ih =>
    rw [List.replicate_succ]
    unfold linkD
    simp only [link, if_true]
    have hnone := get?_fresh hs (Nat.lt_succ_self (s.cnt label))
    have hl : ((s.addNode label key .plain).2.addLink ((s.addNode label key .plain).1, label) (leaf S none c)).links =
        s.links ++ [((child label (s.cnt label + 1), label), leaf S none c)] := by
      show PyDict.set s.links (child label (s.cnt label + 1), label) ((s.links.get? (child label (s.cnt label + 1), label)).getD 0 + _) = _
      rw [hnone, Option.getD_none, zero_add, set_of_not_contains hnone]
    have he : Eff label s ((s.addNode label key .plain).2.addLink ((s.addNode label key .plain).1, label) (leaf S none c)) _ (leaf S none c) :=
      Eff.node label key .plain (.inr ⟨rfl, rfl⟩)
    have hcnt : ((s.addNode label key .plain).2.addLink ((s.addNode label key .plain).1, label) (leaf S none c)).cnt label = s.cnt label + 1 := by
      show (s.addNode label key .plain).2.cnt label = _
      rw [cnt_addNode, if_pos rfl]
    have h := ih (s := (s.addNode label key .plain).2.addLink ((s.addNode label key .plain).1, label) (leaf S none c)) (he.inv hs) (by
      intro e hm
      rw [hl] at hm
      rw [hcnt]
      rcases List.mem_append.1 hm with hm | hm
      · obtain ⟨k, h1, h2, ⟨title, h3⟩, h4⟩ := hf e hm
        exact ⟨k, h1.trans (Nat.le_succ _), h2, ⟨title, by rw [h2, he.nodes label k h1, ← h2, h3]⟩, h4⟩
      · rw [List.mem_singleton] at hm
        subst hm
        refine ⟨_, le_rfl, rfl, ⟨key, ?_⟩, hc⟩
        show (PyDict.set _ _ _).get? _ = _
        rw [get?_set, if_pos (by rw [beq_iff_eq])])
    rw [hl] at h
    refine ⟨h.1, h.2.trans ?_⟩
    simp only [List.length_append, List.length_singleton]
    omega

theorem filter_all {m : Nat} {b : Bool} {f : (Id × Id) × ℝ → Bool} {l : PyDict (Id × Id) ℝ} (h : ∀ e ∈ l, f e = true) : filterLinks m b f l = l := by
  unfold filterLinks
  split
  · exact List.filter_eq_self.2 h
  · rfl

theorem cull_all {m d : Nat} {l : PyDict (Id × Id) ℝ} (h : ∀ e ∈ l, e.1.1.count '.' ≤ 1) : cull m d l = l := by
  induction d with
  | zero => rfl
  | succ d ih =>
    unfold cull
    split
    · rename_i hd
      rw [filter_all, ih]
      intro e he
      have := h e he
      rw [decide_eq_true_eq]
      omega
    · rfl

theorem shown_flat {label : Id} (hl : label.count '.' = 0) {s : St} (hf : Flat label s) (m : Nat) (b : Bool) : shown 0 m b s = s.links := by
  have hp : ∀ e ∈ s.links, ∀ t, t ≠ .plain → s.tagged e.1.1 t = false := by
    intro e he t ht
    obtain ⟨k, -, -, ⟨title, h⟩, -⟩ := hf e he
    unfold St.tagged
    rw [h]
    simpa using fun e => ht e.symm
  unfold shown
  dsimp only
  rw [filter_all (l := s.links) (f := fun e => decide (0 < |e.2|)) (fun e he => by
    obtain ⟨-, -, -, -, h⟩ := hf e he
    simpa using h)]
  have h1 : (if b = true then s.links else filterLinks m true (fun e => !s.tagged e.1.1 .constraint && !s.tagged e.1.1 .subarray) s.links) = s.links := by
    split
    · rfl
    · exact filter_all (fun e he => by rw [hp e he _ (by simp), hp e he _ (by simp)]; rfl)
  rw [h1, filter_all (l := s.links) (f := fun e => !s.tagged e.1.1 .subarray) (fun e he => by rw [hp e he _ (by simp)]; rfl),
    filter_all (l := s.links) (f := fun e => !s.tagged e.1.1 .constraint || decide (1 / 100 < |e.2|)) (fun e he => by rw [hp e he _ (by simp)]; rfl),
    cull_all (fun e he => by
      obtain ⟨k, -, h, -⟩ := hf e he
      rw [h, count_child, hl]),
    filter_all (fun e he => by rw [hp e he _ (by simp)]; rfl)]

/-! ### Constants in the diagram -/

/-- A constant has a node with its text just above `u`, which is at or above `t`, and a link with its sensitivity. -/
def HasF (t u : Id) (s : St) (f : Fixed) : Prop :=
  ∃ k tag, t.length ≤ u.length ∧ k ≤ s.cnt u ∧ s.nodes.get? (child u k) = some ⟨f.title, tag⟩ ∧ s.links.get? (child u k, u) = some f.sens.value

theorem HasF.keep {s s' : St} {t t' u : Id} {ops : List ((Id × Id) × ℝ)} {x : ℝ} {f : Fixed} (h : HasF t u s f) (he : Eff t' s s' ops x) : HasF t u s' f := by
  obtain ⟨k, tag, h0, h1, h2, h3⟩ := h
  exact ⟨k, tag, h0, h1.trans (he.mono u), by rw [he.nodes u k h1, h2], by rw [he.keep h1, h3]⟩

theorem HasF.down {s : St} {t u : Id} {j : Nat} {x : ℝ} {f : Fixed} (h : HasF (child t j) u s f) : HasF t u (s.addLink (child t j, t) x) f := by
  obtain ⟨k, tag, h0, h1, h2, h3⟩ := h
  have hl := child_length t j
  refine ⟨k, tag, by omega, h1, h2, ?_⟩
  show (addTo _ _ _).get? _ = _
  rw [get?_addTo_ne, h3]
  intro e
  have e := (Prod.mk.inj e).2
  rw [← e] at h0
  omega

/-- The node `n` is that of the vector of `g`. -/
def Vec (s : St) (n : Id) (g : Fixed) : Prop := ∃ w j tag, n = child w j ∧ j ≤ s.cnt w ∧ s.nodes.get? n = some ⟨g.vecTitle, tag⟩

theorem Vec.keep {s s' : St} {t n : Id} {ops : List ((Id × Id) × ℝ)} {x : ℝ} {g : Fixed} (h : Vec s n g) (he : Eff t s s' ops x) : Vec s' n g := by
  obtain ⟨w, j, tag, rfl, h1, h2⟩ := h
  exact ⟨w, j, tag, rfl, h1.trans (he.mono w), by rw [he.nodes w j h1, h2]⟩

/-- All constants of a model: those of a vector with one value are above the node of this vector. -/
def HasM (t : Id) (s : St) (fs : List Fixed) : Prop :=
  ∃ place : Fixed → Id, (∀ f ∈ fs, HasF t (place f) s f) ∧ (∀ f ∈ fs, f.vec.isSome → f.uniform = true → ∃ g ∈ fs, g.vec = f.vec ∧ Vec s (place f) g) ∧
    ∀ f ∈ fs, ∀ g ∈ fs, f.vec.isSome → f.vec = g.vec → f.uniform = true → g.uniform = true → place f = place g

theorem HasM.keep {s s' : St} {t t' : Id} {ops : List ((Id × Id) × ℝ)} {x : ℝ} {fs : List Fixed} (h : HasM t s fs) (he : Eff t' s s' ops x) : HasM t s' fs := by
  obtain ⟨place, h1, h2, h3⟩ := h
  refine ⟨place, fun f hf => (h1 f hf).keep he, fun f hf hv hu => ?_, h3⟩
  obtain ⟨g, hg, e, hvec⟩ := h2 f hf hv hu
  exact ⟨g, hg, e, hvec.keep he⟩

theorem HasM.down {s : St} {t : Id} {j : Nat} {x : ℝ} {fs : List Fixed} (h : HasM (child t j) s fs) : HasM t (s.addLink (child t j, t) x) fs := by
  obtain ⟨place, h1, h2, h3⟩ := h
  exact ⟨place, fun f hf => (h1 f hf).down, h2, h3⟩

theorem HasM.nil (t : Id) (s : St) : HasM t s [] := ⟨fun _ => [], by simp, by simp, by simp⟩

/-- In the loop: the node is not that of a vector, and it is above that of its vector. -/
def InF (t : Id) (a : Fst) (f : Fixed) : Prop :=
  ∃ u k tag, t.length ≤ u.length ∧ k ≤ a.st.cnt u ∧ a.st.nodes.get? (child u k) = some ⟨f.title, tag⟩ ∧ a.st.links.get? (child u k, u) = some f.sens.value ∧
    (∀ v, a.vecs.get? v ≠ some (child u k)) ∧ ∀ v, f.vec = some v → f.uniform = true → a.vecs.get? v = some u

theorem vecNode_in {t : Id} {a : Fst} {f g : Fixed} (h : InF t a g) : InF t (vecNode t f a) g := by
  obtain ⟨u, k, tag, h0, h1, h2, h3, h4, h5⟩ := h
  unfold vecNode
  cases f.vec with
  | none => exact ⟨u, k, tag, h0, h1, h2, h3, h4, h5⟩
  | some v =>
    dsimp only
    split
    · rename_i hn
      have he := Eff.addNode t a.st t f.vecTitle .constraint
      refine ⟨u, k, tag, h0, h1.trans (he.mono u), by rw [he.nodes u k h1, h2], h3, fun w hw => ?_, fun w hw hu => ?_⟩
      · dsimp only at hw
        rw [get?_set] at hw
        split at hw
        · have := child_inj (Option.some.inj hw)
          rw [this.1] at this
          rw [← this.1] at h1
          omega
        · exact h4 w hw
      · have := h5 w hw hu
        dsimp only
        rw [get?_set, if_neg, this]
        rw [beq_iff_eq]
        rintro rfl
        rw [this] at hn
        exact absurd hn.1 (by simp)
    · exact ⟨u, k, tag, h0, h1, h2, h3, h4, h5⟩

theorem get?_set_ne {l : PyDict (Id × Id) ℝ} {k q : Id × Id} {x : ℝ} (h : k ≠ q) : (l.set k x).get? q = l.get? q := by
  rw [get?_set, if_neg (by simpa using h)]

theorem vecNode_get {t : Id} {a : Fst} {f : Fixed} {v : Str} (hv : f.vec = some v) (hu : f.uniform = true) : ∃ n, (vecNode t f a).vecs.get? v = some n := by
  unfold vecNode
  rw [hv]
  dsimp only
  split
  · dsimp only
    rw [get?_set, if_pos (by rw [beq_iff_eq])]
    exact ⟨_, rfl⟩
  · rename_i hn
    rw [not_and] at hn
    cases hg : a.vecs.get? v with
    | none => exact absurd hu (hn (by rw [hg]; rfl))
    | some n => exact ⟨n, rfl⟩

theorem fixStep_in {t : Id} {s : St} {a : Fst} {ops : List ((Id × Id) × ℝ)} (ha : FInv t s a ops) {f g : Fixed} (h : InF t a g ∨ f = g) : InF t (fixStep t a f) g := by
  have hb := vecNode_inv ha f
  have h : InF t (vecNode t f a) g ∨ f = g := h.imp_left vecNode_in
  have hgot : ∀ v, f.vec = some v → f.uniform = true → ∃ n, (vecNode t f a).vecs.get? v = some n := fun v => vecNode_get
  unfold fixStep
  generalize vecNode t f a = b at hb h hgot ⊢
  obtain ⟨-, -, -, hv⟩ := hb
  dsimp only
  split
  · rename_i vt hvt
    obtain ⟨v, hfv, hget⟩ := Option.bind_eq_some_iff.1 hvt
    obtain ⟨j, rfl, -⟩ := hv v vt hget
    have he := Eff.addNode t b.st (child t j) f.title .subarray
    rcases h with ⟨u, k, tag, h0, h1, h2, h3, h4, h5⟩ | rfl
    · refine ⟨u, k, tag, h0, h1.trans (he.mono u), (he.nodes u k h1).trans h2, ?_, h4, h5⟩
      show (addTo (PyDict.set _ _ _) _ _).get? _ = _
      rw [get?_addTo_ne, get?_set_ne]
      · exact h3
      · intro e
        have e := Prod.mk.inj e
        have := (child_inj e.1).2
        rw [e.2] at this
        omega
      · intro e
        exact h4 v (by rw [hget, (Prod.mk.inj e).1])
    · refine ⟨child t j, b.st.cnt (child t j) + 1, .subarray, (child_length t j).le, ?_, ?_, ?_, fun w hw => ?_, fun w hw _ => ?_⟩
      · show _ ≤ St.cnt (b.st.addNode (child t j) f.title .subarray).2 _
        rw [cnt_addNode, if_pos rfl]
      · show (PyDict.set _ _ _).get? _ = _
        rw [get?_set, if_pos (by rw [beq_iff_eq])]
      · show (addTo (PyDict.set _ _ _) _ _).get? _ = _
        rw [get?_addTo_ne, get?_set, if_pos (by rw [beq_iff_eq]; rfl)]
        intro e
        exact child_ne _ _ (Prod.mk.inj e).1.symm
      · obtain ⟨i, hi, -⟩ := hv w _ hw
        exact child_ne _ _ (child_inj hi).1
      · rw [hfv] at hw
        cases hw
        exact hget
  · rename_i hnone
    have he := Eff.addNode t b.st t f.title .constraint
    rcases h with ⟨u, k, tag, h0, h1, h2, h3, h4, h5⟩ | rfl
    · refine ⟨u, k, tag, h0, h1.trans (he.mono u), (he.nodes u k h1).trans h2, ?_, h4, h5⟩
      show (PyDict.set _ _ _).get? _ = _
      rw [get?_set_ne]
      · exact h3
      · intro e
        have e := Prod.mk.inj e
        have := (child_inj e.1).2
        rw [e.2] at this
        omega
    · refine ⟨t, b.st.cnt t + 1, .constraint, le_rfl, ?_, ?_, ?_, fun w hw => ?_, fun w hw hu => ?_⟩
      · show _ ≤ St.cnt (b.st.addNode t f.title .constraint).2 _
        rw [cnt_addNode, if_pos rfl]
      · show (PyDict.set _ _ _).get? _ = _
        rw [get?_set, if_pos (by rw [beq_iff_eq])]
      · show (PyDict.set _ _ _).get? _ = _
        rw [get?_set, if_pos (by rw [beq_iff_eq]; rfl)]
      · obtain ⟨i, hi, -, h5, -⟩ := hv w _ hw
        have := (child_inj hi).2
        omega
      · obtain ⟨n, hn⟩ := hgot w hw hu
        rw [hw] at hnone
        rw [Option.bind_some, hn] at hnone
        cases hnone

/-- In the loop: nodes of vectors have a title. -/
def InV (fs : List Fixed) (a : Fst) : Prop := ∀ v n, a.vecs.get? v = some n → ∃ g ∈ fs, g.vec = some v ∧ Vec a.st n g

theorem fixStep_inV {t : Id} {a : Fst} {fs : List Fixed} (ha : InV fs a) {f : Fixed} (hf : f ∈ fs) : InV fs (fixStep t a f) := by
  have hb : InV fs (vecNode t f a) := by
    unfold vecNode
    cases hv : f.vec with
    | none => exact ha
    | some v =>
      dsimp only
      split
      · have he := Eff.addNode t a.st t f.vecTitle .constraint
        intro w n hw
        dsimp only at hw
        rw [get?_set] at hw
        split at hw
        · rename_i hwv
          cases hw
          refine ⟨f, hf, by rw [hv, eq_of_beq hwv], t, a.st.cnt t + 1, .constraint, rfl, ?_, ?_⟩
          · show _ ≤ St.cnt (a.st.addNode t f.vecTitle .constraint).2 _
            rw [cnt_addNode, if_pos rfl]
          · show (PyDict.set _ _ _).get? _ = _
            rw [get?_set, if_pos (by rw [beq_iff_eq]; rfl)]
        · obtain ⟨g, hg, e, hvec⟩ := ha w n hw
          exact ⟨g, hg, e, hvec.keep he⟩
      · exact ha
  unfold fixStep
  generalize vecNode t f a = b at hb ⊢
  dsimp only
  split
  · rename_i vt _
    have he := Eff.addNode t b.st vt f.title .subarray
    intro w n hw
    obtain ⟨g, hg, e, hvec⟩ := hb w n hw
    obtain ⟨w', j, tag, h1, h2, h3⟩ := hvec.keep he
    exact ⟨g, hg, e, w', j, tag, h1, h2, h3⟩
  · have he := Eff.addNode t b.st t f.title .constraint
    intro w n hw
    obtain ⟨g, hg, e, hvec⟩ := hb w n hw
    obtain ⟨w', j, tag, h1, h2, h3⟩ := hvec.keep he
    exact ⟨g, hg, e, w', j, tag, h1, h2, h3⟩

theorem linkFixed_has {s : St} (hs : Inv s) (t : Id) (fs : List Fixed) : HasM t (linkFixed t fs s).1 fs := by
  have key : ∀ (g : Fixed) (fs : List Fixed) (a : Fst), (∃ ops, FInv t s a ops) → (InF t a g ∨ g ∈ fs) → InF t (fs.foldl (fixStep t) a) g := by
    intro g fs
    induction fs with
    | nil => exact fun a _ h => h.resolve_right (by simp)
    | cons f fs ih =>
      rintro a ⟨ops, ha⟩ h
      rw [List.foldl_cons]
      refine ih _ (fixStep_inv ha f) ?_
      rcases h with h | h
      · exact .inl (fixStep_in ha (.inl h))
      · rcases List.mem_cons.1 h with h | h
        · exact .inl (fixStep_in ha (.inr h.symm))
        · exact .inr h
  have keyV : ∀ (l : List Fixed) (a : Fst), (∀ f ∈ l, f ∈ fs) → InV fs a → InV fs (l.foldl (fixStep t) a) := by
    intro l
    induction l with
    | nil => exact fun a _ h => h
    | cons f l ih => exact fun a hl h => ih _ (fun g hg => hl g (by simp [hg])) (fixStep_inV h (hl f (by simp)))
  have h := fun g hg => key g fs ⟨s, [], 0⟩ ⟨[], hs, hs, Eff.refl t s, by simp⟩ (.inr hg)
  have hv := keyV fs ⟨s, [], 0⟩ (fun _ h => h) (fun v n h => by simp at h)
  choose u k tag h0 h1 h2 h3 h4 h5 using h
  classical
  let place : Fixed → Id := fun f => if hf : f ∈ fs then u f hf else []
  have hp : ∀ f (hf : f ∈ fs), place f = u f hf := fun f hf => dif_pos hf
  refine ⟨place, fun f hf => ?_, fun f hf hvs hu => ?_, fun f hf g hg hvs e hfu hgu => ?_⟩
  · rw [hp f hf]
    exact ⟨k f hf, tag f hf, h0 f hf, h1 f hf, h2 f hf, h3 f hf⟩
  · obtain ⟨v, hv'⟩ := Option.isSome_iff_exists.1 hvs
    rw [hp f hf]
    obtain ⟨g, hg, e, hvec⟩ := hv v _ (h5 f hf v hv' hu)
    exact ⟨g, hg, by rw [e, hv'], hvec⟩
  · obtain ⟨v, hv'⟩ := Option.isSome_iff_exists.1 hvs
    rw [hp f hf, hp g hg]
    exact Option.some.inj ((h5 f hf v hv' hfu).symm.trans (h5 g hg v (by rw [← e, hv']) hgu))

theorem enter_hasF {s : St} (hs : Inv s) {labeled top : Bool} {model : Option (Str × List Fixed)} {t : Id} (hl : labeled = true → (model.map (·.2)).getD [] = [])
    {fs : List Fixed} (hf : fs ∈ (model.map (·.2)).toList) : HasM (enter labeled top false model t s).1 (enter labeled top false model t s).2.2.1 fs := by
  unfold enter
  cases model with
  | none => simp at hf
  | some m =>
    have hf' : fs = m.2 := by simpa using hf
    subst hf'
    cases labeled with
    | true =>
      have hl : m.2 = [] := hl rfl
      rw [hl]
      exact HasM.nil _ _
    | false =>
      cases top with
      | true => exact linkFixed_has hs t m.2
      | false => exact linkFixed_has ((Eff.addNode t s t m.1 .plain).inv hs) _ m.2

theorem leave_hasF {s s' : St} {labeled top isVar : Bool} {model : Option (Str × List Fixed)} {t : Id} {x : ℝ} {fs : List Fixed}
    (hs : Inv s) (h : HasM (enter labeled top isVar model t s).1 s' fs) :
    HasM t (leave (enter labeled top isVar model t s).1 (enter labeled top isVar model t s).2.1 s' x).1 fs := by
  obtain ⟨-, ⟨e1, e2, -⟩ | ⟨e1, e2, -⟩⟩ := enter_eff hs labeled top isVar model t
  · rw [e1] at h
    rw [e2]
    exact h
  · rw [e2]
    rw [e1] at h ⊢
    exact h.down

mutual
theorem link_hasF (S : Sol C V) (labeled subarray top : Bool) (t : Id) {s : St} (hs : Inv s) :
    (c : CSet C) → c.Keyless → (labeled = true → c.Bare) → ∀ fs ∈ c.models, HasM t (link S none labeled subarray top t s c).1 fs
  | .con c, _, _, fs, hf => by simp [CSet.models] at hf
  | .arr title cs, hk, _, fs, hf => by
    unfold link
    rw [CSet.models] at hf
    rw [CSet.Keyless] at hk
    split
    · exact (linkL_hasF S true (child t (s.cnt t + 1)) ((Eff.addNode t s t (short title) .constraint).inv hs) cs hk fs hf).down
    · exact linkL_hasF S subarray t hs cs hk fs hf
  | .lst model cs, hk, hl, fs, hf => by
    unfold link
    rw [CSet.models, List.mem_append] at hf
    rw [CSet.Keyless] at hk
    have hi := (enter_eff hs labeled top (none : Option V).isSome model t).1
    refine leave_hasF hs ?_
    rcases hf with hf | hf
    · obtain ⟨ops, he⟩ := linkL_eff S none subarray (enter labeled top (none : Option V).isSome model t s).1 hi cs
      exact (enter_hasF hs (fun h => bare_model (hl h)) hf).keep he
    · exact linkL_hasF S subarray _ hi cs hk fs hf
  | .dct model cs, hk, hl, fs, hf => by
    unfold link
    rw [CSet.models, List.mem_append] at hf
    rw [CSet.Keyless] at hk
    have hi := (enter_eff hs labeled top (none : Option V).isSome model t).1
    refine leave_hasF hs ?_
    rcases hf with hf | hf
    · obtain ⟨ops, he⟩ := linkD_eff S none (enter labeled top (none : Option V).isSome model t s).1 hi cs
      exact (enter_hasF hs (fun h => bare_model' (hl h)) hf).keep he
    · exact linkD_hasF S _ hi cs hk fs hf
theorem linkL_hasF (S : Sol C V) (subarray : Bool) (t : Id) {s : St} (hs : Inv s) :
    (cs : List (CSet C)) → CSet.KeylessL cs → ∀ fs ∈ CSet.modelsL cs, HasM t (linkL S none subarray t s cs).1 fs
  | [], _, fs, hf => by simp [CSet.modelsL] at hf
  | c :: cs, hk, fs, hf => by
    unfold linkL
    rw [CSet.KeylessL] at hk
    rw [CSet.modelsL, List.mem_append] at hf
    rcases link_eff S none false subarray false t hs c with ⟨ops, h⟩ | ⟨h, -⟩
    · rcases hf with hf | hf
      · obtain ⟨ops', h'⟩ := linkL_eff S none subarray t (h.inv hs) cs
        exact (link_hasF S false subarray false t hs c hk.1 (by simp) fs hf).keep h'
      · exact linkL_hasF S subarray t (h.inv hs) cs hk.2 fs hf
    · cases h
theorem linkD_hasF (S : Sol C V) (t : Id) {s : St} (hs : Inv s) :
    (cs : List (Str × CSet C)) → CSet.KeylessD cs → ∀ fs ∈ CSet.modelsD cs, HasM t (linkD S none t s cs).1 fs
  | [], _, fs, hf => by simp [CSet.modelsD] at hf
  | (k, c) :: cs, hk, fs, hf => by
    unfold linkD
    rw [CSet.KeylessD] at hk
    rw [CSet.modelsD, List.mem_append] at hf
    have hn := (Eff.addNode t s t k .plain).inv hs
    have h : ∃ ops, Eff t s ((link S none true false false (child t (s.cnt t + 1)) (s.addNode t k .plain).2 c).1.addLink (child t (s.cnt t + 1), t)
        (link S none true false false (child t (s.cnt t + 1)) (s.addNode t k .plain).2 c).2) ops
        (link S none true false false (child t (s.cnt t + 1)) (s.addNode t k .plain).2 c).2 := by
      rcases link_eff S none true false false (child t (s.cnt t + 1)) hn c with ⟨ops, h⟩ | ⟨-, h⟩
      · exact ⟨_, Eff.node t k .plain (.inl h)⟩
      · exact ⟨_, Eff.node t k .plain (.inr ⟨h, rfl⟩)⟩
    obtain ⟨ops, h⟩ := h
    rcases hf with hf | hf
    · obtain ⟨ops', h'⟩ := linkD_eff S none t (h.inv hs) cs
      exact ((link_hasF S true false false (child t (s.cnt t + 1)) hn c hk.2.1 (fun _ => hk.1) fs hf).down).keep h'
    · exact linkD_hasF S t (h.inv hs) cs hk.2.2 fs hf
end

theorem diagram_hasF (S : Sol C V) (label : Str) {cset : CSet C} (hk : cset.Keyless) {s : St} (hs : Inv s) : ∀ fs ∈ cset.models, HasM label (diagram S label cset s) fs :=
  link_hasF S false false true label (inv_nodes hs _) cset hk (by simp)

/-! ### What is always and what is never shown -/

theorem mem_filterLinks {m : Nat} {b : Bool} {f : (Id × Id) × ℝ → Bool} {l : PyDict (Id × Id) ℝ} {e : (Id × Id) × ℝ} (h : e ∈ filterLinks m b f l) : e ∈ l := by
  unfold filterLinks at h
  split at h
  · exact List.mem_of_mem_filter h
  · exact h

theorem filterLinks_forced {m : Nat} {f : (Id × Id) × ℝ → Bool} {l : PyDict (Id × Id) ℝ} : filterLinks m true f l = l.filter f := by
  unfold filterLinks
  rw [if_pos (by simp)]

theorem filterLinks_mem {m : Nat} {b : Bool} {f : (Id × Id) × ℝ → Bool} {l : PyDict (Id × Id) ℝ} {e : (Id × Id) × ℝ} (h : e ∈ l) (hf : f e = true) :
    e ∈ filterLinks m b f l := by
  unfold filterLinks
  split
  · exact List.mem_filter.2 ⟨h, hf⟩
  · exact h

theorem mem_cull {m d : Nat} {l : PyDict (Id × Id) ℝ} {e : (Id × Id) × ℝ} (h : e ∈ cull m d l) : e ∈ l := by
  induction d generalizing l with
  | zero => exact h
  | succ d ih =>
    unfold cull at h
    split at h
    · exact mem_filterLinks (ih h)
    · exact h

theorem cull_mem {m d : Nat} {l : PyDict (Id × Id) ℝ} {e : (Id × Id) × ℝ} (h : e ∈ l) (he : e.1.1.count '.' ≤ 1) : e ∈ cull m d l := by
  induction d generalizing l with
  | zero => exact h
  | succ d ih =>
    unfold cull
    split
    · refine ih (filterLinks_mem h ?_)
      rw [decide_eq_true_eq]
      omega
    · exact h

theorem tagged_iff {s : St} {n : Id} {t : Tag} : s.tagged n t = true ↔ ∃ d, s.nodes.get? n = some d ∧ d.tag = t := by
  unfold St.tagged
  cases s.nodes.get? n with
  | none => simp
  | some d => simp

/-- What is left in any case. -/
theorem shown_eq (c : ℝ) (m : Nat) (b : Bool) (s : St) :
    ∃ l, (∀ e, e ∈ l ↔ e ∈ s.links ∧ c < |e.2| ∧ (b = true ∨ ∀ d, s.nodes.get? e.1.1 = some d → d.tag = .plain)) ∧ l.Sublist s.links ∧
      (l.length ≤ m → shown c m b s = l) ∧ (∀ e ∈ shown c m b s, e ∈ l) ∧
      ∀ e ∈ l, e.1.1.count '.' ≤ 1 → (∀ d, s.nodes.get? e.1.1 = some d → d.tag = .plain) → e ∈ shown c m b s := by
  have htag : ∀ e : (Id × Id) × ℝ, (∀ d, s.nodes.get? e.1.1 = some d → d.tag = .plain) ↔ (!s.tagged e.1.1 .constraint && !s.tagged e.1.1 .subarray) = true := by
    intro e
    unfold St.tagged
    cases hn : s.nodes.get? e.1.1 with
    | none => simp
    | some d =>
      dsimp only
      cases ht : d.tag <;> simp [ht]
  have hplain : ∀ e : (Id × Id) × ℝ, (∀ d, s.nodes.get? e.1.1 = some d → d.tag = .plain) → s.tagged e.1.1 .constraint = false ∧ s.tagged e.1.1 .subarray = false := by
    intro e h
    simpa using (htag e).1 h
  let l0 := s.links.filter (fun e => decide (c < |e.2|))
  let l := if b then l0 else l0.filter (fun e => !s.tagged e.1.1 .constraint && !s.tagged e.1.1 .subarray)
  have hsh : shown c m b s = filterLinks m false (fun e => !s.tagged e.1.1 .constraint) (cull m s.depth
      (filterLinks m false (fun e => !s.tagged e.1.1 .constraint || decide (1 / 100 < |e.2|)) (filterLinks m false (fun e => !s.tagged e.1.1 .subarray) l))) := by
    unfold shown
    dsimp only
    rw [filterLinks_forced, filterLinks_forced]
  refine ⟨l, fun e => ?_, ?_, fun h => ?_, fun e he => ?_, fun e he h1 h2 => ?_⟩
  · cases b with
    | true =>
      show e ∈ l0 ↔ _
      rw [List.mem_filter]
      simp
    | false =>
      show e ∈ l0.filter _ ↔ _
      rw [List.mem_filter, List.mem_filter, htag]
      simp [and_assoc]
  · cases b with
    | true => exact List.filter_sublist
    | false => exact List.filter_sublist.trans List.filter_sublist
  · rw [hsh, filterLinks_few h, filterLinks_few h, cull_few h, filterLinks_few h]
  · rw [hsh] at he
    exact mem_filterLinks (mem_filterLinks (mem_cull (mem_filterLinks he)))
  · rw [hsh]
    obtain ⟨g1, g2⟩ := hplain e h2
    exact filterLinks_mem (cull_mem (filterLinks_mem (filterLinks_mem he (by rw [g2]; rfl)) (by rw [g1]; rfl)) h1) (by rw [g1]; rfl)

end Sankey
end Verif
