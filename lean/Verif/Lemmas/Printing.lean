import Verif.Spec.Printing

/-!
# Facts about reading text
-/

set_option linter.unusedSectionVars false

namespace Verif
namespace Printing

section
variable {V K : Type}

/-- Neither `(` nor `)`. -/
def plain : Tok V K → Bool
  | .lpar | .rpar => false
  | _ => true

theorem depth_plain {t : Tok V K} (ht : plain t = true) (d : Nat) (s : List (Tok V K)) : depth d (t :: s) = depth d s := by
  cases t <;> first | (simp [plain] at ht; done) | (cases d <;> rfl)

theorem outer_plain {t : Tok V K} (ht : plain t = true) (s : List (Tok V K)) : outer 0 (t :: s) = t :: outer 0 s := by
  cases t <;> first | (simp [plain] at ht; done) | rfl

theorem outer_plain_succ {t : Tok V K} (ht : plain t = true) (d : Nat) (s : List (Tok V K)) : outer (d + 1) (t :: s) = outer (d + 1) s := by
  cases t <;> first | (simp [plain] at ht; done) | rfl

theorem depth_append : ∀ (s t : List (Tok V K)) (d : Nat), depth d (s ++ t) = (depth d s).bind (fun e => depth e t)
  | [], t, d => by cases t <;> simp [depth]
  | x :: s, t, d => by
    rw [List.cons_append]
    by_cases hx : plain x = true
    · rw [depth_plain hx, depth_plain hx, depth_append s t d]
    · cases x with
      | lpar =>
        have := depth_append s t (d + 1)
        cases d <;> simpa [depth] using this
      | rpar =>
        cases d with
        | zero => rfl
        | succ d => exact depth_append s t d
      | _ => exact absurd rfl hx

theorem outer_append : ∀ (s t : List (Tok V K)) (d e : Nat), depth d s = some e → outer d (s ++ t) = outer d s ++ outer e t
  | [], t, d, e, h => by
    have : d = e := by cases d <;> simpa [depth] using h
    subst this
    cases d <;> simp [outer]
  | x :: s, t, d, e, h => by
    rw [List.cons_append]
    by_cases hx : plain x = true
    · rw [depth_plain hx] at h
      cases d with
      | zero => rw [outer_plain hx, outer_plain hx, outer_append s t 0 e h]; rfl
      | succ d => rw [outer_plain_succ hx, outer_plain_succ hx, outer_append s t (d + 1) e h]
    · cases x with
      | lpar =>
        have h' : depth (d + 1) s = some e := by cases d <;> simpa [depth] using h
        have := outer_append s t (d + 1) e h'
        cases d <;> simpa [outer] using this
      | rpar =>
        cases d with
        | zero => simp [depth] at h
        | succ d =>
          have := outer_append s t d e h
          simpa [outer] using this
      | _ => exact absurd rfl hx

theorem depth_succ : ∀ (s : List (Tok V K)) (d e : Nat), depth d s = some e → depth (d + 1) s = some (e + 1)
  | [], d, e, h => by
    have : d = e := by cases d <;> simpa [depth] using h
    subst this
    rfl
  | x :: s, d, e, h => by
    by_cases hx : plain x = true
    · rw [depth_plain hx] at h ⊢
      exact depth_succ s d e h
    · cases x with
      | lpar =>
        have h' : depth (d + 1) s = some e := by cases d <;> simpa [depth] using h
        exact depth_succ s (d + 1) e h'
      | rpar =>
        cases d with
        | zero => simp [depth] at h
        | succ d => exact depth_succ s d e h
      | _ => exact absurd rfl hx

theorem outer_succ : ∀ (s : List (Tok V K)) (d e : Nat), depth d s = some e → outer (d + 1) s = []
  | [], d, e, h => rfl
  | x :: s, d, e, h => by
    by_cases hx : plain x = true
    · rw [depth_plain hx] at h
      rw [outer_plain_succ hx]
      exact outer_succ s d e h
    · cases x with
      | lpar =>
        have h' : depth (d + 1) s = some e := by cases d <;> simpa [depth] using h
        exact outer_succ s (d + 1) e h'
      | rpar =>
        cases d with
        | zero => simp [depth] at h
        | succ d => exact outer_succ s d e h
      | _ => exact absurd rfl hx

theorem closed_append {s t : List (Tok V K)} (hs : Closed s) (ht : Closed t) : Closed (s ++ t) := by
  unfold Closed at *
  rw [depth_append, hs]
  exact ht

theorem closed_cons {t : Tok V K} {s : List (Tok V K)} (ht : plain t = true) : Closed (t :: s) ↔ Closed s := by
  unfold Closed
  rw [depth_plain ht]

theorem closed_of_append {s t : List (Tok V K)} (hs : Closed s) (h : Closed (s ++ t)) : Closed t := by
  unfold Closed at *
  rwa [depth_append, hs] at h

theorem closed_paren {s : List (Tok V K)} (hs : Closed s) : Closed (.lpar :: (s ++ [.rpar])) := by
  unfold Closed at *
  rw [show depth 0 (.lpar :: (s ++ [.rpar])) = depth 1 (s ++ [.rpar]) from rfl, depth_append, depth_succ s 0 0 hs]
  rfl

theorem outer_paren {s : List (Tok V K)} (hs : Closed s) : outer 0 (.lpar :: (s ++ [.rpar])) = [] := by
  unfold Closed at hs
  rw [show outer 0 (.lpar :: (s ++ [.rpar])) = outer 1 (s ++ [.rpar]) from rfl, outer_append s _ 1 1 (depth_succ s 0 0 hs), outer_succ s 0 0 hs]
  rfl

theorem plain_add {o : Tok V K} (h : isAdd o = true) : plain o = true := by cases o <;> simp_all [isAdd, plain]
theorem plain_mul {o : Tok V K} (h : isMul o = true) : plain o = true := by cases o <;> simp_all [isMul, plain]
theorem add_not_mul {o : Tok V K} (h : isAdd o = true) : isMul o = false := by cases o <;> simp_all [isAdd, isMul]
theorem mul_not_add {o : Tok V K} (h : isMul o = true) : isAdd o = false := by cases o <;> simp_all [isAdd, isMul]

theorem outer_op {l r : List (Tok V K)} {o : Tok V K} (hl : Closed l) (ho : plain o = true) : outer 0 (l ++ o :: r) = outer 0 l ++ o :: outer 0 r := by
  rw [outer_append l _ 0 0 hl, outer_plain ho]

/-- Texts are split in one way only. -/
theorem split_unique {p : Tok V K → Bool} (hp : ∀ t, p t = true → plain t = true) {l r l' r' : List (Tok V K)} {o o' : Tok V K} (hl : Closed l)
    (hl' : Closed l') (ho : p o = true) (ho' : p o' = true) (hr : NoTop p r) (hr' : NoTop p r') (h : l ++ o :: r = l' ++ o' :: r') :
    l = l' ∧ o = o' ∧ r = r' := by
  have key : ∀ {l r l' r' : List (Tok V K)} {o o' : Tok V K}, Closed l → Closed l' → p o = true → p o' = true → NoTop p r →
      ∀ m, l' = l ++ m → o :: r = m ++ o' :: r' → l = l' ∧ o = o' ∧ r = r' := by
    intro l r l' r' o o' hl hl' ho ho' hr m hm h
    cases m with
    | nil =>
      simp only [List.nil_append, List.cons.injEq] at h
      exact ⟨by simp [hm], h.1, h.2⟩
    | cons x m =>
      exfalso
      simp only [List.cons_append, List.cons.injEq] at h
      obtain ⟨rfl, rfl⟩ := h
      rw [hm] at hl'
      have hc := closed_of_append hl hl'
      rw [closed_cons (hp _ ho)] at hc
      have := hr o' (by rw [outer_op hc (hp _ ho')]; simp)
      rw [ho'] at this
      cases this
  rcases List.append_eq_append_iff.1 h with ⟨m, h1, h2⟩ | ⟨m, h1, h2⟩
  · exact key hl hl' ho ho' hr m h1 h2
  · obtain ⟨a, b, c⟩ := key hl' hl ho' ho hr' m h1 h2
    exact ⟨a.symm, b.symm, c.symm⟩

end

section
variable {V : Type} {pi : ℝ} {pt : V → ℝ}

theorem Reads.ne_nil {s : List (Tok V ℝ)} {a : ℝ} (h : Reads pi pt s a) : s ≠ [] := by cases h <;> simp

theorem atom_plain {t : Tok V ℝ} {a : ℝ} (h : atomVal pi pt t = some a) : plain t = true ∧ isAdd t = false ∧ isMul t = false ∧ t ≠ .neg ∧ isExpo t = false := by
  cases t <;> simp_all [atomVal, plain, isAdd, isMul, isExpo]

theorem Reads.closed {s : List (Tok V ℝ)} {a : ℝ} (h : Reads pi pt s a) : Closed s := by
  induction h with
  | atom h => rw [closed_cons (atom_plain h).1]; rfl
  | paren _ ih => exact closed_paren ih
  | add ho _ _ _ ihl ihr => exact closed_append ihl ((closed_cons (plain_add ho)).2 ihr)
  | mul ho _ _ _ _ _ ihl ihr => exact closed_append ihl ((closed_cons (plain_mul ho)).2 ihr)
  | neg _ _ _ ih => exact (closed_cons rfl).2 ih
  | pow _ _ _ _ _ ih => exact closed_append ih rfl

/-- The form of a text tells how it was read. -/
theorem noTop_neg {p : Tok V ℝ → Bool} (hp : p .neg = false) {r : List (Tok V ℝ)} (h : NoTop p r) : NoTop p (.neg :: r) := by
  intro t ht
  rw [outer_plain rfl] at ht
  rcases List.mem_cons.1 ht with rfl | ht
  · exact hp
  · exact h t ht

theorem noTop_op {p : Tok V ℝ → Bool} {l r : List (Tok V ℝ)} {o : Tok V ℝ} (hl : Closed l) (ho : plain o = true) (hpo : p o = false) (nl : NoTop p l)
    (nr : NoTop p r) : NoTop p (l ++ o :: r) := by
  intro t ht
  rw [outer_op hl ho] at ht
  rcases List.mem_append.1 ht with ht | ht
  · exact nl t ht
  · rcases List.mem_cons.1 ht with rfl | ht
    · exact hpo
    · exact nr t ht

theorem noTop_paren {p : Tok V ℝ → Bool} {s : List (Tok V ℝ)} (hs : Closed s) : NoTop p (.lpar :: (s ++ [.rpar])) := by
  intro t ht
  rw [outer_paren hs] at ht
  cases ht

theorem noTop_atom {p : Tok V ℝ → Bool} {t : Tok V ℝ} (ht : plain t = true) (hp : p t = false) : NoTop p [t] := by
  intro u hu
  rw [outer_plain ht] at hu
  rcases List.mem_cons.1 hu with rfl | hu
  · exact hp
  · cases hu

theorem not_noTop_op {p : Tok V ℝ → Bool} {l r : List (Tok V ℝ)} {o : Tok V ℝ} (hl : Closed l) (ho : plain o = true) (hpo : p o = true) : ¬ NoTop p (l ++ o :: r) := by
  intro h
  have := h o (by rw [outer_op hl ho]; simp)
  rw [hpo] at this
  cases this

theorem noTop_expo {p : Tok V ℝ → Bool} {l : List (Tok V ℝ)} {x : ℝ} (hl : Closed l) (hp : p (.expo x) = false) (nl : NoTop p l) : NoTop p (l ++ [.expo x]) :=
  noTop_op (r := []) hl rfl hp nl (by intro t ht; cases ht)

/-- A text is read in one way only. -/
theorem Reads.unique {s : List (Tok V ℝ)} {a b : ℝ} (h : Reads pi pt s a) (h' : Reads pi pt s b) : a = b := by
  induction h generalizing b with
  | @atom t a ht =>
    obtain ⟨h1, h2, h3, h4, h5⟩ := atom_plain ht
    generalize hs : [t] = s at h'
    cases h' with
    | atom hb =>
      cases hs
      rw [ht] at hb
      exact Option.some.inj hb
    | paren hr => simp at hs
    | @add l r o _ _ ho hl hr =>
      have := hl.ne_nil
      cases l with
      | nil => exact absurd rfl this
      | cons x l => simp at hs
    | @mul l r o _ _ ho hl hr =>
      have := hl.ne_nil
      cases l with
      | nil => exact absurd rfl this
      | cons x l => simp at hs
    | neg hr => simp at hs; exact absurd hs.1 h4
    | @pow l _ _ hl =>
      have := hl.ne_nil
      cases l with
      | nil => exact absurd rfl this
      | cons x l => simp at hs
  | @paren s a hs ih =>
    have hc := hs.closed
    generalize hs' : Tok.lpar :: (s ++ [Tok.rpar]) = s' at h'
    cases h' with
    | atom hb =>
      have := congrArg List.length hs'
      simp at this
    | paren hr =>
      simp only [List.cons.injEq, true_and] at hs'
      have := List.append_inj_left' hs' rfl
      subst this
      exact ih hr
    | add ho hl hr =>
      exact absurd (hs' ▸ noTop_paren hc) (not_noTop_op hl.closed (plain_add ho) ho)
    | mul ho hl hr =>
      exact absurd (hs' ▸ noTop_paren hc) (not_noTop_op hl.closed (plain_mul ho) ho)
    | neg hr => simp at hs'
    | @pow l _ x hl =>
      have := congrArg List.getLast? hs'
      rw [← List.cons_append, List.getLast?_concat, List.getLast?_concat] at this
      cases this
  | @add l r o a b' ho hl hr nr ihl ihr =>
    generalize hs : l ++ o :: r = s at h'
    have hno := not_noTop_op (r := r) hl.closed (plain_add ho) ho
    cases h' with
    | atom hb =>
      obtain ⟨h1, h2, h3, h4, h5⟩ := atom_plain hb
      exact absurd (hs ▸ noTop_atom h1 h2) hno
    | paren hr' => exact absurd (hs ▸ noTop_paren hr'.closed) hno
    | add ho' hl' hr' nr' =>
      obtain ⟨rfl, rfl, rfl⟩ := split_unique (fun t => plain_add) hl.closed hl'.closed ho ho' nr nr' hs
      rw [ihl hl', ihr hr']
    | mul ho' hl' hr' nl' nr' mr' => exact absurd (hs ▸ noTop_op hl'.closed (plain_mul ho') (mul_not_add ho') nl' nr') hno
    | neg hr' nr' mr' => exact absurd (hs ▸ noTop_neg rfl nr') hno
    | pow hl' nl' ml' => exact absurd (hs ▸ noTop_expo hl'.closed rfl nl') hno
  | @mul l r o a b' ho hl hr nl nr mr ihl ihr =>
    generalize hs : l ++ o :: r = s at h'
    have hno := not_noTop_op (r := r) hl.closed (plain_mul ho) ho
    cases h' with
    | atom hb =>
      obtain ⟨h1, h2, h3, h4, h5⟩ := atom_plain hb
      exact absurd (hs ▸ noTop_atom h1 h3) hno
    | paren hr' => exact absurd (hs ▸ noTop_paren hr'.closed) hno
    | add ho' hl' hr' nr' =>
      have := noTop_op hl.closed (plain_mul ho) (mul_not_add ho) nl nr
      exact absurd (hs ▸ this) (not_noTop_op hl'.closed (plain_add ho') ho')
    | mul ho' hl' hr' nl' nr' mr' =>
      obtain ⟨rfl, rfl, rfl⟩ := split_unique (fun t => plain_mul) hl.closed hl'.closed ho ho' mr mr' hs
      rw [ihl hl', ihr hr']
    | neg hr' nr' mr' => exact absurd (hs ▸ noTop_neg rfl mr') hno
    | pow hl' nl' ml' => exact absurd (hs ▸ noTop_expo hl'.closed rfl ml') hno
  | @neg r a hr nr mr ih =>
    generalize hs : Tok.neg :: r = s at h'
    cases h' with
    | atom hb =>
      obtain ⟨h1, h2, h3, h4, h5⟩ := atom_plain hb
      simp at hs
      exact absurd hs.1.symm h4
    | paren hr' => simp at hs
    | add ho' hl' hr' nr' => exact absurd (hs ▸ noTop_neg rfl nr) (not_noTop_op hl'.closed (plain_add ho') ho')
    | mul ho' hl' hr' nl' nr' mr' => exact absurd (hs ▸ noTop_neg rfl mr) (not_noTop_op hl'.closed (plain_mul ho') ho')
    | neg hr' nr' mr' =>
      simp only [List.cons.injEq, true_and] at hs
      subst hs
      rw [ih hr']
    | @pow l _ x hl' nl' ml' h1 =>
      have := hl'.ne_nil
      cases l with
      | nil => exact absurd rfl this
      | cons y l =>
        simp only [List.cons_append, List.cons.injEq] at hs
        exact absurd (by simp [← hs.1]) h1
  | @pow l a x hl nl ml h1 h2 ih =>
    generalize hs : l ++ [Tok.expo x] = s at h'
    cases h' with
    | atom hb =>
      have := hl.ne_nil
      cases l with
      | nil => exact absurd rfl this
      | cons y l => simp at hs
    | paren hr' =>
      have := congrArg List.getLast? hs
      rw [← List.cons_append, List.getLast?_concat, List.getLast?_concat] at this
      cases this
    | add ho' hl' hr' nr' => exact absurd (hs ▸ noTop_expo hl.closed rfl nl) (not_noTop_op hl'.closed (plain_add ho') ho')
    | mul ho' hl' hr' nl' nr' mr' => exact absurd (hs ▸ noTop_expo hl.closed rfl ml) (not_noTop_op hl'.closed (plain_mul ho') ho')
    | neg hr' =>
      have := hl.ne_nil
      cases l with
      | nil => exact absurd rfl this
      | cons y l =>
        simp only [List.cons_append, List.cons.injEq] at hs
        exact absurd (by simp [hs.1]) h1
    | pow hl' =>
      have e := List.append_inj' hs rfl
      obtain ⟨rfl, e2⟩ := e
      simp only [List.cons.injEq, Tok.expo.injEq, and_true] at e2
      subst e2
      rw [ih hl']

/-! ## Building texts -/

theorem noTopAdd_or {s : List (Tok V ℝ)} {a : ℝ} (h : Reads pi pt s a) :
    NoTop isAdd s ∨ ∃ l r o x y, s = l ++ o :: r ∧ isAdd o = true ∧ Reads pi pt l x ∧ Reads pi pt r y ∧ NoTop isAdd r ∧ a = opVal o x y := by
  cases h with
  | atom hb => exact Or.inl (noTop_atom (atom_plain hb).1 (atom_plain hb).2.1)
  | paren hr => exact Or.inl (noTop_paren hr.closed)
  | add ho hl hr nr => exact Or.inr ⟨_, _, _, _, _, rfl, ho, hl, hr, nr, rfl⟩
  | mul ho hl hr nl nr mr => exact Or.inl (noTop_op hl.closed (plain_mul ho) (mul_not_add ho) nl nr)
  | neg hr nr mr => exact Or.inl (noTop_neg rfl nr)
  | pow hl nl ml => exact Or.inl (noTop_expo hl.closed rfl nl)

theorem opVal_assoc {o : Tok V ℝ} (ho : isAdd o = true) (a x y : ℝ) : opVal o (a + x) y = a + opVal o x y := by
  cases o <;> simp_all [isAdd, opVal] <;> ring

/-- A sum may be appended to a sum. -/
theorem reads_plus {R : List (Tok V ℝ)} {b : ℝ} (hR : Reads pi pt R b) {L : List (Tok V ℝ)} {a : ℝ} (hL : Reads pi pt L a) : Reads pi pt (L ++ .plus :: R) (a + b) := by
  generalize hn : R.length = n
  induction n using Nat.strong_induction_on generalizing R b with
  | _ n ih =>
    rcases noTopAdd_or hR with h | ⟨l, r, o, x, y, rfl, ho, hl, hr, nr, rfl⟩
    · exact Reads.add (o := .plus) rfl hL hR h
    · have h1 := ih l.length (by simp at hn; omega) hl rfl
      have h2 := Reads.add ho h1 hr nr
      rw [opVal_assoc ho] at h2
      simpa using h2

/-- The text after a sign denotes the opposite. -/
theorem reads_unneg {S : List (Tok V ℝ)} {b : ℝ} (hS : Reads pi pt S b) {R : List (Tok V ℝ)} (e : S = .neg :: R) (hn : NoTop isAdd S) : Reads pi pt R (-b) ∧ NoTop isAdd R := by
  induction hS generalizing R with
  | atom hb =>
    simp only [List.cons.injEq] at e
    exact absurd e.1 (atom_plain hb).2.2.2.1
  | paren => simp at e
  | add ho hl hr nr => exact absurd hn (not_noTop_op hl.closed (plain_add ho) ho)
  | @mul l r o x y ho hl hr nl nr mr ihl ihr =>
    cases l with
    | nil => exact absurd rfl hl.ne_nil
    | cons t l =>
      simp only [List.cons_append, List.cons.injEq] at e
      obtain ⟨rfl, rfl⟩ := e
      obtain ⟨h1, h2⟩ := ihl rfl nl
      have h3 := Reads.mul ho h1 hr h2 nr mr
      have e : opVal o (-x) y = -opVal o x y := by
        cases o <;> (simp_all [isMul, opVal]; try ring)
      rw [e] at h3
      exact ⟨h3, noTop_op h1.closed (plain_mul ho) (mul_not_add ho) h2 nr⟩
  | neg hr nr mr =>
    simp only [List.cons.injEq, true_and] at e
    subst e
    rw [neg_neg]
    exact ⟨hr, nr⟩
  | @pow l _ x hl nl ml h1 =>
    cases l with
    | nil => exact absurd rfl hl.ne_nil
    | cons t l =>
      simp only [List.cons_append, List.cons.injEq] at e
      exact absurd (by simp [e.1]) h1

/-- A sum starting with a sign is subtracted. -/
theorem reads_minus {S : List (Tok V ℝ)} {b : ℝ} (hS : Reads pi pt S b) {L : List (Tok V ℝ)} {a : ℝ} (hL : Reads pi pt L a) {R : List (Tok V ℝ)} (e : S = .neg :: R) :
    Reads pi pt (L ++ .minus :: R) (a + b) := by
  generalize hn : S.length = n
  induction n using Nat.strong_induction_on generalizing S R b with
  | _ n ih =>
    rcases noTopAdd_or hS with h | ⟨l, r, o, x, y, rfl, ho, hl, hr, nr, rfl⟩
    · obtain ⟨h1, h2⟩ := reads_unneg hS e h
      have := Reads.add (o := .minus) rfl hL h1 h2
      simpa [opVal] using this
    · cases l with
      | nil => exact absurd rfl hl.ne_nil
      | cons t l =>
        simp only [List.cons_append, List.cons.injEq] at e
        obtain ⟨rfl, rfl⟩ := e
        have h1 := ih (Tok.neg :: l).length (by simp at hn ⊢; omega) hl rfl rfl
        have h2 := Reads.add ho h1 hr nr
        rw [opVal_assoc ho] at h2
        simpa using h2

theorem noTopMul_or {s : List (Tok V ℝ)} {a : ℝ} (h : Reads pi pt s a) (hn : NoTop isAdd s) :
    NoTop isMul s ∨ ∃ l r o x y, s = l ++ o :: r ∧ isMul o = true ∧ Reads pi pt l x ∧ Reads pi pt r y ∧ NoTop isAdd l ∧ NoTop isAdd r ∧ NoTop isMul r ∧ a = opVal o x y := by
  cases h with
  | atom hb => exact Or.inl (noTop_atom (atom_plain hb).1 (atom_plain hb).2.2.1)
  | paren hr => exact Or.inl (noTop_paren hr.closed)
  | add ho hl hr nr => exact absurd hn (not_noTop_op hl.closed (plain_add ho) ho)
  | mul ho hl hr nl nr mr => exact Or.inr ⟨_, _, _, _, _, rfl, ho, hl, hr, nl, nr, mr, rfl⟩
  | neg hr nr mr => exact Or.inl (noTop_neg rfl mr)
  | pow hl nl ml => exact Or.inl (noTop_expo hl.closed rfl ml)

theorem opVal_mul_assoc {o : Tok V ℝ} (ho : isMul o = true) (a x y : ℝ) : opVal o (a * x) y = a * opVal o x y := by
  cases o <;> (simp_all [isMul, opVal]; try ring)

/-- Products may be put in a row. -/
theorem reads_times {m : Tok V ℝ} (hm : m = .mul ∨ m = .star) {R : List (Tok V ℝ)} {b : ℝ} (hR : Reads pi pt R b) (nR : NoTop isAdd R) {L : List (Tok V ℝ)} {a : ℝ}
    (hL : Reads pi pt L a) (nL : NoTop isAdd L) : Reads pi pt (L ++ m :: R) (a * b) ∧ NoTop isAdd (L ++ m :: R) := by
  have hm1 : isMul m = true := by rcases hm with rfl | rfl <;> rfl
  have hm2 : ∀ x y, opVal m x y = x * y := by rcases hm with rfl | rfl <;> intro x y <;> rfl
  refine ⟨?_, noTop_op hL.closed (plain_mul hm1) (mul_not_add hm1) nL nR⟩
  generalize hn : R.length = n
  induction n using Nat.strong_induction_on generalizing R b with
  | _ n ih =>
    rcases noTopMul_or hR nR with h | ⟨l, r, o, x, y, rfl, ho, hl, hr, nl, nr, mr, rfl⟩
    · rw [← hm2]
      exact Reads.mul hm1 hL hR nL nR h
    · have h1 := ih l.length (by simp at hn; omega) hl nl rfl
      have h2 := Reads.mul ho h1 hr (noTop_op hL.closed (plain_mul hm1) (mul_not_add hm1) nL nl) nr mr
      rw [opVal_mul_assoc ho] at h2
      simpa using h2

/-- A sign before a product. -/
theorem reads_neg {R : List (Tok V ℝ)} {b : ℝ} (hR : Reads pi pt R b) (nR : NoTop isAdd R) : Reads pi pt (.neg :: R) (-b) := by
  generalize hn : R.length = n
  induction n using Nat.strong_induction_on generalizing R b with
  | _ n ih =>
    rcases noTopMul_or hR nR with h | ⟨l, r, o, x, y, rfl, ho, hl, hr, nl, nr, mr, rfl⟩
    · exact Reads.neg hR nR h
    · have h1 := ih l.length (by simp at hn; omega) hl nl rfl
      have h2 := Reads.mul ho h1 hr (noTop_neg rfl nl) nr mr
      have e : opVal o (-x) y = -opVal o x y := by
        cases o <;> (simp_all [isMul, opVal]; try ring)
      rw [e] at h2
      simpa using h2

theorem reads_div {R : List (Tok V ℝ)} {b : ℝ} (hR : Reads pi pt R b) (nR : NoTop isAdd R) (mR : NoTop isMul R) {L : List (Tok V ℝ)} {a : ℝ}
    (hL : Reads pi pt L a) (nL : NoTop isAdd L) : Reads pi pt (L ++ .div :: R) (a / b) :=
  Reads.mul (o := .div) rfl hL hR nL nR mR

/-! ## Parentheses -/

theorem mem_takeWhile {α : Type} {p : α → Bool} {l r : List α} {t : α} (hl : ∀ x ∈ l, p x = true) (ht : p t = true) : t ∈ (l ++ t :: r).takeWhile p := by
  rw [List.takeWhile_append_of_pos (by simpa using hl), List.takeWhile_cons_of_pos (by simpa using ht)]
  simp

theorem mem_parensless [DecidableEq V] {s l r : List (Tok V ℝ)} {t : Tok V ℝ} (hs : s = l ++ t :: r) (ht : plain t = true) (h : .lpar ∉ l ∨ .rpar ∉ r) :
    t ∈ parensless s := by
  unfold parensless
  split
  · rw [List.mem_append, List.mem_reverse]
    rcases h with h | h
    · left
      rw [hs]
      refine mem_takeWhile (fun x hx => ?_) ?_
      · simp only [ne_eq, decide_not, Bool.not_eq_eq_eq_not, Bool.not_true, decide_eq_false_iff_not]
        rintro rfl
        exact h hx
      · cases t <;> simp_all [plain]
    · right
      rw [hs, List.reverse_append, List.reverse_cons, List.append_assoc, List.singleton_append]
      refine mem_takeWhile (fun x hx => ?_) ?_
      · simp only [ne_eq, decide_not, Bool.not_eq_eq_eq_not, Bool.not_true, decide_eq_false_iff_not]
        rintro rfl
        exact h (by simpa using hx)
      · cases t <;> simp_all [plain]
  · rw [hs]; simp

theorem plain_dotDiv {t : Tok V ℝ} (h : isDotDiv t = true) : plain t = true := by cases t <;> simp_all [isDotDiv, plain]

/-- Parentheses are put where they are needed. -/
theorem reads_parenthesize [DecidableEq V] {mult : Bool} {s : List (Tok V ℝ)} {a : ℝ} (h : Reads pi pt s a) (ha : Seen isAdd isAdd s)
    (hm : mult = true → Seen isMul isDotDiv s) :
    Reads pi pt (parenthesize mult s) a ∧ NoTop isAdd (parenthesize mult s) ∧ (mult = true → NoTop isMul (parenthesize mult s)) := by
  unfold parenthesize
  dsimp only
  split
  · exact ⟨.paren h, noTop_paren h.closed, fun _ => noTop_paren h.closed⟩
  · rename_i hc
    push Not at hc
    refine ⟨h, ?_, ?_⟩
    · intro t ht
      by_contra hne
      obtain ⟨l, r, u, hs, hu, hlr⟩ := ha ⟨t, ht, by simpa using hne⟩
      have := mem_parensless hs (plain_add hu) hlr
      cases u <;> simp_all [isAdd]
    · intro hmt t ht
      by_contra hne
      obtain ⟨l, r, u, hs, hu, hlr⟩ := hm hmt ⟨t, ht, by simpa using hne⟩
      have := mem_parensless hs (plain_dotDiv hu) hlr
      cases u <;> simp_all [isDotDiv]

/-! ## Joining -/

theorem reads_sum [DecidableEq V] : ∀ {l : List (List (Tok V ℝ) × ℝ)}, l ≠ [] → (∀ x ∈ l, Reads pi pt x.1 x.2) →
    Reads pi pt (join .plus (l.map Prod.fst)) (l.map Prod.snd).sum
  | [], h, _ => absurd rfl h
  | [x], _, h => by simpa [join] using h x (by simp)
  | x :: y :: l, _, h => by
    have h1 := h x (by simp)
    have h2 := reads_sum (l := y :: l) (by simp) (fun z hz => h z (List.mem_cons_of_mem _ hz))
    simpa [join] using reads_plus h2 h1

theorem reads_prod [DecidableEq V] {m : Tok V ℝ} (hm : m = .mul ∨ m = .star) : ∀ {l : List (List (Tok V ℝ) × ℝ)}, l ≠ [] →
    (∀ x ∈ l, Reads pi pt x.1 x.2 ∧ NoTop isAdd x.1) →
    Reads pi pt (join m (l.map Prod.fst)) (l.map Prod.snd).prod ∧ NoTop isAdd (join m (l.map Prod.fst))
  | [], h, _ => absurd rfl h
  | [x], _, h => by simpa [join] using h x (by simp)
  | x :: y :: l, _, h => by
    have h1 := h x (by simp)
    have h2 := reads_prod hm (l := y :: l) (by simp) (fun z hz => h z (List.mem_cons_of_mem _ hz))
    simpa [join] using reads_times hm h2.1 h2.2 h1.1 h1.2

theorem perm_map_lift {α β : Type} {f : α → β} : ∀ {m : List β} {l : List α}, m.Perm (l.map f) → ∃ l' : List α, l'.Perm l ∧ l'.map f = m
  | [], l, h => by
    have := h.symm.eq_nil
    rw [List.map_eq_nil_iff] at this
    exact ⟨[], by rw [this], rfl⟩
  | x :: m, l, h => by
    obtain ⟨y, hy, rfl⟩ := List.mem_map.1 (h.subset (List.mem_cons_self ..))
    obtain ⟨l1, l2, rfl⟩ := List.append_of_mem hy
    have h1 : (l1 ++ y :: l2).Perm (y :: (l1 ++ l2)) := List.perm_middle
    have h2 : m.Perm ((l1 ++ l2).map f) := by
      have := h.trans (h1.map f)
      rw [List.map_cons] at this
      exact this.cons_inv
    obtain ⟨l', hp, e⟩ := perm_map_lift h2
    exact ⟨y :: l', (hp.cons y).trans h1.symm, by simp [e]⟩

/-! ## Objects without tree -/

theorem reads_num {c : ℝ} : Reads pi pt [.num c] c := .atom rfl

theorem reads_gText {F : Fmt V ℝ} {c : ℝ} (h : F.three c = c) : Reads pi pt (gText F c) c ∧ NoTop isAdd (gText F c) := by
  unfold gText
  rw [h]
  split
  · have := Reads.neg (reads_num (pi := pi) (pt := pt) (c := -c)) (noTop_atom rfl rfl) (noTop_atom rfl rfl)
    rw [neg_neg] at this
    exact ⟨this, noTop_neg rfl (noTop_atom rfl rfl)⟩
  · exact ⟨reads_num, noTop_atom rfl rfl⟩

theorem reads_power {F : Fmt V ℝ} {v : V} {x : ℝ} (h : F.two x = x) :
    Reads pi pt (.name v :: expoText F x) (pt v ^ x) ∧ NoTop isAdd (.name v :: expoText F x) := by
  have hv : Reads pi pt [.name v] (pt v) := .atom rfl
  have key : Reads pi pt ([.name v] ++ [.expo x]) (pt v ^ x) ∧ NoTop isAdd ([.name v] ++ [.expo x]) :=
    ⟨.pow hv (noTop_atom rfl rfl) (noTop_atom rfl rfl) (by simp) (by intro t ht; simp at ht; subst ht; rfl),
      noTop_expo hv.closed rfl (noTop_atom rfl rfl)⟩
  unfold expoText
  rw [h]
  split
  · exact key
  · split
    · rename_i h1
      rw [h1, Real.rpow_one]
      exact ⟨hv, noTop_atom rfl rfl⟩
    · exact key

theorem monVal_filter (pt : V → ℝ) : ∀ e : List (V × ℝ), monVal pt (e.filter (fun vx => vx.2 ≠ 0)) = monVal pt e
  | [] => rfl
  | vx :: e => by
    have ih := monVal_filter pt e
    unfold monVal at ih ⊢
    by_cases h : vx.2 = 0
    · rw [List.filter_cons_of_neg (by simp [h]), ih]
      simp [h]
    · rw [List.filter_cons_of_pos (by simp [h])]
      simp only [List.map_cons, List.prod_cons]
      rw [ih]

variable [DecidableEq V]

/-- The factors of a term, with what they stand for. -/
theorem varTexts_pairs {F : Fmt V ℝ} (hs : ∀ l, (F.sort l).Perm l) {e : List (V × ℝ)} (h : ∀ vx ∈ e, F.two vx.2 = vx.2) :
    ∃ l : List (List (Tok V ℝ) × ℝ), l.map Prod.fst = varTexts F e ∧ (l.map Prod.snd).prod = monVal pt e ∧ ∀ x ∈ l, Reads pi pt x.1 x.2 ∧ NoTop isAdd x.1 := by
  let g : V × ℝ → List (Tok V ℝ) × ℝ := fun vx => (.name vx.1 :: expoText F vx.2, pt vx.1 ^ vx.2)
  have h1 : (varTexts F e).Perm (((e.filter (fun vx => vx.2 ≠ 0)).map g).map Prod.fst) := by
    unfold varTexts
    rw [List.map_map]
    exact hs _
  obtain ⟨l, hp, hl⟩ := perm_map_lift h1
  refine ⟨l, hl, ?_, ?_⟩
  · rw [(hp.map Prod.snd).prod_eq, List.map_map, ← monVal_filter pt e]
    rfl
  · intro x hx
    obtain ⟨vx, hvx, rfl⟩ := List.mem_map.1 (hp.subset hx)
    exact reads_power (h vx (List.mem_filter.1 hvx).1)

theorem reads_term {F : Fmt V ℝ} (hs : ∀ l, (F.sort l).Perm l) {t : HV V ℝ × ℝ} (h3 : F.three t.2 = t.2) (h2 : ∀ vx ∈ t.1.items, F.two vx.2 = vx.2) :
    Reads pi pt (termText F t) (t.2 * monVal pt t.1.items) := by
  obtain ⟨l, hl, hv, hr⟩ := varTexts_pairs (pi := pi) (pt := pt) hs h2
  have hm : mulTok F = .mul ∨ mulTok F = .star := by unfold mulTok; split <;> simp
  obtain ⟨hg1, hg2⟩ := reads_gText (pi := pi) (pt := pt) h3
  unfold termText
  dsimp only
  split
  · rename_i hc
    have hl0 : l ≠ [] := by
      rintro rfl
      exact hc.2 hl.symm
    have := reads_prod (Or.inl rfl) hl0 hr
    rw [hl, hv] at this
    have e1 : t.2 = -1 := by
      rw [hc.1] at hg1
      exact hg1.unique (.neg reads_num (noTop_atom rfl rfl) (noTop_atom rfl rfl))
    rw [e1, neg_one_mul]
    exact reads_neg this.1 this.2
  · split
    · have := reads_prod hm (l := (gText F t.2, t.2) :: l) (by simp) (by
        intro x hx
        rcases List.mem_cons.1 hx with rfl | hx
        · exact ⟨hg1, hg2⟩
        · exact hr x hx)
      rw [List.map_cons, List.map_cons, List.prod_cons, hl, hv] at this
      exact this.1
    · rename_i hc
      push Not at hc
      have hl0 : l ≠ [] := by
        rintro rfl
        exact hc.2 hl.symm
      have e1 : t.2 = 1 := by
        rw [hc.1] at hg1
        exact hg1.unique reads_num
      rw [e1, one_mul]
      have := reads_prod hm hl0 hr
      rw [hl, hv] at this
      exact this.1

theorem reads_flat {F : Fmt V ℝ} (hs : ∀ l, (F.sort l).Perm l) {ts : List (HV V ℝ × ℝ)} (h0 : ts ≠ [])
    (h : ∀ t ∈ ts, F.three t.2 = t.2 ∧ ∀ vx ∈ t.1.items, F.two vx.2 = vx.2) : Reads pi pt (flatText F ts) (termsVal pt ts) := by
  let g : HV V ℝ × ℝ → List (Tok V ℝ) × ℝ := fun t => (termText F t, t.2 * monVal pt t.1.items)
  have h1 : (F.sort (ts.map (termText F))).Perm ((ts.map g).map Prod.fst) := by
    rw [List.map_map]
    exact hs _
  obtain ⟨l, hp, hl⟩ := perm_map_lift h1
  have hl0 : l ≠ [] := by
    rintro rfl
    have := hp.symm.eq_nil
    rw [List.map_eq_nil_iff] at this
    exact h0 this
  have := reads_sum (pi := pi) (pt := pt) hl0 (by
    intro x hx
    obtain ⟨t, ht, rfl⟩ := List.mem_map.1 (hp.subset hx)
    exact reads_term hs (h t ht).1 (h t ht).2)
  rw [hl, (hp.map Prod.snd).sum_eq, List.map_map] at this
  exact this

theorem reads_numText {F : Fmt V ℝ} (hpi : 0 < F.pi) {c : ℝ} (h : Exact F (.num c)) : Reads F.pi pt (numText F c) c := by
  unfold numText
  simp only [Exact] at h
  split
  · rename_i hc
    rw [if_pos hc] at h
    split
    · rename_i h1
      rw [if_pos h1] at h
      have : Reads F.pi pt [.pi (F.three (c / F.pi))] (c / F.pi * F.pi) := .atom (by rw [h]; rfl)
      rwa [div_mul_cancel₀ _ hpi.ne'] at this
    · rename_i h1
      rw [if_neg h1] at h
      have hc0 : 0 < c := by
        simp only [cleanPi, decide_eq_true_eq] at hc
        linarith [div_pos hpi (by norm_num : (0 : ℝ) < 12)]
      have h2 : Reads F.pi pt [.pi 1] (1 * F.pi) := .atom rfl
      have h3 : Reads F.pi pt [.num (F.three (F.pi / c))] (F.pi / c) := .atom (by rw [h]; rfl)
      have h4 := Reads.paren (reads_div h3 (noTop_atom rfl rfl) (noTop_atom rfl rfl) h2 (noTop_atom rfl rfl))
      have e : 1 * F.pi / (F.pi / c) = c := by field_simp
      rw [e] at h4
      exact h4
  · rename_i hc
    rw [if_neg hc] at h
    exact (reads_gText h).1

theorem parenthesize_ends {mult : Bool} {s : List (Tok V ℝ)} (h : s.head? ≠ some .neg ∧ ∀ t, s.getLast? = some t → isExpo t = false) :
    (parenthesize mult s).head? ≠ some .neg ∧ ∀ t, (parenthesize mult s).getLast? = some t → isExpo t = false := by
  unfold parenthesize
  dsimp only
  split
  · refine ⟨by simp, ?_⟩
    rw [← List.cons_append, List.getLast?_concat]
    intro t ht
    cases ht
    rfl
  · exact h

theorem parenthesize_cases (mult : Bool) (s : List (Tok V ℝ)) : parenthesize mult s = s ∨ parenthesize mult s = .lpar :: (s ++ [.rpar]) := by
  unfold parenthesize
  dsimp only
  split
  · exact Or.inr rfl
  · exact Or.inl rfl

theorem reads_text {F : Fmt V ℝ} (hs : ∀ l, (F.sort l).Perm l) (hpi : 0 < F.pi) : ∀ t : Ast V ℝ, Safe F t → Exact F t → Reads F.pi pt (text F t) (astVal pt t)
  | .var v, _, _ => .atom rfl
  | .num c, _, h => reads_numText hpi h
  | .flat ts, h0, h => reads_flat hs h0 h
  | .add a b, hf, hx => by
    have ha := reads_text hs hpi a hf.1 hx.1
    have hb := reads_text hs hpi b hf.2 hx.2
    unfold text astVal
    split
    · rename_i r e
      exact reads_minus hb ha e
    · exact reads_plus hb ha
  | .mul a b, hf, hx => by
    obtain ⟨hf1, hf2, sa, sb⟩ := hf
    obtain ⟨ha, na, -⟩ := reads_parenthesize (mult := false) (reads_text hs hpi a hf1 hx.1) sa (by simp)
    obtain ⟨hb, nb, -⟩ := reads_parenthesize (mult := false) (reads_text hs hpi b hf2 hx.2) sb (by simp)
    unfold text astVal
    dsimp only
    split
    · rename_i e
      rw [e] at ha
      rw [ha.unique reads_num, one_mul]
      exact hb
    · split
      · rename_i e
        rw [e] at hb
        rw [hb.unique reads_num, mul_one]
        exact ha
      · exact (reads_times (by unfold mulTok; split <;> simp) hb nb ha na).1
  | .div a b, hf, hx => by
    obtain ⟨hf1, hf2, sa, sb, sc⟩ := hf
    obtain ⟨ha, na, -⟩ := reads_parenthesize (mult := false) (reads_text hs hpi a hf1 hx.1) sa (by simp)
    obtain ⟨hb, nb, mb⟩ := reads_parenthesize (mult := true) (reads_text hs hpi b hf2 hx.2) sb (fun _ => sc)
    unfold text astVal
    dsimp only
    split
    · rename_i e
      rw [e] at hb
      rw [hb.unique reads_num, div_one]
      exact ha
    · exact reads_div hb nb (mb rfl) ha na
  | .neg a, hf, hx => by
    obtain ⟨ha, na, -⟩ := reads_parenthesize (mult := false) (reads_text hs hpi a hf.1 hx) hf.2 (by simp)
    unfold text astVal
    exact reads_neg ha na
  | .pow a x, hf, hx => by
    obtain ⟨hf1, sa, sb, he⟩ := hf
    obtain ⟨ha, na, ma⟩ := reads_parenthesize (mult := true) (reads_text hs hpi a hf1 hx) sa (fun _ => sb)
    unfold text astVal
    dsimp only
    split
    · rename_i e
      rw [e] at ha
      rw [ha.unique reads_num, Real.one_rpow, e]
      exact reads_num
    · have hends : (parenthesize true (text F a)).head? ≠ some .neg ∧ ∀ t, (parenthesize true (text F a)).getLast? = some t → isExpo t = false := by
        rcases parenthesize_cases true (text F a) with e | e
        · rw [e] at na ma ⊢
          exact he na (ma rfl)
        · rw [e, ← List.cons_append, List.getLast?_concat]
          exact ⟨by simp, by intro t ht; cases ht; rfl⟩
      exact Reads.pow ha na (ma rfl) hends.1 hends.2

/-! ## When operators are seen -/

theorem outer_split : ∀ {s : List (Tok V ℝ)} {d : Nat} {t : Tok V ℝ}, depth d s = some 0 → t ∈ outer d s →
    ∃ l r, s = l ++ t :: r ∧ depth d l = some 0 ∧ Closed r
  | [], d, t, _, ht => by cases d <;> cases ht
  | x :: s, d, t, h, ht => by
    by_cases hx : plain x = true
    · rw [depth_plain hx] at h
      cases d with
      | zero =>
        rw [outer_plain hx] at ht
        rcases List.mem_cons.1 ht with rfl | ht
        · exact ⟨[], s, rfl, rfl, h⟩
        · obtain ⟨l, r, rfl, h1, h2⟩ := outer_split h ht
          exact ⟨x :: l, r, rfl, by rw [depth_plain hx]; exact h1, h2⟩
      | succ d =>
        rw [outer_plain_succ hx] at ht
        obtain ⟨l, r, rfl, h1, h2⟩ := outer_split h ht
        exact ⟨x :: l, r, rfl, by rw [depth_plain hx]; exact h1, h2⟩
    · cases x with
      | lpar =>
        have h' : depth (d + 1) s = some 0 := by cases d <;> simpa [depth] using h
        have ht' : t ∈ outer (d + 1) s := by cases d <;> simpa [outer] using ht
        obtain ⟨l, r, rfl, h1, h2⟩ := outer_split h' ht'
        exact ⟨.lpar :: l, r, rfl, by cases d <;> simpa [depth] using h1, h2⟩
      | rpar =>
        cases d with
        | zero => simp [depth] at h
        | succ d =>
          obtain ⟨l, r, rfl, h1, h2⟩ := outer_split (d := d) h (by simpa [outer] using ht)
          exact ⟨.rpar :: l, r, rfl, h1, h2⟩
      | _ => exact absurd rfl hx

theorem closed_rpar : ∀ {s : List (Tok V ℝ)}, Closed s → .rpar ∈ s → .lpar ∈ s
  | [], _, h => by cases h
  | x :: s, hc, h => by
    by_cases hx : plain x = true
    · rw [closed_cons hx] at hc
      rcases List.mem_cons.1 h with rfl | h
      · cases hx
      · exact List.mem_cons_of_mem _ (closed_rpar hc h)
    · cases x with
      | lpar => simp
      | rpar => simp [Closed, depth] at hc
      | _ => exact absurd rfl hx

/-- With one pair of parentheses at most, operators outside are seen. -/
theorem seen_of_count {p q : Tok V ℝ → Bool} {s : List (Tok V ℝ)} (hc : Closed s) (h : s.count .lpar ≤ 1) (hpq : ∀ t ∈ s, p t = true → q t = true) : Seen p q s := by
  rintro ⟨t, ht, hp⟩
  obtain ⟨l, r, rfl, h1, h2⟩ := outer_split hc ht
  refine ⟨l, r, t, rfl, hpq t (by simp) hp, ?_⟩
  by_contra hcon
  push Not at hcon
  have e1 := List.count_pos_iff.2 hcon.1
  have e2 := List.count_pos_iff.2 (closed_rpar h2 hcon.2)
  rw [List.count_append, List.count_cons] at h
  omega

end
end Printing
end Verif
