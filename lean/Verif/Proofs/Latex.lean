import Verif.Spec.Latex
import Verif.Proofs.Parse
import Verif.Props.Einsum
/-! # LaTeX output: the printed text as a list of tokens -/
namespace Wicked

/-! ## Braces -/

theorem braces_cons (n : Nat) (c : Char) (s : Str) : braces n (c :: s) = if c = '{' then braces (n + 1) s
    else if c = '}' then (match n with | 0 => none | m + 1 => braces m s) else braces n s := by
  cases n <;> rfl

theorem braces_append (n : Nat) (a b : Str) : braces n (a ++ b) = (braces n a).bind (fun m => braces m b) := by
  induction a generalizing n with
  | nil => rfl
  | cons c a ih =>
    rw [List.cons_append, braces_cons, braces_cons]
    split
    · exact ih _
    · split
      · cases n with
        | zero => rfl
        | succ m => exact ih _
      · exact ih _

theorem braces_shift {n m : Nat} {a : Str} (h : braces n a = some m) (k : Nat) : braces (n + k) a = some (m + k) := by
  induction a generalizing n with
  | nil => simp only [braces, Option.some.injEq] at h ⊢; omega
  | cons c a ih =>
    rw [braces_cons] at h ⊢
    split
    · rename_i hc; rw [if_pos hc] at h
      have := ih h
      rwa [show n + 1 + k = n + k + 1 by omega] at this
    · rename_i hc; rw [if_neg hc] at h
      split
      · rename_i hc; rw [if_pos hc] at h
        cases n with
        | zero => cases h
        | succ n =>
          rw [show n + 1 + k = (n + k) + 1 by omega]
          exact ih h
      · rename_i hc; rw [if_neg hc] at h
        exact ih h

theorem Balanced.at {a : Str} (h : Balanced a) (n : Nat) : braces n a = some n := by
  have := braces_shift h n
  simpa using this

theorem Balanced.append {a b : Str} (ha : Balanced a) (hb : Balanced b) : Balanced (a ++ b) := by
  unfold Balanced
  rw [braces_append, ha.at 0]
  exact hb

theorem balanced_of_nobrace {a : Str} (h : ∀ c ∈ a, c ≠ '{' ∧ c ≠ '}') : Balanced a := by
  unfold Balanced
  induction a with
  | nil => rfl
  | cons c a ih =>
    obtain ⟨h1, h2⟩ := h c (by simp)
    rw [braces_cons, if_neg h1, if_neg h2]
    exact ih (fun d hd => h d (by simp [hd]))

theorem Balanced.group {a : Str} (h : Balanced a) : Balanced ('{' :: (a ++ ['}'])) := by
  unfold Balanced
  rw [braces_cons, if_pos rfl, braces_append, h.at 1]
  rfl

theorem Balanced.join {l : List Str} (h : ∀ w ∈ l, Balanced w) : Balanced (join [' '] l) := by
  induction l with
  | nil => rfl
  | cons a l ih =>
    by_cases hl : l = []
    · subst hl; exact h a (by simp)
    · rw [join_cons hl]
      exact ((h a (by simp)).append (by decide : braces 0 [' '] = some 0)).append (ih (fun w hw => h w (by simp [hw])))

/-- the text up to the brace that closes the current group, and what follows -/
def closeAt : Nat → Str → Option (Str × Str)
  | _, [] => none
  | n, c :: s =>
    if c = '{' then (closeAt (n + 1) s).map (fun p => (c :: p.1, p.2))
    else if c = '}' then (match n with | 0 => some ([], s) | m + 1 => (closeAt m s).map (fun p => (c :: p.1, p.2)))
    else (closeAt n s).map (fun p => (c :: p.1, p.2))

theorem closeAt_cons (n : Nat) (c : Char) (s : Str) : closeAt n (c :: s) = if c = '{' then (closeAt (n + 1) s).map (fun p => (c :: p.1, p.2))
    else if c = '}' then (match n with | 0 => some ([], s) | m + 1 => (closeAt m s).map (fun p => (c :: p.1, p.2)))
    else (closeAt n s).map (fun p => (c :: p.1, p.2)) := by
  cases n <;> rfl

theorem closeAt_append {n m : Nat} {b : Str} (h : braces n b = some m) (r : Str) :
    closeAt n (b ++ r) = (closeAt m r).map (fun p => (b ++ p.1, p.2)) := by
  induction b generalizing n with
  | nil =>
    simp only [braces, Option.some.injEq] at h
    subst h
    cases hx : closeAt n r <;> simp [hx]
  | cons c b ih =>
    rw [braces_cons] at h
    rw [List.cons_append, closeAt_cons]
    split
    · rename_i hc; rw [if_pos hc] at h
      rw [ih h]; cases closeAt m r <;> simp
    · rename_i hc; rw [if_neg hc] at h
      split
      · rename_i hc; rw [if_pos hc] at h
        cases n with
        | zero => cases h
        | succ n =>
          simp only at h ⊢
          rw [ih h]; cases closeAt m r <;> simp
      · rename_i hc; rw [if_neg hc] at h
        rw [ih h]; cases closeAt m r <;> simp

theorem group_inj {b b' r r' : Str} (hb : Balanced b) (hb' : Balanced b') (h : b ++ '}' :: r = b' ++ '}' :: r') : b = b' ∧ r = r' := by
  have h1 := closeAt_append hb ('}' :: r)
  have h2 := closeAt_append hb' ('}' :: r')
  rw [h, h2] at h1
  simp [closeAt] at h1
  exact ⟨h1.1.symm, h1.2.symm⟩

/-! ## Words separated by a space -/

/-- what can follow a word: nothing, or a space -/
def Tail (r : Str) : Prop := r = [] ∨ ∃ s, r = ' ' :: s

theorem join_tail (a : Str) (l : List Str) : ∃ r, join [' '] (a :: l) = a ++ r ∧ Tail r ∧ (l = [] → r = []) ∧
    (l ≠ [] → r = ' ' :: join [' '] l) := by
  by_cases hl : l = []
  · subst hl; exact ⟨[], by simp [join], Or.inl rfl, fun _ => rfl, fun h => absurd rfl h⟩
  · refine ⟨' ' :: join [' '] l, by rw [join_cons hl]; simp, Or.inr ⟨_, rfl⟩, fun h => absurd h hl, fun _ => rfl⟩

theorem join_code {α : Type} (f : α → Str) (W : α → Prop) (hne : ∀ a, W a → f a ≠ [])
    (hW : ∀ a b r r', W a → W b → Tail r → Tail r' → f a ++ r = f b ++ r' → a = b) {l l' : List α}
    (hl : ∀ a ∈ l, W a) (hl' : ∀ a ∈ l', W a) (h : join [' '] (l.map f) = join [' '] (l'.map f)) : l = l' := by
  induction l generalizing l' with
  | nil =>
    cases l' with
    | nil => rfl
    | cons b l' =>
      exfalso
      obtain ⟨r, h1, _⟩ := join_tail (f b) (l'.map f)
      rw [List.map_cons, h1] at h
      exact hne b (hl' b (by simp)) (List.append_eq_nil_iff.mp h.symm).1
  | cons a l ih =>
    cases l' with
    | nil =>
      exfalso
      obtain ⟨r, h1, _⟩ := join_tail (f a) (l.map f)
      rw [List.map_cons, h1] at h
      exact hne a (hl a (by simp)) (List.append_eq_nil_iff.mp h).1
    | cons b l' =>
      obtain ⟨r, h1, h2, h3, h4⟩ := join_tail (f a) (l.map f)
      obtain ⟨r', g1, g2, g3, g4⟩ := join_tail (f b) (l'.map f)
      rw [List.map_cons, List.map_cons, h1, g1] at h
      have hab := hW a b r r' (hl a (by simp)) (hl' b (by simp)) h2 g2 h
      subst hab
      have hr := List.append_cancel_left h
      congr 1
      by_cases hl0 : l = []
      · subst hl0
        rw [h3 rfl] at hr
        by_contra hn
        rw [g4 (by simpa using Ne.symm hn)] at hr
        cases hr
      · rw [h4 (by simpa using hl0)] at hr
        by_cases hl0' : l' = []
        · subst hl0'
          rw [g3 rfl] at hr
          cases hr
        · rw [g4 (by simpa using hl0')] at hr
          exact ih (fun x hx => hl x (by simp [hx])) (fun x hx => hl' x (by simp [hx])) (List.cons.inj hr).2

theorem first_split {c : Char} {a b r r' : Str} (ha : c ∉ a) (hb : c ∉ b) (h : a ++ c :: r = b ++ c :: r') : a = b ∧ r = r' := by
  induction a generalizing b with
  | nil =>
    cases b with
    | nil => simpa using h
    | cons d b => simp at h; exact absurd h.1 (by rintro rfl; exact hb (by simp))
  | cons x a ih =>
    cases b with
    | nil => simp at h; exact absurd h.1.symm (by rintro rfl; exact ha (by simp))
    | cons d b =>
      simp only [List.cons_append, List.cons.injEq] at h
      obtain ⟨h1, h2⟩ := ih (fun hh => ha (by simp [hh])) (fun hh => hb (by simp [hh])) h.2
      exact ⟨by rw [h.1, h1], h2⟩

theorem word_tail_inj {a b r r' : Str} (ha : ' ' ∉ a) (hb : ' ' ∉ b) (hr : Tail r) (hr' : Tail r') (h : a ++ r = b ++ r') : a = b := by
  rcases hr with rfl | ⟨s, rfl⟩ <;> rcases hr' with rfl | ⟨s', rfl⟩
  · simpa using h
  · exfalso; apply ha; rw [List.append_nil] at h; rw [h]; simp
  · exfalso; apply hb; rw [List.append_nil] at h; rw [← h]; simp
  · exact (first_split ha hb h).1

theorem join_words_inj {l l' : List Str} (h1 : ∀ w ∈ l, w ≠ [] ∧ ' ' ∉ w) (h2 : ∀ w ∈ l', w ≠ [] ∧ ' ' ∉ w)
    (h : join [' '] l = join [' '] l') : l = l' := by
  apply join_code (fun w => w) (fun w => w ≠ [] ∧ ' ' ∉ w) (fun _ h => h.1)
    (fun a b r r' ha hb hr hr' h => word_tail_inj ha.2 hb.2 hr hr' h) h1 h2
  simpa using h

/-! ## Tokens -/

/-- the pieces a printed term is made of -/
inductive Tok where
  | tens (body u l : Str)
  | lb
  | rb
  | op (sy : Char) (cre : Bool) (i : Str)
  | cta (u l : Str)
deriving DecidableEq

def Tok.text : Tok → Str
  | .tens b u l => '{' :: (b ++ '}' :: '^' :: '{' :: (u ++ '}' :: '_' :: '{' :: (l ++ ['}'])))
  | .lb => ['\\', '{']
  | .rb => ['\\', '}']
  | .op sy cre i => '\\' :: 'h' :: 'a' :: 't' :: '{' :: sy :: '}' :: (if cre then '^' else '_') :: '{' :: (i ++ ['}'])
  | .cta u l => '\\' :: 'h' :: 'a' :: 't' :: '{' :: 'a' :: '}' :: '^' :: '{' :: (u ++ '}' :: '_' :: '{' :: (l ++ ['}']))

def Tok.Good : Tok → Prop
  | .tens b u l => Balanced b ∧ Balanced u ∧ Balanced l
  | .lb => True
  | .rb => True
  | .op _ _ i => Balanced i
  | .cta u l => Balanced u ∧ Balanced l

theorem tail_ne {c : Char} (hc : c ≠ ' ') {r s : Str} (hr : Tail r) (h : c :: s = r) : False := by
  rcases hr with rfl | ⟨t, rfl⟩
  · cases h
  · exact hc (List.cons.inj h).1

theorem Tok.code (a b : Tok) (r r' : Str) (ha : a.Good) (hb : b.Good) (hr : Tail r) (hr' : Tail r') (h : a.text ++ r = b.text ++ r') : a = b := by
  cases a <;> cases b <;> simp only [Tok.text, List.cons_append, List.append_assoc, List.nil_append, List.cons.injEq] at h
  case tens.tens b u l b' u' l' =>
    obtain ⟨h1, h2⟩ := group_inj ha.1 hb.1 h.2
    simp only [List.cons.injEq, true_and] at h2
    obtain ⟨h3, h4⟩ := group_inj ha.2.1 hb.2.1 h2
    simp only [List.cons.injEq, true_and] at h4
    obtain ⟨h5, _⟩ := group_inj ha.2.2 hb.2.2 h4
    rw [h1, h3, h5]
  case lb.lb => rfl
  case rb.rb => rfl
  case op.op s c i s' c' i' =>
    obtain ⟨_, _, _, _, _, rfl, _, hc, _, hi⟩ := h
    obtain ⟨h1, _⟩ := group_inj ha hb hi
    subst h1
    cases c <;> cases c' <;> simp_all
  case op.cta s c i u l =>
    exfalso
    obtain ⟨_, _, _, _, _, _, _, hc, _, hi⟩ := h
    obtain ⟨_, h2⟩ := group_inj ha hb.1 hi
    exact tail_ne (by decide) hr h2.symm
  case cta.op u l s c i =>
    exfalso
    obtain ⟨_, _, _, _, _, _, _, hc, _, hi⟩ := h
    obtain ⟨_, h2⟩ := group_inj ha.1 hb hi
    exact tail_ne (by decide) hr' h2
  case cta.cta u l u' l' =>
    obtain ⟨_, _, _, _, _, _, _, _, _, hi⟩ := h
    obtain ⟨h1, h2⟩ := group_inj ha.1 hb.1 hi
    simp only [List.cons.injEq, true_and] at h2
    obtain ⟨h3, _⟩ := group_inj ha.2 hb.2 h2
    rw [h1, h3]
  all_goals exfalso
  all_goals first
    | exact absurd h.1 (by decide)
    | exact absurd h.2.1 (by decide)

theorem Tok.text_ne (a : Tok) : a.text ≠ [] := by cases a <;> simp [Tok.text]

theorem toks_inj {l l' : List Tok} (h1 : ∀ a ∈ l, a.Good) (h2 : ∀ a ∈ l', a.Good)
    (h : join [' '] (l.map Tok.text) = join [' '] (l'.map Tok.text)) : l = l' :=
  join_code Tok.text Tok.Good (fun a _ => a.text_ne) Tok.code h1 h2 h

end Wicked
