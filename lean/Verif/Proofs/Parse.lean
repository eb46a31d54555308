import Verif.Model.Parse
import Verif.Proofs.RationalStr
/-! # Scanning printed terms -/
namespace Wicked

theorem ne_of_class {p : Char → Bool} {c d : Char} (h : p c = true) (hd : p d = false) : c ≠ d := by
  rintro rfl; rw [h] at hd; cases hd

theorem isAlnum_word {c : Char} (h : isAlnum c = true) : isWord c = true := by simp [isWord, h]

theorem isAlpha_alnum {c : Char} (h : isAlpha c = true) : isAlnum c = true := by simp [isAlnum, h]
theorem isDigit_alnum {c : Char} (h : isDigit c = true) : isAlnum c = true := by simp [isAlnum, h]

theorem isAlnum_not_space {c : Char} (h : isAlnum c = true) : isSpace c = false := by
  simp only [isAlnum, isAlpha, isDigit, isSpace, Bool.or_eq_true, Bool.and_eq_true, decide_eq_true_eq, Bool.or_eq_false_iff,
    beq_eq_false_iff_ne, Bool.and_eq_false_iff, decide_eq_false_iff_not] at *
  omega

theorem isAlpha_not_digit {c : Char} (h : isAlpha c = true) : isDigit c = false := by
  simp only [isAlpha, isDigit, Bool.or_eq_true, Bool.and_eq_true, decide_eq_true_eq,
    Bool.and_eq_false_iff, decide_eq_false_iff_not] at *
  omega

theorem lit_append (l r : Str) : lit l (l ++ r) = some r := by
  unfold lit
  rw [if_pos (by simp), List.drop_left]

theorem lit_none {c d : Char} (h : c ≠ d) (l r : Str) : lit (c :: l) (d :: r) = none := by
  unfold lit
  rw [if_neg]
  simp [List.isPrefixOf, h]

theorem lit_nil (c : Char) (l : Str) : lit (c :: l) [] = none := by
  unfold lit
  rw [if_neg]
  simp [List.isPrefixOf]

/-! ## `findall` -/

theorem findallAux_skip (m : Str → Option (List Str × Nat)) (w r : Str) : findallAux m w.length (w ++ r) = findallAux m 0 r := by
  induction w with
  | nil => rfl
  | cons c w ih =>
    rw [List.length_cons, List.cons_append, findallAux]
    exact ih

theorem findall_hit {m : Str → Option (List Str × Nat)} {w r : Str} {caps : List Str} (hw : w ≠ [])
    (h : m (w ++ r) = some (caps, w.length)) : findallAux m 0 (w ++ r) = caps ++ findallAux m 0 r := by
  cases w with
  | nil => exact absurd rfl hw
  | cons c w =>
    rw [List.cons_append] at h ⊢
    rw [findallAux, h]
    simp only [List.length_cons, Nat.add_sub_cancel]
    rw [findallAux_skip]

theorem findall_miss {m : Str → Option (List Str × Nat)} {w r : Str} (h : ∀ p q, w = p ++ q → q ≠ [] → m (q ++ r) = none) :
    findallAux m 0 (w ++ r) = findallAux m 0 r := by
  induction w with
  | nil => rfl
  | cons c w ih =>
    rw [List.cons_append, findallAux, ← List.cons_append, h [] (c :: w) rfl (by simp)]
    exact ih (fun p q hpq hq => h (c :: p) q (by rw [hpq]; rfl) hq)

/-! ## Tensor words -/

/-- the printed form of a tensor, given the printed lists of indices -/
def tword (label u l : Str) : Str := label ++ ['^', '{'] ++ u ++ ['}', '_', '{'] ++ l ++ ['}']

theorem tensorParts_tword {cls : Char → Bool} (hc : cls '}' = false) {label u l : Str} (hl0 : label ≠ []) (hl : ∀ c ∈ label, isAlnum c = true)
    (hu : ∀ c ∈ u, cls c = true) (hl' : ∀ c ∈ l, cls c = true) (r : Str) :
    tensorParts cls (tword label u l ++ r) = some (label, u, l, r) := by
  have e : tword label u l ++ r = label ++ (['^', '{'] ++ (u ++ (['}', '_', '{'] ++ (l ++ (['}'] ++ r))))) := by
    simp [tword]
  have hA : ∀ x : Str, (label ++ (['^', '{'] ++ x)).takeWhile isAlnum = label ∧ (label ++ (['^', '{'] ++ x)).dropWhile isAlnum = ['^', '{'] ++ x := by
    intro x
    have : ∀ a, (['^', '{'] ++ x).head? = some a → isAlnum a = false := by intro a ha; simp at ha; subst ha; decide
    exact ⟨takeWhile_span hl this, dropWhile_span hl this⟩
  have hB : ∀ (v x : Str), (∀ c ∈ v, cls c = true) → (v ++ ('}' :: x)).takeWhile cls = v ∧ (v ++ ('}' :: x)).dropWhile cls = '}' :: x := by
    intro v x hv
    have : ∀ a, ('}' :: x).head? = some a → cls a = false := by intro a ha; simp at ha; subst ha; exact hc
    exact ⟨takeWhile_span hv this, dropWhile_span hv this⟩
  rw [e]
  unfold tensorParts
  have hne : label.isEmpty = false := by cases label with
    | nil => exact absurd rfl hl0
    | cons _ _ => rfl
  simp only [(hA _).1, (hA _).2, hne, lit_append, bind, Option.bind]
  have b1 := hB u ('_' :: '{' :: (l ++ (['}'] ++ r))) hu
  have b2 := hB l r hl'
  simp only [List.cons_append, List.nil_append] at b1 b2 ⊢
  rw [b1.1, b1.2, show ('}' :: '_' :: '{' :: (l ++ '}' :: r)) = ['}', '_', '{'] ++ (l ++ '}' :: r) from rfl, lit_append]
  simp only [b2.1, b2.2]
  rw [show ('}' :: r) = ['}'] ++ r from rfl, lit_append]
  rfl

theorem matchTensor_tword {label u l : Str} (hl0 : label ≠ []) (hl : ∀ c ∈ label, isAlnum c = true)
    (hu : ∀ c ∈ u, (isWord c || c == ',') = true) (hl' : ∀ c ∈ l, (isWord c || c == ',') = true) (r : Str) :
    matchTensor (tword label u l ++ r) = some ([tword label u l], (tword label u l).length) := by
  unfold matchTensor
  rw [tensorParts_tword (by decide) hl0 hl hu hl' r]
  simp [bind, Option.bind, pure]

theorem tword_ne_nil (label u l : Str) : tword label u l ≠ [] := by simp [tword]

theorem matchTensor_miss {q r : Str} (h1 : ∃ c ∈ q, isAlnum c = false) (h2 : '^' ∉ q) : matchTensor (q ++ r) = none := by
  have h : lit ['^', '{'] ((q ++ r).dropWhile isAlnum) = none := by
    induction q with
    | nil => obtain ⟨c, hc, _⟩ := h1; cases hc
    | cons a q ih =>
      rw [List.cons_append]
      by_cases ha : isAlnum a = true
      · rw [List.dropWhile_cons_of_pos ha]
        obtain ⟨c, hc, hc'⟩ := h1
        refine ih ⟨c, ?_, hc'⟩ (fun hh => h2 (List.mem_cons_of_mem _ hh))
        rcases List.mem_cons.mp hc with rfl | h
        · rw [ha] at hc'; cases hc'
        · exact h
      · rw [List.dropWhile_cons_of_neg ha]
        exact lit_none (by rintro rfl; exact h2 (by simp)) _ _
  unfold matchTensor tensorParts
  rw [h]
  simp [bind, Option.bind]

/-- a word that ends with a character outside `[a-zA-Z0-9]` and contains no `^` -/
theorem findall_tensor_miss {w r : Str} {c : Char} (hc : isAlnum c = false) (hn : '^' ∉ w ++ [c]) :
    findallAux matchTensor 0 ((w ++ [c]) ++ r) = findallAux matchTensor 0 r := by
  apply findall_miss
  intro p q hpq hq
  apply matchTensor_miss
  · obtain ⟨q', b, rfl⟩ : ∃ q' b, q = q' ++ [b] := ⟨q.dropLast, q.getLast hq, (List.dropLast_append_getLast hq).symm⟩
    have : b = c := by
      rw [← List.append_assoc] at hpq
      exact (by simpa using (List.append_inj' hpq rfl).2 : c = b).symm
    exact ⟨b, by simp, this ▸ hc⟩
  · intro h; exact hn (by rw [hpq]; simp [h])

theorem findall_tensor_hit {label u l : Str} (hl0 : label ≠ []) (hl : ∀ c ∈ label, isAlnum c = true)
    (hu : ∀ c ∈ u, (isWord c || c == ',') = true) (hl' : ∀ c ∈ l, (isWord c || c == ',') = true) (r : Str) :
    findallAux matchTensor 0 (tword label u l ++ r) = tword label u l :: findallAux matchTensor 0 r :=
  findall_hit (tword_ne_nil _ _ _) (matchTensor_tword hl0 hl hu hl' r)

/-! ## Operator words -/

/-- the printed form of an operator -/
def oword (s g : Char) (i : Str) : Str := s :: g :: '(' :: (i ++ [')'])

theorem opParts_oword {sym : Char → Bool} {s g : Char} {i : Str} (hs : sym s = true) (hg : g = '+' ∨ g = '-') (hi : ∀ c ∈ i, isWord c = true) (r : Str) :
    opParts sym (oword s g i ++ r) = some (g, i, r) := by
  have h : ∀ a, (')' :: r).head? = some a → isWord a = false := by intro a ha; simp at ha; subst ha; decide
  have e : oword s g i ++ r = s :: g :: '(' :: (i ++ ')' :: r) := by simp [oword]
  rw [e]
  unfold opParts
  have hg' : (g == '+' || g == '-') = true := by rcases hg with rfl | rfl <;> rfl
  simp only [hs, hg', Bool.and_self, if_true]
  rw [dropWhile_span hi h, takeWhile_span hi h, show (')' :: r) = [')'] ++ r from rfl, lit_append]
  rfl

theorem opParts_none_sym {sym : Char → Bool} {c : Char} (hc : sym c = false) (r : Str) : opParts sym (c :: r) = none := by
  unfold opParts
  split
  · rename_i h
    simp only [List.cons.injEq] at h
    rw [← h.1, hc]; rfl
  · rfl

theorem opParts_none_sign {sym : Char → Bool} {c g : Char} (h1 : g ≠ '+') (h2 : g ≠ '-') (r : Str) : opParts sym (c :: g :: r) = none := by
  unfold opParts
  split
  · rename_i h
    simp only [List.cons.injEq] at h
    rw [← h.2.1]
    simp [h1, h2]
  · rfl

theorem oword_ne_nil (s g : Char) (i : Str) : oword s g i ≠ [] := by simp [oword]

theorem findall_op_hit {s g : Char} {i : Str} (hs : s = 'a' ∨ s = 'b') (hg : g = '+' ∨ g = '-') (hi : ∀ c ∈ i, isWord c = true) (r : Str) :
    findallAux matchOp 0 (oword s g i ++ r) = [g] :: i :: findallAux matchOp 0 r := by
  have : findallAux matchOp 0 (oword s g i ++ r) = [[g], i] ++ findallAux matchOp 0 r := by
    apply findall_hit (oword_ne_nil _ _ _)
    unfold matchOp
    rw [opParts_oword (by rcases hs with rfl | rfl <;> rfl) hg hi r]
    simp [bind, Option.bind, pure]
  rw [this]; rfl

/-- a word without the letters of the operators -/
theorem findall_op_miss {w r : Str} (h : ∀ c ∈ w, c ≠ 'a' ∧ c ≠ 'b') : findallAux matchOp 0 (w ++ r) = findallAux matchOp 0 r := by
  apply findall_miss
  intro p q hpq hq
  cases q with
  | nil => exact absurd rfl hq
  | cons c q =>
    unfold matchOp
    have := h c (by rw [hpq]; simp)
    rw [List.cons_append, opParts_none_sym (by simp [this])]
    rfl

/-- a word without signs that does not end with a letter of the operators -/
theorem findall_op_miss' {w r : Str} {c : Char} (hc : c ≠ 'a' ∧ c ≠ 'b') (h : ∀ x ∈ w ++ [c], x ≠ '+' ∧ x ≠ '-') :
    findallAux matchOp 0 ((w ++ [c]) ++ r) = findallAux matchOp 0 r := by
  apply findall_miss
  intro p q hpq hq
  unfold matchOp
  have : opParts (fun c => c == 'a' || c == 'b') (q ++ r) = none := by
    match q, hq with
    | [b], _ =>
      have hb : b = c := (by simpa using (List.append_inj' hpq rfl).2 : c = b).symm
      rw [List.singleton_append]
      exact opParts_none_sym (by simp [hb, hc]) _
    | b :: g :: q', _ =>
      have := h g (by rw [hpq]; simp)
      exact opParts_none_sign this.1 this.2 _
  rw [this]; rfl

/-! ## The label of normal ordering -/

theorem normalSearch_skip {w r : Str} (h : ∀ p q, w = p ++ '{' :: q → ∀ f, normalRest f 0 (q ++ r) = false) :
    normalSearch (w ++ r) = normalSearch r := by
  induction w with
  | nil => rfl
  | cons c w ih =>
    rw [List.cons_append, normalSearch, ih (fun p q hpq => h (c :: p) q (by rw [hpq]; rfl))]
    by_cases hc : c = '{'
    · subst hc
      rw [h [] w rfl]; simp
    · simp [hc]

theorem normalSearch_skip' {w r : Str} (h : '{' ∉ w) : normalSearch (w ++ r) = normalSearch r :=
  normalSearch_skip (fun p q hpq => absurd (by rw [hpq]; simp) h)

/-- no operator follows at once: a word of the alphabet of tensors that ends with a brace -/
theorem normalRest_word {q r : Str} (hne : q ≠ []) (hs : ∀ x ∈ q, isSpace x = false ∧ x ≠ '+' ∧ x ≠ '-') (hlast : ∀ c, q.getLast? = some c → c ≠ 'a') (f : Nat) :
    normalRest f 0 (q ++ r) = false := by
  cases f with
  | zero => rfl
  | succ f =>
    cases q with
    | nil => exact absurd rfl hne
    | cons x q =>
      have hx := (hs x (by simp)).1
      rw [normalRest, List.cons_append, List.dropWhile_cons_of_neg (by simp [hx])]
      have : opParts (fun c => c == 'a') (x :: (q ++ r)) = none := by
        cases q with
        | nil => exact opParts_none_sym (by simpa using hlast x rfl) _
        | cons y q =>
          have := (hs y (by simp)).2
          exact opParts_none_sign this.1 this.2 _
      rw [this]; rfl

/-! ## Lists of words separated by blanks -/

theorem join_cons {sep a : Str} {l : List Str} (h : l ≠ []) : join sep (a :: l) = a ++ sep ++ join sep l := by
  cases l with
  | nil => exact absurd rfl h
  | cons b l => rfl

/-- words with what is captured in them -/
theorem findall_join {m : Str → Option (List Str × Nat)} (hsp : ∀ r, findallAux m 0 (' ' :: r) = findallAux m 0 r)
    {l : List (Str × List Str)} (h : ∀ w ∈ l, ∀ r, findallAux m 0 (w.1 ++ r) = w.2 ++ findallAux m 0 r) (r : Str) :
    findallAux m 0 (join [' '] (l.map Prod.fst) ++ r) = l.flatMap Prod.snd ++ findallAux m 0 r := by
  induction l with
  | nil => rfl
  | cons a l ih =>
    by_cases hl : l = []
    · subst hl
      rw [List.map_cons, List.map_nil, join, h a (by simp)]; simp
    · rw [List.map_cons, join_cons (by simpa using hl), List.append_assoc, List.append_assoc, h a (by simp), List.singleton_append, hsp,
        ih (fun w hw => h w (by simp [hw]))]
      simp

theorem normalSearch_join_skip {l l' : List Str} (h : ∀ w ∈ l, ∀ r, normalSearch (w ++ r) = normalSearch r) :
    normalSearch (join [' '] (l ++ l')) = normalSearch (join [' '] l') := by
  induction l with
  | nil => rfl
  | cons a l ih =>
    have ha := h a (by simp)
    have ih := ih (fun w hw => h w (by simp [hw]))
    rw [List.cons_append]
    by_cases hl : l ++ l' = []
    · rw [hl] at ih ⊢
      rw [← ih]
      have := ha []
      rw [List.append_nil] at this
      exact this
    · rw [join_cons hl, List.append_assoc, ha, List.singleton_append, normalSearch, ih]
      simp

theorem not_mem_join {c : Char} (hc : c ≠ ' ') {l : List Str} (h : ∀ w ∈ l, c ∉ w) : c ∉ join [' '] l := by
  induction l with
  | nil => simp [join]
  | cons a l ih =>
    by_cases hl : l = []
    · subst hl; exact h a (by simp)
    · rw [join_cons hl]
      simp only [List.mem_append, List.mem_singleton, not_or]
      exact ⟨⟨h a (by simp), hc⟩, ih (fun w hw => h w (by simp [hw]))⟩

theorem normalSearch_nobrace {s : Str} (h : '{' ∉ s) : normalSearch s = false := by
  have := normalSearch_skip' (r := []) h
  rw [List.append_nil] at this
  rw [this]; rfl

theorem join_length {l : List Str} (h : ∀ w ∈ l, w ≠ []) : l.length ≤ (join [' '] l).length := by
  induction l with
  | nil => simp [join]
  | cons a l ih =>
    have ha : 0 < a.length := List.length_pos_iff.mpr (h a (by simp))
    by_cases hl : l = []
    · subst hl; simp only [join, List.length_singleton]; omega
    · rw [join_cons hl]
      have := ih (fun w hw => h w (by simp [hw]))
      simp only [List.length_append, List.length_cons, List.length_nil] at *
      omega

/-- description of an operator word: symbol, sign, printed index -/
abbrev OpW := Char × Char × Str

/-- the operator words between the braces are read to the end exactly when all of them carry the symbol `a` -/
theorem normalRest_ops : ∀ (ws : List OpW) (f n : Nat), ws.length < f →
    (∀ w ∈ ws, (w.1 = 'a' ∨ w.1 = 'b') ∧ (w.2.1 = '+' ∨ w.2.1 = '-') ∧ w.2.2 ≠ [] ∧ ∀ c ∈ w.2.2, isWord c = true) →
    normalRest f n (' ' :: join [' '] (ws.map (fun w => oword w.1 w.2.1 w.2.2) ++ [['}']])) =
      (decide (0 < n + ws.length) && ws.all (fun w => w.1 == 'a')) := by
  intro ws
  induction ws with
  | nil =>
    intro f n hf _
    cases f with
    | zero => simp at hf
    | succ f =>
      simp [normalRest, join, isSpace, opParts, lit, List.isPrefixOf]
  | cons w ws ih =>
    intro f n hf h
    cases f with
    | zero => simp at hf
    | succ f =>
      obtain ⟨h1, h2, h3, h4⟩ := h w (by simp)
      rw [List.map_cons, List.cons_append, join_cons (by simp), normalRest, List.append_assoc]
      have hd : (' ' :: (oword w.1 w.2.1 w.2.2 ++ ([' '] ++ join [' '] (ws.map (fun w => oword w.1 w.2.1 w.2.2) ++ [['}']])))).dropWhile isSpace =
          oword w.1 w.2.1 w.2.2 ++ ([' '] ++ join [' '] (ws.map (fun w => oword w.1 w.2.1 w.2.2) ++ [['}']])) := by
        rw [List.dropWhile_cons_of_pos (by decide)]
        unfold oword
        rw [List.cons_append, List.dropWhile_cons_of_neg]
        rcases h1 with h1 | h1 <;> rw [h1] <;> decide
      rw [hd]
      rcases h1 with h1 | h1
      · rw [opParts_oword (by simp [h1]) h2 h4]
        simp only
        have : w.2.2.isEmpty = false := by
          cases hh : w.2.2 with
          | nil => exact absurd hh h3
          | cons _ _ => rfl
        rw [this]
        simp only [Bool.false_eq_true, if_false]
        rw [List.singleton_append, ih f (n + 1) (by simp at hf; omega) (fun w hw => h w (by simp [hw]))]
        rw [List.all_cons]
        simp [h1]
      · have : opParts (fun c => c == 'a') (oword w.1 w.2.1 w.2.2 ++ ([' '] ++ join [' '] (ws.map (fun w => oword w.1 w.2.1 w.2.2) ++ [['}']]))) = none := by
          unfold oword
          rw [List.cons_append]
          exact opParts_none_sym (by simp [h1]) _
        rw [this]
        simp only
        unfold oword
        rw [List.cons_append, lit_none (by rw [h1]; decide)]
        rw [List.all_cons]
        simp [h1]

/-! ## The factor -/

theorem factorCapture_eq {sgn ns ds r : Str} {sl : Bool} (hs : sgn = [] ∨ sgn = ['+'] ∨ sgn = ['-']) (hns : ∀ c ∈ ns, isDigit c = true)
    (hds : ∀ c ∈ ds, isDigit c = true) (hsl : sl = false → ds = []) (hsl' : sl = true → ns ≠ [])
    (hr : ∀ a, r.head? = some a → isDigit a = false ∧ a ≠ '/' ∧ ((sgn = [] ∧ ns = []) → isSpace a = false ∧ a ≠ '+' ∧ a ≠ '-')) :
    factorCapture (sgn ++ ns ++ (if sl then ['/'] else []) ++ ds ++ r) = sgn ++ ns ++ (if sl then ['/'] else []) ++ ds := by
  -- after the sign
  have hrd : ∀ a, r.head? = some a → isDigit a = false := fun a ha => (hr a ha).1
  have key : ∀ t : Str, t = ns ++ ((if sl then ['/'] else []) ++ (ds ++ r)) →
      (let num := t.takeWhile isDigit
       let s := t.dropWhile isDigit
       let slash := optSlash s
       let s := s.drop slash.length
       (num, slash, s.takeWhile isDigit)) = (ns, (if sl then ['/'] else []), ds) := by
    rintro t rfl
    cases sl with
    | true =>
      have h1 : ∀ a, (('/' : Char) :: (ds ++ r)).head? = some a → isDigit a = false := by
        intro a ha; simp at ha; subst ha; decide
      simp only [if_true, List.singleton_append]
      rw [takeWhile_span hns h1, dropWhile_span hns h1]
      simp [takeWhile_span hds hrd, optSlash]
    | false =>
      have hd : ds = [] := hsl rfl
      subst hd
      simp only [Bool.false_eq_true, if_false, List.nil_append]
      rw [takeWhile_span hns hrd, dropWhile_span hns hrd]
      cases r with
      | nil => rfl
      | cons a r =>
        have ha := hr a rfl
        have : optSlash (a :: r) = [] := by
          unfold optSlash
          split
          · rename_i h; simp only [List.cons.injEq] at h; exact absurd h.1 ha.2.1
          · rfl
        simp only [this]
        simp [List.takeWhile_cons, ha.1]
  have e : sgn ++ ns ++ (if sl then ['/'] else []) ++ ds ++ r = sgn ++ (ns ++ ((if sl then ['/'] else []) ++ (ds ++ r))) := by simp
  rw [e]
  generalize ht : ns ++ ((if sl then ['/'] else []) ++ (ds ++ r)) = t at *
  have k := key t rfl
  simp only [Prod.mk.injEq] at k
  obtain ⟨k1, k2, k3⟩ := k
  -- the head of the tail
  have hh : sgn = [] → ∀ a, t.head? = some a → isSpace a = false ∧ a ≠ '+' ∧ a ≠ '-' := by
    intro h0 a ha
    rw [← ht] at ha
    cases ns with
    | cons b n =>
      simp at ha; subst ha
      have hb := hns b (by simp)
      refine ⟨isDigit_not_space hb, ?_, ?_⟩ <;> (rintro rfl; revert hb; decide)
    | nil =>
      cases sl with
      | true => exact absurd rfl (hsl' rfl)
      | false =>
        rw [hsl rfl] at ha
        simp at ha
        exact (hr a ha).2.2 ⟨h0, rfl⟩
  have fin : ∀ (x : Str), (x.dropWhile isSpace) = sgn ++ t → optSign (sgn ++ t) = sgn → factorCapture x = sgn ++ ns ++ (if sl then ['/'] else []) ++ ds := by
    intro x hx hm
    unfold factorCapture
    simp only [hx, hm, List.drop_left]
    rw [k2] at k3
    rw [k2, k3, k1]
  rcases hs with rfl | rfl | rfl
  · apply fin
    · cases t with
      | nil => rfl
      | cons a t => exact List.dropWhile_cons_of_neg (by simp [(hh rfl a rfl).1])
    · cases t with
      | nil => rfl
      | cons a t =>
        have := hh rfl a rfl
        rw [List.nil_append]
        unfold optSign
        split
        · rename_i h; simp only [List.cons.injEq] at h; exact absurd h.1 this.2.1
        · rename_i h; simp only [List.cons.injEq] at h; exact absurd h.1 this.2.2
        · rfl
  · apply fin
    · exact List.dropWhile_cons_of_neg (by decide)
    · rfl
  · apply fin
    · exact List.dropWhile_cons_of_neg (by decide)
    · rfl

theorem matchTensor_nocaret {q : Str} (h : '^' ∉ q) : matchTensor q = none := by
  have h : lit ['^', '{'] (q.dropWhile isAlnum) = none := by
    cases hd : q.dropWhile isAlnum with
    | nil => exact lit_nil _ _
    | cons a t =>
      apply lit_none
      rintro rfl
      exact h ((List.dropWhile_suffix isAlnum).subset (by rw [hd]; simp))
  unfold matchTensor tensorParts
  rw [h]
  simp [bind, Option.bind]

theorem findall_nocaret {w : Str} (h : '^' ∉ w) : findallAux matchTensor 0 w = [] := by
  have := findall_miss (m := matchTensor) (w := w) (r := []) (by
    intro p q hpq _
    rw [List.append_nil]
    exact matchTensor_nocaret (fun hh => h (by rw [hpq]; simp [hh])))
  rw [List.append_nil] at this
  rw [this]; rfl

/-- the shape of a printed coefficient -/
structure StrShape (r : Rational) (sign : Bool) (sgn ns ds : Str) (sl : Bool) : Prop where
  eq : Rational.str r sign = sgn ++ ns ++ (if sl then ['/'] else []) ++ ds
  hs : sgn = [] ∨ sgn = ['+'] ∨ sgn = ['-']
  hns : ∀ c ∈ ns, isDigit c = true
  hds : ∀ c ∈ ds, isDigit c = true
  hsl : sl = false → ds = []
  hsl' : sl = true → ns ≠ [] ∧ ds ≠ []
  /-- a single character that is a digit -/
  one : sgn = [] → sl = false → ∀ d, ns = [d] → r.den = 1 ∧ 2 ≤ r.num ∧ r.num ≤ 9 ∧ sign = false

theorem natStr_len1 {n : Nat} {d : Char} (h : natStr n = [d]) : n ≤ 9 := by
  rw [natStr_eq] at h
  split at h
  · omega
  · have h1 := congrArg List.length h
    have := natStr_length_pos (n / 10)
    simp only [List.length_append, List.length_cons, List.length_nil] at h1
    omega

theorem str_shape {r : Rational} (hc : Rational.Canon r) (h0 : r.num ≠ 0) (sign : Bool) :
    ∃ sgn ns ds sl, StrShape r sign sgn ns ds sl := by
  have hden : 0 < r.den := hc.1
  obtain ⟨sg, hs, hsg⟩ := Rational.intStr_split r.num
  have e0 : (r.num == 0) = false := by simpa using h0
  by_cases h1 : r.den = 1
  · by_cases hm : r.num = -1
    · refine ⟨['-'], [], [], false, ⟨?_, by simp, by simp, by simp, by simp, by simp, by simp⟩⟩
      unfold Rational.str
      simp [h0, h1, hm]
    · by_cases hp : r.num = 1
      · refine ⟨if sign then ['+'] else [], [], [], false, ⟨?_, by cases sign <;> simp, by simp, by simp, by simp, by simp, by simp⟩⟩
        unfold Rational.str
        simp [h1, hp]
      · refine ⟨(if sign && decide (r.num > 0) then ['+'] else []) ++ sg, natStr r.num.natAbs, [], false, ⟨?_, ?_, natStr_digits _, by simp, by simp, by simp, ?_⟩⟩
        · unfold Rational.str
          simp [h0, h1, hm, hp, hs]
        · rcases hsg with ⟨rfl, h⟩ | ⟨rfl, h⟩
          · cases sign <;> simp; omega
          · have : ¬ r.num > 0 := by omega
            simp [this]
        · intro hh _ d hd
          have hl := natStr_len1 hd
          rcases hsg with ⟨rfl, h⟩ | ⟨rfl, h⟩
          · refine ⟨h1, by omega, by omega, ?_⟩
            cases sign with
            | false => rfl
            | true => simp at hh; omega
          · simp at hh
  · refine ⟨(if sign && decide (r.num > 0) then ['+'] else []) ++ sg, natStr r.num.natAbs, natStr r.den.natAbs, true,
      ⟨?_, ?_, natStr_digits _, natStr_digits _, by simp, fun _ => ⟨natStr_ne_nil _, natStr_ne_nil _⟩, by simp⟩⟩
    · unfold Rational.str
      have : intStr r.den = natStr r.den.natAbs := by unfold intStr; rw [if_neg (by omega)]
      simp [h0, h1, hs, this]
    · rcases hsg with ⟨rfl, h⟩ | ⟨rfl, h⟩
      · cases sign <;> simp; omega
      · have : ¬ r.num > 0 := by omega
        simp [this]

theorem StrShape.chars {r : Rational} {sign : Bool} {sgn ns ds : Str} {sl : Bool} (h : StrShape r sign sgn ns ds sl) :
    ∀ c ∈ Rational.str r sign, isDigit c = true ∨ c = '+' ∨ c = '-' ∨ c = '/' := by
  intro c hc
  rw [h.eq] at hc
  simp only [List.mem_append] at hc
  rcases hc with ((hc | hc) | hc) | hc
  · rcases h.hs with h1 | h1 | h1 <;> rw [h1] at hc <;> simp at hc <;> simp [hc]
  · left; exact h.hns c hc
  · split at hc <;> simp at hc; simp [hc]
  · left; exact h.hds c hc

/-- a short printed coefficient -/
theorem StrShape.short {r : Rational} {sign : Bool} {sgn ns ds : Str} {sl : Bool} (h : StrShape r sign sgn ns ds sl)
    (hl : (Rational.str r sign).length ≤ 1) :
    Rational.str r sign = [] ∨ Rational.str r sign = ['+'] ∨ Rational.str r sign = ['-'] ∨
      (∃ d, Rational.str r sign = [d] ∧ isDigit d = true ∧ sign = false ∧ r.den = 1 ∧ 2 ≤ r.num ∧ r.num ≤ 9) := by
  have e := h.eq
  rw [e] at hl
  cases sl with
  | true =>
    have := h.hsl' rfl
    have h1 := List.length_pos_iff.mpr this.1
    have h2 := List.length_pos_iff.mpr this.2
    simp only [if_true, List.length_append, List.length_cons] at hl
    omega
  | false =>
    have hd := h.hsl rfl
    subst hd
    simp only [Bool.false_eq_true, if_false, List.append_nil] at e hl
    rcases h.hs with h1 | h1 | h1
    · subst h1
      rw [List.nil_append] at e hl
      match ns, hl with
      | [], _ => left; exact e
      | [d], _ =>
        right; right; right
        have := h.one rfl rfl d rfl
        exact ⟨d, e, h.hns d (by simp), this.2.2.2, this.1, this.2.1, this.2.2.1⟩
      | _ :: _ :: _, hl => simp at hl
    · subst h1
      match ns, hl with
      | [], _ => right; left; exact e
      | _ :: _, hl => simp at hl
    · subst h1
      match ns, hl with
      | [], _ => right; right; left; exact e
      | _ :: _, hl => simp at hl

theorem StrShape.capture {r : Rational} {sign : Bool} {sgn ns ds : Str} {sl : Bool} (h : StrShape r sign sgn ns ds sl) {x : Str}
    (hx : ∀ a, x.head? = some a → isDigit a = false ∧ a ≠ '/' ∧ (Rational.str r sign = [] → isSpace a = false ∧ a ≠ '+' ∧ a ≠ '-')) :
    factorCapture (Rational.str r sign ++ x) = Rational.str r sign := by
  rw [h.eq]
  apply factorCapture_eq h.hs h.hns h.hds h.hsl (fun hh => (h.hsl' hh).1)
  intro a ha
  obtain ⟨h1, h2, h3⟩ := hx a ha
  refine ⟨h1, h2, ?_⟩
  rintro ⟨hs, hn⟩
  apply h3
  rw [h.eq, hs, hn]
  cases sl with
  | true => exact absurd hn (h.hsl' rfl).1
  | false => rw [h.hsl rfl]; rfl

end Wicked
