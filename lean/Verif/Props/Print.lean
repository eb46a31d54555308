import Verif.Proofs.Print
import Verif.Props.WickSum
import Verif.Props.Parse
/-! # C76: printed operators and operator expressions -/
namespace Wicked
open CppLt Rational

theorem findOps_snoc_space {sep dagger : Char} (hs : isAlpha sep = false) (hs' : sep ≠ '+' ∧ sep ≠ '^')
    (hd : dagger = '+' ∨ dagger = '^') (t : Component) (ht : ∀ x ∈ t, isAlpha x.1 = true) :
    OpExpr.findOps (t.flatMap (fun x => tokenText x dagger ++ [sep])) = t := by
  induction t with
  | nil => simp [OpExpr.findOps]
  | cons x t ih =>
    obtain ⟨c, b⟩ := x
    have hc := ht (c, b) (by simp)
    have ih' := ih (fun y hy => ht y (by simp [hy]))
    rw [List.flatMap_cons]
    cases b
    · simp only [tokenText, Bool.false_eq_true, if_false, List.cons_append, List.nil_append] at ih' ⊢
      rw [findOps_plain hc _ (by simpa using hs'), findOps_nonalpha hs, ih']
    · simp only [tokenText, if_true, List.cons_append, List.nil_append] at ih' ⊢
      rw [findOps_dagger hc hd, findOps_nonalpha hs, ih']

theorem join_tail_flatMap (ts : List Str) (w : Str) : join [' '] (ts ++ [w]) = ts.flatMap (fun t => t ++ [' ']) ++ w := by
  induction ts with
  | nil => rfl
  | cons a ts ih =>
    rw [List.cons_append, join_cons (by simp), ih, List.flatMap_cons]
    simp

/-- the printed operator, piece by piece -/
theorem op_text {o : OSI} (h8 : o.spaces.length ≤ 8) (p : Operator) : p.str o =
    .ok ((facToks o.spaces.length p).flatMap (fun t => t ++ [' ']) ++ p.label ++ [' ', '{', ' '] ++
      (compOf o p).flatMap (fun x => tokenText x '+' ++ [' ']) ++ ['}']) := by
  unfold Operator.str
  rw [tokens_eq h8]
  simp only [bind, Except.bind, pure, Except.pure]
  rw [show facToks o.spaces.length p ++ p.label :: ['{'] :: ((compOf o p).map (fun x => tokenText x '+') ++ [['}']]) =
    (facToks o.spaces.length p ++ [p.label, ['{']] ++ (compOf o p).map (fun x => tokenText x '+')) ++ [['}']] by simp,
    join_tail_flatMap]
  simp [List.flatMap_append, List.flatMap_map]

theorem run_labels (hist : List RegOp) : ∀ (n : Nat) s, (runReg OSI.empty hist).spaces[n]? = some s →
    (runReg OSI.empty hist).labelToSpace s.label = .ok (n : Int) := (C10_labels_distinct_any_history hist).2.2

/-- **C76** (round trip): an operator prints as its numerical factor (left out when it is 1), its label and, in braces, its creation and
annihilation operators; when the labels of the spaces are letters, `op` called with the label and the text between the braces returns exactly this
operator with coefficient 1. -/
theorem C76_operator_roundtrip (hist : List RegOp) (h8 : (runReg OSI.empty hist).spaces.length ≤ 8)
    (hl : (runReg OSI.empty hist).LetterLabels) (p : Operator) (hp : p.Valid (runReg OSI.empty hist).spaces.length) :
    ∃ pre text, p.str (runReg OSI.empty hist) = .ok (pre ++ p.label ++ [' ', '{', ' '] ++ text ++ ['}']) ∧
      (toRat (p.factor (runReg OSI.empty hist).spaces.length) = 1 → pre = []) ∧
      (toRat (p.factor (runReg OSI.empty hist).spaces.length) ≠ 1 → pre = (p.factor (runReg OSI.empty hist).spaces.length).str false ++ [' ']) ∧
      '{' ∉ text ∧ '}' ∉ text ∧
      ∀ unique, OpExpr.make (runReg OSI.empty hist) p.label [text] unique = .ok [([p], Rational.mk2 1 1)] := by
  have hlab := run_labels hist
  have halpha : ∀ x ∈ compOf (runReg OSI.empty hist) p, isAlpha x.1 = true := by
    intro x hx
    obtain ⟨s, hs, hx⟩ := compOf_mem hx
    rw [← hx]; exact hl s hs
  have hcan := (C39_operator_factor hp).1
  have hone : Rational.eq (p.factor (runReg OSI.empty hist).spaces.length) (Rational.ofInt 1) = true ↔
      toRat (p.factor (runReg OSI.empty hist).spaces.length) = 1 := by
    rw [eq_toRat hcan (canon_ofInt 1), toRat_ofInt]; norm_num
  refine ⟨_, _, op_text h8 p, ?_, ?_, ?_, ?_, ?_⟩
  · intro h
    unfold facToks
    rw [if_pos (hone.mpr h)]; rfl
  · intro h
    unfold facToks
    rw [if_neg (fun hh => h (hone.mp hh))]; simp
  · intro hc
    obtain ⟨x, hx, hc⟩ := List.mem_flatMap.mp hc
    have := halpha x hx
    unfold tokenText at hc
    split at hc <;> simp at hc <;> rw [← hc] at this <;> revert this <;> decide
  · intro hc
    obtain ⟨x, hx, hc⟩ := List.mem_flatMap.mp hc
    have := halpha x hx
    unfold tokenText at hc
    split at hc <;> simp at hc <;> rw [← hc] at this <;> revert this <;> decide
  · intro unique
    have hf := findOps_snoc_space (sep := ' ') (dagger := '+') (by decide) (by decide) (Or.inl rfl) _ halpha
    have hm := make_loop h8 p.label unique [(compOf (runReg OSI.empty hist) p).flatMap (fun x => tokenText x '+' ++ [' '])] (by
      intro c hc
      simp only [List.mem_singleton] at hc
      subst hc
      rw [hf]
      exact compOf_registered hlab p) []
    unfold OpExpr.make
    rw [hm, List.foldl_cons, List.foldl_nil, hf, compOf_operator hlab hp]
    cases unique <;> rfl

/-- the tokens of an operator determine it -/
theorem tokens_inj {o : OSI} (hl : ∀ (n : Nat) s, o.spaces[n]? = some s → o.labelToSpace s.label = .ok (n : Int)) {p q : Operator}
    (hp : p.Valid o.spaces.length) (hq : q.Valid o.spaces.length) (hc : compOf o p = compOf o q) (hlabel : p.label = q.label) : p = q := by
  rw [← compOf_operator hl hp, ← compOf_operator hl hq, hc, hlabel]

theorem tokenText_inj {x y : Char × Bool} (h : tokenText x '+' = tokenText y '+') : x = y := by
  obtain ⟨c, b⟩ := x
  obtain ⟨d, b'⟩ := y
  cases b <;> cases b' <;> simp [tokenText] at h ⊢ <;> exact h

/-- the gm part determines the factor -/
theorem facToks_congr {ns : Nat} {p q : Operator} (h : p.gm = q.gm) : facToks ns p = facToks ns q := by
  unfold facToks Operator.factor
  rw [h]

theorem gm_of_comp {o : OSI} (hl : ∀ (n : Nat) s, o.spaces[n]? = some s → o.labelToSpace s.label = .ok (n : Int)) {p q : Operator}
    (hp : p.Valid o.spaces.length) (hq : q.Valid o.spaces.length) (hc : compOf o p = compOf o q) : p.gm = q.gm := by
  have h1 := congrArg Operator.gm (compOf_operator hl hp)
  have h2 := congrArg Operator.gm (compOf_operator hl hq)
  rw [← h1, ← h2, hc]
  rfl

theorem spaceLabel_ne {o : OSI} (hl : o.LetterLabels) {p : Operator} {x : Char × Bool} (hx : x ∈ compOf o p) {c : Char} (hc : isAlpha c = false) (hc' : c ≠ '+') :
    c ∉ tokenText x '+' := by
  obtain ⟨s, hs, hx⟩ := compOf_mem hx
  have ha := hl s hs
  rw [hx] at ha
  unfold tokenText
  have : c ≠ x.1 := by rintro rfl; rw [ha] at hc; cases hc
  split <;> simp [this, hc']

theorem comp_flatMap_inj {t u : Component} (ht : ∀ x ∈ t, ' ' ∉ tokenText x '+') (hu : ∀ x ∈ u, ' ' ∉ tokenText x '+')
    (h : t.flatMap (fun x => tokenText x '+' ++ [' ']) = u.flatMap (fun x => tokenText x '+' ++ [' '])) : t = u := by
  induction t generalizing u with
  | nil =>
    cases u with
    | nil => rfl
    | cons y u => simp at h
  | cons x t ih =>
    cases u with
    | nil => simp at h
    | cons y u =>
      rw [List.flatMap_cons, List.flatMap_cons, List.append_assoc, List.append_assoc, List.singleton_append, List.singleton_append] at h
      obtain ⟨h1, h2⟩ := first_split' (ht x (by simp)) (hu y (by simp)) h
      rw [tokenText_inj h1, ih (fun z hz => ht z (by simp [hz])) (fun z hz => hu z (by simp [hz])) h2]

/-- **C76** (single operators): two operators, with any labels, that print the same text are equal. -/
theorem C76_operator_injective (hist : List RegOp) (h8 : (runReg OSI.empty hist).spaces.length ≤ 8)
    (hl : (runReg OSI.empty hist).LetterLabels) (p q : Operator) (hp : p.Valid (runReg OSI.empty hist).spaces.length)
    (hq : q.Valid (runReg OSI.empty hist).spaces.length) (h : p.str (runReg OSI.empty hist) = q.str (runReg OSI.empty hist)) : p = q := by
  generalize hoo : runReg OSI.empty hist = o at *
  have hlab := run_labels hist
  rw [hoo] at hlab
  rw [op_text h8, op_text h8] at h
  have h := List.append_cancel_right (Except.ok.inj h)
  simp only [List.append_assoc, List.cons_append, List.nil_append] at h
  have nb : ∀ p : Operator, '{' ∉ ' ' :: (compOf o p).flatMap (fun x => tokenText x '+' ++ [' ']) := by
    intro p hc
    rcases List.mem_cons.mp hc with hc | hc
    · exact absurd hc (by decide)
    · obtain ⟨x, hx, hc⟩ := List.mem_flatMap.mp hc
      rcases List.mem_append.mp hc with hc | hc
      · exact spaceLabel_ne hl hx (by decide) (by decide) hc
      · exact absurd hc (by decide)
  have h' : ((facToks o.spaces.length p).flatMap (fun t => t ++ [' ']) ++ p.label ++ [' ']) ++ '{' :: (' ' :: (compOf o p).flatMap (fun x => tokenText x '+' ++ [' '])) =
      ((facToks o.spaces.length q).flatMap (fun t => t ++ [' ']) ++ q.label ++ [' ']) ++ '{' :: (' ' :: (compOf o q).flatMap (fun x => tokenText x '+' ++ [' '])) := by
    simpa using h
  obtain ⟨h1, h2⟩ := last_split' (nb p) (nb q) h'
  have hc : compOf o p = compOf o q := comp_flatMap_inj (fun x hx => spaceLabel_ne hl hx (by decide) (by decide))
    (fun x hx => spaceLabel_ne hl hx (by decide) (by decide)) (List.cons.inj h2).2
  apply tokens_inj hlab hp hq hc
  rw [facToks_congr (gm_of_comp hlab hp hq hc)] at h1
  exact List.append_cancel_left (List.append_cancel_right h1)

/-- tokens of an operator -/
def printToks (o : OSI) (p : Operator) : List Str :=
  facToks o.spaces.length p ++ p.label :: ['{'] :: ((compOf o p).map (fun x => tokenText x '+') ++ [['}']])

theorem ofrat_chars {o : OSI} {p : Operator} (hp : p.Valid o.spaces.length) {w : Str} (hw : w ∈ facToks o.spaces.length p) :
    ∀ c ∈ w, isDigit c = true ∨ c = '+' ∨ c = '-' ∨ c = '/' := by
  unfold facToks at hw
  split at hw
  · simp at hw
  · simp only [List.mem_singleton] at hw
    subst hw
    by_cases h0 : (p.factor o.spaces.length).num = 0
    · intro c hc
      unfold Rational.str at hc
      simp [h0] at hc
      left; rw [hc]; decide
    · obtain ⟨_, _, _, _, hsh⟩ := str_shape (C39_operator_factor hp).1 h0 false
      exact hsh.chars

theorem printToks_no {o : OSI} (hl : o.LetterLabels) {p : Operator} (hp : p.Valid o.spaces.length) (hpl : PlainLabel p.label) {c : Char}
    (hc : c = ' ' ∨ c = '\n') : ∀ w ∈ printToks o p, c ∉ w := by
  intro w hw hcw
  unfold printToks at hw
  have hcd : isDigit c = false ∧ c ≠ '+' ∧ c ≠ '-' ∧ c ≠ '/' ∧ isAlpha c = false ∧ c ≠ '{' ∧ c ≠ '}' := by
    rcases hc with rfl | rfl <;> decide
  simp only [List.mem_append, List.mem_cons, List.mem_map, List.not_mem_nil, or_false] at hw
  rcases hw with hw | rfl | rfl | ⟨x, hx, rfl⟩ | rfl
  · rcases ofrat_chars hp hw c hcw with h | h | h | h
    · rw [hcd.1] at h; cases h
    · exact hcd.2.1 h
    · exact hcd.2.2.1 h
    · exact hcd.2.2.2.1 h
  · have := hpl c hcw
    rcases hc with rfl | rfl
    · exact this.1 rfl
    · exact this.2.1 rfl
  · simp at hcw; exact hcd.2.2.2.2.2.1 hcw
  · exact spaceLabel_ne hl hx hcd.2.2.2.2.1 hcd.2.1 hcw
  · simp at hcw; exact hcd.2.2.2.2.2.2 hcw

theorem line_eq {o : OSI} (h8 : o.spaces.length ≤ 8) (t : OperatorProduct × Rational) :
    opLine o t = .ok (join [' '] (t.2.str true :: t.1.flatMap (printToks o))) := by
  unfold opLine
  rw [mapM_ok (g := fun p => join [' '] (printToks o p))]
  · simp only [bind, Except.bind, pure, Except.pure]
    congr 1
    have key : ∀ (l : OperatorProduct) (pre : List Str), pre ≠ [] →
        (l.map (fun p => join [' '] (printToks o p))).foldl (fun s t => s ++ ' ' :: t) (join [' '] pre) = join [' '] (pre ++ l.flatMap (printToks o)) := by
      intro l
      induction l with
      | nil => intro pre _; simp
      | cons p l ih =>
        intro pre hpre
        have hne : printToks o p ≠ [] := by unfold printToks; simp
        rw [List.map_cons, List.foldl_cons, List.flatMap_cons, ← List.append_assoc, ← ih (pre ++ printToks o p) (by simp [hpre]),
          join_append hpre hne]
        simp
    have := key t.1 [t.2.str true] (by simp)
    simpa [join] using this
  · intro p _
    unfold Operator.str
    rw [tokens_eq h8]; rfl

/-- tokens of products -/
theorem toks_prod_inj {o : OSI} (hlab : ∀ (n : Nat) s, o.spaces[n]? = some s → o.labelToSpace s.label = .ok (n : Int)) (hl : o.LetterLabels) :
    ∀ {l l' : OperatorProduct}, (∀ p ∈ l, p.Valid o.spaces.length ∧ PlainLabel p.label) → (∀ p ∈ l', p.Valid o.spaces.length ∧ PlainLabel p.label) →
      l.flatMap (printToks o) = l'.flatMap (printToks o) → l = l'
  | [], [], _, _, _ => rfl
  | [], q :: l', _, _, h => by simp [printToks] at h
  | p :: l, [], _, _, h => by simp [printToks] at h
  | p :: l, q :: l', h1, h2, h => by
    have hp := h1 p (by simp)
    have hq := h2 q (by simp)
    -- closing brace
    have nb : ∀ r : Operator, r.Valid o.spaces.length ∧ PlainLabel r.label →
        (['}'] : Str) ∉ facToks o.spaces.length r ++ r.label :: ['{'] :: (compOf o r).map (fun x => tokenText x '+') := by
      intro r hr hm
      simp only [List.mem_append, List.mem_cons, List.mem_map] at hm
      rcases hm with hm | hm | hm | ⟨x, hx, hm⟩
      · rcases ofrat_chars hr.1 hm '}' (by simp) with h | h | h | h <;> revert h <;> decide
      · exact (hr.2 '}' (by rw [← hm]; simp)).2.2.2 rfl
      · exact absurd hm (by decide)
      · exact spaceLabel_ne hl hx (c := '}') (by decide) (by decide) (by rw [hm]; simp)
    have no : ∀ r : Operator, (['{'] : Str) ∉ (compOf o r).map (fun x => tokenText x '+') := by
      intro r hm
      obtain ⟨x, hx, hm⟩ := List.mem_map.mp hm
      exact spaceLabel_ne hl hx (c := '{') (by decide) (by decide) (by rw [hm]; simp)
    have h' : (facToks o.spaces.length p ++ p.label :: ['{'] :: (compOf o p).map (fun x => tokenText x '+')) ++ (['}'] : Str) :: l.flatMap (printToks o) =
        (facToks o.spaces.length q ++ q.label :: ['{'] :: (compOf o q).map (fun x => tokenText x '+')) ++ (['}'] : Str) :: l'.flatMap (printToks o) := by
      simpa [printToks] using h
    obtain ⟨e1, e2⟩ := first_split' (nb p hp) (nb q hq) h'
    have e1' : (facToks o.spaces.length p ++ [p.label]) ++ (['{'] : Str) :: (compOf o p).map (fun x => tokenText x '+') =
        (facToks o.spaces.length q ++ [q.label]) ++ (['{'] : Str) :: (compOf o q).map (fun x => tokenText x '+') := by simpa using e1
    obtain ⟨e3, e4⟩ := last_split' (no p) (no q) e1'
    have hc : compOf o p = compOf o q := List.map_injective_iff.mpr (fun x y => tokenText_inj) e4
    rw [facToks_congr (gm_of_comp hlab hp.1 hq.1 hc)] at e3
    have hlabel : p.label = q.label := by simpa using List.append_cancel_left e3
    rw [tokens_inj hlab hp.1 hq.1 hc hlabel, toks_prod_inj hlab hl (fun r hr => h1 r (by simp [hr])) (fun r hr => h2 r (by simp [hr])) e2]

theorem coef_text {c : Rational} (hc : Canon c) (h0 : c.num ≠ 0) : c.str true ≠ [] ∧ ' ' ∉ c.str true ∧ '\n' ∉ c.str true := by
  obtain ⟨_, _, _, _, hsh⟩ := str_shape hc h0 true
  refine ⟨?_, fun h => ?_, fun h => ?_⟩
  · intro h
    unfold Rational.str at h
    have e0 : (c.num == 0) = false := by simpa using h0
    simp only [e0, Bool.false_eq_true, if_false, Bool.true_and] at h
    by_cases hp : c.num > 0
    · simp only [hp, decide_true, if_true] at h
      split at h <;> try split at h <;> try split at h
      all_goals simp at h
    · have e : intStr c.num = '-' :: natStr c.num.natAbs := by unfold intStr; rw [if_pos (by omega)]
      have : c.num ≠ 1 := by omega
      simp only [hp, decide_false, Bool.false_eq_true, if_false, e] at h
      split at h <;> try split at h <;> try split at h
      all_goals simp_all
  · rcases hsh.chars _ h with h | h | h | h <;> revert h <;> decide
  · rcases hsh.chars _ h with h | h | h | h <;> revert h <;> decide

/-- **C76**: two operator expressions (of operators whose labels contain neither blanks, line breaks nor braces) that print the same text are equal: the
same products with the same coefficients. -/
theorem C76_expression_injective (hist : List RegOp) (h8 : (runReg OSI.empty hist).spaces.length ≤ 8)
    (hl : (runReg OSI.empty hist).LetterLabels) (e f : OpExpr) (he : Lin.WF e) (hf : Lin.WF f)
    (hev : e.AllValid (runReg OSI.empty hist).spaces.length) (hfv : f.AllValid (runReg OSI.empty hist).spaces.length)
    (hel : e.PlainLabels) (hfl : f.PlainLabels) :
    (∃ s, OpExpr.str (runReg OSI.empty hist) e = .ok s) ∧
    (OpExpr.str (runReg OSI.empty hist) e = OpExpr.str (runReg OSI.empty hist) f → e = f) := by
  have hlab := run_labels hist
  generalize runReg OSI.empty hist = o at *
  have key : ∀ e : OpExpr, OpExpr.str o e = .ok (join ['\n'] (e.map (fun t => join [' '] (t.2.str true :: t.1.flatMap (printToks o))))) := by
    intro e
    unfold OpExpr.str
    rw [mapM_ok _ _ e (fun t _ => line_eq h8 t)]; rfl
  refine ⟨⟨_, key e⟩, fun h => ?_⟩
  rw [key, key] at h
  replace h := Except.ok.inj h
  have hnum : ∀ e : OpExpr, Lin.WF e → ∀ t ∈ e, t.2.num ≠ 0 := by
    intro e he t ht h0
    exact he.nonzero t ht (by unfold toRat; rw [h0]; simp)
  have hlines : ∀ e : OpExpr, Lin.WF e → e.AllValid o.spaces.length → e.PlainLabels →
      ∀ w ∈ e.map (fun t => join [' '] (t.2.str true :: t.1.flatMap (printToks o))), w ≠ [] ∧ '\n' ∉ w := by
    intro e he hv hpl w hw
    obtain ⟨t, ht, rfl⟩ := List.mem_map.mp hw
    obtain ⟨c1, _, c3⟩ := coef_text (he.canon t ht) (hnum e he t ht)
    constructor
    · intro hh
      by_cases h1 : t.1.flatMap (printToks o) = []
      · rw [h1] at hh; exact c1 hh
      · rw [join_cons h1] at hh
        simp at hh
    · intro hc
      rcases mem_join hc with h1 | ⟨w, hw, hcw⟩
      · exact absurd h1 (by decide)
      · rcases List.mem_cons.mp hw with rfl | hw
        · exact c3 hcw
        · obtain ⟨p, hp, hw⟩ := List.mem_flatMap.mp hw
          exact printToks_no hl (hv t ht p hp) (hpl t ht p hp) (Or.inr rfl) w hw hcw
  -- the lists of lines agree
  have hmap : e.map (fun t => join [' '] (t.2.str true :: t.1.flatMap (printToks o))) = f.map (fun t => join [' '] (t.2.str true :: t.1.flatMap (printToks o))) := by
    have he' := hlines e he hev hel
    have hf' := hlines f hf hfv hfl
    by_cases h1 : e = []
    · by_cases h2 : f = []
      · rw [h1, h2]
      · exfalso
        rw [h1] at h
        cases f with
        | nil => exact h2 rfl
        | cons t f =>
          rw [List.map_nil, List.map_cons] at h
          have h3 := (hf' _ (by rw [List.map_cons]; exact List.mem_cons_self)).1
          by_cases h4 : f.map (fun t => join [' '] (t.2.str true :: t.1.flatMap (printToks o))) = []
          · rw [h4] at h; exact h3 h.symm
          · rw [join_cons h4] at h; simp [join] at h
    · by_cases h2 : f = []
      · exfalso
        rw [h2] at h
        cases e with
        | nil => exact h1 rfl
        | cons t e =>
          rw [List.map_nil, List.map_cons] at h
          have h3 := (he' _ (by rw [List.map_cons]; exact List.mem_cons_self)).1
          by_cases h4 : e.map (fun t => join [' '] (t.2.str true :: t.1.flatMap (printToks o))) = []
          · rw [h4] at h; exact h3 h
          · rw [join_cons h4] at h; simp [join] at h
      · exact join_single_inj (by simpa using h1) (by simpa using h2) (fun w hw => (he' w hw).2) (fun w hw => (hf' w hw).2) h
  -- every line determines its entry
  have hline : ∀ t ∈ e, ∀ u ∈ f, join [' '] (t.2.str true :: t.1.flatMap (printToks o)) = join [' '] (u.2.str true :: u.1.flatMap (printToks o)) → t = u := by
    intro t ht u hu hh
    have ct := coef_text (he.canon t ht) (hnum e he t ht)
    have cu := coef_text (hf.canon u hu) (hnum f hf u hu)
    have := join_single_inj (c := ' ') (by simp) (by simp) (by
      intro w hw
      rcases List.mem_cons.mp hw with rfl | hw
      · exact ct.2.1
      · obtain ⟨p, hp, hw⟩ := List.mem_flatMap.mp hw
        exact printToks_no hl (hev t ht p hp) (hel t ht p hp) (Or.inl rfl) w hw) (by
      intro w hw
      rcases List.mem_cons.mp hw with rfl | hw
      · exact cu.2.1
      · obtain ⟨p, hp, hw⟩ := List.mem_flatMap.mp hw
        exact printToks_no hl (hfv u hu p hp) (hfl u hu p hp) (Or.inl rfl) w hw) hh
    obtain ⟨e1, e2⟩ := List.cons.inj this
    have := toks_prod_inj hlab hl (fun p hp => ⟨hev t ht p hp, hel t ht p hp⟩) (fun p hp => ⟨hfv u hu p hp, hfl u hu p hp⟩) e2
    obtain ⟨a, b⟩ := t
    obtain ⟨a', b'⟩ := u
    have h2 := str_true_inj (he.canon _ ht) (hf.canon _ hu) (hnum e he _ ht) (hnum f hf _ hu) e1
    simp only [] at this h2
    rw [this, h2]
  clear h key hlines
  clear he hf hev hfv hel hfl hnum
  induction e generalizing f with
  | nil =>
    cases f with
    | nil => rfl
    | cons u f => simp at hmap
  | cons t e ih =>
    cases f with
    | nil => simp at hmap
    | cons u f =>
      rw [List.map_cons, List.map_cons] at hmap
      obtain ⟨e1, e2⟩ := List.cons.inj hmap
      rw [hline t (by simp) u (by simp) e1, ih f e2 (fun a ha b hb => hline a (by simp [ha]) b (by simp [hb]))]

/-- **C76** (the condition on labels matters): a product of two operators prints like a single operator whose label contains braces -/
theorem C76_labels_with_braces : ∃ e f : OpExpr, e ≠ f ∧ Lin.WF e ∧ Lin.WF f ∧
    e.AllValid exReg.spaces.length ∧ f.AllValid exReg.spaces.length ∧ OpExpr.str exReg e = OpExpr.str exReg f := by
  refine ⟨[([mkOp "A" [], mkOp "B" [(0, 1), (1, 0)]], ⟨1, 1⟩)], [([mkOp "A { } B" [(0, 1), (1, 0)]], ⟨1, 1⟩)], by decide +kernel, ?_, ?_, ?_, ?_, by decide +kernel⟩
  · exact ⟨⟨by simp, by decide +kernel⟩, by intro p hp; simp at hp; subst hp; norm_num [toRat]⟩
  · exact ⟨⟨by simp, by decide +kernel⟩, by intro p hp; simp at hp; subst hp; norm_num [toRat]⟩
  · intro t ht p hp
    simp only [List.mem_singleton] at ht
    subst ht
    simp only [List.mem_cons, List.not_mem_nil, or_false] at hp
    rcases hp with rfl | rfl
    · exact mkOp_valid _ _ _ (by simp) (by simp)
    · exact mkOp_valid _ _ _ (by decide +kernel) (by decide)
  · intro t ht p hp
    simp only [List.mem_singleton] at ht
    subst ht
    simp only [List.mem_singleton] at hp
    subst hp
    exact mkOp_valid _ _ _ (by decide +kernel) (by decide)

-- the hypotheses hold for the doubles operator of the usual two spaces, which prints as `1/4 t { v+ v+ o o }`
example : exReg.LetterLabels ∧ exReg.spaces.length ≤ 8 ∧ (mkOp "t" [(0, 2), (2, 0)]).Valid exReg.spaces.length ∧
    PlainLabel (mkOp "t" [(0, 2), (2, 0)]).label ∧
    (mkOp "t" [(0, 2), (2, 0)]).str exReg = .ok "1/4 t { v+ v+ o o }".toList ∧
    OpExpr.str exReg [([mkOp "f" [(1, 1)], mkOp "t" [(0, 2), (2, 0)]], ⟨-3, 2⟩), ([mkOp "t" [(0, 2), (2, 0)]], ⟨1, 1⟩)] =
      .ok "-3/2 f { o+ o } 1/4 t { v+ v+ o o }\n+ 1/4 t { v+ v+ o o }".toList := by
  refine ⟨?_, by decide +kernel, mkOp_valid _ _ _ (by decide +kernel) (by decide), ?_, by decide +kernel, by decide +kernel⟩
  · unfold OSI.LetterLabels; decide +kernel
  · unfold PlainLabel; decide +kernel

end Wicked
