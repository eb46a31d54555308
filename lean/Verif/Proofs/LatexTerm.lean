import Verif.Proofs.Latex
/-! # LaTeX output: the tokens of a term, and the factor -/
namespace Wicked
open Rational

theorem isGreek_iff (s : Str) : greekNames.contains s = true ↔ IsGreek s := by
  rw [List.contains_iff_mem]; rfl

theorem dropUnderscore_of {s : Str} (h : s.head? ≠ some '_') : dropUnderscore s = s := by
  unfold dropUnderscore
  split
  · exact absurd rfl h
  · rfl

theorem matchLabel_iff (l sym n : Str) : matchLabel l = some (sym, n) ↔ LabelParts l sym n := by
  unfold matchLabel
  constructor
  · intro h
    have happ : l.takeWhile isAlpha ++ l.dropWhile isAlpha = l := List.takeWhile_append_dropWhile
    dsimp only at h
    split at h
    · rename_i hc
      simp only [Option.some.injEq, Prod.mk.injEq] at h
      obtain ⟨h1, h2⟩ := h
      simp only [Bool.and_eq_true, Bool.not_eq_true', List.isEmpty_eq_false_iff, List.all_eq_true] at hc
      rw [h2, h1] at hc
      refine ⟨hc.1, ?_, hc.2, ?_⟩
      · intro c hcm; rw [← h1] at hcm; exact mem_takeWhile hcm
      · rw [h1] at happ
        by_cases hu : (l.dropWhile isAlpha).head? = some '_'
        · right
          cases hd : l.dropWhile isAlpha with
          | nil => rw [hd] at hu; cases hu
          | cons c t =>
            rw [hd] at hu h2
            simp only [List.head?_cons, Option.some.injEq] at hu
            subst hu
            rw [← happ, hd, ← h2]; rfl
        · left
          rw [dropUnderscore_of hu] at h2
          rw [← happ, h2]
    · cases h
  · rintro ⟨h1, h2, h3, h4⟩
    have hdig : ∀ c, n.head? = some c → isAlpha c = false := by
      intro c e
      have := h3 c (List.mem_of_head? e)
      cases ha : isAlpha c with
      | false => rfl
      | true => rw [isAlpha_not_digit ha] at this; cases this
    have fin : (if (!sym.isEmpty && n.all isDigit) = true then some (sym, n) else none) = some (sym, n) := by
      rw [if_pos]
      simp only [Bool.and_eq_true, Bool.not_eq_true', List.isEmpty_eq_false_iff, List.all_eq_true]
      exact ⟨h1, h3⟩
    rcases h4 with rfl | rfl
    · rw [takeWhile_span h2 hdig, dropWhile_span h2 hdig, dropUnderscore_of (fun hh => by
        have := h3 '_' (List.mem_of_head? hh); revert this; decide)]
      exact fin
    · have hh : ∀ a, ('_' :: n).head? = some a → isAlpha a = false := by
        intro a ha; simp at ha; subst ha; decide
      rw [takeWhile_span h2 hh, dropWhile_span h2 hh]
      exact fin

theorem LabelParts.unique {l a b c d : Str} (h : LabelParts l a b) (h' : LabelParts l c d) : a = c ∧ b = d := by
  have h1 := (matchLabel_iff l a b).mpr h
  rw [(matchLabel_iff l c d).mpr h'] at h1
  simp at h1
  exact ⟨h1.1.symm, h1.2.symm⟩

/-- what stands in the braces of a label -/
def labelBody (sym raw : Str) : Str :=
  if greekNames.contains sym then '\\' :: sym else sym ++ (if raw.length == 0 then [] else ['_', '{'] ++ raw ++ ['}'])

theorem labelLatex_eq (sym raw : Str) : labelLatex sym raw = '{' :: (labelBody sym raw ++ ['}']) := by
  unfold labelLatex labelBody
  cases greekNames.contains sym <;> simp

theorem isAlpha_brace {c : Char} (h : isAlpha c = true) : c ≠ '{' ∧ c ≠ '}' := by
  constructor <;> (rintro rfl; revert h; decide)

theorem isDigit_brace {c : Char} (h : isDigit c = true) : c ≠ '{' ∧ c ≠ '}' := by
  constructor <;> (rintro rfl; revert h; decide)

theorem labelBody_balanced {l sym n : Str} (h : LabelParts l sym n) : Balanced (labelBody sym n) := by
  obtain ⟨_, h2, h3, _⟩ := h
  have b1 : Balanced sym := balanced_of_nobrace (fun c hc => isAlpha_brace (h2 c hc))
  unfold labelBody
  split
  · exact Balanced.append (a := ['\\']) (by decide +kernel : braces 0 ['\\'] = some 0) b1
  · apply b1.append
    split
    · rfl
    · have b2 : Balanced n := balanced_of_nobrace (fun c hc => isDigit_brace (h3 c hc))
      have : ['_', '{'] ++ n ++ ['}'] = ['_'] ++ '{' :: (n ++ ['}']) := by simp
      rw [this]
      exact Balanced.append (a := ['_']) (by decide +kernel : braces 0 ['_'] = some 0) b2.group

theorem labelBody_inj {l l' s s' n n' : Str} (h : LabelParts l s n) (h' : LabelParts l' s' n') :
    labelBody s n = labelBody s' n' ↔ s = s' ∧ (n = n' ∨ IsGreek s) := by
  have head : ∀ {l s n : Str}, LabelParts l s n → ∀ t r, '\\' :: t = s ++ r → False := by
    rintro l s n ⟨h1, h2, _⟩ t r e
    cases s with
    | nil => exact h1 rfl
    | cons c s =>
      have := h2 c (by simp)
      rw [← (List.cons.inj e).1] at this
      revert this; decide
  have shead : ∀ n : Str, ∀ a, (if n.length == 0 then [] else ['_', '{'] ++ n ++ ['}']).head? = some a → isAlpha a = false := by
    intro n a ha
    split at ha
    · cases ha
    · simp at ha; subst ha; decide
  unfold labelBody
  by_cases g : greekNames.contains s = true <;> by_cases g' : greekNames.contains s' = true
  · rw [if_pos g, if_pos g']
    simp only [List.cons.injEq, true_and]
    exact ⟨fun e => ⟨e, Or.inr ((isGreek_iff s).mp g)⟩, fun e => e.1⟩
  · rw [if_pos g, if_neg g']
    constructor
    · intro e; exact absurd (head h' _ _ e) id
    · rintro ⟨rfl, _⟩; exact absurd g g'
  · rw [if_neg g, if_pos g']
    constructor
    · intro e; exact absurd (head h _ _ e.symm) id
    · rintro ⟨rfl, _⟩; exact absurd g' g
  · rw [if_neg g, if_neg g']
    constructor
    · intro e
      have e1 : s = s' := by
        have := congrArg (List.takeWhile isAlpha) e
        rwa [takeWhile_span h.2.1 (shead n), takeWhile_span h'.2.1 (shead n')] at this
      subst e1
      refine ⟨rfl, Or.inl ?_⟩
      have e2 := List.append_cancel_left e
      by_cases z : n = [] <;> by_cases z' : n' = []
      · rw [z, z']
      · subst z; simp [z'] at e2
      · subst z'; simp [z] at e2
      · simpa [z, z'] using e2
    · rintro ⟨rfl, rfl | hg⟩
      · rfl
      · exact absurd ((isGreek_iff s).mpr hg) g

/-! ## The tokens of a term -/

/-- the label of a tensor as printed -/
def tokBody (x : Tensor) : Str := match matchLabel x.label with
  | some p => labelBody p.1 p.2
  | none => []

def names (o : OSI) (l : List Index) : Str := join [' '] (l.map (nm o))

def tokT (o : OSI) (x : Tensor) : Tok := .tens (tokBody x) (names o x.upper) (names o x.lower)

def opChar (o : OSI) (a : SQOp) : Char := match o.fieldType a.index.space with
  | .ok .fermion => 'a'
  | _ => 'b'

def opToks (o : OSI) (ops : List SQOp) : List Tok :=
  if isCreThenAnn ops then [.cta (names o ((ops.filter SQOp.isCre).map SQOp.index)) (names o ((ops.filter (fun a => !a.isCre)).map SQOp.index).reverse)]
  else ops.map (fun a => .op (opChar o a) a.isCre (nm o a.index))

def sectToks (o : OSI) (fl : Bool) (ops : List SQOp) : List Tok :=
  if ops.isEmpty then [] else (if fl then [.lb] else []) ++ opToks o ops ++ (if fl then [.rb] else [])

def STerm.toks (o : OSI) (t : STerm) : List Tok := t.tensors.map (tokT o) ++ sectToks o t.normalOrdered t.ops

theorem tensor_latex {o : OSI} {x : Tensor} (h : ∀ i ∈ x.upper ++ x.lower, i.Registered o) :
    x.latex o = if (matchLabel x.label).isSome then .ok (tokT o x).text else .error .throw := by
  unfold Tensor.latex
  rw [mapM_ok _ (nm o) x.upper (fun i hi => latex_registered (h i (by simp [hi]))),
    mapM_ok _ (nm o) x.lower (fun i hi => latex_registered (h i (by simp [hi])))]
  simp only [bind, Except.bind, pure, Except.pure]
  unfold tokT tokBody names
  cases hm : matchLabel x.label with
  | none => simp
  | some p => simp [labelLatex_eq, Tok.text]

theorem fieldType_registered {o : OSI} {i : Index} (h : i.Registered o) : ∃ f, o.fieldType i.space = .ok f := by
  obtain ⟨h1, h2⟩ := h
  have hx : o.space i.space = .ok o.spaces[i.space.toNat] := by
    unfold OSI.space
    rw [if_pos h1, List.getElem?_eq_getElem h2]
  exact ⟨_, by unfold OSI.fieldType; rw [hx]; rfl⟩

theorem op_latex {o : OSI} {a : SQOp} (h : a.index.Registered o) :
    a.latex o = .ok (Tok.op (opChar o a) a.isCre (nm o a.index)).text := by
  obtain ⟨f, hf⟩ := fieldType_registered h
  unfold SQOp.latex OSI.opSymbol opChar
  rw [hf, latex_registered h]
  simp only [bind, Except.bind, pure, Except.pure]
  cases f <;> cases a.isCre <;> simp [Tok.text]

theorem opsLatex_eq {o : OSI} {ops : List SQOp} (h : ∀ a ∈ ops, a.index.Registered o) :
    opsLatex o ops = .ok ((opToks o ops).map Tok.text) := by
  unfold opsLatex opToks
  split
  · rw [mapM_ok (fun a => a.index.latex o) (fun a => nm o a.index) _ (fun a ha => latex_registered (h a (List.mem_filter.mp ha).1)),
      mapM_ok (fun a => a.index.latex o) (fun a => nm o a.index) _ (fun a ha => latex_registered (h a (List.mem_filter.mp ha).1))]
    simp [bind, Except.bind, pure, Except.pure, names, Tok.text, Function.comp_def]
  · rw [mapM_ok _ (fun a => (Tok.op (opChar o a) a.isCre (nm o a.index)).text) _ (fun a ha => op_latex (h a ha))]
    simp [Function.comp_def]

theorem sterm_latex {o : OSI} {t : STerm} (h : t.AllRegistered o) (hl : t.LatexLabels) :
    t.latex o = .ok (join [' '] ((t.toks o).map Tok.text)) := by
  unfold STerm.latex STerm.toks sectToks
  rw [mapM_ok _ (fun x => (tokT o x).text) _ (fun x hx => by
    obtain ⟨s, n, hp⟩ := hl x hx
    rw [tensor_latex (h.1 x hx), (matchLabel_iff _ _ _).mpr hp]; rfl)]
  rw [opsLatex_eq h.2]
  simp only [bind, Except.bind, pure, Except.pure]
  cases t.ops.isEmpty <;> cases t.normalOrdered <;> simp [Function.comp_def, Tok.text]

theorem sterm_latex_throw {o : OSI} {t : STerm} (h : t.AllRegistered o) (hl : ¬ t.LatexLabels) : t.latex o = .error .throw := by
  have key : ∀ l : List Tensor, (∀ x ∈ l, ∀ i ∈ x.upper ++ x.lower, i.Registered o) → (¬ ∀ x ∈ l, ∃ sym n, LabelParts x.label sym n) →
      l.mapM (m := Except Fault) (Tensor.latex o) = .error .throw := by
    intro l
    induction l with
    | nil => intro _ hn; exact absurd (by simp) hn
    | cons x l ih =>
      intro hr hn
      rw [List.mapM_cons, tensor_latex (hr x (by simp))]
      cases hm : matchLabel x.label with
      | none => rfl
      | some p =>
        simp only [Option.isSome_some, if_true, bind, Except.bind]
        rw [ih (fun y hy => hr y (by simp [hy])) (fun hh => hn (by
          intro y hy
          rcases List.mem_cons.mp hy with rfl | hy
          · exact ⟨p.1, p.2, (matchLabel_iff _ _ _).mp hm⟩
          · exact hh y hy))]
  unfold STerm.latex
  rw [key t.tensors h.1 hl]
  rfl

/-! ## Terms with the same tokens -/

theorem cta_split {ops : List SQOp} (h : isCreThenAnn ops = true) : ops = ops.filter SQOp.isCre ++ ops.filter (fun a => !a.isCre) := by
  induction ops with
  | nil => rfl
  | cons a l ih =>
    have htail : isCreThenAnn l = true := by
      cases l with
      | nil => rfl
      | cons b l => rw [isCreThenAnn, Bool.and_eq_true] at h; exact h.2
    cases ha : a.isCre with
    | true => simp only [List.filter_cons, ha, if_true, Bool.not_true, Bool.false_eq_true, if_false, List.cons_append]; rw [← ih htail]
    | false =>
      have hall : ∀ b ∈ l, b.isCre = false := by
        have key : ∀ (l : List SQOp) (a : SQOp), a.isCre = false → isCreThenAnn (a :: l) = true → ∀ b ∈ l, b.isCre = false := by
          intro l
          induction l with
          | nil => intro _ _ _ b hb; cases hb
          | cons c l ih =>
            intro a ha h b hb
            rw [isCreThenAnn, Bool.and_eq_true, ha] at h
            have hc : c.isCre = false := by simpa using h.1
            rcases List.mem_cons.mp hb with rfl | hb
            · exact hc
            · exact ih c hc h.2 b hb
        exact key l a ha h
      have h1 : (a :: l).filter SQOp.isCre = [] := by
        rw [List.filter_eq_nil_iff]
        intro b hb
        rcases List.mem_cons.mp hb with rfl | hb
        · simp [ha]
        · simp [hall b hb]
      have h2 : (a :: l).filter (fun a => !a.isCre) = a :: l := by
        rw [List.filter_eq_self]
        intro b hb
        rcases List.mem_cons.mp hb with rfl | hb
        · simp [ha]
        · simp [hall b hb]
      rw [h1, h2]; rfl

theorem map_index_inj {ty : SQType} {l l' : List SQOp} (h : ∀ a ∈ l, a.type = ty) (h' : ∀ a ∈ l', a.type = ty)
    (e : l.map SQOp.index = l'.map SQOp.index) : l = l' := by
  induction l generalizing l' with
  | nil => cases l' with
    | nil => rfl
    | cons _ _ => cases e
  | cons a l ih =>
    cases l' with
    | nil => cases e
    | cons b l' =>
      simp only [List.map_cons, List.cons.injEq] at e
      rw [ih (fun x hx => h x (by simp [hx])) (fun x hx => h' x (by simp [hx])) e.2]
      have h1 := h a (by simp)
      have h2 := h' b (by simp)
      cases a; cases b; simp_all

section
variable {o : OSI} (hinj : ∀ i j : Index, i.Registered o → j.Registered o → nm o i = nm o j → i = j)
  (hnm : ∀ i : Index, i.Registered o → nm o i ≠ [] ∧ ' ' ∉ nm o i ∧ Balanced (nm o i) ∧ '\n' ∉ nm o i)
include hinj hnm

theorem names_inj {l l' : List Index} (h : ∀ i ∈ l, i.Registered o) (h' : ∀ i ∈ l', i.Registered o) (e : names o l = names o l') : l = l' := by
  unfold names at e
  have hw : ∀ l : List Index, (∀ i ∈ l, i.Registered o) → ∀ w ∈ l.map (nm o), w ≠ [] ∧ ' ' ∉ w := by
    intro l hl w hw
    obtain ⟨i, hi, rfl⟩ := List.mem_map.mp hw
    exact ⟨(hnm i (hl i hi)).1, (hnm i (hl i hi)).2.1⟩
  have e' := join_words_inj (hw l h) (hw l' h') e
  clear e
  induction l generalizing l' with
  | nil => cases l' with
    | nil => rfl
    | cons _ _ => cases e'
  | cons a l ih =>
    cases l' with
    | nil => cases e'
    | cons b l' =>
      simp only [List.map_cons, List.cons.injEq] at e'
      rw [hinj a b (h a (by simp)) (h' b (by simp)) e'.1, ih (fun x hx => h x (by simp [hx])) (fun x hx => h' x (by simp [hx])) e'.2]

omit hinj in
theorem names_balanced {l : List Index} (h : ∀ i ∈ l, i.Registered o) : Balanced (names o l) := by
  apply Balanced.join
  intro w hw
  obtain ⟨i, hi, rfl⟩ := List.mem_map.mp hw
  exact (hnm i (h i hi)).2.2.1

theorem opToks_inj {l l' : List SQOp} (h : ∀ a ∈ l, a.index.Registered o) (h' : ∀ a ∈ l', a.index.Registered o)
    (e : opToks o l = opToks o l') : l = l' := by
  have hfil : ∀ (l : List SQOp) (p : SQOp → Bool), (∀ a ∈ l, a.index.Registered o) → ∀ i ∈ (l.filter p).map SQOp.index, i.Registered o := by
    intro l p hl i hi
    obtain ⟨a, ha, rfl⟩ := List.mem_map.mp hi
    exact hl a (List.mem_filter.mp ha).1
  have hcre : ∀ l : List SQOp, ∀ a ∈ l.filter SQOp.isCre, a.type = .creation := by
    intro l a ha
    have := (List.mem_filter.mp ha).2
    simpa [SQOp.isCre] using this
  have hann : ∀ l : List SQOp, ∀ a ∈ l.filter (fun a => !a.isCre), a.type = .annihilation := by
    intro l a ha
    have := (List.mem_filter.mp ha).2
    cases hty : a.type with
    | creation => simp [SQOp.isCre, hty] at this
    | annihilation => rfl
  unfold opToks at e
  by_cases c : isCreThenAnn l = true <;> by_cases c' : isCreThenAnn l' = true
  · rw [if_pos c, if_pos c'] at e
    simp only [List.cons.injEq, Tok.cta.injEq, and_true] at e
    have e1 := names_inj hinj hnm (hfil l _ h) (hfil l' _ h') e.1
    have e2 := names_inj hinj hnm (fun i hi => hfil l (fun a => !a.isCre) h i (by simpa using hi)) (fun i hi => hfil l' (fun a => !a.isCre) h' i (by simpa using hi)) e.2
    rw [List.reverse_inj] at e2
    rw [cta_split c, cta_split c', map_index_inj (hcre l) (hcre l') e1, map_index_inj (hann l) (hann l') e2]
  · rw [if_pos c, if_neg c'] at e
    exfalso
    cases l' with
    | nil => simp at e
    | cons a t => simp at e
  · rw [if_neg c, if_pos c'] at e
    exfalso
    cases l with
    | nil => simp at e
    | cons a t => simp at e
  · rw [if_neg c, if_neg c'] at e
    clear c c' hfil hcre hann
    induction l generalizing l' with
    | nil => cases l' with
      | nil => rfl
      | cons _ _ => cases e
    | cons a l ih =>
      cases l' with
      | nil => cases e
      | cons b l' =>
        simp only [List.map_cons, List.cons.injEq, Tok.op.injEq] at e
        rw [ih (fun x hx => h x (by simp [hx])) (fun x hx => h' x (by simp [hx])) e.2]
        have hi := hinj _ _ (h a (by simp)) (h' b (by simp)) e.1.2.2
        have ht : a.type = b.type := by
          have := e.1.2.1
          unfold SQOp.isCre at this
          cases h1 : a.type <;> cases h2 : b.type <;> simp_all
        cases a; cases b; simp_all

omit hinj in
theorem toks_good {t : STerm} (h : t.AllRegistered o) (hl : t.LatexLabels) : ∀ a ∈ t.toks o, a.Good := by
  intro a ha
  unfold STerm.toks sectToks opToks at ha
  have hreg : ∀ (p : SQOp → Bool), ∀ i ∈ (t.ops.filter p).map SQOp.index, i.Registered o := by
    intro p i hi
    obtain ⟨a, ha, rfl⟩ := List.mem_map.mp hi
    exact h.2 a (List.mem_filter.mp ha).1
  rcases List.mem_append.mp ha with ha | ha
  · obtain ⟨x, hx, rfl⟩ := List.mem_map.mp ha
    obtain ⟨s, n, hp⟩ := hl x hx
    refine ⟨?_, names_balanced hnm (fun i hi => h.1 x hx i (by simp [hi])), names_balanced hnm (fun i hi => h.1 x hx i (by simp [hi]))⟩
    unfold tokBody
    rw [(matchLabel_iff _ _ _).mpr hp]
    exact labelBody_balanced hp
  · split at ha
    · cases ha
    · rcases List.mem_append.mp ha with ha | ha
      · rcases List.mem_append.mp ha with ha | ha
        · split at ha
          · simp at ha; subst ha; trivial
          · cases ha
        · split at ha
          · simp only [List.mem_cons, List.not_mem_nil, or_false] at ha
            subst ha
            exact ⟨names_balanced hnm (hreg _), names_balanced hnm (fun i hi => hreg (fun a => !a.isCre) i (by simpa using hi))⟩
          · obtain ⟨x, hx, rfl⟩ := List.mem_map.mp ha
            exact (hnm _ (h.2 x hx)).2.2.1
      · split at ha
        · simp at ha; subst ha; trivial
        · cases ha

end

/-- is it a tensor -/
def Tok.isTens : Tok → Bool
  | .tens .. => true
  | _ => false

/-- is it a brace -/
def Tok.isBr : Tok → Bool
  | .lb => true
  | .rb => true
  | _ => false

theorem opToks_class (o : OSI) (ops : List SQOp) : ∀ a ∈ opToks o ops, a.isTens = false ∧ a.isBr = false := by
  intro a ha
  unfold opToks at ha
  split at ha
  · simp only [List.mem_cons, List.not_mem_nil, or_false] at ha; subst ha; exact ⟨rfl, rfl⟩
  · obtain ⟨x, _, rfl⟩ := List.mem_map.mp ha; exact ⟨rfl, rfl⟩

theorem opToks_ne (o : OSI) {ops : List SQOp} (h : ops ≠ []) : opToks o ops ≠ [] := by
  unfold opToks
  split
  · simp
  · simpa using h

theorem sect_class (o : OSI) (fl : Bool) (ops : List SQOp) : ∀ a ∈ sectToks o fl ops, a.isTens = false := by
  intro a ha
  unfold sectToks at ha
  split at ha
  · cases ha
  · rcases List.mem_append.mp ha with ha | ha
    · rcases List.mem_append.mp ha with ha | ha
      · split at ha
        · simp at ha; subst ha; rfl
        · cases ha
      · exact (opToks_class o ops a ha).1
    · split at ha
      · simp at ha; subst ha; rfl
      · cases ha

theorem sect_filter (o : OSI) (fl : Bool) (ops : List SQOp) :
    (sectToks o fl ops).filter (fun a => !a.isBr) = if ops = [] then [] else opToks o ops := by
  unfold sectToks
  by_cases h : ops = []
  · subst h; rfl
  · have : ops.isEmpty = false := by simpa using h
    rw [this, if_neg (by simp), if_neg h]
    have hk : (opToks o ops).filter (fun a => !a.isBr) = opToks o ops := by
      rw [List.filter_eq_self]
      intro a ha
      simp [(opToks_class o ops a ha).2]
    rw [List.filter_append, List.filter_append, hk]
    cases fl <;> simp [Tok.isBr]

theorem sect_flag (o : OSI) (fl : Bool) {ops : List SQOp} (h : ops ≠ []) : (sectToks o fl ops).any Tok.isBr = fl := by
  unfold sectToks
  have : ops.isEmpty = false := by simpa using h
  rw [this, if_neg (by simp)]
  have hk : (opToks o ops).any Tok.isBr = false := by
    rw [List.any_eq_false]
    intro a ha
    simp [(opToks_class o ops a ha).2]
  rw [List.any_append, List.any_append, hk]
  cases fl <;> simp [Tok.isBr]

theorem toks_tens (o : OSI) (t : STerm) : (t.toks o).filter Tok.isTens = t.tensors.map (tokT o) ∧
    (t.toks o).filter (fun a => !a.isTens) = sectToks o t.normalOrdered t.ops := by
  have h1 : ∀ a ∈ t.tensors.map (tokT o), a.isTens = true := by
    intro a ha
    obtain ⟨x, _, rfl⟩ := List.mem_map.mp ha
    rfl
  have h2 := sect_class o t.normalOrdered t.ops
  unfold STerm.toks
  rw [List.filter_append, List.filter_append]
  rw [List.filter_eq_self.mpr h1, List.filter_eq_nil_iff.mpr (fun a ha => by simp [h2 a ha]),
    List.filter_eq_nil_iff.mpr (fun a ha => by simp [h1 a ha]), List.filter_eq_self.mpr (fun a ha => by simp [h2 a ha])]
  simp

theorem toks_iff {o : OSI} (hinj : ∀ i j : Index, i.Registered o → j.Registered o → nm o i = nm o j → i = j)
    (hnm : ∀ i : Index, i.Registered o → nm o i ≠ [] ∧ ' ' ∉ nm o i ∧ Balanced (nm o i) ∧ '\n' ∉ nm o i)
    {t u : STerm} (ht : t.AllRegistered o) (hu : u.AllRegistered o) (lt : t.LatexLabels) (lu : u.LatexLabels) :
    t.toks o = u.toks o ↔ t.Alike u := by
  have htok : ∀ x y : Tensor, (∀ i ∈ x.upper ++ x.lower, i.Registered o) → (∀ i ∈ y.upper ++ y.lower, i.Registered o) →
      (∃ sym n, LabelParts x.label sym n) → (∃ sym n, LabelParts y.label sym n) →
      (tokT o x = tokT o y ↔ LabelsAlike x.label y.label ∧ x.upper = y.upper ∧ x.lower = y.lower) := by
    rintro x y hx hy ⟨s, n, hp⟩ ⟨s', n', hp'⟩
    unfold tokT tokBody
    rw [(matchLabel_iff _ _ _).mpr hp, (matchLabel_iff _ _ _).mpr hp']
    simp only [Tok.tens.injEq]
    constructor
    · rintro ⟨h1, h2, h3⟩
      obtain ⟨rfl, h4⟩ := (labelBody_inj hp hp').mp h1
      exact ⟨⟨s, n, n', hp, hp', h4⟩, names_inj hinj hnm (fun i hi => hx i (by simp [hi])) (fun i hi => hy i (by simp [hi])) h2,
        names_inj hinj hnm (fun i hi => hx i (by simp [hi])) (fun i hi => hy i (by simp [hi])) h3⟩
    · rintro ⟨⟨a, b, c, h1, h2, h3⟩, h4, h5⟩
      obtain ⟨rfl, rfl⟩ := hp.unique h1
      obtain ⟨rfl, rfl⟩ := hp'.unique h2
      exact ⟨(labelBody_inj hp hp').mpr ⟨rfl, h3⟩, by rw [h4], by rw [h5]⟩
  constructor
  · intro e
    have e1 : t.tensors.map (tokT o) = u.tensors.map (tokT o) := by
      rw [← (toks_tens o t).1, ← (toks_tens o u).1, e]
    have e2 : sectToks o t.normalOrdered t.ops = sectToks o u.normalOrdered u.ops := by
      rw [← (toks_tens o t).2, ← (toks_tens o u).2, e]
    have e3 : t.ops = u.ops := by
      have e4 := congrArg (List.filter (fun a => !a.isBr)) e2
      rw [sect_filter, sect_filter] at e4
      by_cases h1 : t.ops = [] <;> by_cases h2 : u.ops = []
      · rw [h1, h2]
      · rw [if_pos h1, if_neg h2] at e4
        exact absurd e4.symm (opToks_ne o h2)
      · rw [if_neg h1, if_pos h2] at e4
        exact absurd e4 (opToks_ne o h1)
      · rw [if_neg h1, if_neg h2] at e4
        exact opToks_inj hinj hnm ht.2 hu.2 e4
    refine ⟨?_, e3, ?_⟩
    · have ht1 := ht.1
      have hu1 := hu.1
      unfold STerm.LatexLabels at lt lu
      generalize t.tensors = ts at e1 ht1 lt
      generalize u.tensors = us at e1 hu1 lu
      clear e e2 e3
      induction ts generalizing us with
      | nil => cases us with
        | nil => exact .nil
        | cons _ _ => cases e1
      | cons x ts ih =>
        cases us with
        | nil => cases e1
        | cons y us =>
          simp only [List.map_cons, List.cons.injEq] at e1
          exact .cons ((htok x y (ht1 x (by simp)) (hu1 y (by simp)) (lt x (by simp)) (lu y (by simp))).mp e1.1)
            (ih (fun z hz => ht1 z (by simp [hz])) (fun z hz => lt z (by simp [hz])) us e1.2 (fun z hz => hu1 z (by simp [hz])) (fun z hz => lu z (by simp [hz])))
    · intro hne
      have := congrArg (fun l => l.any Tok.isBr) e2
      rwa [sect_flag o _ hne, sect_flag o _ (by rw [← e3]; exact hne)] at this
  · rintro ⟨h1, h2, h3⟩
    unfold STerm.toks
    have e1 : t.tensors.map (tokT o) = u.tensors.map (tokT o) := by
      have ht1 := ht.1
      have hu1 := hu.1
      unfold STerm.LatexLabels at lt lu
      generalize t.tensors = ts at h1 ht1 lt
      generalize u.tensors = us at h1 hu1 lu
      induction h1 with
      | nil => rfl
      | @cons x y ts us hxy _ ih =>
        rw [List.map_cons, List.map_cons, (htok x y (ht1 x (by simp)) (hu1 y (by simp)) (lt x (by simp)) (lu y (by simp))).mpr hxy,
          ih (fun z hz => ht1 z (by simp [hz])) (fun z hz => lt z (by simp [hz])) (fun z hz => hu1 z (by simp [hz])) (fun z hz => lu z (by simp [hz]))]
    rw [e1, ← h2]
    by_cases hne : t.ops = []
    · rw [hne]; rfl
    · rw [h3 hne]

/-! ## The factor -/

/-- the shape of the printed factor: a sign, then digits or a fraction -/
theorem ratLatex_shape {r : Rational} (hc : Canon r) (first : Bool) : ∃ sgn rest, r.latex first = sgn ++ rest ∧
    (sgn = [] ∨ sgn = ['+'] ∨ sgn = ['-']) ∧ (r.num < 0 ↔ sgn = ['-']) ∧
    ((r.den = 1 ∧ (∀ c ∈ rest, isDigit c = true) ∧ ((r.num.natAbs = 1 ∧ rest = []) ∨ (r.num.natAbs ≠ 1 ∧ rest = natStr r.num.natAbs))) ∨
      (r.den ≠ 1 ∧ rest = '\\' :: 'f' :: 'r' :: 'a' :: 'c' :: '{' :: (natStr r.num.natAbs ++ '}' :: '{' :: (natStr r.den.natAbs ++ ['}'])))) := by
  have hint : ∀ n : Nat, intStr (Int.ofNat n) = natStr n := by
    intro n; unfold intStr; rw [if_neg (by simp)]; rfl
  unfold Rational.latex
  by_cases h0 : r.num = 0
  · have hd : r.den = 1 := by
      have h1 := hc.2; rw [h0] at h1
      have h2 := hc.1
      simp at h1; omega
    refine ⟨[], ['0'], by simp [h0], Or.inl rfl, by simp [h0], Or.inl ⟨hd, by decide, Or.inr ⟨by simp [h0], by rw [h0]; decide⟩⟩⟩
  · rw [if_neg (by simpa using h0)]
    by_cases hd : r.den = 1
    · rw [if_pos (by simpa using hd)]
      by_cases h1 : r.num = 1
      · rw [if_pos (by simpa using h1)]
        exact ⟨['+'], [], rfl, by simp, by simp [h1], Or.inl ⟨hd, by simp, Or.inl ⟨by simp [h1], rfl⟩⟩⟩
      · rw [if_neg (by simpa using h1)]
        by_cases h2 : r.num = -1
        · rw [if_pos (by simpa using h2)]
          exact ⟨['-'], [], rfl, by simp, by simp [h2], Or.inl ⟨hd, by simp, Or.inl ⟨by simp [h2], rfl⟩⟩⟩
        · rw [if_neg (by simpa using h2)]
          have hab : r.num.natAbs ≠ 1 := by omega
          by_cases hn : r.num < 0
          · refine ⟨['-'], natStr r.num.natAbs, ?_, by simp, by simp [hn], Or.inl ⟨hd, natStr_digits _, Or.inr ⟨hab, rfl⟩⟩⟩
            have : decide (r.num > 0) = false := by simp; omega
            rw [this]
            unfold intStr
            rw [if_pos hn]
            cases first <;> simp
          · have hp : decide (r.num > 0) = true := by simp; omega
            rw [hp]
            unfold intStr
            rw [if_neg hn]
            cases first with
            | true => exact ⟨[], natStr r.num.natAbs, by simp, by simp, by simp [hn], Or.inl ⟨hd, natStr_digits _, Or.inr ⟨hab, rfl⟩⟩⟩
            | false => exact ⟨['+'], natStr r.num.natAbs, by simp, by simp, by simp [hn], Or.inl ⟨hd, natStr_digits _, Or.inr ⟨hab, rfl⟩⟩⟩
    · rw [if_neg (by simpa using hd)]
      have hden : intStr r.den = natStr r.den.natAbs := by
        unfold intStr; rw [if_neg (by have := hc.1; omega)]
      by_cases hn : r.num < 0
      · refine ⟨['-'], _, ?_, by simp, by simp [hn], Or.inr ⟨hd, rfl⟩⟩
        have : decide (r.num > 0) = false := by simp; omega
        rw [this, hint, hden]
        simp
      · refine ⟨['+'], _, ?_, by simp, by simp [hn], Or.inr ⟨hd, rfl⟩⟩
        have : decide (r.num > 0) = true := by simp; omega
        rw [this, hint, hden]
        simp

theorem ratLatex_chars {r : Rational} (hc : Canon r) (first : Bool) : ' ' ∉ r.latex first ∧ '\n' ∉ r.latex first := by
  obtain ⟨sgn, rest, h1, h2, _, h4⟩ := ratLatex_shape hc first
  rw [h1]
  have hs : ' ' ∉ sgn ∧ '\n' ∉ sgn := by rcases h2 with rfl | rfl | rfl <;> decide
  have hd : ∀ n : Nat, ' ' ∉ natStr n ∧ '\n' ∉ natStr n := fun n =>
    ⟨fun h => absurd (natStr_digits n _ h) (by decide), fun h => absurd (natStr_digits n _ h) (by decide)⟩
  have hr : ' ' ∉ rest ∧ '\n' ∉ rest := by
    rcases h4 with ⟨_, h, _⟩ | ⟨_, rfl⟩
    · exact ⟨fun hm => absurd (h _ hm) (by decide), fun hm => absurd (h _ hm) (by decide)⟩
    · simp [hd]
  simp [hs, hr]

theorem ratLatex_inj {r q : Rational} (hr : Canon r) (hq : Canon q) (first : Bool) (h : r.latex first = q.latex first) : r = q := by
  obtain ⟨s, a, h1, h2, h3, h4⟩ := ratLatex_shape hr first
  obtain ⟨s', a', g1, g2, g3, g4⟩ := ratLatex_shape hq first
  rw [h1, g1] at h
  have hh : ∀ {a : Str} {r : Rational}, ((r.den = 1 ∧ (∀ c ∈ a, isDigit c = true) ∧ ((r.num.natAbs = 1 ∧ a = []) ∨ (r.num.natAbs ≠ 1 ∧ a = natStr r.num.natAbs))) ∨
      (r.den ≠ 1 ∧ a = '\\' :: 'f' :: 'r' :: 'a' :: 'c' :: '{' :: (natStr r.num.natAbs ++ '}' :: '{' :: (natStr r.den.natAbs ++ ['}'])))) →
      ∀ t, a ≠ '+' :: t ∧ a ≠ '-' :: t := by
    rintro a r (⟨_, h, _⟩ | ⟨_, rfl⟩) t
    · constructor
      · rintro rfl; exact absurd (h '+' (by simp)) (by decide)
      · rintro rfl; exact absurd (h '-' (by simp)) (by decide)
    · constructor <;> (intro hh; exact absurd (List.cons.inj hh).1 (by decide))
  have key : s = s' ∧ a = a' := by
    have ha := hh h4
    have ha' := hh g4
    rcases h2 with rfl | rfl | rfl <;> rcases g2 with rfl | rfl | rfl <;> simp only [List.nil_append, List.cons_append, List.cons.injEq] at h
    · exact ⟨rfl, h⟩
    · exact absurd h (ha _).1
    · exact absurd h (ha _).2
    · exact absurd h.symm (ha' _).1
    · exact ⟨rfl, h.2⟩
    · exact absurd h.1 (by decide)
    · exact absurd h.symm (ha' _).2
    · exact absurd h.1 (by decide)
    · exact ⟨rfl, h.2⟩
  obtain ⟨rfl, rfl⟩ := key
  have hsgn : r.num < 0 ↔ q.num < 0 := h3.trans g3.symm
  have hnd : ∀ n : Nat, '}' ∉ natStr n := fun n h => absurd (natStr_digits n _ h) (by decide)
  have hfin : r.num.natAbs = q.num.natAbs ∧ r.den = q.den := by
    rcases h4 with ⟨e1, e2, e3⟩ | ⟨e1, e2⟩ <;> rcases g4 with ⟨f1, f2, f3⟩ | ⟨f1, f2⟩
    · refine ⟨?_, by rw [e1, f1]⟩
      rcases e3 with ⟨e3, e4⟩ | ⟨e3, e4⟩ <;> rcases f3 with ⟨f3, f4⟩ | ⟨f3, f4⟩
      · rw [e3, f3]
      · rw [e4] at f4; exact absurd f4.symm (natStr_ne_nil _)
      · rw [f4] at e4; exact absurd e4.symm (natStr_ne_nil _)
      · rw [e4] at f4; exact natStr_inj f4
    · rw [f2] at e2; exact absurd (e2 '\\' (by simp)) (by decide)
    · rw [e2] at f2; exact absurd (f2 '\\' (by simp)) (by decide)
    · rw [e2] at f2
      simp only [List.cons.injEq, true_and] at f2
      obtain ⟨k1, k2⟩ := first_split (hnd _) (hnd _) f2
      simp only [List.cons.injEq, true_and] at k2
      obtain ⟨k3, _⟩ := first_split (hnd _) (hnd _) k2
      refine ⟨natStr_inj k1, ?_⟩
      have := natStr_inj k3
      have := hr.1
      have := hq.1
      omega
  cases r; cases q
  simp only [Rational.mk.injEq] at *
  refine ⟨?_, hfin.2⟩
  have := hfin.1
  omega

/-! ## Lines -/

theorem join_sep_inj {p q : Str} (hp : '\n' ∉ p) {l l' : List Str} (h : ∀ w ∈ l, '\n' ∉ w ∧ w ≠ []) (h' : ∀ w ∈ l', '\n' ∉ w ∧ w ≠ [])
    (e : join (p ++ '\n' :: q) l = join (p ++ '\n' :: q) l') : l = l' := by
  have hj : ∀ (a : Str) (l : List Str), ∃ r, join (p ++ '\n' :: q) (a :: l) = a ++ r := by
    intro a l
    by_cases hl : l = []
    · subst hl; exact ⟨[], by simp [join]⟩
    · exact ⟨_, by rw [join_cons hl, List.append_assoc]⟩
  induction l generalizing l' with
  | nil =>
    cases l' with
    | nil => rfl
    | cons b l' =>
      obtain ⟨r, hr⟩ := hj b l'
      rw [hr] at e
      exact absurd (List.append_eq_nil_iff.mp e.symm).1 (h' b (by simp)).2
  | cons a l ih =>
    cases l' with
    | nil =>
      obtain ⟨r, hr⟩ := hj a l
      rw [hr] at e
      exact absurd (List.append_eq_nil_iff.mp e).1 (h a (by simp)).2
    | cons b l' =>
      by_cases hl : l = [] <;> by_cases hl' : l' = []
      · subst hl; subst hl'; simpa [join] using e
      · subst hl
        rw [join_cons hl'] at e
        exfalso
        apply (h a (by simp)).1
        have : a = join (p ++ '\n' :: q) [a] := rfl
        rw [this, e]; simp
      · subst hl'
        rw [join_cons hl] at e
        exfalso
        apply (h' b (by simp)).1
        have : b = join (p ++ '\n' :: q) [b] := rfl
        rw [this, ← e]; simp
      · rw [join_cons hl, join_cons hl'] at e
        have e' : (a ++ p) ++ '\n' :: (q ++ join (p ++ '\n' :: q) l) = (b ++ p) ++ '\n' :: (q ++ join (p ++ '\n' :: q) l') := by
          simpa using e
        obtain ⟨e1, e2⟩ := first_split (by simp [(h a (by simp)).1, hp]) (by simp [(h' b (by simp)).1, hp]) e'
        rw [List.append_cancel_right e1, ih (fun w hw => h w (by simp [hw])) (fun w hw => h' w (by simp [hw])) (List.append_cancel_left e2)]

end Wicked
