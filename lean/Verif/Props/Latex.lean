import Verif.Proofs.LatexTerm
import Verif.Spec.Lin
import Verif.Proofs.TermOrder
/-! # C70: LaTeX output determines the expression -/
namespace Wicked
open Rational CppEq CppLt

theorem join_newline {sep : Str} {l : List Str} (hs : '\n' ∉ sep) (h : ∀ w ∈ l, '\n' ∉ w) : '\n' ∉ join sep l := by
  induction l with
  | nil => simp [join]
  | cons a l ih =>
    by_cases hl : l = []
    · subst hl; exact h a (by simp)
    · rw [join_cons hl]
      have h1 := h a (by simp)
      have h2 := ih (fun w hw => h w (by simp [hw]))
      simp [h1, h2, hs]

/-- the names of the indices of registered spaces -/
theorem nm_spec {o : OSI} (hn : o.LatexNames) {i : Index} (h : i.Registered o) :
    nm o i ≠ [] ∧ ' ' ∉ nm o i ∧ Balanced (nm o i) ∧ '\n' ∉ nm o i := by
  obtain ⟨h1, h2⟩ := h
  have hx : o.space i.space = .ok o.spaces[i.space.toNat] := by
    unfold OSI.space
    rw [if_pos h1, List.getElem?_eq_getElem h2]
  have hm : o.spaces[i.space.toNat] ∈ o.spaces := List.getElem_mem h2
  have hdig : ∀ c ∈ intStr i.pos, c = '-' ∨ isDigit c = true := by
    intro c hc
    unfold intStr at hc
    split at hc
    · rcases List.mem_cons.mp hc with rfl | hc
      · exact Or.inl rfl
      · exact Or.inr (natStr_digits _ c hc)
    · exact Or.inr (natStr_digits _ c hc)
  have hnot : ∀ c, c ≠ '-' → isDigit c = false → c ∉ intStr i.pos := by
    intro c h1 h2 hc
    rcases hdig c hc with h | h
    · exact h1 h
    · rw [h2] at h; cases h
  have lib : ∀ l : Char, l ≠ '{' → l ≠ '}' → l ≠ ' ' → l ≠ '\n' →
      l :: '_' :: '{' :: (intStr i.pos ++ ['}']) ≠ [] ∧ ' ' ∉ l :: '_' :: '{' :: (intStr i.pos ++ ['}']) ∧
      Balanced (l :: '_' :: '{' :: (intStr i.pos ++ ['}'])) ∧ '\n' ∉ l :: '_' :: '{' :: (intStr i.pos ++ ['}']) := by
    intro l h1 h2 h3 h4
    have b : Balanced (intStr i.pos) := balanced_of_nobrace (fun c hc => by
      rcases hdig c hc with rfl | hd
      · decide
      · exact isDigit_brace hd)
    refine ⟨by simp, ?_, ?_, ?_⟩
    · simp [Ne.symm h3, hnot ' ' (by decide) (by decide)]
    · have b2 := b.group
      have : Balanced [l, '_'] := balanced_of_nobrace (by
        intro c hc
        rcases List.mem_cons.mp hc with rfl | hc
        · exact ⟨h1, h2⟩
        · simp at hc; subst hc; decide)
      exact this.append b2
    · simp [Ne.symm h4, hnot '\n' (by decide) (by decide)]
  have hl := hn.label _ hm
  unfold nm Index.latex OSI.indexLabel OSI.indices OSI.label
  rw [hx]
  simp only [bind, Except.bind, pure, Except.pure]
  split
  · cases hg : o.spaces[i.space.toNat].indices[i.pos.toNat]? with
    | none => exact lib _ hl.1 hl.2.1 hl.2.2.1 hl.2.2.2
    | some w =>
      obtain ⟨a, b, c, d⟩ := hn.name _ hm w (List.mem_of_getElem? hg)
      exact ⟨a, b, d, c⟩
  · exact lib _ hl.1 hl.2.1 hl.2.2.1 hl.2.2.2

theorem tok_newline {o : OSI} (hn : o.LatexNames) {t : STerm} (h : t.AllRegistered o) (hl : t.LatexLabels) :
    '\n' ∉ join [' '] ((t.toks o).map Tok.text) := by
  have hnames : ∀ l : List Index, (∀ i ∈ l, i.Registered o) → '\n' ∉ names o l := by
    intro l hl
    apply join_newline (by decide)
    intro w hw
    obtain ⟨i, hi, rfl⟩ := List.mem_map.mp hw
    exact (nm_spec hn (hl i hi)).2.2.2
  have hreg : ∀ (p : SQOp → Bool), ∀ i ∈ (t.ops.filter p).map SQOp.index, i.Registered o := by
    intro p i hi
    obtain ⟨a, ha, rfl⟩ := List.mem_map.mp hi
    exact h.2 a (List.mem_filter.mp ha).1
  apply join_newline (by decide)
  intro w hw
  obtain ⟨a, ha, rfl⟩ := List.mem_map.mp hw
  unfold STerm.toks sectToks opToks at ha
  rcases List.mem_append.mp ha with ha | ha
  · obtain ⟨x, hx, rfl⟩ := List.mem_map.mp ha
    obtain ⟨s, n, hp⟩ := hl x hx
    have h1 := hnames x.upper (fun i hi => h.1 x hx i (by simp [hi]))
    have h2 := hnames x.lower (fun i hi => h.1 x hx i (by simp [hi]))
    have h3 : '\n' ∉ tokBody x := by
      unfold tokBody
      rw [(matchLabel_iff _ _ _).mpr hp]
      obtain ⟨_, p2, p3, _⟩ := hp
      have q2 : '\n' ∉ s := fun hh => absurd (p2 _ hh) (by decide)
      have q3 : '\n' ∉ n := fun hh => absurd (p3 _ hh) (by decide)
      show '\n' ∉ labelBody s n
      unfold labelBody
      split
      · simp [q2]
      · split <;> simp [q2, q3]
    simp [tokT, Tok.text, h1, h2, h3]
  · split at ha
    · cases ha
    · rcases List.mem_append.mp ha with ha | ha
      · rcases List.mem_append.mp ha with ha | ha
        · split at ha
          · simp at ha; subst ha; decide
          · cases ha
        · split at ha
          · simp only [List.mem_cons, List.not_mem_nil, or_false] at ha
            subst ha
            have h1 := hnames _ (hreg SQOp.isCre)
            have h2 := hnames _ (fun i hi => hreg (fun a => !a.isCre) i (List.mem_reverse.mp hi))
            simp [Tok.text, h1, h2]
          · obtain ⟨x, hx, rfl⟩ := List.mem_map.mp ha
            have h1 := (nm_spec hn (h.2 x hx)).2.2.2
            have h2 : opChar o x ≠ '\n' := by
              unfold opChar
              split <;> decide
            cases hc : x.isCre <;> simp [Tok.text, h1, Ne.symm h2]
      · split at ha
        · simp at ha; subst ha; decide
        · cases ha

theorem toks_text_iff (ops : List RegOp) {t u : STerm} (hn : (runReg OSI.empty ops).LatexNames)
    (ht : t.AllRegistered (runReg OSI.empty ops)) (hu : u.AllRegistered (runReg OSI.empty ops)) (lt : t.LatexLabels) (lu : u.LatexLabels) :
    join [' '] ((t.toks (runReg OSI.empty ops)).map Tok.text) = join [' '] ((u.toks (runReg OSI.empty ops)).map Tok.text) ↔ t.Alike u := by
  have hinj : ∀ i j : Index, i.Registered (runReg OSI.empty ops) → j.Registered (runReg OSI.empty ops) →
      nm (runReg OSI.empty ops) i = nm (runReg OSI.empty ops) j → i = j := fun i j hi hj e => nm_inj ops hn.notLib hi hj e
  have hnm : ∀ i : Index, i.Registered (runReg OSI.empty ops) → _ := fun i hi => nm_spec hn hi
  rw [← toks_iff hinj hnm ht hu lt lu]
  constructor
  · exact toks_inj (toks_good hnm ht lt) (toks_good hnm hu lu)
  · intro e; rw [e]

/-- **C70**, when it prints: a term whose indices belong to registered spaces prints if and only if each of its tensor labels is
letters, possibly an underscore, possibly digits; otherwise `latex()` throws. -/
theorem C70_latex_total {o : OSI} {t : STerm} (h : t.AllRegistered o) :
    (t.LatexLabels → ∃ s, t.latex o = .ok s) ∧ (¬ t.LatexLabels → t.latex o = .error .throw) :=
  ⟨fun hl => ⟨_, sterm_latex h hl⟩, sterm_latex_throw h⟩

/-- **C70** for terms: in every registry that can arise, if the index names can be set side by side, two terms print the same LaTeX
exactly if they agree in everything but conjugation, symmetry, an underscore in a label, and the digits after a Greek letter. -/
theorem C70_latex_eq_iff (ops : List RegOp) (t u : STerm) :
    let o := runReg OSI.empty ops
    o.LatexNames → t.AllRegistered o → u.AllRegistered o → t.LatexLabels → u.LatexLabels →
    (t.latex o = u.latex o ↔ t.Alike u) := by
  intro o hn ht hu lt lu
  rw [sterm_latex ht lt, sterm_latex hu lu, ← toks_text_iff ops hn ht hu lt lu]
  exact ⟨fun h => Except.ok.inj h, fun h => by rw [h]⟩

theorem isCreThenAnn_split (c d : List Index) :
    isCreThenAnn (c.map (fun i => ⟨.creation, i⟩) ++ d.map (fun i => ⟨.annihilation, i⟩)) = true := by
  have hd : ∀ d : List Index, isCreThenAnn (d.map (fun i => (⟨.annihilation, i⟩ : SQOp))) = true := by
    intro d
    induction d with
    | nil => rfl
    | cons x d ih =>
      cases d with
      | nil => rfl
      | cons y d => simpa [isCreThenAnn, SQOp.isCre] using ih
  induction c with
  | nil => exact hd d
  | cons x c ih =>
    cases c with
    | nil =>
      cases d with
      | nil => rfl
      | cons y d => simpa [isCreThenAnn, SQOp.isCre] using hd (y :: d)
    | cons y c => simpa [isCreThenAnn, SQOp.isCre] using ih

/-- **C70**, what the compact notation shows: for creation operators of indices `c` followed by annihilation operators of indices `d`
the upper indices are those of the creation operators in their order, and the lower indices are those of the annihilation operators in
the opposite order (so that an index of an annihilation operator stands below its partner: `a+_p a+_q a_s a_r` is `a^{pq}_{rs}`). -/
theorem C70_shown_order (o : OSI) (name : Index → Str) (c d : List Index) (hn : ∀ i ∈ c ++ d, i.latex o = .ok (name i)) (hne : c ++ d ≠ []) (b : Bool) :
    STerm.latex o ⟨b, c.map (fun i => ⟨.creation, i⟩) ++ d.map (fun i => ⟨.annihilation, i⟩), []⟩ =
      .ok ((if b then "\\{ ".toList else []) ++ "\\hat{a}^{".toList ++ join [' '] (c.map name) ++ "}_{".toList ++ join [' '] (d.map name).reverse ++ "}".toList ++
        (if b then " \\}".toList else [])) := by
  have h1 : (c.map (fun i => (⟨.creation, i⟩ : SQOp)) ++ d.map (fun i => (⟨.annihilation, i⟩ : SQOp))).filter SQOp.isCre = c.map (fun i => ⟨.creation, i⟩) := by
    rw [List.filter_append, List.filter_eq_self.2 (by simp [SQOp.isCre]), List.filter_eq_nil_iff.2 (by simp [SQOp.isCre]), List.append_nil]
  have h2 : (c.map (fun i => (⟨.creation, i⟩ : SQOp)) ++ d.map (fun i => (⟨.annihilation, i⟩ : SQOp))).filter (fun a : SQOp => !a.isCre) = d.map (fun i => ⟨.annihilation, i⟩) := by
    rw [List.filter_append, List.filter_eq_self.2 (by simp [SQOp.isCre] : ∀ a ∈ d.map (fun i => (⟨.annihilation, i⟩ : SQOp)), (!a.isCre) = true),
      List.filter_eq_nil_iff.2 (by simp [SQOp.isCre]), List.nil_append]
  have key : ∀ (y : SQType) (l : List Index), (∀ i ∈ l, i ∈ c ++ d) →
      (l.map (fun i => (⟨y, i⟩ : SQOp))).mapM (m := Except Fault) (fun a : SQOp => a.index.latex o) = .ok (l.map name) := by
    intro y l hl
    rw [mapM_ok (fun a : SQOp => a.index.latex o) (fun a : SQOp => name a.index) _ (fun a ha => by
      obtain ⟨i, hi, rfl⟩ := List.mem_map.1 ha
      exact hn i (hl i hi))]
    rw [List.map_map]; rfl
  unfold STerm.latex opsLatex
  rw [if_pos (isCreThenAnn_split c d), h1, h2, key _ c (fun i h => List.mem_append_left _ h), key _ d (fun i h => List.mem_append_right _ h)]
  rw [show (c.map (fun i => (⟨.creation, i⟩ : SQOp)) ++ d.map (fun i => (⟨.annihilation, i⟩ : SQOp))).isEmpty = false by
    rw [Bool.eq_false_iff]; intro h; apply hne; simpa using h]
  cases b <;> simp [bind, Except.bind, pure, Except.pure, join]

example : STerm.latex (runReg OSI.empty ccHistory) ⟨true, [⟨.creation, ⟨1, 0⟩⟩, ⟨.creation, ⟨1, 1⟩⟩, ⟨.annihilation, ⟨0, 1⟩⟩, ⟨.annihilation, ⟨0, 0⟩⟩], []⟩ =
    .ok "\\{ \\hat{a}^{a b}_{i j} \\}".toList := by decide +kernel

/-- one line of the printed expression -/
def lineText (o : OSI) (first : Bool) (p : STerm × Rational) : Str :=
  p.2.latex first ++ [' '] ++ join [' '] ((p.1.toks o).map Tok.text)

def lineTexts (o : OSI) : Bool → Expr → List Str
  | _, [] => []
  | first, p :: e => lineText o first p :: lineTexts o false e

theorem linesLatex_eq {o : OSI} {e : Expr} (h : ∀ p ∈ e, p.1.AllRegistered o) (hl : ∀ p ∈ e, p.1.LatexLabels) (first : Bool) :
    linesLatex o first e = .ok (lineTexts o first e) := by
  induction e generalizing first with
  | nil => rfl
  | cons p e ih =>
    rw [linesLatex, sterm_latex (h p (by simp)) (hl p (by simp)), ih (fun q hq => h q (by simp [hq])) (fun q hq => hl q (by simp [hq]))]
    rfl

theorem lineTexts_words {o : OSI} (hn : o.LatexNames) {e : Expr} (h : ∀ p ∈ e, p.1.AllRegistered o) (hl : ∀ p ∈ e, p.1.LatexLabels)
    (hc : ∀ p ∈ e, Canon p.2) (first : Bool) : ∀ w ∈ lineTexts o first e, '\n' ∉ w ∧ w ≠ [] := by
  induction e generalizing first with
  | nil => intro w hw; cases hw
  | cons p e ih =>
    intro w hw
    rcases List.mem_cons.mp hw with rfl | hw
    · have h1 := (ratLatex_chars (hc p (by simp)) first).2
      have h2 := tok_newline hn (h p (by simp)) (hl p (by simp))
      unfold lineText
      exact ⟨by simp [h1, h2], by simp⟩
    · exact ih (fun q hq => h q (by simp [hq])) (fun q hq => hl q (by simp [hq])) (fun q hq => hc q (by simp [hq])) false w hw

/-- **C70** for expressions: for every separator that contains a line break (the default does), two expressions print the same LaTeX
exactly if they have the same coefficients and terms that are alike, in the same order. -/
theorem C70_expr_latex_eq_iff (ops : List RegOp) (sep : Str) (hsep : '\n' ∈ sep) (e e' : Expr) (hw : Lin.WF e) (hw' : Lin.WF e') :
    let o := runReg OSI.empty ops
    o.LatexNames → (∀ p ∈ e ++ e', p.1.AllRegistered o ∧ p.1.LatexLabels) →
    (∃ s, e.latex o sep = .ok s) ∧
    (e.latex o sep = e'.latex o sep ↔ List.Forall₂ (fun p q => p.1.Alike q.1 ∧ p.2 = q.2) e e') := by
  intro o hn hp
  have hr : ∀ p ∈ e, p.1.AllRegistered o := fun p h => (hp p (by simp [h])).1
  have hr' : ∀ p ∈ e', p.1.AllRegistered o := fun p h => (hp p (by simp [h])).1
  have hl : ∀ p ∈ e, p.1.LatexLabels := fun p h => (hp p (by simp [h])).2
  have hl' : ∀ p ∈ e', p.1.LatexLabels := fun p h => (hp p (by simp [h])).2
  have hc : ∀ p ∈ e, Canon p.2 := hw.canon
  have hc' : ∀ p ∈ e', Canon p.2 := hw'.canon
  have E : ∀ {e : Expr}, (∀ p ∈ e, p.1.AllRegistered o) → (∀ p ∈ e, p.1.LatexLabels) → e.latex o sep = .ok (join sep (lineTexts o true e)) := by
    intro e hr hl
    unfold Expr.latex
    rw [linesLatex_eq hr hl]; rfl
  refine ⟨⟨_, E hr hl⟩, ?_⟩
  rw [E hr hl, E hr' hl']
  obtain ⟨p, q, hp0, rfl⟩ : ∃ p q, '\n' ∉ p ∧ sep = p ++ '\n' :: q := by
    clear E
    induction sep with
    | nil => cases hsep
    | cons c s ih =>
      by_cases hcc : c = '\n'
      · exact ⟨[], s, by simp, by rw [hcc]; rfl⟩
      · obtain ⟨p, q, h1, h2⟩ := ih (by rcases List.mem_cons.mp hsep with h | h; exact absurd h.symm hcc; exact h)
        exact ⟨c :: p, q, by simp [h1, Ne.symm hcc], by rw [h2]; rfl⟩
  have key : ∀ first, lineTexts o first e = lineTexts o first e' ↔ List.Forall₂ (fun p q => p.1.Alike q.1 ∧ p.2 = q.2) e e' := by
    clear hw hw' hp E
    induction e generalizing e' with
    | nil =>
      intro first
      cases e' with
      | nil => exact ⟨fun _ => .nil, fun _ => rfl⟩
      | cons b e' => exact ⟨fun h => (nomatch h), fun h => (nomatch h)⟩
    | cons a e ih =>
      intro first
      cases e' with
      | nil => exact ⟨fun h => (nomatch h), fun h => (nomatch h)⟩
      | cons b e' =>
        rw [lineTexts, lineTexts, List.forall₂_cons, List.cons.injEq]
        apply and_congr
        · have hti := toks_text_iff ops hn (hr a (by simp)) (hr' b (by simp)) (hl a (by simp)) (hl' b (by simp))
          constructor
          · intro h
            unfold lineText at h
            rw [List.append_assoc, List.append_assoc] at h
            obtain ⟨h1, h2⟩ := first_split (ratLatex_chars (hc a (by simp)) first).1 (ratLatex_chars (hc' b (by simp)) first).1 h
            exact ⟨hti.mp h2, ratLatex_inj (hc a (by simp)) (hc' b (by simp)) first h1⟩
          · rintro ⟨h1, h2⟩
            unfold lineText
            rw [h2]
            have := hti.mpr h1
            rw [this]
        · exact ih e' (fun q hq => hr q (by simp [hq])) (fun q hq => hr' q (by simp [hq])) (fun q hq => hl q (by simp [hq]))
            (fun q hq => hl' q (by simp [hq])) (fun q hq => hc q (by simp [hq])) (fun q hq => hc' q (by simp [hq])) false
  rw [← key true]
  constructor
  · intro h
    exact join_sep_inj hp0 (lineTexts_words hn hr hl hc true) (lineTexts_words hn hr' hl' hc' true) (Except.ok.inj h)
  · intro h; rw [h]

/-- **C70** for `Term`: the text determines the coefficient and the term, up to labels that are alike. -/
theorem C70_term_latex_eq_iff (ops : List RegOp) (t u : STerm) (c d : Rational) (hc : Canon c) (hd : Canon d) :
    let o := runReg OSI.empty ops
    o.LatexNames → t.AllRegistered o → u.AllRegistered o → t.LatexLabels → u.LatexLabels →
    (termLatex o c t = termLatex o d u ↔ t.Alike u ∧ c = d) := by
  intro o hn ht hu lt lu
  have hti := toks_text_iff ops hn ht hu lt lu
  unfold termLatex
  rw [sterm_latex ht lt, sterm_latex hu lu]
  simp only [bind, Except.bind, pure, Except.pure, Except.ok.injEq, List.append_assoc]
  constructor
  · intro h
    obtain ⟨h1, h2⟩ := first_split (ratLatex_chars hc true).1 (ratLatex_chars hd true).1 h
    exact ⟨hti.mp h2, ratLatex_inj hc hd true h1⟩
  · rintro ⟨h1, h2⟩
    rw [h2, hti.mpr h1]

/-- **C70**: if no two different labels of the expressions are alike, expressions with the same LaTeX are `==`. -/
theorem C70_same_latex_equal (ops : List RegOp) (sep : Str) (hsep : '\n' ∈ sep) (e e' : Expr) (hw : Lin.WF e) (hw' : Lin.WF e') :
    let o := runReg OSI.empty ops
    o.LatexNames → (∀ p ∈ e ++ e', p.1.AllRegistered o ∧ p.1.LatexLabels) →
    (∀ p ∈ e, ∀ q ∈ e', ∀ x ∈ p.1.tensors, ∀ y ∈ q.1.tensors, LabelsAlike x.label y.label → x.upper.length = y.upper.length →
      x.lower.length = y.lower.length → x.label = y.label) →
    e.latex o sep = e'.latex o sep → Lin.isEqual e e' = true := by
  intro o hn hp hlab h
  have hf := ((C70_expr_latex_eq_iff ops sep hsep e e' hw hw') hn hp).2.mp h
  show listEq _ _ = true
  clear h hw hw' hp
  induction hf with
  | nil => rfl
  | @cons a b e e' hab _ ih =>
    rw [listEq, ih (fun p hp q hq => hlab p (by simp [hp]) q (by simp [hq])), Bool.and_true]
    show (eq a.1 b.1 && Rational.eq a.2 b.2) = true
    obtain ⟨⟨h1, h2, _⟩, h4⟩ := hab
    rw [h4]
    have : a.1.key = b.1.key := by
      unfold STerm.key
      rw [h2]
      congr 1
      have hh := hlab a (by simp) b (by simp)
      generalize a.1.tensors = ts at h1 hh
      generalize b.1.tensors = us at h1 hh
      induction h1 with
      | nil => rfl
      | @cons x y ts us hxy _ ih2 =>
        rw [List.map_cons, List.map_cons, ih2 (fun x hx y hy => hh x (by simp [hx]) y (by simp [hy]))]
        obtain ⟨k1, k2, k3⟩ := hxy
        have := hh x (by simp) y (by simp) k1 (by rw [k2]) (by rw [k3])
        unfold Tensor.key
        rw [this, k2, k3]
    rw [sterm_eq.mpr this]
    simp [Rational.eq]

/-- **C70**, what is lost, 1: the digits after a Greek letter -/
theorem C70_greek_subscript_lost : let o := runReg OSI.empty ccHistory
    let t (l : String) : STerm := ⟨false, [], [⟨l.toList, [⟨0, 0⟩], [⟨1, 0⟩], .antisymmetric, false⟩]⟩
    (t "gamma1").latex o = .ok "{\\gamma}^{a}_{i}".toList ∧ (t "gamma2").latex o = (t "gamma1").latex o ∧
      eq (t "gamma1") (t "gamma2") = false ∧ (t "t1").latex o = .ok "{t_{1}}^{a}_{i}".toList ∧ (t "t_1").latex o = (t "t1").latex o := by
  decide +kernel

/-- **C70**, 2: a coefficient ±1 prints as a bare sign, also when nothing follows -/
theorem C70_unit_scalar : let o := runReg OSI.empty ccHistory
    Expr.latex o latexSep [(⟨false, [], []⟩, ⟨1, 1⟩)] = .ok "+ ".toList ∧ Expr.latex o latexSep [(⟨false, [], []⟩, ⟨-1, 1⟩)] = .ok "- ".toList := by
  decide +kernel

/-- **C70**, 3: bosonic operators are printed `\hat{b}` one by one, but `\hat{a}` when the creation operators come first -/
theorem C70_boson_symbol : let o := runReg OSI.empty [.add 'p' .boson .unoccupied [['x'], ['y']] []]
    STerm.latex o ⟨false, [⟨.creation, ⟨0, 0⟩⟩, ⟨.annihilation, ⟨0, 1⟩⟩], []⟩ = .ok "\\hat{a}^{x}_{y}".toList ∧
    STerm.latex o ⟨false, [⟨.annihilation, ⟨0, 1⟩⟩, ⟨.creation, ⟨0, 0⟩⟩], []⟩ = .ok "\\hat{b}_{y} \\hat{b}^{x}".toList := by
  decide +kernel

/-- **C70**, 4: a label with other characters is rejected -/
theorem C70_label_rejected : let o := runReg OSI.empty ccHistory
    STerm.latex o ⟨false, [], [⟨"T'".toList, [⟨0, 0⟩], [⟨1, 0⟩], .antisymmetric, false⟩]⟩ = .error .throw := by
  decide +kernel

/-- **C70**, the lines of an expression: the LaTeX of an expression is one line per term - the coefficient, a blank, and the LaTeX of the term - and with the default separator the lines are separated by
` \\\\ ` and a line break; only the coefficient of the first line is written without a plus sign before an integer. -/
theorem C70_expr_lines (o : OSI) (text : STerm → Str) (p : STerm × Rational) (e : Expr) (h : ∀ q ∈ p :: e, q.1.latex o = .ok (text q.1)) :
    Expr.latex o latexSep (p :: e) = .ok (List.intercalate " \\\\ \n".toList ((p.2.latex true ++ " ".toList ++ text p.1) :: e.map (fun q => q.2.latex false ++ " ".toList ++ text q.1))) := by
  have hlines : ∀ e : Expr, (∀ q ∈ e, q.1.latex o = .ok (text q.1)) → linesLatex o false e = .ok (e.map (fun q => q.2.latex false ++ " ".toList ++ text q.1)) := by
    intro e
    induction e with
    | nil => intro _; rfl
    | cons q e ih =>
      intro h
      rw [linesLatex, h q (by simp), ih (fun r hr => h r (by simp [hr]))]
      rfl
  have hj : ∀ l : List Str, join latexSep l = List.intercalate " \\\\ \n".toList l := by
    intro l
    induction l with
    | nil => rfl
    | cons a l ih =>
      cases l with
      | nil => simp [join]
      | cons b l => rw [join, ih, List.intercalate_cons_cons]; rfl
  unfold Expr.latex
  rw [linesLatex, h p (by simp), hlines e (fun q hq => h q (by simp [hq])), ← hj]
  rfl

-- two lines
example : Expr.latex (runReg OSI.empty ccHistory) latexSep [(⟨false, [], [⟨"t".toList, [⟨0, 0⟩], [⟨1, 0⟩], .antisymmetric, false⟩]⟩, ⟨2, 1⟩), (⟨false, [], [⟨"u".toList, [⟨0, 0⟩], [⟨1, 0⟩], .antisymmetric, false⟩]⟩, ⟨2, 1⟩)] =
    .ok "2 {t}^{a}_{i} \\\\ \n+2 {u}^{a}_{i}".toList := by decide +kernel

/-- the hypotheses hold of a registry and two terms with many-index tensors and a normal-ordered product of operators -/
def exTex : Expr := [(⟨true, [⟨.creation, ⟨1, 0⟩⟩, ⟨.annihilation, ⟨0, 5⟩⟩], [⟨"lambda2".toList, [⟨0, 0⟩, ⟨0, 1⟩], [⟨1, 0⟩, ⟨1, 7⟩], .antisymmetric, false⟩]⟩, ⟨-3, 2⟩)]

example : exTex.latex (runReg OSI.empty ccHistory) latexSep =
    .ok "-\\frac{3}{2} {\\lambda}^{a v_{7}}_{i j} \\{ \\hat{a}^{a}_{o_{5}} \\}".toList := by decide +kernel

example : (runReg OSI.empty ccHistory).LatexNames ∧ Lin.WF exTex ∧ '\n' ∈ latexSep ∧
    ∀ p ∈ exTex, p.1.AllRegistered (runReg OSI.empty ccHistory) ∧ p.1.LatexLabels := by
  have hlen : ∀ s ∈ (runReg OSI.empty ccHistory).spaces, ∀ w ∈ s.indices, w.length = 1 := by decide
  refine ⟨⟨?_, ?_, by decide⟩, ⟨⟨by decide, by unfold exTex Canon; decide⟩, by simp [exTex, toRat]⟩, by decide, ?_⟩
  · have : ∀ s ∈ (runReg OSI.empty ccHistory).spaces, ∀ w ∈ s.indices, w ≠ [] ∧ ' ' ∉ w ∧ '\n' ∉ w ∧ braces 0 w = some 0 := by decide
    exact this
  · intro s hs w hw c n h
    have := hlen s hs w hw
    rw [h] at this; simp at this
  · intro p hp
    simp only [exTex, List.mem_cons, List.not_mem_nil, or_false] at hp
    subst hp
    refine ⟨⟨?_, ?_⟩, ?_⟩
    · unfold Index.Registered; decide
    · unfold Index.Registered; decide
    · intro x hx
      simp only [List.mem_cons, List.not_mem_nil, or_false] at hx
      subst hx
      exact ⟨"lambda".toList, "2".toList, by decide, by decide, by decide, Or.inl (by decide)⟩

end Wicked
