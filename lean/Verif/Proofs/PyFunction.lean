import Verif.Spec.PyFunction
import Verif.Model.Examples
import Verif.Props.Program
/-! # The generated Python functions: lemmas (C82) -/
namespace Wicked

theorem linesOf_ne (s : Str) : linesOf s ≠ [] := by
  cases s with
  | nil => simp [linesOf]
  | cons c s =>
    rw [linesOf]
    split
    · simp
    · split <;> simp

theorem linesOf_single {s : Str} (h : '\n' ∉ s) : linesOf s = [s] := by
  induction s with
  | nil => rfl
  | cons c s ih =>
    simp only [List.mem_cons, not_or] at h
    rw [linesOf, if_neg (fun e => h.1 e.symm), ih h.2]

theorem linesOf_app {s t : Str} (h : '\n' ∉ s) : linesOf (s ++ '\n' :: t) = s :: linesOf t := by
  induction s with
  | nil => simp [linesOf]
  | cons c s ih =>
    simp only [List.mem_cons, not_or] at h
    rw [List.cons_append, linesOf, if_neg (fun e => h.1 e.symm), ih h.2]

theorem linesOf_join {l : List Str} (hl : l ≠ []) (h : ∀ s ∈ l, '\n' ∉ s) : linesOf (join ['\n'] l) = l := by
  induction l with
  | nil => exact absurd rfl hl
  | cons a l ih =>
    cases l with
    | nil => simpa [join] using linesOf_single (h a (by simp))
    | cons b l =>
      rw [join, List.append_assoc, List.singleton_append, linesOf_app (h a (by simp)), ih (by simp) (fun s hs => h s (by simp [hs]))]

theorem stripPrefix_app (p s : Str) : stripPrefix p (p ++ s) = some s := by
  unfold stripPrefix
  rw [if_pos (by simp), List.drop_left']
  rfl

theorem mapM_stripPrefix (p : Str) (l : List Str) : (l.map (fun s => p ++ s)).mapM (stripPrefix p) = some l := by
  induction l with
  | nil => rfl
  | cons a l ih => simp [List.mapM_cons, stripPrefix_app, ih]

theorem mem_join_sep {sep : Str} {l : List Str} {c : Char} (h : c ∈ join sep l) : c ∈ sep ∨ ∃ s ∈ l, c ∈ s := by
  induction l with
  | nil => simp [join] at h
  | cons a l ih =>
    cases l with
    | nil => right; exact ⟨a, by simp, by simpa [join] using h⟩
    | cons b l =>
      rw [join, List.append_assoc, List.mem_append, List.mem_append] at h
      rcases h with h | h | h
      · right; exact ⟨a, by simp, h⟩
      · exact .inl h
      · rcases ih h with h | ⟨s, hs, h⟩
        · exact .inl h
        · right; exact ⟨s, by simp [hs], h⟩

/-- the names of the lengths of the axes -/
def dimNames (nocc nvir : Nat) : List Str := List.replicate nocc "nocc".toList ++ List.replicate nvir "nvir".toList

theorem dimNames_word {nocc nvir : Nat} : ∀ s ∈ dimNames nocc nvir, ∀ c ∈ s, isWord c = true := by
  intro s hs
  rcases List.mem_append.1 hs with h | h
  · rw [(List.mem_replicate.1 h).2]; decide
  · rw [(List.mem_replicate.1 h).2]; decide

theorem dims_notMem {nocc nvir : Nat} {d : Char} (hd : isWord d = false) (hc : d ≠ ',') : d ∉ join [','] (dimNames nocc nvir) := by
  intro h
  rcases mem_join_sep h with h | ⟨s, hs, h⟩
  · simp at h; exact hc h
  · have := dimNames_word s hs d h; rw [hd] at this; cases this

theorem readInit_zeros {var : Str} {nocc nvir : Nat} (hv : ∀ c ∈ var, isWord c = true) (h0 : nocc + nvir ≠ 0) :
    readInit (var ++ " = np.zeros((".toList ++ join [','] (dimNames nocc nvir) ++ "))".toList) = some (var, some (dimNames nocc nvir)) := by
  have e : var ++ " = np.zeros((".toList ++ join [','] (dimNames nocc nvir) ++ "))".toList =
      var ++ (' ' :: "= ".toList) ++ ("np.zeros((".toList ++ (join [','] (dimNames nocc nvir) ++ (')' :: [')']) ++ [])) := by
    rw [show " = np.zeros((".toList = (' ' :: "= ".toList) ++ "np.zeros((".toList from rfl, List.append_nil]
    simp only [List.append_assoc]
    rfl
  rw [e]
  unfold readInit
  rw [show " = ".toList = ' ' :: "= ".toList from rfl, breakOn_app (word_notMem hv (by decide))]
  dsimp only [bind, Option.bind]
  rw [if_neg (by intro h; have := congrArg List.head? h; simp at this), stripPrefix_app]
  dsimp only
  rw [show "))".toList = ')' :: [')'] from rfl, breakOn_app (dims_notMem (by decide) (by decide))]
  dsimp only
  rw [if_pos rfl]
  rw [show ([','] : Str) = ",".toList from rfl, splitComma_join]
  · intro h
    have := congrArg List.length h
    simp [dimNames] at this
    omega
  · intro s hs h
    exact absurd (dimNames_word s hs _ h) (by decide)

theorem readInit_number : readInit "R = 0.0".toList = some (['R'], none) := by decide

/-- the statement that creates the variable -/
def initText (var : Str) (nocc nvir : Nat) : Str :=
  if nocc + nvir = 0 then "R = 0.0".toList else var ++ " = np.zeros((".toList ++ join [','] (dimNames nocc nvir) ++ "))".toList

theorem readFunction_text {name var : Str} {lines : List Str} {nocc nvir : Nat} (hn : ∀ c ∈ name, isWord c = true) (hv : ∀ c ∈ var, isWord c = true)
    (hl : ∀ l ∈ lines, '\n' ∉ l ∧ l.head? ≠ some '#') (h0 : nocc + nvir = 0 → var = ['R']) (hvh : var ≠ []) :
    readFunction (join ['\n'] (["def ".toList ++ name ++ "(H,T):".toList, indent ++ "# contributions to the residual".toList] ++
      [indent ++ initText var nocc nvir] ++ lines.map (fun l => indent ++ l) ++ [indent ++ "return ".toList ++ var])) =
    some ⟨name, [['H'], ['T']], var, if nocc + nvir = 0 then none else some (dimNames nocc nvir), lines, var⟩ := by
  have hinit : readInit (initText var nocc nvir) = some (var, if nocc + nvir = 0 then none else some (dimNames nocc nvir)) := by
    unfold initText
    split
    next h => rw [h0 h]; exact readInit_number
    next h => exact readInit_zeros hv h
  have hin : '\n' ∉ initText var nocc nvir ∧ (initText var nocc nvir).head? ≠ some '#' := by
    unfold initText
    split
    · decide
    · constructor
      · intro h
        rcases List.mem_append.1 h with h | h
        · rcases List.mem_append.1 h with h | h
          · rcases List.mem_append.1 h with h | h
            · exact absurd (hv _ h) (by decide)
            · exact absurd h (by decide)
          · exact dims_notMem (by decide) (by decide) h
        · exact absurd h (by decide)
      · cases var with
        | nil => exact absurd rfl hvh
        | cons c var =>
          simp only [List.cons_append, List.head?_cons, ne_eq, Option.some.injEq]
          exact word_ne (hv c (by simp)) (by decide)
  have hind : '\n' ∉ indent := by decide
  have e : (["def ".toList ++ name ++ "(H,T):".toList, indent ++ "# contributions to the residual".toList] ++
      [indent ++ initText var nocc nvir] ++ lines.map (fun l => indent ++ l) ++ [indent ++ "return ".toList ++ var]) =
      ("def ".toList ++ name ++ "(H,T):".toList) :: ("# contributions to the residual".toList :: initText var nocc nvir :: (lines ++ ["return ".toList ++ var])).map (fun s => indent ++ s) := by
    simp
  rw [e]
  unfold readFunction
  rw [linesOf_join (by simp)]
  · dsimp only
    rw [show "def ".toList ++ name ++ "(H,T):".toList = "def ".toList ++ (name ++ ('(' :: []) ++ (("H,T".toList ++ (')' :: [':']) ++ []))) from by
      rw [show "(H,T):".toList = '(' :: ("H,T".toList ++ [')', ':']) from rfl]; simp, stripPrefix_app]
    dsimp only [bind, Option.bind]
    rw [show "(".toList = '(' :: [] from rfl, breakOn_app (word_notMem hn (by decide))]
    dsimp only
    rw [show "):".toList = ')' :: [':'] from rfl, breakOn_app (by decide)]
    dsimp only
    rw [show "    ".toList = indent from rfl, mapM_stripPrefix]
    dsimp only
    have hf : ("# contributions to the residual".toList :: initText var nocc nvir :: (lines ++ ["return ".toList ++ var])).filter (fun s => !decide (s.head? = some '#')) =
        initText var nocc nvir :: (lines ++ ["return ".toList ++ var]) := by
      rw [List.filter_cons_of_neg (by decide), List.filter_cons_of_pos (by simpa using hin.2), List.filter_append]
      congr 1
      rw [List.filter_eq_self.2 (fun l hl' => by simpa using (hl l hl').2)]
      congr 1
    rw [hf]
    dsimp only
    rw [hinit]
    dsimp only
    rw [List.getLast?_concat]
    dsimp only
    rw [stripPrefix_app]
    dsimp only
    rw [List.dropLast_concat]
    rfl
  · intro s hs
    rcases List.mem_cons.1 hs with rfl | hs
    · intro h
      rcases List.mem_append.1 h with h | h
      · rcases List.mem_append.1 h with h | h
        · exact absurd h (by decide)
        · exact absurd (hn _ h) (by decide)
      · exact absurd h (by decide)
    · obtain ⟨x, hx, rfl⟩ := List.mem_map.1 hs
      intro h
      rcases List.mem_append.1 h with h | h
      · exact hind h
      simp only [List.mem_cons, List.mem_append, List.not_mem_nil, or_false] at hx
      rcases hx with rfl | rfl | hx | rfl
      · exact absurd h (by decide)
      · exact hin.1 h
      · exact (hl x hx).1 h
      · rcases List.mem_append.1 h with h | h
        · exact absurd h (by decide)
        · exact absurd (hv _ h) (by decide)

/-! ## the lines -/

/-- the operands as they are written in a call -/
def argsText (args : List (Str × Str)) : Str := args.flatMap (fun p => ',' :: (p.1 ++ ['[', '"'] ++ p.2 ++ ['"', ']']))

/-- the text of a call before the operands -/
def callText (o : OSI) (fmt : Rational → Str) (letter : Index → Char) (t : Tensor) (q : Equation) : Str :=
  (t.label ++ spaceText o t) ++ " += ".toList ++ fmt q.factor ++ " * np.einsum(\"".toList ++
      (join ",".toList (q.rhs.tensors.map (fun x => (x.upper ++ x.lower).map letter)) ++ "->".toList ++ ((t.upper ++ t.lower).map letter ++ "\"".toList))

theorem einsumText_call (o : OSI) (fmt : Rational → Str) (letter : Index → Char) (t : Tensor) (q : Equation) :
    einsumText o fmt letter t q = callText o fmt letter t q ++ argsText (q.rhs.tensors.map (fun x => (x.label, spaceText o x))) ++ einsumTail := by
  unfold einsumText callText argsText
  rw [join_cons_flat]
  have : (q.rhs.tensors.map (fun x => x.label ++ "[\"".toList ++ spaceText o x ++ "\"]".toList)).flatMap (fun s => ',' :: s) =
      (q.rhs.tensors.map (fun x => (x.label, spaceText o x))).flatMap (fun p => ',' :: (p.1 ++ ['[', '"'] ++ p.2 ++ ['"', ']'])) := by
    rw [List.flatMap_map, List.flatMap_map]; rfl
  rw [this, show " * np.einsum(\"".toList = " * np.einsum(".toList ++ "\"".toList from rfl]
  simp only [List.append_assoc]
  rfl

theorem callText_notMem {o : OSI} {fmt : Rational → Str} {letter : Index → Char} {t : Tensor} {q : Equation}
    (hlab : ∀ c ∈ t.label, isWord c = true) (hsp : ∀ c ∈ spaceText o t, isWord c = true) (hlet : ∀ i ∈ einsumIndices t q, isAlpha (letter i) = true)
    {d : Char} (hd : isWord d = false) (hf : d ∉ fmt q.factor) (hs : d ∉ " += * np.einsum(\"->,".toList) : d ∉ callText o fmt letter t q := by
  intro h
  unfold callText at h
  have hs' : ∀ s : Str, (∀ c ∈ s, c ∈ " += * np.einsum(\"->,".toList) → d ∉ s := fun s hs2 h2 => hs (hs2 _ h2)
  simp only [List.mem_append] at h
  rcases h with (((((h | h) | h) | h) | h) | (h | h) | h | h)
  · have := hlab _ h; rw [hd] at this; cases this
  · have := hsp _ h; rw [hd] at this; cases this
  · exact hs' _ (by decide) h
  · exact hf h
  · exact hs' _ (by decide) h
  · rcases mem_join_sep h with h | ⟨s, hs2, h⟩
    · exact hs' ",".toList (by decide) h
    · obtain ⟨y, hy, rfl⟩ := List.mem_map.1 hs2
      obtain ⟨i, hi, rfl⟩ := List.mem_map.1 h
      have := alpha_word (hlet i (List.mem_append_left _ (List.mem_flatMap.2 ⟨y, hy, hi⟩)))
      rw [hd] at this; cases this
  · exact hs' _ (by decide) h
  · obtain ⟨i, hi, rfl⟩ := List.mem_map.1 h
    have := alpha_word (hlet i (List.mem_append_right _ hi))
    rw [hd] at this; cases this
  · exact hs' _ (by decide) h

theorem prints_notMem {fmt : Rational → Str} (hfmt : PrintsNine fmt) {c : Rational} (hc : Rational.Canon c) {d : Char} (hd : isDigit d = false) (h1 : d ≠ '.') (h2 : d ≠ '-') :
    d ∉ fmt c := by
  obtain ⟨⟨a, b, hab, _, _, ha, hb⟩, _⟩ := hfmt c hc
  intro h
  have hdig : ∀ s : Str, (∀ x ∈ s, isDigit x = true) → d ∉ s := fun s hs h => by have := hs _ h; rw [hd] at this; cases this
  rcases hab with hab | hab
  · rw [hab] at h
    rcases List.mem_append.1 h with h | h
    · exact hdig a ha h
    · rcases List.mem_cons.1 h with h | h
      · exact h1 h
      · exact hdig b hb h
  · rw [hab] at h
    rcases List.mem_cons.1 h with h | h
    · exact h2 h
    rcases List.mem_append.1 h with h | h
    · exact hdig a ha h
    · rcases List.mem_cons.1 h with h | h
      · exact h1 h
      · exact hdig b hb h

/-- the line of a term that can be compiled: what stands before the operands contains no bracket and no line break, and the operands are the tensors of the term -/
theorem compiled_line (hist : List RegOp) {fmt : Rational → Str} {label : Str} {t : STerm} {c : Rational} :
    let o := runReg OSI.empty hist
    (∀ s ∈ o.spaces, ∀ name ∈ s.indices, ∀ (c : Char) (n : Int), name ≠ c :: '_' :: '{' :: (intStr n ++ ['}'])) →
    (∀ s ∈ o.spaces, isAlpha s.label = true) → (∀ c ∈ label, isWord c = true) → PrintsNine fmt → t.Compilable o → Rational.Canon c →
    ∃ pre L, (manybodyEquation label t c).compileEinsum o fmt = .ok (pre ++ argsText (t.tensors.map (fun x => (x.label, spaceText o x))) ++ einsumTail) ∧
      readEinsum (pre ++ argsText (t.tensors.map (fun x => (x.label, spaceText o x))) ++ einsumTail) = some L ∧
      L.target = label ++ keyUpper (manybodyKey o t) ++ keyLower (manybodyKey o t) ∧ L.args = t.tensors.map (fun x => (x.label, spaceText o x)) ∧
      '[' ∉ pre ∧ '\n' ∉ pre ∧ (∃ a b, pre = label ++ a ++ "np.einsum".toList ++ b) ∧ ∀ y ∈ t.tensors, ∀ c ∈ spaceText o y, isWord c = true := by
  intro o hgen hal hlab hfmt hC hc
  have hbar : ∀ s ∈ o.spaces, s.label ≠ '|' := fun s hs h => absurd (hal s hs) (by rw [h]; decide)
  have hreg : OpsRegistered o t := by
    intro a ha
    have := hC.registered a.index (List.mem_append_left _ (List.mem_map_of_mem ha))
    unfold Index.Registered at this
    unfold OSI.numSpaces
    omega
  have hregE : ∀ i ∈ einsumIndices (lhsOf label t) (manybodyEquation label t c), i.Registered o :=
    fun i hi => hC.registered i ((einsumIndices_allIdx label t c i).1 hi)
  obtain ⟨letter, hcomp, halp, _⟩ := (C56_einsum_letters hist fmt (manybodyEquation label t c) (lhsOf label t) [] hgen rfl hregE).1 (by
    rw [show (einsumIndices (lhsOf label t) (manybodyEquation label t c)).toFinset = t.allIdx.toFinset from by
      ext i; rw [List.mem_toFinset, List.mem_toFinset]; exact einsumIndices_allIdx label t c i]
    exact hC.letters)
  have hsp : ∀ y ∈ lhsOf label t :: (manybodyEquation label t c).rhs.tensors, ∀ c ∈ spaceText o y, isWord c = true := by
    intro y hy c' hc
    have hyreg : ∀ i ∈ y.upper ++ y.lower, i.Registered o := by
      intro i hi
      rcases List.mem_cons.1 hy with rfl | hy
      · exact hregE i (List.mem_append_right _ hi)
      · exact hregE i (List.mem_append_left _ (List.mem_flatMap.2 ⟨y, hy, hi⟩))
    obtain ⟨i, hi, rfl⟩ := List.mem_map.1 hc
    have h1 := (hyreg i hi).2
    rw [List.getElem?_eq_getElem h1]
    exact alpha_word (hal _ (List.getElem_mem h1))
  have hwords : ∀ y ∈ lhsOf label t :: (manybodyEquation label t c).rhs.tensors, ∀ c ∈ y.label, isWord c = true := by
    intro y hy
    rcases List.mem_cons.1 hy with rfl | hy
    · exact hlab
    · exact hC.words y hy
  have hread := readEinsum_text (fmt := fmt) (letter := letter) (t := lhsOf label t) (q := manybodyEquation label t c) (o := o) hC.some hwords hsp halp
    (prints_notMem hfmt hc (by decide) (by decide) (by decide))
  rw [einsumText_call] at hcomp hread
  refine ⟨callText o fmt letter (lhsOf label t) (manybodyEquation label t c), _, hcomp, hread, ?_, rfl, ?_, ?_, ?_, ?_⟩
  · show (lhsOf label t).label ++ spaceText o (lhsOf label t) = _
    rw [spaceText_key hbar label hC hreg, List.append_assoc]
    rfl
  · exact callText_notMem (hwords _ (by simp)) (hsp _ (by simp)) halp (by decide) (prints_notMem hfmt hc (by decide) (by decide) (by decide)) (by decide)
  · exact callText_notMem (hwords _ (by simp)) (hsp _ (by simp)) halp (by decide) (prints_notMem hfmt hc (by decide) (by decide) (by decide)) (by decide)
  · refine ⟨spaceText o (lhsOf label t) ++ " += ".toList ++ fmt c ++ " * ".toList, "(\"".toList ++ (join ",".toList ((manybodyEquation label t c).rhs.tensors.map (fun x => (x.upper ++ x.lower).map letter)) ++ "->".toList ++
      (((lhsOf label t).upper ++ (lhsOf label t).lower).map letter ++ "\"".toList)), ?_⟩
    unfold callText
    rw [show " * np.einsum(\"".toList = " * ".toList ++ "np.einsum".toList ++ "(\"".toList from rfl]
    simp only [List.append_assoc]
    rfl
  · intro y hy
    exact hsp y (List.mem_cons_of_mem _ hy)

end Wicked
