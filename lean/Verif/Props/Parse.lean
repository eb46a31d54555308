import Verif.Spec.Parse
import Verif.Proofs.Parse
import Verif.Proofs.Lin
import Verif.Proofs.TermOrder
import Verif.Props.Registry
import Verif.Props.Einsum
/-! # C57: printing and parsing -/
namespace Wicked
open CppLt CppEq Rational

/-! ## Indices -/

/-- printed index -/
def iw (o : OSI) (i : Index) : Str := (((o.spaces[i.space.toNat]?).map (·.label)).getD ' ') :: natStr i.pos.natAbs

theorem iw_spec (ops : List RegOp) {i : Index} (h : i.Spellable (runReg OSI.empty ops)) :
    i.str (runReg OSI.empty ops) = .ok (iw (runReg OSI.empty ops) i) ∧ makeIndex (runReg OSI.empty ops) (iw (runReg OSI.empty ops) i) = .ok i ∧
      (∀ c ∈ iw (runReg OSI.empty ops) i, isAlnum c = true) ∧ iw (runReg OSI.empty ops) i ≠ [] := by
  obtain ⟨⟨l, hl, ha⟩, h0, hm⟩ := h
  obtain ⟨s, h1, h2, _⟩ := C12_index_roundtrip ops i l h0 hm hl ha
  have hs : s = l :: intStr i.pos := by
    unfold Index.str at h1; rw [hl] at h1; simp [bind, Except.bind, pure, Except.pure] at h1; exact h1.symm
  have hi : intStr i.pos = natStr i.pos.natAbs := by unfold intStr; rw [if_neg (by omega)]
  have hlab : ((runReg OSI.empty ops).spaces[i.space.toNat]?).map (·.label) = some l := by
    unfold OSI.label OSI.space at hl
    split at hl
    · cases hs : (runReg OSI.empty ops).spaces[i.space.toNat]? with
      | none => rw [hs] at hl; simp [bind, Except.bind] at hl
      | some s => rw [hs] at hl; simp [bind, Except.bind, pure, Except.pure] at hl; simp [hl]
    · simp [bind, Except.bind] at hl
  have e : iw (runReg OSI.empty ops) i = s := by unfold iw; rw [hlab, hs, hi]; rfl
  rw [e]
  refine ⟨h1, h2, ?_, by rw [hs]; simp⟩
  rw [hs, hi]
  intro c hc
  rcases List.mem_cons.mp hc with rfl | hc
  · exact isAlpha_alnum ha
  · exact isDigit_alnum (natStr_digits _ c hc)

theorem getlines_word {w : Str} (h : ',' ∉ w) (acc r : Str) : getlines acc (w ++ ',' :: r) = (acc.reverse ++ w) :: getlines [] r := by
  induction w generalizing acc with
  | nil => simp [getlines]
  | cons c w ih =>
    have hc : c ≠ ',' := by rintro rfl; exact h (by simp)
    rw [List.cons_append, getlines]
    simp only [beq_iff_eq, hc, if_false]
    rw [ih (fun hh => h (by simp [hh]))]
    simp

theorem getlines_last {w : Str} (h : ',' ∉ w) (acc : Str) (hne : acc.reverse ++ w ≠ []) : getlines acc w = [acc.reverse ++ w] := by
  induction w generalizing acc with
  | nil => simp at hne; simp [getlines, hne]
  | cons c w ih =>
    have hc : c ≠ ',' := by rintro rfl; exact h (by simp)
    rw [getlines]
    simp only [beq_iff_eq, hc, if_false]
    rw [ih (fun hh => h (by simp [hh])) _ (by simp)]
    simp

theorem trim_word {w : Str} (h : ∀ c ∈ w, isSpace c = false) : trim w = w := by
  have d : ∀ l : Str, (∀ c ∈ l, isSpace c = false) → l.dropWhile isSpace = l := by
    intro l hl
    cases l with
    | nil => rfl
    | cons a l => exact List.dropWhile_cons_of_neg (by simp [hl a (by simp)])
  unfold trim
  rw [d w h, d _ (by simpa using h), List.reverse_reverse]

theorem getlines_join {l : List Str} (h : ∀ w ∈ l, ',' ∉ w ∧ w ≠ []) : getlines [] (join [','] l) = l := by
  induction l with
  | nil => rfl
  | cons a l ih =>
    have ha := h a (by simp)
    by_cases hl : l = []
    · subst hl
      rw [join, getlines_last ha.1 _ (by simp [ha.2])]; rfl
    · rw [join_cons hl, List.append_assoc, List.singleton_append, getlines_word ha.1, ih (fun w hw => h w (by simp [hw]))]; rfl

theorem splitIndices_join {l : List Str} (h : ∀ w ∈ l, (∀ c ∈ w, isAlnum c = true) ∧ w ≠ []) : splitIndices (join [','] l) = l := by
  unfold splitIndices
  rw [getlines_join (fun w hw => ⟨fun hc => absurd ((h w hw).1 _ hc) (by decide), (h w hw).2⟩)]
  conv_rhs => rw [← List.map_id l]
  apply List.map_congr_left
  intro w hw
  exact trim_word (fun c hc => isAlnum_not_space ((h w hw).1 c hc))

theorem mem_join {c : Char} {sep : Str} {l : List Str} (h : c ∈ join sep l) : c ∈ sep ∨ ∃ w ∈ l, c ∈ w := by
  induction l with
  | nil => simp [join] at h
  | cons a l ih =>
    by_cases hl : l = []
    · subst hl; right; exact ⟨a, by simp, h⟩
    · rw [join_cons hl] at h
      simp only [List.mem_append] at h
      rcases h with (h | h) | h
      · right; exact ⟨a, by simp, h⟩
      · left; exact h
      · rcases ih h with h | ⟨w, hw, hc⟩
        · left; exact h
        · right; exact ⟨w, by simp [hw], hc⟩

/-- printed list of indices -/
def isw (o : OSI) (l : List Index) : Str := join [','] (l.map (iw o))

section
variable {ops : List RegOp}

/-- short name for the registry -/
local notation "𝔬" => runReg OSI.empty ops

theorem isw_class {l : List Index} (h : ∀ i ∈ l, i.Spellable 𝔬) : ∀ c ∈ isw 𝔬 l, isAlnum c = true ∨ c = ',' := by
  intro c hc
  rcases mem_join hc with h1 | ⟨w, hw, hc⟩
  · right; simpa using h1
  · obtain ⟨i, hi, rfl⟩ := List.mem_map.mp hw
    left; exact (iw_spec ops (h i hi)).2.2.1 c hc

theorem makeIndices_isw {l : List Index} (h : ∀ i ∈ l, i.Spellable 𝔬) : makeIndices 𝔬 (isw 𝔬 l) = .ok l := by
  unfold makeIndices isw
  rw [splitIndices_join]
  · rw [List.mapM_map]
    have := mapM_ok (l := l) (fun i => makeIndex 𝔬 (iw 𝔬 i)) id (fun i hi => (iw_spec ops (h i hi)).2.1)
    rw [List.map_id] at this
    exact this
  · intro w hw
    obtain ⟨i, hi, rfl⟩ := List.mem_map.mp hw
    exact ⟨(iw_spec ops (h i hi)).2.2.1, (iw_spec ops (h i hi)).2.2.2⟩

/-! ## Tensors and operators -/

/-- printed tensor -/
def tw (o : OSI) (t : Tensor) : Str := tword t.label (isw o t.upper) (isw o t.lower)

/-- what printing keeps of a tensor -/
def Tensor.plain (t : Tensor) : Tensor := ⟨t.label, t.lower, t.upper, .antisymmetric, false⟩

/-- labels that the tensor pattern can read -/
def LabelOk (s : Str) : Prop := s ≠ [] ∧ ∀ c ∈ s, isAlnum c = true

theorem tensor_str {t : Tensor} (h : ∀ i ∈ t.upper ++ t.lower, i.Spellable 𝔬) : t.str 𝔬 = .ok (tw 𝔬 t) := by
  unfold Tensor.str
  rw [mapM_ok (Index.str 𝔬) (iw 𝔬) t.upper (fun i hi => (iw_spec ops (h i (by simp [hi]))).1),
    mapM_ok (Index.str 𝔬) (iw 𝔬) t.lower (fun i hi => (iw_spec ops (h i (by simp [hi]))).1)]
  rfl

theorem makeTensor_tw {t : Tensor} (h : ∀ i ∈ t.upper ++ t.lower, i.Spellable 𝔬) (hl : LabelOk t.label) :
    makeTensor 𝔬 (tw 𝔬 t) .antisymmetric = .ok t.plain := by
  have hu : ∀ i ∈ t.upper, i.Spellable 𝔬 := fun i hi => h i (by simp [hi])
  have hlo : ∀ i ∈ t.lower, i.Spellable 𝔬 := fun i hi => h i (by simp [hi])
  have hcls : ∀ l : List Index, (∀ i ∈ l, i.Spellable 𝔬) → ∀ c ∈ isw 𝔬 l, (isWord c || c == ',' || isSpace c) = true := by
    intro l hl c hc
    rcases isw_class hl c hc with h | h
    · simp [isAlnum_word h]
    · simp [h]
  have := tensorParts_tword (cls := fun c => isWord c || c == ',' || isSpace c) (by decide) hl.1 hl.2 (hcls _ hu) (hcls _ hlo) []
  rw [List.append_nil] at this
  unfold makeTensor tw
  rw [this]
  simp only
  rw [makeIndices_isw hu, makeIndices_isw hlo]
  rfl

theorem findall_tw {t : Tensor} (h : ∀ i ∈ t.upper ++ t.lower, i.Spellable 𝔬) (hl : LabelOk t.label) (r : Str) :
    findallAux matchTensor 0 (tw 𝔬 t ++ r) = [tw 𝔬 t] ++ findallAux matchTensor 0 r := by
  have hcls : ∀ l : List Index, (∀ i ∈ l, i.Spellable 𝔬) → ∀ c ∈ isw 𝔬 l, (isWord c || c == ',') = true := by
    intro l hl c hc
    rcases isw_class hl c hc with h | h
    · simp [isAlnum_word h]
    · simp [h]
  exact findall_tensor_hit hl.1 hl.2 (hcls _ (fun i hi => h i (by simp [hi]))) (hcls _ (fun i hi => h i (by simp [hi]))) r

theorem tw_chars {t : Tensor} (h : ∀ i ∈ t.upper ++ t.lower, i.Spellable 𝔬) (hl : LabelOk t.label) :
    ∀ c ∈ tw 𝔬 t, isAlnum c = true ∨ c = ',' ∨ c = '^' ∨ c = '{' ∨ c = '}' ∨ c = '_' := by
  intro c hc
  simp only [tw, tword, List.mem_append, List.mem_cons, List.not_mem_nil, or_false] at hc
  have hu := isw_class (l := t.upper) (fun i hi => h i (by simp [hi])) c
  have hlo := isw_class (l := t.lower) (fun i hi => h i (by simp [hi])) c
  have := hl.2 c
  tauto

/-- printed operator: symbol, sign and index -/
def ow (o : OSI) (a : SQOp) : OpW :=
  (if o.fieldType a.index.space = .ok .fermion then 'a' else 'b', if a.isCre then '+' else '-', iw o a.index)

/-- the word of `ow` -/
def oword' (w : OpW) : Str := oword w.1 w.2.1 w.2.2

theorem op_str {a : SQOp} (h : a.index.Spellable 𝔬) : a.str 𝔬 = .ok (oword' (ow 𝔬 a)) := by
  unfold SQOp.str OSI.opSymbol
  rw [(iw_spec ops h).1]
  obtain ⟨⟨l, hl, _⟩, _⟩ := h
  have hf : ∃ f, (𝔬).fieldType a.index.space = .ok f := by
    unfold OSI.label at hl
    unfold OSI.fieldType
    cases hs : (𝔬).space a.index.space with
    | error e => rw [hs] at hl; simp [bind, Except.bind] at hl
    | ok s => exact ⟨_, rfl⟩
  obtain ⟨f, hf⟩ := hf
  unfold oword' ow
  rw [hf]
  cases f <;> cases hc : a.isCre <;> rfl

theorem ow_spec {a : SQOp} (h : a.index.Spellable 𝔬) :
    ((ow 𝔬 a).1 = 'a' ∨ (ow 𝔬 a).1 = 'b') ∧ ((ow 𝔬 a).2.1 = '+' ∨ (ow 𝔬 a).2.1 = '-') ∧ (ow 𝔬 a).2.2 ≠ [] ∧ (∀ c ∈ (ow 𝔬 a).2.2, isAlnum c = true) := by
  refine ⟨?_, ?_, (iw_spec ops h).2.2.2, (iw_spec ops h).2.2.1⟩
  · unfold ow; simp only; split <;> simp
  · unfold ow; simp only; split <;> simp

theorem ow_chars {a : SQOp} (h : a.index.Spellable 𝔬) : ∀ c ∈ oword' (ow 𝔬 a), isAlnum c = true ∨ c = '+' ∨ c = '-' ∨ c = '(' ∨ c = ')' := by
  obtain ⟨h1, h2, _, h4⟩ := ow_spec h
  intro c hc
  simp only [oword', oword, List.mem_cons, List.mem_append, List.not_mem_nil, or_false] at hc
  rcases hc with rfl | rfl | rfl | hc | rfl
  · left; rcases h1 with h1 | h1 <;> rw [h1] <;> decide
  · tauto
  · tauto
  · left; exact h4 c hc
  · tauto

theorem makeOps_words {l : List SQOp} (h : ∀ a ∈ l, a.index.Spellable 𝔬) :
    makeOps 𝔬 (l.flatMap (fun a => [[(ow 𝔬 a).2.1], (ow 𝔬 a).2.2])) = .ok l := by
  induction l with
  | nil => rfl
  | cons a l ih =>
    rw [List.flatMap_cons]
    simp only [List.cons_append, List.nil_append, makeOps]
    have hi : makeIndex 𝔬 (ow 𝔬 a).2.2 = .ok a.index := (iw_spec ops (h a (by simp))).2.1
    rw [hi, ih (fun b hb => h b (by simp [hb]))]
    simp only [bind, Except.bind, pure, Except.pure, ow]
    rcases a with ⟨t, i⟩
    cases t <;> simp [SQOp.isCre]

/-! ## Terms -/

/-- opening and closing brace of a printed term -/
def braceL (t : STerm) : List Str := if !t.ops.isEmpty && t.normalOrdered then [['{']] else []
@[inherit_doc braceL] def braceR (t : STerm) : List Str := if !t.ops.isEmpty && t.normalOrdered then [['}']] else []

/-- the words of a printed term after the tensors -/
def opWords (o : OSI) (t : STerm) : List Str := braceL t ++ t.ops.map (fun a => oword' (ow o a)) ++ braceR t

/-- printed term -/
def body (o : OSI) (t : STerm) : Str := join [' '] (t.tensors.map (tw o) ++ opWords o t)

/-- what the words of printed terms need: readable labels and indices -/
structure TermOk (o : OSI) (t : STerm) : Prop where
  label : ∀ x ∈ t.tensors, LabelOk x.label
  index : ∀ x ∈ t.tensors, ∀ i ∈ x.upper ++ x.lower, i.Spellable o
  opIndex : ∀ a ∈ t.ops, a.index.Spellable o

theorem term_str {t : STerm} (h : TermOk 𝔬 t) : t.str 𝔬 = .ok (body 𝔬 t) := by
  unfold STerm.str
  rw [mapM_ok (Tensor.str 𝔬) (tw 𝔬) t.tensors (fun x hx => tensor_str (h.index x hx)),
    mapM_ok (SQOp.str 𝔬) (fun a => oword' (ow 𝔬 a)) t.ops (fun a ha => op_str (h.opIndex a ha))]
  simp only [bind, Except.bind, pure, Except.pure, body, opWords, braceL, braceR, List.append_assoc]

theorem mem_opWords {t : STerm} {w : Str} (hw : w ∈ opWords 𝔬 t) : w = ['{'] ∨ w = ['}'] ∨ ∃ a ∈ t.ops, w = oword' (ow 𝔬 a) := by
  unfold opWords braceL braceR at hw
  simp only [List.mem_append, List.mem_map] at hw
  rcases hw with (hw | ⟨a, ha, rfl⟩) | hw
  · split at hw
    · left; simpa using hw
    · simp at hw
  · exact Or.inr (Or.inr ⟨a, ha, rfl⟩)
  · split at hw
    · right; left; simpa using hw
    · simp at hw

theorem opWord_end {t : STerm} (h : TermOk 𝔬 t) {w : Str} (hw : w ∈ opWords 𝔬 t) :
    ∃ w' c, w = w' ++ [c] ∧ isAlnum c = false ∧ '^' ∉ w := by
  rcases mem_opWords hw with rfl | rfl | ⟨a, ha, rfl⟩
  · exact ⟨[], '{', rfl, by decide, by decide⟩
  · exact ⟨[], '}', rfl, by decide, by decide⟩
  · refine ⟨_ :: _ :: '(' :: (ow 𝔬 a).2.2, ')', rfl, by decide, ?_⟩
    intro hc
    rcases ow_chars (h.opIndex a ha) _ hc with h | h | h | h | h
    · exact absurd h (by decide)
    · exact absurd h (by decide)
    · exact absurd h (by decide)
    · exact absurd h (by decide)
    · exact absurd h (by decide)

theorem scan_tensors {t : STerm} (h : TermOk 𝔬 t) : findallAux matchTensor 0 (body 𝔬 t) = t.tensors.map (tw 𝔬) := by
  have key := findall_join (m := matchTensor) (fun r => findall_tensor_miss (w := []) (c := ' ') (by decide) (by decide))
    (l := t.tensors.map (fun x => (tw 𝔬 x, [tw 𝔬 x])) ++ (opWords 𝔬 t).map (fun w => (w, []))) (by
      intro w hw r
      simp only [List.mem_append, List.mem_map] at hw
      rcases hw with ⟨x, hx, rfl⟩ | ⟨w, hw, rfl⟩
      · exact findall_tw (h.index x hx) (h.label x hx) r
      · obtain ⟨w', c, rfl, h1, h2⟩ := opWord_end h hw
        exact findall_tensor_miss h1 h2) []
  simp only [List.map_append, List.map_map, List.append_nil, List.flatMap_append, List.flatMap_map, Function.comp_def] at key
  unfold body
  rw [show (opWords 𝔬 t).map (fun w => w) = opWords 𝔬 t from List.map_id _] at key
  rw [key]
  simp [findallAux, List.flatMap]
  rw [show (fun x => [tw 𝔬 x]) = (fun y => [y]) ∘ tw 𝔬 from rfl, ← List.map_map]
  generalize t.tensors.map (tw 𝔬) = l
  induction l with
  | nil => rfl
  | cons a l ih => simpa using ih

theorem scan_ops {t : STerm} (h : TermOk 𝔬 t) :
    findallAux matchOp 0 (body 𝔬 t) = t.ops.flatMap (fun a => [[(ow 𝔬 a).2.1], (ow 𝔬 a).2.2]) := by
  have key := findall_join (m := matchOp) (fun r => findall_op_miss (w := [' ']) (by decide))
    (l := t.tensors.map (fun x => (tw 𝔬 x, [])) ++ ((braceL t).map (fun w => (w, [])) ++
      t.ops.map (fun a => (oword' (ow 𝔬 a), [[(ow 𝔬 a).2.1], (ow 𝔬 a).2.2])) ++ (braceR t).map (fun w => (w, [])))) (by
      intro w hw r
      simp only [List.mem_append, List.mem_map] at hw
      rcases hw with ⟨x, hx, rfl⟩ | (⟨w, hw, rfl⟩ | ⟨a, ha, rfl⟩) | ⟨w, hw, rfl⟩
      · have e : tw 𝔬 x = (x.label ++ ['^', '{'] ++ isw 𝔬 x.upper ++ ['}', '_', '{'] ++ isw 𝔬 x.lower) ++ ['}'] := rfl
        have hc := tw_chars (h.index x hx) (h.label x hx)
        rw [e] at hc ⊢
        apply findall_op_miss' (by decide)
        intro c hcm
        rcases hc c hcm with h | h | h | h | h | h
        · exact ⟨ne_of_class h (by decide), ne_of_class h (by decide)⟩
        all_goals (subst h; decide)
      · unfold braceL at hw
        split at hw
        · simp at hw; subst hw; exact findall_op_miss (by decide)
        · simp at hw
      · obtain ⟨h1, h2, _, h4⟩ := ow_spec (h.opIndex a ha)
        exact findall_op_hit h1 h2 (fun c hc => isAlnum_word (h4 c hc)) r
      · unfold braceR at hw
        split at hw
        · simp at hw; subst hw; exact findall_op_miss (by decide)
        · simp at hw) []
  simp only [List.map_append, List.map_map, List.append_nil, List.flatMap_append, List.flatMap_map, Function.comp_def] at key
  unfold body opWords
  rw [show (braceL t).map (fun w => w) = braceL t from List.map_id _, show (braceR t).map (fun w => w) = braceR t from List.map_id _] at key
  rw [key]
  simp [findallAux, List.flatMap]

/-- the label of normal ordering that is read back -/
def STerm.flag (o : OSI) (t : STerm) : Bool :=
  t.normalOrdered && (!t.ops.isEmpty && t.ops.all (fun a => decide (o.fieldType a.index.space = .ok .fermion)))

theorem scan_flag {t : STerm} (h : TermOk 𝔬 t) : normalSearch (body 𝔬 t) = t.flag 𝔬 := by
  have hop : ∀ w ∈ t.ops.map (fun a => oword' (ow 𝔬 a)), '{' ∉ w := by
    intro w hw hc
    obtain ⟨a, ha, rfl⟩ := List.mem_map.mp hw
    rcases ow_chars (h.opIndex a ha) _ hc with h | h | h | h | h <;> exact absurd h (by decide)
  unfold body
  rw [normalSearch_join_skip]
  · unfold opWords braceL braceR STerm.flag
    cases hb : (!t.ops.isEmpty && t.normalOrdered) with
    | false =>
      have e : (t.normalOrdered && (!t.ops.isEmpty && t.ops.all (fun a => decide ((𝔬).fieldType a.index.space = .ok .fermion)))) = false := by
        cases h1 : t.normalOrdered <;> cases h2 : t.ops.isEmpty <;> simp [h1, h2] at hb ⊢
      rw [e]
      simp only [Bool.false_eq_true, if_false, List.nil_append, List.append_nil]
      exact normalSearch_nobrace (not_mem_join (by decide) hop)
    | true =>
      simp only [if_true, List.cons_append, List.nil_append]
      have hcl : '{' ∉ join [' '] (t.ops.map (fun a => oword' (ow 𝔬 a)) ++ [['}']]) := by
        apply not_mem_join (by decide)
        intro w hw
        rcases List.mem_append.mp hw with h | h
        · exact hop w h
        · simp at h; subst h; decide
      rw [join_cons (by simp), List.append_assoc]
      simp only [List.cons_append, List.nil_append]
      rw [normalSearch, normalSearch]
      rw [normalSearch_nobrace hcl]
      simp only [Bool.and_eq_true, Bool.not_eq_true'] at hb
      have hlen : t.ops.length ≤ (join [' '] (t.ops.map (fun a => oword' (ow 𝔬 a)) ++ [['}']])).length := by
        have := join_length (l := t.ops.map (fun a => oword' (ow 𝔬 a)) ++ [['}']]) (by
          intro w hw
          rcases List.mem_append.mp hw with h | h
          · obtain ⟨a, _, rfl⟩ := List.mem_map.mp h; exact oword_ne_nil _ _ _
          · simp at h; subst h; decide)
        simp only [List.length_append, List.length_map, List.length_singleton] at this
        omega
      have := normalRest_ops (t.ops.map (ow 𝔬)) ((' ' :: join [' '] (t.ops.map (fun a => oword' (ow 𝔬 a)) ++ [['}']])).length + 1) 0
        (by simp only [List.length_map, List.length_cons]; omega)
        (by
          intro w hw
          obtain ⟨a, ha, rfl⟩ := List.mem_map.mp hw
          obtain ⟨h1, h2, h3, h4⟩ := ow_spec (h.opIndex a ha)
          exact ⟨h1, h2, h3, fun c hc => isAlnum_word (h4 c hc)⟩)
      rw [List.map_map] at this
      rw [show (t.ops.map ((fun w : OpW => oword w.1 w.2.1 w.2.2) ∘ ow 𝔬)) = t.ops.map (fun a => oword' (ow 𝔬 a)) from rfl] at this
      rw [this]
      have h0 : 0 < t.ops.length := by
        cases hh : t.ops with
        | nil => rw [hh] at hb; simp at hb
        | cons _ _ => simp
      have hall : (t.ops.map (ow 𝔬)).all (fun w => w.1 == 'a') = t.ops.all (fun a => decide ((𝔬).fieldType a.index.space = .ok .fermion)) := by
        rw [List.all_map]
        congr 1
        funext a
        unfold ow
        by_cases hf : (𝔬).fieldType a.index.space = .ok .fermion <;> simp [hf]
      rw [hall]
      simp [hb, h0]
  · intro w hw r
    obtain ⟨x, hx, rfl⟩ := List.mem_map.mp hw
    apply normalSearch_skip
    intro p q hpq f
    have hch := tw_chars (h.index x hx) (h.label x hx)
    have e : tw 𝔬 x = (x.label ++ ['^', '{'] ++ isw 𝔬 x.upper ++ ['}', '_', '{'] ++ isw 𝔬 x.lower) ++ ['}'] := rfl
    have hlast : (p ++ '{' :: q).getLast? = some '}' := by rw [← hpq, e]; exact List.getLast?_concat
    have hq : q ≠ [] := by
      rintro rfl
      simp at hlast
    apply normalRest_word hq
    · intro c hc
      have : c ∈ tw 𝔬 x := by rw [hpq]; simp [hc]
      rcases hch c this with h | h | h | h | h | h
      · exact ⟨isAlnum_not_space h, ne_of_class h (by decide), ne_of_class h (by decide)⟩
      all_goals (subst h; decide)
    · intro c hc
      rw [List.getLast?_append, List.getLast?_cons] at hlast
      rw [hc] at hlast
      simp at hlast
      rw [hlast]; decide

/-! ## Lines -/

/-- what is read back of a term: the label `flag`, plain tensors, the same operators; a digit that touches the first
tensor label is taken for a part of the label -/
def STerm.reread (o : OSI) (pre : Str) (t : STerm) : STerm :=
  ⟨t.flag o, t.ops, match t.tensors with
    | [] => []
    | x :: xs => { x.plain with label := pre ++ x.label } :: xs.map Tensor.plain⟩

/-- the digit in front of the first label -/
def touching (n : Nat) (p : STerm × Rational) : Str :=
  if n = 0 ∧ p.1.tensors ≠ [] ∧ p.2.den = 1 ∧ 2 ≤ p.2.num ∧ p.2.num ≤ 9 then natStr p.2.num.natAbs else []

theorem body_head {t : STerm} (h : TermOk 𝔬 t) (hl : ∀ x ∈ t.tensors, IsIdent x.label) :
    ∀ a, (body 𝔬 t).head? = some a → isDigit a = false ∧ a ≠ '/' ∧ isSpace a = false ∧ a ≠ '+' ∧ a ≠ '-' := by
  intro a ha
  have key : isAlpha a = true ∨ a = '{' ∨ a = '}' := by
    unfold body at ha
    have hj : ∀ (w : Str) (l : List Str), w ≠ [] → (join [' '] (w :: l)).head? = w.head? := by
      intro w l hw
      by_cases hl : l = []
      · subst hl; rfl
      · rw [join_cons hl, List.append_assoc, List.head?_append_of_ne_nil _ hw]
    cases ht : t.tensors with
    | nil =>
      rw [ht, List.map_nil, List.nil_append] at ha
      cases ho : opWords 𝔬 t with
      | nil => rw [ho] at ha; simp [join] at ha
      | cons w l =>
        have hw : w ∈ opWords 𝔬 t := by rw [ho]; simp
        rw [ho] at ha
        rcases mem_opWords hw with rfl | rfl | ⟨b, hb, rfl⟩
        · rw [hj _ _ (by simp)] at ha; simp at ha; simp [← ha]
        · rw [hj _ _ (by simp)] at ha; simp at ha; simp [← ha]
        · rw [hj (oword' (ow 𝔬 b)) _ (oword_ne_nil _ _ _)] at ha
          simp [oword', oword] at ha
          left
          rw [← ha]
          rcases (ow_spec (h.opIndex b hb)).1 with h1 | h1 <;> rw [h1] <;> decide
    | cons x xs =>
      rw [ht, List.map_cons, List.cons_append, hj (tw 𝔬 x) _ (tword_ne_nil _ _ _)] at ha
      obtain ⟨⟨c, s, hc, hca⟩, _⟩ := hl x (by rw [ht]; simp)
      simp [tw, tword, hc] at ha
      left; rw [← ha]; exact hca
  rcases key with h | rfl | rfl
  · have h' := isAlpha_alnum h
    exact ⟨isAlpha_not_digit h, ne_of_class h' (by decide), isAlnum_not_space h', ne_of_class h' (by decide), ne_of_class h' (by decide)⟩
  · decide
  · decide

theorem ident_ok {s : Str} (h : IsIdent s) : LabelOk s := by
  obtain ⟨⟨c, t, rfl, _⟩, h2⟩ := h
  exact ⟨by simp, h2⟩

theorem STerm.Parsable.ok {t : STerm} {o : OSI} (h : t.Parsable o) : TermOk o t :=
  ⟨fun x hx => ident_ok (h.label x hx), h.index, h.opIndex⟩

/-- parsing a line made of a factor `f` that is captured as `c` and of a term -/
theorem parse_line {t t' : STerm} {f : Str} {c : Rational} (hne : f ++ body 𝔬 t ≠ []) (h : TermOk 𝔬 t) (hf : ∀ x ∈ f, isDigit x = true ∨ x = '+' ∨ x = '-' ∨ x = '/' ∨ x = ' ')
    (ht' : TermOk 𝔬 t') (htens : findallAux matchTensor 0 (f ++ body 𝔬 t) = t'.tensors.map (tw 𝔬))
    (hcap : makeFromStr (factorCapture (f ++ body 𝔬 t)) = .ok c) :
    makeExpression 𝔬 (f ++ body 𝔬 t) .antisymmetric = .ok (Lin.add [] ⟨t.flag 𝔬, t.ops, t'.tensors.map Tensor.plain⟩ c) := by
  unfold makeExpression
  rw [if_neg (by simpa using hne)]
  unfold findall
  rw [htens, hcap, List.mapM_map, mapM_ok ((fun t => makeTensor 𝔬 t .antisymmetric) ∘ tw 𝔬) Tensor.plain t'.tensors
    (fun x hx => makeTensor_tw (ht'.index x hx) (ht'.label x hx))]
  rw [findall_op_miss (by
    intro x hx
    rcases hf x hx with h | h | h | h | h
    · exact ⟨ne_of_class h (by decide), ne_of_class h (by decide)⟩
    all_goals (subst h; decide)), scan_ops h, makeOps_words h.opIndex]
  rw [normalSearch_skip' (by
    intro hx
    rcases hf _ hx with h | h | h | h | h <;> exact absurd h (by decide)), scan_flag h]
  rfl

theorem absorb_body {x : Tensor} {xs : List Tensor} {fl : Bool} {l : List SQOp} (d : Str) :
    d ++ body 𝔬 ⟨fl, l, x :: xs⟩ = body 𝔬 ⟨fl, l, { x with label := d ++ x.label } :: xs⟩ := by
  unfold body
  simp only [List.map_cons, List.cons_append]
  by_cases h : xs.map (tw 𝔬) ++ opWords 𝔬 ⟨fl, l, x :: xs⟩ = []
  · rw [show opWords 𝔬 ⟨fl, l, { x with label := d ++ x.label } :: xs⟩ = opWords 𝔬 ⟨fl, l, x :: xs⟩ from rfl, h]
    simp [join, tw, tword]
  · rw [join_cons h, show opWords 𝔬 ⟨fl, l, { x with label := d ++ x.label } :: xs⟩ = opWords 𝔬 ⟨fl, l, x :: xs⟩ from rfl, join_cons h]
    simp [tw, tword]

theorem line_roundtrip {p : STerm × Rational} (n : Nat) (hp : p.1.Parsable 𝔬) (hc : Canon p.2) (h0 : p.2.num ≠ 0)
    (hn : p.2.num.natAbs ≤ intMax) (hd : p.2.den ≤ intMax) :
    ∃ s, lineStr 𝔬 n p = .ok s ∧ s ≠ [] ∧ '\n' ∉ s ∧
      makeExpression 𝔬 s .antisymmetric = .ok [(p.1.reread 𝔬 (touching n p), p.2)] := by
  obtain ⟨t, c⟩ := p
  simp only at hp hc h0 hn hd
  have hok := hp.ok
  obtain ⟨sgn, ns, ds, sl, hsh⟩ := str_shape hc h0 (n != 0)
  have hpar := makeFromStr_str c (n != 0) hc hn hd
  have hadd : ∀ k : STerm, Lin.add [] k c = [(k, c)] := by
    intro k
    unfold Lin.add
    have : Rational.eq c (Rational.ofInt 0) = false := by
      simp [Rational.eq, Rational.ofInt, h0]
    simp [this, SMap.find, SMap.insert]
  have hbody : ∀ x ∈ body 𝔬 t, x ≠ '\n' := by
    rintro x hx rfl
    rcases mem_join hx with h | ⟨w, hw, hm⟩
    · simp at h
    · rcases List.mem_append.mp hw with h | h
      · obtain ⟨y, hy, rfl⟩ := List.mem_map.mp h
        rcases tw_chars (hok.index y hy) (hok.label y hy) _ hm with h | h | h | h | h | h <;> exact absurd h (by decide)
      · rcases mem_opWords h with rfl | rfl | ⟨a, ha, rfl⟩
        · simp at hm
        · simp at hm
        · rcases ow_chars (hok.opIndex a ha) _ hm with h | h | h | h | h <;> exact absurd h (by decide)
  have hf0 := hsh.chars
  have hstr : lineStr 𝔬 n (t, c) = .ok (factorStr n (body 𝔬 t) c ++ body 𝔬 t) := by
    unfold lineStr
    simp only
    rw [term_str hok]
    rfl
  have hnl : ∀ f : Str, (∀ x ∈ f, isDigit x = true ∨ x = '+' ∨ x = '-' ∨ x = '/' ∨ x = ' ') → '\n' ∉ f ++ body 𝔬 t := by
    intro f hf hx
    rcases List.mem_append.mp hx with hx | hx
    · rcases hf _ hx with h | h | h | h | h <;> exact absurd h (by decide)
    · exact hbody _ hx rfl
  have hf0' : ∀ x ∈ Rational.str c (n != 0), isDigit x = true ∨ x = '+' ∨ x = '-' ∨ x = '/' ∨ x = ' ' := by
    intro x hx; have := hf0 x hx; tauto
  refine ⟨_, hstr, ?_⟩
  by_cases hb : body 𝔬 t = []
  · -- a pure scalar
    have htt : t.tensors = [] := by
      cases h : t.tensors with
      | nil => rfl
      | cons x xs =>
        exfalso
        unfold body at hb
        rw [h, List.map_cons, List.cons_append] at hb
        by_cases hx : xs.map (tw 𝔬) ++ opWords 𝔬 t = []
        · rw [hx] at hb; exact tword_ne_nil _ _ _ hb
        · rw [join_cons hx] at hb; simp at hb
    have htouch : touching n (t, c) = [] := by unfold touching; simp [htt]
    have hpl : t.tensors.map Tensor.plain = [] := by rw [htt]; rfl
    have hre : t.reread 𝔬 [] = ⟨t.flag 𝔬, t.ops, []⟩ := by unfold STerm.reread; rw [htt]
    have main : ∀ f : Str, f ≠ [] → (∀ x ∈ f, isDigit x = true ∨ x = '+' ∨ x = '-' ∨ x = '/' ∨ x = ' ') → makeFromStr (factorCapture f) = .ok c →
        f ++ body 𝔬 t ≠ [] ∧ '\n' ∉ f ++ body 𝔬 t ∧ makeExpression 𝔬 (f ++ body 𝔬 t) .antisymmetric = .ok [(t.reread 𝔬 (touching n (t, c)), c)] := by
      intro f hne hf hcap
      refine ⟨by simp [hne], hnl f hf, ?_⟩
      rw [parse_line (t' := t) (by simp [hne]) hok hf hok ?_ (by rw [hb, List.append_nil]; exact hcap), hadd, htouch, hre, hpl]
      rw [htt, hb, List.append_nil]
      apply findall_nocaret
      intro hx
      rcases hf _ hx with h | h | h | h | h <;> exact absurd h (by decide)
    have hcap0 : factorCapture (Rational.str c (n != 0)) = Rational.str c (n != 0) := by
      have := hsh.capture (x := []) (by simp)
      rwa [List.append_nil] at this
    unfold factorStr
    rw [hb]
    simp only [List.length_nil, gt_iff_lt, lt_irrefl, if_false]
    by_cases he : (Rational.str c (n != 0)).length = 0
    · rw [he]
      simp only [beq_self_eq_true, if_true]
      have he' := List.length_eq_zero_iff.mp he
      have hc1 : c = Rational.ofInt 1 := by
        rw [he'] at hpar
        have : makeFromStr [] = .ok (Rational.ofInt 1) := by decide
        rw [this] at hpar
        injection hpar with h; exact h.symm
      have := main (if (n == 0) = true then ['1'] else ['+', '1']) (by split <;> simp) (by
        intro x hx; split at hx <;> simp at hx
        · subst hx; left; decide
        · rcases hx with rfl | rfl
          · right; left; rfl
          · left; decide) (by split <;> (rw [hc1]; decide))
      rw [hb] at this
      have h1 : ((if (n == 0) = true then (['1'] : Str) else ['+', '1']) == ['-']) = false := by split <;> decide
      rw [h1]
      exact this
    · have he2 : ((Rational.str c (n != 0)).length == 0) = false := by simpa using he
      rw [he2]
      simp only [Bool.false_eq_true, if_false]
      by_cases hm : Rational.str c (n != 0) = ['-']
      · rw [hm]
        simp only [beq_self_eq_true, if_true]
        have hc1 : c = Rational.ofInt (-1) := by
          rw [hm] at hpar
          have : makeFromStr ['-'] = .ok (Rational.ofInt (-1)) := by decide
          rw [this] at hpar
          injection hpar with h; exact h.symm
        have := main ['-', '1'] (by simp) (by decide) (by rw [hc1]; decide)
        rw [hb] at this
        exact this
      · have hm2 : (Rational.str c (n != 0) == ['-']) = false := by simpa using hm
        rw [hm2]
        simp only [Bool.false_eq_true, if_false]
        have := main (Rational.str c (n != 0)) (by intro h; rw [h] at he; simp at he) hf0' (by rw [hcap0]; exact hpar)
        rw [hb] at this
        exact this
  · -- a term with tensors or operators
    have hhead := body_head hok hp.label
    have hbl : (body 𝔬 t).length > 0 := List.length_pos_iff.mpr hb
    unfold factorStr
    simp only [hbl, if_true]
    by_cases hlong : (Rational.str c (n != 0)).length > 1
    · -- separated by a blank
      have hm : Rational.str c (n != 0) ≠ ['-'] := by intro h; rw [h] at hlong; simp at hlong
      have : ((decide ((Rational.str c (n != 0)).length > 1)) && (Rational.str c (n != 0) != ['-'])) = true := by simp [hlong, hm]
      rw [this]
      simp only [if_true]
      have hf : ∀ x ∈ Rational.str c (n != 0) ++ [' '], isDigit x = true ∨ x = '+' ∨ x = '-' ∨ x = '/' ∨ x = ' ' := by
        intro x hx
        rcases List.mem_append.mp hx with h | h
        · exact hf0' x h
        · simp at h; tauto
      refine ⟨by simp, hnl _ hf, ?_⟩
      rw [parse_line (t' := t) (c := c) (by simp) hok hf hok, hadd]
      · have htouch : touching n (t, c) = [] := by
          unfold touching
          rw [if_neg]
          rintro ⟨h1, _, h2, h3, h4⟩
          simp only at h2 h3 h4
          have e : Rational.str c (n != 0) = [digitChar c.num.natAbs] := by
            unfold Rational.str
            have hh : natStr c.num.natAbs = [digitChar c.num.natAbs] := by rw [natStr_eq, if_pos (by omega)]
            have hi : intStr c.num = natStr c.num.natAbs := by unfold intStr; rw [if_neg (by omega)]
            have h5 : ¬ c.num = 0 := by omega
            have h6 : ¬ c.num = -1 := by omega
            have h7 : ¬ c.num = 1 := by omega
            simp [h1, h2, h5, h6, h7, hi, hh]
          rw [e] at hlong; simp at hlong
        rw [htouch]
        congr 3
        unfold STerm.reread
        cases t.tensors with
        | nil => rfl
        | cons x xs => rfl
      · rw [findall_tensor_miss (by decide), scan_tensors hok]
        intro hx
        rcases hf _ hx with h | h | h | h | h <;> exact absurd h (by decide)
      · rw [List.append_assoc, hsh.capture, hpar]
        intro a ha
        simp at ha; subst ha
        refine ⟨by decide, by decide, ?_⟩
        intro hh; rw [hh] at hlong; simp at hlong
    · -- the factor touches the term
      have : ((decide ((Rational.str c (n != 0)).length > 1)) && (Rational.str c (n != 0) != ['-'])) = false := by simp [hlong]
      rw [this]
      simp only [Bool.false_eq_true, if_false]
      have hcap : makeFromStr (factorCapture (Rational.str c (n != 0) ++ body 𝔬 t)) = .ok c := by
        rw [hsh.capture, hpar]
        intro a ha
        have := hhead a ha
        exact ⟨this.1, this.2.1, fun _ => this.2.2⟩
      refine ⟨by simp [hb], hnl _ hf0', ?_⟩
      have plainCase : findallAux matchTensor 0 (Rational.str c (n != 0) ++ body 𝔬 t) = findallAux matchTensor 0 (body 𝔬 t) → touching n (t, c) = [] →
          makeExpression 𝔬 (Rational.str c (n != 0) ++ body 𝔬 t) .antisymmetric = .ok [(t.reread 𝔬 (touching n (t, c)), c)] := by
        intro h1 h2
        rw [parse_line (t' := t) (c := c) (by simp [hb]) hok hf0' hok (by rw [h1, scan_tensors hok]) hcap, hadd, h2]
        congr 3
        unfold STerm.reread
        cases t.tensors with
        | nil => rfl
        | cons x xs => rfl
      have one1 : ∀ f : Str, Rational.str c (n != 0) = f → (∀ d, isDigit d = true → f ≠ [d]) → touching n (t, c) = [] := by
        intro f hf hd
        unfold touching
        rw [if_neg]
        rintro ⟨h1, _, h2, h3, h4⟩
        simp only at h2 h3 h4
        have e : Rational.str c (n != 0) = [digitChar c.num.natAbs] := by
          unfold Rational.str
          have hh : natStr c.num.natAbs = [digitChar c.num.natAbs] := by rw [natStr_eq, if_pos (by omega)]
          have hi : intStr c.num = natStr c.num.natAbs := by unfold intStr; rw [if_neg (by omega)]
          have h5 : ¬ c.num = 0 := by omega
          have h6 : ¬ c.num = -1 := by omega
          have h7 : ¬ c.num = 1 := by omega
          simp [h1, h2, h5, h6, h7, hi, hh]
        exact hd _ (isDigit_digitChar (by omega)) (hf.symm.trans e)
      rcases hsh.short (by omega) with h | h | h | ⟨d, h, hdig, hsign, hden, hge, hle⟩
      · exact plainCase (by rw [h]; rfl) (one1 _ h (by simp))
      · exact plainCase (by rw [h]; exact findall_tensor_miss (w := []) (by decide) (by decide)) (one1 _ h (by
          intro d hd hh; simp at hh; subst hh; revert hd; decide))
      · exact plainCase (by rw [h]; exact findall_tensor_miss (w := []) (by decide) (by decide)) (one1 _ h (by
          intro d hd hh; simp at hh; subst hh; revert hd; decide))
      · have hn0 : n = 0 := by simpa using hsign
        have hd1 : [d] = natStr c.num.natAbs := by
          rw [← h]
          unfold Rational.str
          have hi : intStr c.num = natStr c.num.natAbs := by unfold intStr; rw [if_neg (by omega)]
          have h5 : ¬ c.num = 0 := by omega
          have h6 : ¬ c.num = -1 := by omega
          have h7 : ¬ c.num = 1 := by omega
          simp [hn0, hden, h5, h6, h7, hi]
        cases ht : t.tensors with
        | nil =>
          have htouch : touching n (t, c) = [] := by unfold touching; simp [ht]
          apply plainCase _ htouch
          have hnc : ∀ f : Str, '^' ∉ f → '^' ∉ f ++ body 𝔬 t := by
            intro f hf hx
            rcases List.mem_append.mp hx with h | hx
            · exact hf h
            · unfold body at hx
              rw [ht, List.map_nil, List.nil_append] at hx
              exact not_mem_join (by decide) (fun w hw => (opWord_end hok hw).choose_spec.choose_spec.2.2) hx
          rw [h, findall_nocaret (hnc _ (by simp; rintro rfl; revert hdig; decide)), findall_nocaret]
          exact hnc [] (by simp)
        | cons x xs =>
          have htouch : touching n (t, c) = [d] := by
            unfold touching
            rw [if_pos ⟨hn0, by simp [ht], hden, hge, hle⟩, hd1]
          obtain ⟨fl, l, ts⟩ := t
          simp only at ht
          subst ht
          have hok' : TermOk 𝔬 ⟨fl, l, { x with label := [d] ++ x.label } :: xs⟩ := by
            refine ⟨?_, ?_, hok.opIndex⟩
            · intro y hy
              rcases List.mem_cons.mp hy with rfl | hy
              · refine ⟨by simp, ?_⟩
                intro c hc
                rcases List.mem_append.mp hc with hc | hc
                · simp at hc; subst hc; exact isDigit_alnum hdig
                · exact (hok.label x (by simp)).2 c hc
              · exact hok.label y (by simp [hy])
            · intro y hy
              rcases List.mem_cons.mp hy with rfl | hy
              · exact hok.index x (by simp)
              · exact hok.index y (by simp [hy])
          rw [parse_line (t' := ⟨fl, l, { x with label := [d] ++ x.label } :: xs⟩) (c := c) (by simp [hb]) hok hf0' hok'
            (by rw [h, absorb_body, scan_tensors hok']) hcap, hadd, htouch]
          rfl

/-! ## Expressions -/

theorem splitLines_word {w : Str} (h : '\n' ∉ w) (acc r : Str) : splitLines acc (w ++ '\n' :: r) = (acc.reverse ++ w) :: splitLines [] r := by
  induction w generalizing acc with
  | nil => simp [splitLines]
  | cons c w ih =>
    have hc : c ≠ '\n' := by rintro rfl; exact h (by simp)
    rw [List.cons_append, splitLines]
    simp only [beq_iff_eq, hc, if_false]
    rw [ih (fun hh => h (by simp [hh]))]
    simp

theorem splitLines_last {w : Str} (h : '\n' ∉ w) (acc : Str) : splitLines acc w = [acc.reverse ++ w] := by
  induction w generalizing acc with
  | nil => simp [splitLines]
  | cons c w ih =>
    have hc : c ≠ '\n' := by rintro rfl; exact h (by simp)
    rw [splitLines]
    simp only [beq_iff_eq, hc, if_false]
    rw [ih (fun hh => h (by simp [hh])) _]
    simp

theorem splitLines_join {l : List Str} (hl : l ≠ []) (h : ∀ w ∈ l, '\n' ∉ w) : splitLines [] (join ['\n'] l) = l := by
  induction l with
  | nil => exact absurd rfl hl
  | cons a l ih =>
    by_cases hl : l = []
    · subst hl
      rw [join, splitLines_last (h a (by simp))]; rfl
    · rw [join_cons hl, List.append_assoc, List.singleton_append, splitLines_word (h a (by simp)), ih hl (fun w hw => h w (by simp [hw]))]; rfl

theorem add_last {m : Expr} {k : STerm} {c : Rational} (hc : c.num ≠ 0) (h : ∀ p ∈ m, lt p.1 k = true) : Lin.add m k c = m ++ [(k, c)] := by
  have h1 : SMap.find k m = none := by
    induction m with
    | nil => rfl
    | cons p m ih =>
      rw [SMap.find, if_pos (h p (by simp))]
      exact ih (fun q hq => h q (by simp [hq]))
  have h2 : SMap.insert k c m = m ++ [(k, c)] := by
    clear h1
    induction m with
    | nil => rfl
    | cons p m ih =>
      rw [SMap.insert, if_pos (h p (by simp)), ih (fun q hq => h q (by simp [hq]))]; rfl
  unfold Lin.add
  have : Rational.eq c (Rational.ofInt 0) = false := by simp [Rational.eq, Rational.ofInt, hc]
  rw [this, h1]
  simp [h2]

/-- the terms that are read back, from line `n` on -/
def rereadFrom (o : OSI) : Nat → Expr → Expr
  | _, [] => []
  | n, p :: e => (p.1.reread o (touching n p), p.2) :: rereadFrom o (n + 1) e

theorem lines_roundtrip : ∀ (e : Expr) (n : Nat), Expr.Parsable 𝔬 e → (∀ p ∈ e, Canon p.2 ∧ p.2.num ≠ 0) →
    ∃ ls, linesStr 𝔬 n e = .ok ls ∧ (∀ w ∈ ls, '\n' ∉ w) ∧ ls.length = e.length ∧
      ∀ acc : Expr, (acc ++ rereadFrom 𝔬 n e).Pairwise (fun p q => lt p.1 q.1 = true) →
        ls.foldlM (m := Except Fault) (fun r line => do
          let e ← makeExpression 𝔬 line .antisymmetric
          return Lin.plus r e) acc = .ok (acc ++ rereadFrom 𝔬 n e)
  | [], n, _, _ => ⟨[], rfl, by simp, rfl, by intro acc _; simp [rereadFrom, pure, Except.pure]⟩
  | p :: e, n, hp, hc => by
    obtain ⟨s, h1, h2, h3, h4⟩ := line_roundtrip n (hp.term p (by simp)) (hc p (by simp)).1 (hc p (by simp)).2 (hp.num p (by simp)) (hp.den p (by simp))
    obtain ⟨ls, g1, g2, g3, g4⟩ := lines_roundtrip e (n + 1) ⟨fun q hq => hp.term q (by simp [hq]), fun q hq => hp.num q (by simp [hq]),
      fun q hq => hp.den q (by simp [hq])⟩ (fun q hq => hc q (by simp [hq]))
    refine ⟨s :: ls, ?_, ?_, by simp [g3], ?_⟩
    · rw [linesStr, h1, g1]; rfl
    · intro w hw
      rcases List.mem_cons.mp hw with rfl | hw
      · exact h3
      · exact g2 w hw
    · intro acc hs
      rw [List.foldlM_cons, h4]
      simp only [bind, Except.bind, pure, Except.pure]
      have hpl : Lin.plus acc [(p.1.reread 𝔬 (touching n p), p.2)] = acc ++ [(p.1.reread 𝔬 (touching n p), p.2)] := by
        unfold Lin.plus
        rw [List.foldl_cons, List.foldl_nil]
        apply add_last (hc p (by simp)).2
        intro q hq
        rw [List.pairwise_append] at hs
        exact hs.2.2 q hq _ (by simp [rereadFrom])
      rw [hpl]
      have := g4 (acc ++ [(p.1.reread 𝔬 (touching n p), p.2)]) (by simpa [rereadFrom] using hs)
      simp only [bind, Except.bind, pure, Except.pure] at this
      rw [this]
      simp [rereadFrom]

theorem expr_roundtrip {e : Expr} (hp : Expr.Parsable 𝔬 e) (hw : Lin.WF e)
    (hs : (rereadFrom 𝔬 0 e).Pairwise (fun p q => lt p.1 q.1 = true)) :
    ∃ s, e.str 𝔬 = .ok s ∧ stringToExpr 𝔬 s = .ok (rereadFrom 𝔬 0 e) := by
  obtain ⟨ls, h1, h2, h3, h4⟩ := lines_roundtrip e 0 hp (fun p hpm => ⟨hw.canon p hpm, fun h => hw.nonzero p hpm (by simp [toRat, h])⟩)
  refine ⟨join ['\n'] ls, by unfold Expr.str; rw [h1]; rfl, ?_⟩
  unfold stringToExpr
  by_cases hl : ls = []
  · subst hl
    have : e = [] := List.length_eq_zero_iff.mp (by simpa using h3.symm)
    subst this
    rfl
  · rw [splitLines_join hl h2, h4 [] (by simpa using hs)]; rfl

theorem reread_key (t : STerm) : (t.reread 𝔬 []).key = t.key := by
  unfold STerm.key STerm.reread
  cases h : t.tensors with
  | nil => rfl
  | cons x xs => simp [Tensor.plain, Tensor.key, Function.comp_def]

theorem reread_lt (a b : STerm) : lt (a.reread 𝔬 []) (b.reread 𝔬 []) = lt a b := by
  rw [sterm_lt, sterm_lt, reread_key, reread_key]

theorem rereadFrom_succ (e : Expr) (n : Nat) : rereadFrom 𝔬 (n + 1) e = e.map (fun p => (p.1.reread 𝔬 [], p.2)) := by
  induction e generalizing n with
  | nil => rfl
  | cons p e ih => rw [rereadFrom, ih]; simp [touching]

end

/-! ## The property -/

theorem rereadFrom_free {ops : List RegOp} {e : Expr} (hd : ¬ DigitTouchesLabel e) :
    rereadFrom (runReg OSI.empty ops) 0 e = e.map (fun p => (p.1.reread (runReg OSI.empty ops) [], p.2)) := by
  cases e with
  | nil => rfl
  | cons p e =>
    rw [rereadFrom, rereadFrom_succ]
    have : touching 0 p = [] := by
      unfold touching
      rw [if_neg]
      rintro ⟨_, h⟩
      exact hd ⟨p, rfl, h⟩
    rw [this]; rfl

theorem plain_reread {o : OSI} {t : STerm} (h : t.Plain o) : t.reread o [] = t := by
  obtain ⟨fl, l, ts⟩ := t
  obtain ⟨h1, h2⟩ := h
  simp only at h1 h2
  have hp : ∀ x ∈ ts, x.plain = x := by
    intro x hx
    obtain ⟨a, b⟩ := h1 x hx
    cases x; simp only at a b; subst a; subst b; rfl
  have hf : STerm.flag o ⟨fl, l, ts⟩ = fl := by
    unfold STerm.flag
    cases fl with
    | false => rfl
    | true =>
      obtain ⟨h3, h4⟩ := h2 rfl
      simp only [Bool.true_and, Bool.and_eq_true, Bool.not_eq_true', List.all_eq_true, decide_eq_true_eq]
      exact ⟨by simpa using h3, fun a ha => h4 a ha⟩
  unfold STerm.reread
  rw [hf]
  cases ts with
  | nil => rfl
  | cons x xs =>
    simp only [List.nil_append]
    rw [List.map_congr_left (g := id) (fun y hy => hp y (by simp [hy])), List.map_id, hp x (by simp)]

/-- **C57** (all of it except expressions whose first term has tensors and the coefficient 2, ..., 9): in every
registry that can arise, an expression over parsable labels prints without error, the text parses, and the result is `==`
to the expression; if moreover all tensors are antisymmetric and not conjugated and the labels of normal
ordering surround fermionic operators, it is the same expression in every respect. -/
theorem C57_print_parse_partial (ops : List RegOp) {e : Expr} (hw : Lin.WF e) :
    let o := runReg OSI.empty ops
    e.Parsable o → ¬ DigitTouchesLabel e →
    ∃ s e', e.str o = .ok s ∧ stringToExpr o s = .ok e' ∧ Lin.isEqual e' e = true ∧ ((∀ p ∈ e, p.1.Plain o) → e' = e) := by
  intro o hp hd
  have hfree := rereadFrom_free (ops := ops) hd
  obtain ⟨s, h1, h2⟩ := expr_roundtrip (ops := ops) hp hw (by
    rw [hfree, List.pairwise_map]
    exact hw.sorted.imp (fun {a b} h => by rw [reread_lt]; exact h))
  refine ⟨s, _, h1, h2, ?_, ?_⟩
  · rw [hfree]
    show listEq _ _ = true
    clear hp hd hw h1 h2 hfree
    induction e with
    | nil => rfl
    | cons p e ih =>
      rw [List.map_cons, listEq, ih, Bool.and_true]
      show (eq (p.1.reread o []) p.1 && Rational.eq p.2 p.2) = true
      rw [sterm_eq.mpr (reread_key p.1)]
      simp [Rational.eq]
  · intro hpl
    rw [hfree]
    conv_rhs => rw [← List.map_id e]
    apply List.map_congr_left
    intro p hpm
    rw [plain_reread (hpl p hpm)]; rfl

/-- **C57** fails in the excluded case: the digit is read as the first character of the tensor label, so the text still
parses, but the result is never `==` to the expression. -/
theorem C57_digit_joins_label (ops : List RegOp) {e : Expr} (hw : Lin.WF e) :
    let o := runReg OSI.empty ops
    e.Parsable o → DigitTouchesLabel e →
    ∃ s e' t t' c d x x' xs xs' e₁ e₁', e.str o = .ok s ∧ stringToExpr o s = .ok e' ∧ Lin.isEqual e' e = false ∧
      e = (t, c) :: e₁ ∧ e' = (t', c) :: e₁' ∧ t.tensors = x :: xs ∧ t'.tensors = x' :: xs' ∧ isDigit d = true ∧ x'.label = d :: x.label := by
  intro o hp hd
  obtain ⟨⟨t, c⟩, hh, ht, hden, hge, hle⟩ := hd
  cases e with
  | nil => cases hh
  | cons p e =>
    simp only [List.head?_cons, Option.some.injEq] at hh
    subst hh
    simp only at ht hden hge hle
    obtain ⟨x, xs, hx⟩ : ∃ x xs, t.tensors = x :: xs := by
      cases h : t.tensors with
      | nil => exact absurd h ht
      | cons x xs => exact ⟨x, xs, rfl⟩
    have htouch : touching 0 (t, c) = [digitChar c.num.natAbs] := by
      unfold touching
      rw [if_pos ⟨rfl, ht, hden, hge, hle⟩]
      show natStr c.num.natAbs = _
      rw [natStr_eq, if_pos (by omega)]
    have hdig : isDigit (digitChar c.num.natAbs) = true := isDigit_digitChar (by omega)
    have hcmp : ∀ q ∈ e, lt (t.reread o [digitChar c.num.natAbs]) q.1 = true := by
      intro q hq
      have hlt : lt t q.1 = true := List.rel_of_pairwise_cons hw.sorted hq
      cases hqt : q.1.tensors with
      | nil =>
        exfalso
        rw [sterm_lt] at hlt
        unfold STerm.key at hlt
        rw [hx, hqt] at hlt
        have h2 : lexLt (List.map Tensor.key (x :: xs)) ([] : List (Str × List Index × List Index)) = false := rfl
        have h3 : lexLt ([] : List (Str × List Index × List Index)) (List.map Tensor.key (x :: xs)) = true := rfl
        rw [pair_lt, list_lt, list_lt] at hlt
        simp [h2, h3, lexLt] at hlt
      | cons y ys =>
        obtain ⟨⟨a, b, hab, ha⟩, _⟩ := (hp.term q (by simp [hq])).label y (by rw [hqt]; simp)
        have hlab : lexLt (digitChar c.num.natAbs :: x.label) (a :: b) = true := by
          rw [lexLt]
          have : lt (digitChar c.num.natAbs) a = true := by
            show decide _ = true
            rw [decide_eq_true_eq]
            simp only [isDigit, isAlpha, Bool.and_eq_true, Bool.or_eq_true, decide_eq_true_eq] at hdig ha
            omega
          rw [this]; rfl
        have htl : Tensor.ltB { x.plain with label := [digitChar c.num.natAbs] ++ x.label } y = true := by
          unfold Tensor.ltB
          have : lt ([digitChar c.num.natAbs] ++ x.label) y.label = true := by rw [hab]; exact hlab
          simp only [this, if_true]
        have htr : lt (t.reread o [digitChar c.num.natAbs]).tensors q.1.tensors = true := by
          unfold STerm.reread
          rw [hx, hqt]
          show lexLt _ _ = true
          rw [lexLt]
          show (if Tensor.ltB _ _ = true then _ else _) = true
          rw [if_pos htl]
        show STerm.ltB _ _ = true
        unfold STerm.ltB
        rw [lt_asymm (α := List Tensor) htr, htr]
        rfl
    have hsrt : (rereadFrom o 0 ((t, c) :: e)).Pairwise (fun p q => lt p.1 q.1 = true) := by
      rw [rereadFrom, rereadFrom_succ, htouch, List.pairwise_cons, List.pairwise_map]
      refine ⟨?_, ?_⟩
      · intro q hq
        obtain ⟨r, hr, rfl⟩ := List.mem_map.mp hq
        have := hcmp r hr
        simp only
        rw [sterm_lt] at this ⊢
        rw [reread_key]; exact this
      · exact (List.pairwise_cons.mp hw.sorted).2.imp (fun {a b} h => by rw [reread_lt]; exact h)
    obtain ⟨s, h1, h2⟩ := expr_roundtrip (ops := ops) hp hw hsrt
    have htens : (t.reread o [digitChar c.num.natAbs]).tensors = { x.plain with label := [digitChar c.num.natAbs] ++ x.label } :: xs.map Tensor.plain := by
      unfold STerm.reread; rw [hx]
    refine ⟨s, _, t, t.reread o [digitChar c.num.natAbs], c, digitChar c.num.natAbs, x, _, xs, _, e, rereadFrom o 1 e, h1, h2, ?_, rfl, ?_, hx, htens, hdig, rfl⟩
    · rw [rereadFrom, htouch]
      show listEq _ _ = false
      rw [listEq]
      have : eq (t.reread o [digitChar c.num.natAbs]) t = false := by
        rw [Bool.eq_false_iff]
        intro h
        rw [sterm_eq] at h
        unfold STerm.key at h
        rw [htens, hx] at h
        simp [Tensor.key, Tensor.plain] at h
      show ((eq (t.reread o [digitChar c.num.natAbs]) t && Rational.eq c c) && _) = false
      rw [this]; rfl
    · rw [rereadFrom, htouch]

/-- a registered index with a letter label, for the examples -/
def exParse : Expr := [(⟨false, [], []⟩, ⟨3, 1⟩),
  (⟨true, [⟨.creation, ⟨1, 0⟩⟩, ⟨.annihilation, ⟨0, 0⟩⟩], [⟨['t', '2'], [⟨0, 0⟩, ⟨0, 1⟩], [⟨1, 0⟩], .antisymmetric, false⟩]⟩, ⟨-3, 2⟩)]

/-- the hypotheses of `C57_print_parse_partial` hold of a non-trivial expression -/
example : Lin.WF exParse ∧ exParse.Parsable (runReg OSI.empty ccHistory) ∧ ¬ DigitTouchesLabel exParse ∧
    exParse.str (runReg OSI.empty ccHistory) = .ok "3\n-3/2 t2^{v0}_{o0,o1} { a+(v0) a-(o0) }".toList := by
  have sp : ∀ i : Index, i ∈ [(⟨0, 0⟩ : Index), ⟨0, 1⟩, ⟨1, 0⟩] → i.Spellable (runReg OSI.empty ccHistory) := by
    intro i hi
    simp only [List.mem_cons, List.not_mem_nil, or_false] at hi
    rcases hi with rfl | rfl | rfl
    · exact ⟨⟨'o', by decide, by decide⟩, by decide, by decide⟩
    · exact ⟨⟨'o', by decide, by decide⟩, by decide, by decide⟩
    · exact ⟨⟨'v', by decide, by decide⟩, by decide, by decide⟩
  refine ⟨⟨⟨by decide, ?_⟩, ?_⟩, ⟨?_, by decide, by decide⟩, ?_, by decide⟩
  · unfold exParse Canon; decide
  · simp [exParse, toRat]
  · intro p hp
    simp only [exParse, List.mem_cons, List.not_mem_nil, or_false] at hp
    rcases hp with rfl | rfl
    · exact ⟨by simp, by simp, by simp⟩
    · refine ⟨?_, ?_, ?_⟩
      · intro x hx
        simp only [List.mem_cons, List.not_mem_nil, or_false] at hx
        subst hx
        exact ⟨⟨'t', ['2'], rfl, by decide⟩, by decide⟩
      · intro x hx i hi
        simp only [List.mem_cons, List.not_mem_nil, or_false] at hx
        subst hx
        apply sp
        revert hi; simp; tauto
      · intro a ha
        apply sp
        simp only [List.mem_cons, List.not_mem_nil, or_false] at ha
        rcases ha with rfl | rfl <;> simp
  · rintro ⟨p, hp, h1, _⟩
    simp [exParse] at hp
    subst hp
    exact h1 rfl

/-- the counterexample in full: `2 t` is read back as `2 (2t)` -/
theorem C57_two_t : let o := runReg OSI.empty ccHistory
    let e : Expr := [(⟨false, [], [⟨['t'], [⟨0, 0⟩], [⟨1, 0⟩], .antisymmetric, false⟩]⟩, ⟨2, 1⟩)]
    e.str o = .ok "2t^{v0}_{o0}".toList ∧
      stringToExpr o "2t^{v0}_{o0}".toList = .ok [(⟨false, [], [⟨['2', 't'], [⟨0, 0⟩], [⟨1, 0⟩], .antisymmetric, false⟩]⟩, ⟨2, 1⟩)] := by
  decide

end Wicked
