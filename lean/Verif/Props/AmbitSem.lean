import Verif.Spec.AmbitSem
import Verif.Props.EinsumSem
/-! # C66: the compiled ambit line computes the equation -/
namespace Wicked
open CppLt CppEq Rational

/-! ## reading the text back -/

theorem splitStar_cons {c : Char} {s : Str} (hc : c ≠ ' ') : splitStar (c :: s) =
    match splitStar s with
    | [] => [[c]]
    | h :: l => (c :: h) :: l := by
  rw [splitStar.eq_def]
  split
  · rename_i h; cases h
  · rename_i h; injection h with h _; exact absurd h hc
  · rename_i h; injection h with h1 h2; subst h1 h2; rfl

theorem splitStar_single {s : Str} (h : ' ' ∉ s) : splitStar s = [s] := by
  induction s with
  | nil => rfl
  | cons c s ih =>
    have hc : c ≠ ' ' := fun h' => h (by simp [h'])
    rw [splitStar_cons hc, ih (fun h' => h (by simp [h']))]

theorem splitStar_app {s t : Str} (h : ' ' ∉ s) : splitStar (s ++ ' ' :: '*' :: ' ' :: t) = s :: splitStar t := by
  induction s with
  | nil => simp [splitStar]
  | cons c s ih =>
    have hc : c ≠ ' ' := fun h' => h (by simp [h'])
    rw [List.cons_append, splitStar_cons hc, ih (fun h' => h (by simp [h']))]

theorem splitStar_join {l : List Str} (hl : l ≠ []) (h : ∀ s ∈ l, ' ' ∉ s) : splitStar (join [' ', '*', ' '] l) = l := by
  induction l with
  | nil => exact absurd rfl hl
  | cons s l ih =>
    cases l with
    | nil => rw [join]; exact splitStar_single (h s (by simp))
    | cons s' l =>
      rw [join, List.append_assoc]
      have := splitStar_app (s := s) (t := join [' ', '*', ' '] (s' :: l)) (h s (by simp))
      have e : [' ', '*', ' '] ++ join [' ', '*', ' '] (s' :: l) = ' ' :: '*' :: ' ' :: join [' ', '*', ' '] (s' :: l) := rfl
      rw [e, this, ih (by simp) (fun x hx => h x (List.mem_cons_of_mem _ hx))]

theorem breakOn_none {c0 : Char} {s : Str} (h : c0 ∉ s) : breakOn [c0] s = none := by
  induction s with
  | nil => rfl
  | cons c s ih =>
    have hc : c0 ≠ c := fun h' => h (by simp [h'])
    simp only [breakOn]
    rw [if_neg, ih (fun h' => h (by simp [h']))]
    · rfl
    · simp [List.isPrefixOf, hc]

/-- the text of a tensor with the given index names -/
def ambitTensor (label : Str) (names : List Str) : Str :=
  if names.length > 0 then label ++ ['['] ++ join [','] names ++ [']'] else label

theorem readTensor_text {label : Str} {names : List Str} (hne : label ≠ []) (hl : ∀ c ∈ label, isWord c = true)
    (hn : ∀ n ∈ names, ',' ∉ n) : readTensor (ambitTensor label names) = some (label, names) := by
  have hb : '[' ∉ label := word_notMem hl (by decide)
  unfold ambitTensor
  cases names with
  | nil =>
    simp only [List.length_nil, gt_iff_lt, Nat.lt_irrefl, if_false]
    unfold readTensor
    rw [breakOn_none hb, if_neg hne]
  | cons n ns =>
    rw [if_pos (by simp)]
    unfold readTensor
    have := breakOn_app (c0 := '[') (sep := []) (a := label) (b := join [','] (n :: ns) ++ [']']) hb
    rw [List.append_assoc _ _ [']'], this]
    dsimp only
    rw [if_neg (by simp [hne]), List.dropLast_concat, show ([','] : Str) = ",".toList from rfl, splitComma_join (by simp) hn]

/-- the name of an index -/
def idxName (o : OSI) (i : Index) : Str := spLab o i :: intStr i.pos

theorem idxName_spec {o : OSI} {i : Index} (h : i.Registered o) : i.str o = .ok (idxName o i) := by
  unfold Index.str OSI.label OSI.space idxName spLab
  rw [if_pos h.1, List.getElem?_eq_getElem h.2]
  rfl

theorem intStr_chars {z : Int} {c : Char} (h : c ∈ intStr z) : isDigit c = true ∨ c = '-' := by
  unfold intStr at h
  split at h
  · rcases List.mem_cons.1 h with h | h
    · exact Or.inr h
    · exact Or.inl (natStr_digits _ _ h)
  · exact Or.inl (natStr_digits _ _ h)

theorem mapM_res {α β : Type} {f : α → Res β} {g : α → β} {l : List α} (h : ∀ a ∈ l, f a = .ok (g a)) :
    l.mapM (m := Except Fault) f = .ok (l.map g) := by
  induction l with
  | nil => rfl
  | cons a l ih =>
    rw [List.mapM_cons, h a (by simp), ih (fun b hb => h b (List.mem_cons_of_mem _ hb))]; rfl

theorem tensor_compile {o : OSI} {t : Tensor} (h : ∀ i ∈ t.upper ++ t.lower, i.Registered o) :
    t.compile o = .ok (ambitTensor t.label ((t.upper ++ t.lower).map (idxName o))) := by
  unfold Tensor.compile
  rw [mapM_res (fun i hi => idxName_spec (h i hi))]
  simp only [bind, Except.bind, pure, Except.pure, ambitTensor]

/-- the line that is read back -/
def ambitLineOf (o : OSI) (fmt : Rational → Str) (t : Tensor) (q : Equation) : AmbitLine :=
  ⟨(t.label, (t.upper ++ t.lower).map (idxName o)), fmt q.factor, q.rhs.tensors.map (fun y => (y.label, (y.upper ++ y.lower).map (idxName o)))⟩

theorem ambit_text {o : OSI} {fmt : Rational → Str} {t : Tensor} {q : Equation} (hl : q.lhs.tensors = [t]) (hlo : q.lhs.ops = [])
    (hro : q.rhs.ops = []) (hreg : ∀ y ∈ t :: q.rhs.tensors, ∀ i ∈ y.upper ++ y.lower, i.Registered o) :
    q.compileAmbit o fmt = .ok (ambitTensor t.label ((t.upper ++ t.lower).map (idxName o)) ++ " += ".toList ++ fmt q.factor ++ " * ".toList ++
      join [' ', '*', ' '] (q.rhs.tensors.map (fun y => ambitTensor y.label ((y.upper ++ y.lower).map (idxName o)))) ++ [';']) := by
  unfold Equation.compileAmbit STerm.compileAmbit
  rw [hl, hlo, hro, mapM_res (g := fun y => ambitTensor y.label ((y.upper ++ y.lower).map (idxName o)))
    (fun y hy => tensor_compile (hreg y (List.mem_cons_of_mem _ hy))),
    mapM_res (g := fun y => ambitTensor y.label ((y.upper ++ y.lower).map (idxName o)))
    (fun y hy => tensor_compile (hreg y (by rw [List.mem_singleton] at hy; rw [hy]; simp)))]
  simp only [bind, Except.bind, pure, Except.pure, List.length_nil, gt_iff_lt, Nat.lt_irrefl, if_false, List.map_cons, List.map_nil, join,
    List.append_assoc]
  rfl

theorem ambitTensor_noSpace {o : OSI} (hsl : ∀ s ∈ o.spaces, isAlpha s.label = true) {y : Tensor} (hlab : ∀ c ∈ y.label, isWord c = true)
    (hreg : ∀ i ∈ y.upper ++ y.lower, i.Registered o) {d : Char} (hd : isWord d = false) (hd' : d ≠ '-') (hd2 : d ≠ '[') (hd3 : d ≠ ',') (hd4 : d ≠ ']') :
    d ∉ ambitTensor y.label ((y.upper ++ y.lower).map (idxName o)) := by
  have hn : ∀ n ∈ (y.upper ++ y.lower).map (idxName o), d ∉ n := by
    intro n hn h
    obtain ⟨i, hi, rfl⟩ := List.mem_map.1 hn
    unfold idxName at h
    rcases List.mem_cons.1 h with h | h
    · have h1 := (hreg i hi).2
      unfold spLab at h
      rw [List.getElem?_eq_getElem h1] at h
      have := alpha_word (hsl _ (List.getElem_mem h1))
      rw [Option.map_some, Option.getD_some] at h
      rw [← h, hd] at this; cases this
    · rcases intStr_chars h with h | h
      · simp [isWord, isAlnum, h] at hd
      · exact hd' h
  have hj : ∀ l : List Str, (∀ n ∈ l, d ∉ n) → d ∉ join [','] l := by
    intro l
    induction l with
    | nil => intro _; simp [join]
    | cons a l ih =>
      intro h
      cases l with
      | nil => rw [join]; exact h a (by simp)
      | cons b l =>
        rw [join]
        simp only [List.mem_append, List.mem_singleton, not_or]
        exact ⟨⟨h a (by simp), hd3⟩, ih (fun n hn => h n (List.mem_cons_of_mem _ hn))⟩
  unfold ambitTensor
  split
  · simp only [List.mem_append, List.mem_singleton, not_or]
    exact ⟨⟨⟨word_notMem hlab hd, hd2⟩, hj _ hn⟩, hd4⟩
  · exact word_notMem hlab hd

theorem readAmbit_text {o : OSI} {fmt : Rational → Str} {t : Tensor} {q : Equation} (hne : q.rhs.tensors ≠ [])
    (hsl : ∀ s ∈ o.spaces, isAlpha s.label = true) (hlab : ∀ y ∈ t :: q.rhs.tensors, y.label ≠ [] ∧ ∀ c ∈ y.label, isWord c = true)
    (hreg : ∀ y ∈ t :: q.rhs.tensors, ∀ i ∈ y.upper ++ y.lower, i.Registered o) (hf : ' ' ∉ fmt q.factor) :
    readAmbit (ambitTensor t.label ((t.upper ++ t.lower).map (idxName o)) ++ " += ".toList ++ fmt q.factor ++ " * ".toList ++
      join [' ', '*', ' '] (q.rhs.tensors.map (fun y => ambitTensor y.label ((y.upper ++ y.lower).map (idxName o)))) ++ [';']) =
      some (ambitLineOf o fmt t q) := by
  have hsp : ∀ y ∈ t :: q.rhs.tensors, ' ' ∉ ambitTensor y.label ((y.upper ++ y.lower).map (idxName o)) := fun y hy =>
    ambitTensor_noSpace hsl (hlab y hy).2 (hreg y hy) (by decide) (by decide) (by decide) (by decide) (by decide)
  have hcomma : ∀ y ∈ t :: q.rhs.tensors, readTensor (ambitTensor y.label ((y.upper ++ y.lower).map (idxName o))) =
      some (y.label, (y.upper ++ y.lower).map (idxName o)) := by
    intro y hy
    apply readTensor_text (hlab y hy).1 (hlab y hy).2
    intro n hn h
    obtain ⟨i, hi, rfl⟩ := List.mem_map.1 hn
    rcases List.mem_cons.1 h with h | h
    · have h1 := (hreg y hy i hi).2
      unfold spLab at h
      rw [List.getElem?_eq_getElem h1] at h
      have := alpha_word (hsl _ (List.getElem_mem h1))
      rw [Option.map_some, Option.getD_some] at h
      rw [← h] at this; exact absurd this (by decide)
    · rcases intStr_chars h with h | h
      · exact absurd h (by decide)
      · exact absurd h (by decide)
  unfold readAmbit
  have h1 := breakOn_app (c0 := ' ') (sep := "+= ".toList) (a := ambitTensor t.label ((t.upper ++ t.lower).map (idxName o)))
    (b := fmt q.factor ++ " * ".toList ++
      join [' ', '*', ' '] (q.rhs.tensors.map (fun y => ambitTensor y.label ((y.upper ++ y.lower).map (idxName o)))) ++ [';']) (hsp t (by simp))
  have e1 : ambitTensor t.label ((t.upper ++ t.lower).map (idxName o)) ++ " += ".toList ++ fmt q.factor ++ " * ".toList ++
      join [' ', '*', ' '] (q.rhs.tensors.map (fun y => ambitTensor y.label ((y.upper ++ y.lower).map (idxName o)))) ++ [';'] =
      ambitTensor t.label ((t.upper ++ t.lower).map (idxName o)) ++ (' ' :: "+= ".toList) ++ (fmt q.factor ++ " * ".toList ++
      join [' ', '*', ' '] (q.rhs.tensors.map (fun y => ambitTensor y.label ((y.upper ++ y.lower).map (idxName o)))) ++ [';']) := by
    rw [show (' ' :: "+= ".toList : Str) = " += ".toList from rfl]
    simp only [List.append_assoc]
  rw [e1, show (" += ".toList : Str) = ' ' :: "+= ".toList from rfl, h1]
  simp only [bind, Option.bind]
  rw [if_neg (by rw [List.getLast?_concat]; simp), List.dropLast_concat]
  have h2 := splitStar_app (s := fmt q.factor) (t := join [' ', '*', ' '] (q.rhs.tensors.map (fun y => ambitTensor y.label ((y.upper ++ y.lower).map (idxName o))))) hf
  have e2 : fmt q.factor ++ " * ".toList ++ join [' ', '*', ' '] (q.rhs.tensors.map (fun y => ambitTensor y.label ((y.upper ++ y.lower).map (idxName o)))) =
      fmt q.factor ++ ' ' :: '*' :: ' ' :: join [' ', '*', ' '] (q.rhs.tensors.map (fun y => ambitTensor y.label ((y.upper ++ y.lower).map (idxName o)))) := by
    rw [List.append_assoc]; rfl
  rw [e2, h2, splitStar_join (by simpa using hne)]
  · obtain ⟨y, ys, hys⟩ := List.exists_cons_of_ne_nil hne
    have hm : (q.rhs.tensors.map (fun y => ambitTensor y.label ((y.upper ++ y.lower).map (idxName o)))).mapM readTensor =
        some (q.rhs.tensors.map (fun y => (y.label, (y.upper ++ y.lower).map (idxName o)))) := by
      have : ∀ l : List Tensor, (∀ y ∈ l, y ∈ t :: q.rhs.tensors) → (l.map (fun y => ambitTensor y.label ((y.upper ++ y.lower).map (idxName o)))).mapM readTensor =
        some (l.map (fun y => (y.label, (y.upper ++ y.lower).map (idxName o)))) := by
        intro l
        induction l with
        | nil => intro _; rfl
        | cons y l ih =>
          intro h
          rw [List.map_cons, List.mapM_cons, hcomma y (h y (by simp)), ih (fun z hz => h z (List.mem_cons_of_mem _ hz))]; rfl
      exact this _ (fun y hy => List.mem_cons_of_mem _ hy)
    rw [hys] at hm ⊢
    rw [List.map_cons] at hm ⊢
    dsimp only
    rw [hcomma t (by simp)]
    dsimp only
    rw [hm]
    simp only [ambitLineOf, hys, List.map_cons]
    rfl
  · intro s hs
    obtain ⟨y, hy, rfl⟩ := List.mem_map.1 hs
    exact hsp y (List.mem_cons_of_mem _ hy)

/-! ## meaning -/

theorem idxName_inj {o : OSI} (hI : RegInv o) {i j : Index} (hi : i.Registered o) (hj : j.Registered o) (h : idxName o i = idxName o j) : i = j := by
  unfold idxName spLab at h
  rw [List.getElem?_eq_getElem hi.2, List.getElem?_eq_getElem hj.2] at h
  simp only [Option.map_some, Option.getD_some, List.cons.injEq] at h
  have e1 := hI.pos _ _ (List.getElem?_eq_getElem hi.2)
  have e2 := hI.pos _ _ (List.getElem?_eq_getElem hj.2)
  rw [h.1, e2] at e1
  have hs : i.space = j.space := by
    have h1 := hi.1; have h2 := hj.1
    simp at e1; omega
  have hp := intStr_inj h.2
  cases i; cases j; simp_all

theorem ambitLineOf_names (o : OSI) (fmt : Rational → Str) (t : Tensor) (q : Equation) :
    (ambitLineOf o fmt t q).names = (rhsIdx q).map (idxName o) := by
  unfold AmbitLine.names ambitLineOf rhsIdx
  rw [List.flatMap_map, List.map_flatMap]

theorem ambitLineOf_element {Ω R A : Type} [Inhabited Ω] [DecidableEq Ω] [CommRing R] [Ring A] [Algebra R A]
    {o : OSI} {fmt : Rational → Str} {t : Tensor} {q : Equation}
    (hinj : ∀ i ∈ rhsIdx q, ∀ j ∈ rhsIdx q, idxName o i = idxName o j → i = j)
    (hreg : ∀ i ∈ rhsIdx q, i.Registered o) (hmem : ∀ i ∈ t.upper ++ t.lower, i ∈ rhsIdx q)
    {v : OrbSystem Ω R A} {arr : Str → Str → List Ω → R} {dom : Char → Finset Ω} (hs : Stores o v q arr dom) (x : List Ω) :
    (ambitLineOf o fmt t q).element arr dom x = q.element v t x := by
  unfold AmbitLine.element Equation.element
  rw [ambitLineOf_names]
  have hE : (einsumIndices t q).toFinset = (rhsIdx q).toFinset := by
    ext i
    rw [List.mem_toFinset, List.mem_toFinset]
    constructor
    · intro h
      rcases List.mem_append.1 h with h | h
      · exact h
      · exact hmem i h
    · exact fun h => List.mem_append_left _ h
  rw [hE]
  rw [← sumOver_bij (rhsIdx q).toFinset ((rhsIdx q).map (idxName o)).toFinset (fun i => v.dom i.space)
    (fun c => dom (AmbitLine.space c)) (idxName o)]
  · apply sumOver_congr
    intro τ _
    have e1 : (ambitLineOf o fmt t q).target.2.map τ = (t.upper ++ t.lower).map (fun i => τ (idxName o i)) := by
      show List.map τ (List.map (idxName o) _) = _
      rw [List.map_map]; rfl
    rw [e1]
    congr 1
    show (List.map _ (List.map _ q.rhs.tensors)).prod = _
    rw [List.map_map]
    congr 1
    apply List.map_congr_left
    intro y hy
    show arr y.label (List.map AmbitLine.space (List.map (idxName o) (y.upper ++ y.lower))) (List.map τ (List.map (idxName o) (y.upper ++ y.lower))) = _
    rw [List.map_map, List.map_map, show List.map (AmbitLine.space ∘ idxName o) (y.upper ++ y.lower) = spaceText o y from rfl, List.map_append]
    exact hs.arr y hy _ _ (by simp) (by simp)
  · intro i hi
    rw [List.mem_toFinset] at hi ⊢
    exact List.mem_map_of_mem hi
  · intro i hi k hk
    exact hinj i (List.mem_toFinset.1 hi) k (List.mem_toFinset.1 hk)
  · intro c hc
    obtain ⟨i, hi, rfl⟩ := List.mem_map.1 (List.mem_toFinset.1 hc)
    exact ⟨i, List.mem_toFinset.2 hi, rfl⟩
  · intro i hi
    rw [List.mem_toFinset] at hi
    obtain ⟨h0, h1⟩ := hreg i hi
    have hx := List.getElem?_eq_getElem h1
    have := hs.dom i.space.toNat _ hx
    show _ = dom (spLab o i)
    unfold spLab
    rw [hx, Option.map_some, Option.getD_some, this, show ((i.space.toNat : Nat) : Int) = i.space by omega]
  · intro τ τ' h
    have h' : ∀ i ∈ rhsIdx q, τ i = τ' i := fun i hi => h i (List.mem_toFinset.2 hi)
    rw [List.map_congr_left (fun i hi => h' i (hmem i hi))]
    congr 2
    apply List.map_congr_left
    intro y hy
    have hy' : ∀ i ∈ y.upper ++ y.lower, τ i = τ' i := fun i hi => h' i (List.mem_flatMap.2 ⟨y, hy, hi⟩)
    rw [List.map_congr_left (fun i hi => hy' i (List.mem_append_right _ hi)), List.map_congr_left (fun i hi => hy' i (List.mem_append_left _ hi))]

/-- **C66**: after any history of registry calls with letters as space labels, for every equation without operators over the
registered spaces, with one tensor on the left and at least one on the right, tensor labels made of letters, digits and underscores,
and different indices on the left that all occur on the right: `compile("ambit")` returns a line that increments the tensor on
the left and that, for all orbitals and tensors, computes element by element the sum over the orbitals of all indices that are not on the
left of the product of the tensors. The sum is multiplied by the literal that the text contains. Missing with respect to the full
claim: the literal is the coefficient rounded to six decimals (`C66_exact_factor_iff`, `C66_rounded_factor`); an equation without tensors on the right
(`C66_no_tensor`). -/
theorem C66_ambit_computes_partial (ops : List RegOp) (fmt6 fmt9 : Rational → Str) (q : Equation) (t : Tensor) :
    let o := runReg OSI.empty ops
    (∀ s ∈ o.spaces, isAlpha s.label = true) →
    q.lhs.tensors = [t] → q.lhs.ops = [] → q.rhs.ops = [] → (∀ i ∈ einsumIndices t q, i.Registered o) →
    (∀ y ∈ t :: q.rhs.tensors, y.label ≠ [] ∧ ∀ c ∈ y.label, isWord c = true) → q.rhs.tensors ≠ [] → (t.upper ++ t.lower).Nodup →
    (∀ i ∈ t.upper ++ t.lower, ∃ y ∈ q.rhs.tensors, i ∈ y.upper ++ y.lower) → ' ' ∉ fmt6 q.factor →
    ∃ (text : Str) (L : AmbitLine), q.compile o fmt6 fmt9 "ambit".toList = .ok text ∧ readAmbit text = some L ∧
      L.target.1 = t.label ∧ L.target.2.map AmbitLine.space = spaceText o t ∧ L.factor = fmt6 q.factor ∧ L.Accepted ∧
      ∀ {Ω R A : Type} [Inhabited Ω] [DecidableEq Ω] [CommRing R] [Ring A] [Algebra R A] (v : OrbSystem Ω R A)
        (arr : Str → Str → List Ω → R) (dom : Char → Finset Ω), Stores o v q arr dom →
        ∀ x, L.element arr dom x = q.element v t x := by
  intro o hsl hl hlo hro hreg hlab hne hnd hmem hfmt
  have hI : RegInv o := regInv_run ops _ regInv_empty
  have hsub : ∀ i ∈ rhsIdx q, i ∈ einsumIndices t q := fun i hi => List.mem_append_left _ hi
  have hmem' : ∀ i ∈ t.upper ++ t.lower, i ∈ rhsIdx q := by
    intro i hi
    obtain ⟨y, hy, h⟩ := hmem i hi
    exact List.mem_flatMap.2 ⟨y, hy, h⟩
  have hinj : ∀ i ∈ rhsIdx q, ∀ j ∈ rhsIdx q, idxName o i = idxName o j → i = j :=
    fun i hi j hj => idxName_inj hI (hreg i (hsub i hi)) (hreg j (hsub j hj))
  have hyreg : ∀ y ∈ t :: q.rhs.tensors, ∀ i ∈ y.upper ++ y.lower, i.Registered o := by
    intro y hy i hi
    rcases List.mem_cons.1 hy with rfl | hy
    · exact hreg i (List.mem_append_right _ hi)
    · exact hreg i (List.mem_append_left _ (List.mem_flatMap.2 ⟨y, hy, hi⟩))
  refine ⟨_, ambitLineOf o fmt6 t q, ?_, readAmbit_text hne hsl hlab hyreg hfmt, rfl, ?_, rfl, ?_, ?_⟩
  · unfold Equation.compile
    rw [if_pos rfl]
    exact ambit_text hl hlo hro hyreg
  · show List.map _ (List.map _ _) = _
    rw [List.map_map]; rfl
  · refine ⟨by simpa [ambitLineOf] using hne, ?_, ?_⟩
    · apply List.Nodup.map_on _ hnd
      intro i hi j hj h
      exact hinj i (hmem' i hi) j (hmem' j hj) h
    · rw [ambitLineOf_names]
      intro n hn
      obtain ⟨i, hi, rfl⟩ := List.mem_map.1 hn
      exact List.mem_map_of_mem (hmem' i hi)
  · intro Ω R A _ _ _ _ _ v arr dom hs x
    exact ambitLineOf_element hinj (fun i hi => hreg i (hsub i hi)) hmem' hs x

/-- **C66**: different terms cannot be confused: the text determines the left- and right-hand sides up to the symmetry and
conjugation of the tensors and the position (upper or lower) of their indices. -/
theorem C66_text_determines (ops : List RegOp) (fmt fmt' : Rational → Str) (q q' : Equation) (t t' : Tensor) (text : Str) :
    let o := runReg OSI.empty ops
    (∀ s ∈ o.spaces, isAlpha s.label = true) →
    q.lhs = ⟨false, [], [t]⟩ → q'.lhs = ⟨false, [], [t']⟩ → q.rhs.tensors ≠ [] → q'.rhs.tensors ≠ [] →
    (∀ y ∈ t :: q.rhs.tensors, (y.label ≠ [] ∧ ∀ c ∈ y.label, isWord c = true) ∧ ∀ i ∈ y.upper ++ y.lower, i.Registered o) →
    (∀ y ∈ t' :: q'.rhs.tensors, (y.label ≠ [] ∧ ∀ c ∈ y.label, isWord c = true) ∧ ∀ i ∈ y.upper ++ y.lower, i.Registered o) →
    q.rhs.ops = [] → q'.rhs.ops = [] → ' ' ∉ fmt q.factor → ' ' ∉ fmt' q'.factor →
    q.compileAmbit o fmt = .ok text → q'.compileAmbit o fmt' = .ok text →
    (t.label, t.upper ++ t.lower) = (t'.label, t'.upper ++ t'.lower) ∧ fmt q.factor = fmt' q'.factor ∧
      q.rhs.tensors.map (fun y => (y.label, y.upper ++ y.lower)) = q'.rhs.tensors.map (fun y => (y.label, y.upper ++ y.lower)) := by
  intro o hsl hl hl' hne hne' hy hy' hro hro' hf hf' h1 h2
  have hI : RegInv o := regInv_run ops _ regInv_empty
  rw [ambit_text (by rw [hl]) (by rw [hl]) hro (fun y h => (hy y h).2)] at h1
  rw [ambit_text (by rw [hl']) (by rw [hl']) hro' (fun y h => (hy' y h).2)] at h2
  injection h1 with h1
  injection h2 with h2
  have r1 := readAmbit_text hne hsl (fun y h => (hy y h).1) (fun y h => (hy y h).2) hf
  have r2 := readAmbit_text hne' hsl (fun y h => (hy' y h).1) (fun y h => (hy' y h).2) hf'
  rw [h1] at r1
  rw [h2, r1] at r2
  injection r2 with r2
  unfold ambitLineOf at r2
  simp only [AmbitLine.mk.injEq, Prod.mk.injEq] at r2
  obtain ⟨⟨e1, e2⟩, e3, e4⟩ := r2
  have names : ∀ l l' : List Index, (∀ i ∈ l, i.Registered o) → (∀ i ∈ l', i.Registered o) → l.map (idxName o) = l'.map (idxName o) → l = l' := by
    intro l
    induction l with
    | nil => intro l' _ _ h; cases l' with | nil => rfl | cons _ _ => cases h
    | cons i l ih =>
      intro l' hr hr' h
      cases l' with
      | nil => cases h
      | cons j l' =>
        rw [List.map_cons, List.map_cons, List.cons.injEq] at h
        rw [idxName_inj hI (hr i (by simp)) (hr' j (by simp)) h.1, ih l' (fun k hk => hr k (by simp [hk])) (fun k hk => hr' k (by simp [hk])) h.2]
  refine ⟨by rw [e1, names _ _ (hy t (by simp)).2 (hy' t' (by simp)).2 e2], e3, ?_⟩
  have tens : ∀ l l' : List Tensor, (∀ y ∈ l, ∀ i ∈ y.upper ++ y.lower, i.Registered o) → (∀ y ∈ l', ∀ i ∈ y.upper ++ y.lower, i.Registered o) →
      l.map (fun y => (y.label, (y.upper ++ y.lower).map (idxName o))) = l'.map (fun y => (y.label, (y.upper ++ y.lower).map (idxName o))) →
      l.map (fun y => (y.label, y.upper ++ y.lower)) = l'.map (fun y => (y.label, y.upper ++ y.lower)) := by
    intro l
    induction l with
    | nil => intro l' _ _ h; cases l' with | nil => rfl | cons _ _ => cases h
    | cons i l ih =>
      intro l' hr hr' h
      cases l' with
      | nil => cases h
      | cons j l' =>
        rw [List.map_cons, List.map_cons, List.cons.injEq, Prod.mk.injEq] at h
        rw [List.map_cons, List.map_cons, h.1.1, names _ _ (hr i (by simp)) (hr' j (by simp)) h.1.2,
          ih l' (fun k hk => hr k (by simp [hk])) (fun k hk => hr' k (by simp [hk])) h.2]
  exact tens _ _ (fun y h => (hy y (by simp [h])).2) (fun y h => (hy' y (by simp [h])).2) e4

/-- **C66**: a literal with six decimals that is closer to the coefficient than a unit of the last decimal has the value of the
coefficient iff the denominator of the coefficient divides `10^6`. -/
theorem C66_exact_factor_iff {s : Str} (h : IsFixed 6 s) {c : Rational} (hc : Canon c) {x : ℚ} (hx : decimalVal s = some x)
    (hclose : |x - toRat c| < 1 / 10 ^ 6) : x = toRat c ↔ c.den ∣ 10 ^ 6 := fixed_exact_iff (by decide) h hc hx hclose

/-- **C66**, negation: for the coefficient `1/3` the line does not compute the equation. -/
theorem C66_rounded_factor {s : Str} (h : IsFixed 6 s) : decimalVal s ≠ some (toRat ⟨1, 3⟩) := by
  intro he
  have := (C66_exact_factor_iff h (c := ⟨1, 3⟩) (by constructor <;> decide) he (by simp)).1 rfl
  revert this; decide

/-- **C66**, negation: without tensors on the right (a constant) the text ends in `* ;` and is not a line of ambit. -/
theorem C66_no_tensor {o : OSI} {fmt : Rational → Str} {q : Equation} {t : Tensor} (hl : q.lhs = ⟨false, [], [t]⟩) (hr : q.rhs = ⟨false, [], []⟩)
    (hreg : ∀ i ∈ t.upper ++ t.lower, i.Registered o) (hsl : ∀ s ∈ o.spaces, isAlpha s.label = true) (hlab : ∀ c ∈ t.label, isWord c = true)
    (hf : ' ' ∉ fmt q.factor) :
    ∃ text, q.compileAmbit o fmt = .ok text ∧ (∃ pre, text = pre ++ "* ;".toList) ∧ readAmbit text = none := by
  refine ⟨_, ambit_text (by rw [hl]) (by rw [hl]) (by rw [hr]) ?_, ?_, ?_⟩
  · intro y hy
    rw [hr] at hy
    simp only [List.mem_cons, List.not_mem_nil, or_false] at hy
    rw [hy]; exact hreg
  · rw [hr]
    exact ⟨ambitTensor t.label ((t.upper ++ t.lower).map (idxName o)) ++ " += ".toList ++ fmt q.factor ++ [' '], by simp [join]⟩
  · rw [hr]
    have hsp := ambitTensor_noSpace hsl hlab hreg (d := ' ') (by decide) (by decide) (by decide) (by decide) (by decide)
    have h1 := breakOn_app (c0 := ' ') (sep := "+= ".toList) (b := fmt q.factor ++ " * ;".toList) hsp
    unfold readAmbit
    rw [show ambitTensor t.label ((t.upper ++ t.lower).map (idxName o)) ++ " += ".toList ++ fmt q.factor ++ " * ".toList ++
      join [' ', '*', ' '] (([] : List Tensor).map (fun y => ambitTensor y.label ((y.upper ++ y.lower).map (idxName o)))) ++ [';'] =
      ambitTensor t.label ((t.upper ++ t.lower).map (idxName o)) ++ (' ' :: "+= ".toList) ++ (fmt q.factor ++ " * ;".toList) by simp [join],
      show (" += ".toList : Str) = ' ' :: "+= ".toList from rfl, h1]
    simp only [bind, Option.bind]
    rw [if_neg (by simp), show fmt q.factor ++ " * ;".toList = (fmt q.factor ++ ' ' :: '*' :: ' ' :: []) ++ [';'] by simp, List.dropLast_concat,
      splitStar_app hf]
    simp only [splitStar, List.mapM_cons]
    cases readTensor (ambitTensor t.label ((t.upper ++ t.lower).map (idxName o))) with
    | none => rfl
    | some p => rfl

/-- **C66**: an equation with operators on either side is rejected with an exception, never compiled. -/
theorem C66_operators_raise {o : OSI} {fmt6 fmt9 : Rational → Str} {q : Equation} (hop : q.lhs.ops ≠ [] ∨ q.rhs.ops ≠ [])
    (hreg : ∀ y ∈ q.lhs.tensors ++ q.rhs.tensors, ∀ i ∈ y.upper ++ y.lower, i.Registered o) :
    q.compile o fmt6 fmt9 "ambit".toList = .error .throw := by
  unfold Equation.compile
  rw [if_pos rfl]
  unfold Equation.compileAmbit STerm.compileAmbit
  rw [mapM_res (l := q.lhs.tensors) (fun y hy => tensor_compile (hreg y (List.mem_append_left _ hy))),
    mapM_res (l := q.rhs.tensors) (fun y hy => tensor_compile (hreg y (List.mem_append_right _ hy)))]
  simp only [bind, Except.bind]
  by_cases hl : q.lhs.ops = []
  · have hr : q.rhs.ops ≠ [] := hop.resolve_left (fun h => h hl)
    rw [if_neg (by simp [hl]), if_pos (by simpa using List.length_pos_iff.2 hr)]
    rfl
  · rw [if_pos (by simpa using List.length_pos_iff.2 hl)]
    rfl

/-- **C66**: any other format is rejected with an exception. -/
theorem C66_unknown_format {o : OSI} {fmt6 fmt9 : Rational → Str} {q : Equation} {format : Str} (h1 : format ≠ "ambit".toList)
    (h2 : format ≠ "einsum".toList) : q.compile o fmt6 fmt9 format = .error .throw := by
  unfold Equation.compile
  rw [if_neg h1, if_neg h2]

-- the equation `exEq` of C56 meets the hypotheses
example : ∃ (text : Str) (L : AmbitLine), exEq.compile (runReg OSI.empty ccHistory) (fun _ => "0.250000".toList) (fun _ => "0.250000000".toList) "ambit".toList = .ok text ∧
    readAmbit text = some L ∧ L.Accepted := by
  obtain ⟨text, L, h1, h2, _, _, _, h3, h4⟩ := C66_ambit_computes_partial ccHistory (fun _ => "0.250000".toList) (fun _ => "0.250000000".toList) exEq
    ⟨['r'], [⟨0, 0⟩, ⟨0, 1⟩], [⟨1, 0⟩, ⟨1, 1⟩], .antisymmetric, false⟩
    (by decide +kernel) rfl rfl rfl (by unfold Index.Registered; decide +kernel) (by decide +kernel) (by decide) (by decide +kernel) (by decide +kernel) (by decide)
  exact ⟨text, L, h1, h2, h3⟩
example : (exEq.compileAmbit (runReg OSI.empty ccHistory) (fun _ => "0.250000".toList)).toOption.map String.ofList =
  some "r[v0,v1,o0,o1] += 0.250000 * t[v0,v2,o0,o2] * v[o2,v1,v2,o1];" := by decide +kernel

end Wicked
