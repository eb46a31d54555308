import Verif.Spec.EinsumSem
import Verif.Props.Einsum
import Verif.Proofs.WickVal
import Verif.Model.Parse
/-! # C61: the compiled `einsum` line computes the equation -/
namespace Wicked
open CppLt CppEq Rational

/-! ## reading the text -/

theorem breakOn_app {c0 : Char} {sep a b : Str} (h : c0 ∉ a) : breakOn (c0 :: sep) (a ++ (c0 :: sep) ++ b) = some (a, b) := by
  induction a with
  | nil =>
    simp only [List.nil_append, List.cons_append, breakOn]
    rw [if_pos]
    · simp
    · rw [← List.cons_append, List.isPrefixOf_iff_prefix]
      exact List.prefix_append _ _
  | cons c a ih =>
    have hc : c0 ≠ c := fun h' => h (by simp [h'])
    simp only [List.cons_append, breakOn]
    rw [if_neg]
    · have := ih (fun h' => h (by simp [h']))
      rw [this]; rfl
    · rw [List.isPrefixOf_iff_prefix, List.cons_prefix_cons]
      exact fun h' => hc h'.1

theorem splitComma_ne (s : Str) : splitComma s ≠ [] := by
  cases s with
  | nil => simp [splitComma]
  | cons c s =>
    simp only [splitComma]
    split
    · simp
    · split <;> simp

theorem splitComma_single {s : Str} (h : ',' ∉ s) : splitComma s = [s] := by
  induction s with
  | nil => rfl
  | cons c s ih =>
    have hc : c ≠ ',' := fun h' => h (by simp [h'])
    simp only [splitComma, if_neg hc, ih (fun h' => h (by simp [h']))]

theorem splitComma_app {s t : Str} (h : ',' ∉ s) : splitComma (s ++ ',' :: t) = s :: splitComma t := by
  induction s with
  | nil => simp [splitComma]
  | cons c s ih =>
    have hc : c ≠ ',' := fun h' => h (by simp [h'])
    simp only [List.cons_append, splitComma, if_neg hc, ih (fun h' => h (by simp [h']))]

theorem splitComma_join {l : List Str} (hl : l ≠ []) (h : ∀ s ∈ l, ',' ∉ s) : splitComma (join ",".toList l) = l := by
  induction l with
  | nil => exact absurd rfl hl
  | cons s l ih =>
    cases l with
    | nil => rw [join]; exact splitComma_single (h s (by simp))
    | cons t l =>
      rw [join]
      show splitComma (s ++ [','] ++ join [','] (t :: l)) = _
      rw [List.append_assoc]
      show splitComma (s ++ ',' :: join [','] (t :: l)) = _
      rw [splitComma_app (h s (by simp))]
      have := ih (by simp) (fun u hu => h u (by simp [hu]))
      exact congrArg _ this

theorem word_ne {c d : Char} (h : isWord c = true) (hd : isWord d = false) : c ≠ d := by
  intro e; rw [e, hd] at h; cases h

theorem alpha_word {c : Char} (h : isAlpha c = true) : isWord c = true := by
  simp [isWord, isAlnum, h]

theorem word_notMem {s : Str} {d : Char} (h : ∀ c ∈ s, isWord c = true) (hd : isWord d = false) : d ∉ s :=
  fun hm => by have := h d hm; rw [hd] at this; cases this

theorem readArgs_app (l : List (Str × Str)) (hw : ∀ p ∈ l, (∀ c ∈ p.1, isWord c = true) ∧ ∀ c ∈ p.2, isWord c = true) :
    ∀ n, l.length < n → readArgs n (l.flatMap (fun p => ',' :: (p.1 ++ ['[', '"'] ++ p.2 ++ ['"', ']'])) ++ einsumTail) = some l := by
  induction l with
  | nil =>
    intro n hn
    obtain ⟨n, rfl⟩ : ∃ m, n = m + 1 := ⟨n - 1, by simp at hn; omega⟩
    rw [readArgs, List.flatMap_nil, List.nil_append, if_pos rfl]
  | cons p l ih =>
    intro n hn
    obtain ⟨n, rfl⟩ : ∃ m, n = m + 1 := ⟨n - 1, by simp at hn; omega⟩
    obtain ⟨hw1, hw2⟩ := hw p (by simp)
    have ihn := ih (fun q hq => hw q (by simp [hq])) n (by simp at hn; omega)
    generalize hr : l.flatMap (fun p => ',' :: (p.1 ++ ['[', '"'] ++ p.2 ++ ['"', ']'])) ++ einsumTail = rest at ihn
    have e : ((p :: l).flatMap (fun p => ',' :: (p.1 ++ ['[', '"'] ++ p.2 ++ ['"', ']'])) ++ einsumTail) =
        ',' :: (p.1 ++ ('[' :: ['"']) ++ (p.2 ++ ('"' :: [']']) ++ rest)) := by
      rw [← hr, List.flatMap_cons, List.append_assoc, List.cons_append]
      simp only [List.append_assoc]
    rw [e, readArgs]
    rw [if_neg]
    · rw [if_pos (by rfl), List.tail_cons]
      rw [show "[\"".toList = '[' :: ['"'] from rfl, breakOn_app (word_notMem hw1 (by decide))]
      dsimp only [bind, Option.bind]
      rw [show "\"]".toList = '"' :: [']'] from rfl, breakOn_app (word_notMem hw2 (by decide))]
      dsimp only
      rw [ihn]; rfl
    · -- an argument is not the end of the call
      intro h
      have key : ∀ (a b rest rest' : Str), (∀ c ∈ a, isWord c = true) → (∀ c ∈ b, isWord c = true) → ∀ x y, isWord x = false → isWord y = false →
          a ++ x :: rest = b ++ y :: rest' → x = y := by
        intro a
        induction a with
        | nil =>
          intro b rest rest' _ hb x y hx hy he
          cases b with
          | nil => simp at he; exact he.1
          | cons c b =>
            simp at he
            have := hb c (by simp)
            rw [← he.1, hx] at this; cases this
        | cons c a iha =>
          intro b rest rest' ha hb x y hx hy he
          cases b with
          | nil =>
            simp at he
            have := ha c (by simp)
            rw [he.1, hy] at this; cases this
          | cons d b =>
            simp at he
            exact iha b rest rest' (fun c hc => ha c (by simp [hc])) (fun c hc => hb c (by simp [hc])) x y hx hy he.2
      have et : einsumTail = ',' :: (['o','p','t','i','m','i','z','e'] ++ '=' :: ['"','o','p','t','i','m','a','l','"',')']) := rfl
      rw [et, List.cons.injEq, List.append_assoc] at h
      have := key p.1 ['o','p','t','i','m','i','z','e'] _ _ hw1 (by decide) '[' '=' (by decide) (by decide) h.2
      exact absurd this (by decide)

theorem join_cons_flat (a : Str) (l : List Str) : join ",".toList (a :: l) = a ++ l.flatMap (fun s => ',' :: s) := by
  induction l generalizing a with
  | nil => simp [join]
  | cons b l ih =>
    rw [join, ih b]
    simp

/-- the generated text is read back -/
theorem readEinsum_text {o : OSI} {fmt : Rational → Str} {letter : Index → Char} {t : Tensor} {q : Equation}
    (hne : q.rhs.tensors ≠ []) (hlab : ∀ y ∈ t :: q.rhs.tensors, ∀ c ∈ y.label, isWord c = true)
    (hsp : ∀ y ∈ t :: q.rhs.tensors, ∀ c ∈ spaceText o y, isWord c = true)
    (hlet : ∀ i ∈ einsumIndices t q, isAlpha (letter i) = true) (hf : ' ' ∉ fmt q.factor) :
    readEinsum (einsumText o fmt letter t q) = some ⟨t.label ++ spaceText o t, fmt q.factor,
      q.rhs.tensors.map (fun x => (x.upper ++ x.lower).map letter), (t.upper ++ t.lower).map letter,
      q.rhs.tensors.map (fun x => (x.label, spaceText o x))⟩ := by
  have hlt : ∀ y ∈ q.rhs.tensors, ∀ c ∈ (y.upper ++ y.lower).map letter, isAlpha c = true := by
    intro y hy c hc
    obtain ⟨i, hi, rfl⟩ := List.mem_map.1 hc
    exact hlet i (List.mem_append_left _ (List.mem_flatMap.2 ⟨y, hy, hi⟩))
  have hlo : ∀ c ∈ (t.upper ++ t.lower).map letter, isAlpha c = true := by
    intro c hc
    obtain ⟨i, hi, rfl⟩ := List.mem_map.1 hc
    exact hlet i (List.mem_append_right _ hi)
  generalize hL : q.rhs.tensors.map (fun x => (x.upper ++ x.lower).map letter) = subs
  generalize hA : q.rhs.tensors.map (fun x => (x.label, spaceText o x)) = args
  generalize hO : (t.upper ++ t.lower).map letter = out
  have hsubs : ∀ s ∈ subs, ∀ c ∈ s, isAlpha c = true := by
    intro s hs
    rw [← hL] at hs
    obtain ⟨y, hy, rfl⟩ := List.mem_map.1 hs
    exact hlt y hy
  have hargs : ∀ p ∈ args, (∀ c ∈ p.1, isWord c = true) ∧ ∀ c ∈ p.2, isWord c = true := by
    intro p hp
    rw [← hA] at hp
    obtain ⟨y, hy, rfl⟩ := List.mem_map.1 hp
    exact ⟨hlab y (by simp [hy]), hsp y (by simp [hy])⟩
  have etext : einsumText o fmt letter t q = (t.label ++ spaceText o t) ++ " += ".toList ++ (fmt q.factor ++ " * np.einsum(\"".toList ++
      (join ",".toList subs ++ "->".toList ++ (out ++ "\"".toList ++
        (args.flatMap (fun p => ',' :: (p.1 ++ ['[', '"'] ++ p.2 ++ ['"', ']'])) ++ einsumTail)))) := by
    unfold einsumText
    rw [hL, hO, join_cons_flat]
    have : (q.rhs.tensors.map (fun x => x.label ++ "[\"".toList ++ spaceText o x ++ "\"]".toList)).flatMap (fun s => ',' :: s) =
        args.flatMap (fun p => ',' :: (p.1 ++ ['[', '"'] ++ p.2 ++ ['"', ']'])) := by
      rw [← hA, List.flatMap_map, List.flatMap_map]; rfl
    rw [this, show " * np.einsum(\"".toList = " * np.einsum(".toList ++ "\"".toList from rfl]
    simp only [List.append_assoc]
    rfl
  have htn : ' ' ∉ t.label ++ spaceText o t := by
    intro h
    rcases List.mem_append.1 h with h | h
    · exact word_notMem (hlab t (by simp)) (by decide) h
    · exact word_notMem (hsp t (by simp)) (by decide) h
  have hjn : ∀ (l : List Str), (∀ s ∈ l, ∀ c ∈ s, isAlpha c = true) → '-' ∉ join ",".toList l := by
    intro l
    cases l with
    | nil => intro _; simp [join]
    | cons a l =>
      intro h
      rw [join_cons_flat]
      intro hm
      rcases List.mem_append.1 hm with hm | hm
      · exact absurd (h a (by simp) _ hm) (by decide)
      · obtain ⟨s, hs, hm⟩ := List.mem_flatMap.1 hm
        rcases List.mem_cons.1 hm with hm | hm
        · exact absurd hm (by decide)
        · exact absurd (h s (by simp [hs]) _ hm) (by decide)
  rw [etext]
  unfold readEinsum
  rw [show " += ".toList = ' ' :: "+= ".toList from rfl, breakOn_app htn]
  dsimp only [bind, Option.bind]
  rw [show " * np.einsum(\"".toList = ' ' :: "* np.einsum(\"".toList from rfl, breakOn_app hf]
  dsimp only
  rw [show "->".toList = '-' :: [('>' : Char)] from rfl, breakOn_app (hjn subs hsubs)]
  dsimp only
  rw [show "\"".toList = '"' :: [] from rfl, breakOn_app (fun h => by
    rw [← hO] at h
    exact absurd (hlo _ h) (by decide))]
  dsimp only
  rw [readArgs_app args hargs]
  · dsimp only [pure]
    rw [splitComma_join]
    · rw [← hL]; simpa using hne
    · intro s hs hm
      exact absurd (hsubs s hs _ hm) (by decide)
  · have : ∀ l : List (Str × Str), l.length ≤ (l.flatMap (fun p => ',' :: (p.1 ++ ['[', '"'] ++ p.2 ++ ['"', ']']))).length := by
      intro l
      induction l with
      | nil => simp
      | cons p l ih => simp only [List.flatMap_cons, List.length_append, List.length_cons]; omega
    have := this args
    rw [List.length_append]
    omega

/-! ## the meaning of the line -/

/-- the label of the space of an index -/
def spLab (o : OSI) (i : Index) : Char := ((o.spaces[i.space.toNat]?).map (·.label)).getD ' '

/-- the line that is read back -/
def lineOf (o : OSI) (fmt : Rational → Str) (letter : Index → Char) (t : Tensor) (q : Equation) : EinsumLine :=
  ⟨t.label ++ spaceText o t, fmt q.factor, q.rhs.tensors.map (fun x => (x.upper ++ x.lower).map letter), (t.upper ++ t.lower).map letter,
      q.rhs.tensors.map (fun x => (x.label, spaceText o x))⟩

/-- the indices on the right-hand side -/
def rhsIdx (q : Equation) : List Index := q.rhs.tensors.flatMap (fun y => y.upper ++ y.lower)

theorem lineOf_zip (o : OSI) (fmt : Rational → Str) (letter : Index → Char) (t : Tensor) (q : Equation) :
    (lineOf o fmt letter t q).subs.zip (lineOf o fmt letter t q).args =
      q.rhs.tensors.map (fun x => ((x.upper ++ x.lower).map letter, (x.label, spaceText o x))) := List.zip_map'

theorem lineOf_axes (o : OSI) (fmt : Rational → Str) (letter : Index → Char) (t : Tensor) (q : Equation) :
    (lineOf o fmt letter t q).axes = (rhsIdx q).map (fun i => (letter i, spLab o i)) := by
  unfold EinsumLine.axes
  rw [lineOf_zip, List.flatMap_map]
  unfold rhsIdx
  rw [List.map_flatMap]
  congr 1
  funext x
  exact List.zip_map'

theorem lineOf_space {o : OSI} {fmt : Rational → Str} {letter : Index → Char} {t : Tensor} {q : Equation}
    (hinj : ∀ i ∈ rhsIdx q, ∀ j ∈ rhsIdx q, letter i = letter j → i = j) {i : Index} (hi : i ∈ rhsIdx q) :
    (lineOf o fmt letter t q).spaceOf (letter i) = spLab o i := by
  unfold EinsumLine.spaceOf
  rw [lineOf_axes]
  generalize rhsIdx q = L at hinj hi
  cases hf : (L.map (fun i => (letter i, spLab o i))).find? (fun p => p.1 = letter i) with
  | none =>
    rw [List.find?_eq_none] at hf
    exact absurd (hf _ (List.mem_map_of_mem hi)) (by simp)
  | some p =>
    have h1 := List.mem_of_find?_eq_some hf
    have h2 := List.find?_some hf
    obtain ⟨j, hj, rfl⟩ := List.mem_map.1 h1
    have : j = i := hinj j hj i hi (by simpa using h2)
    rw [this]; rfl

theorem lineOf_element {Ω R A : Type} [Inhabited Ω] [DecidableEq Ω] [CommRing R] [Ring A] [Algebra R A]
    {o : OSI} {fmt : Rational → Str} {letter : Index → Char} {t : Tensor} {q : Equation}
    (hinj : ∀ i ∈ rhsIdx q, ∀ j ∈ rhsIdx q, letter i = letter j → i = j)
    (hreg : ∀ i ∈ rhsIdx q, i.Registered o) (hmem : ∀ i ∈ t.upper ++ t.lower, i ∈ rhsIdx q)
    {v : OrbSystem Ω R A} {arr : Str → Str → List Ω → R} {dom : Char → Finset Ω} (hs : Stores o v q arr dom) (x : List Ω) :
    (lineOf o fmt letter t q).element arr dom x = q.element v t x := by
  unfold EinsumLine.element Equation.element
  rw [lineOf_zip, lineOf_axes, List.map_map]
  have hS : (rhsIdx q).map (Prod.fst ∘ fun i => (letter i, spLab o i)) = (rhsIdx q).map letter := rfl
  rw [hS]
  have hE : (einsumIndices t q).toFinset = (rhsIdx q).toFinset := by
    ext i
    rw [List.mem_toFinset, List.mem_toFinset]
    constructor
    · intro h
      rcases List.mem_append.1 h with h | h
      · exact h
      · exact hmem i h
    · exact fun h => List.mem_append_left _ h
  rw [hE]
  rw [← sumOver_bij (rhsIdx q).toFinset ((rhsIdx q).map letter).toFinset (fun i => v.dom i.space)
    (fun c => dom ((lineOf o fmt letter t q).spaceOf c)) letter]
  · apply sumOver_congr
    intro τ _
    have e1 : (lineOf o fmt letter t q).out.map τ = (t.upper ++ t.lower).map (fun i => τ (letter i)) := by
      show List.map τ (List.map letter _) = _
      rw [List.map_map]; rfl
    rw [e1]
    congr 1
    rw [List.map_map]
    congr 1
    apply List.map_congr_left
    intro y hy
    show arr y.label (spaceText o y) (List.map τ (List.map letter (y.upper ++ y.lower))) = _
    rw [List.map_map, List.map_append]
    exact hs.arr y hy _ _ (by simp) (by simp)
  · intro i hi
    rw [List.mem_toFinset] at hi ⊢
    exact List.mem_map_of_mem hi
  · intro i hi k hk
    exact hinj i (List.mem_toFinset.1 hi) k (List.mem_toFinset.1 hk)
  · intro c hc
    obtain ⟨i, hi, rfl⟩ := List.mem_map.1 (List.mem_toFinset.1 hc)
    exact ⟨i, List.mem_toFinset.2 hi, rfl⟩
  · intro i hi
    rw [List.mem_toFinset] at hi
    beta_reduce
    rw [lineOf_space hinj hi]
    obtain ⟨h0, h1⟩ := hreg i hi
    have hx := List.getElem?_eq_getElem h1
    have := hs.dom i.space.toNat _ hx
    unfold spLab
    rw [hx, Option.map_some, Option.getD_some, this, show ((i.space.toNat : Nat) : Int) = i.space by omega]
  · intro τ τ' h
    have h' : ∀ i ∈ rhsIdx q, τ i = τ' i := fun i hi => h i (List.mem_toFinset.2 hi)
    rw [List.map_congr_left (fun i hi => h' i (hmem i hi))]
    congr 2
    apply List.map_congr_left
    intro y hy
    have hy' : ∀ i ∈ y.upper ++ y.lower, τ i = τ' i := fun i hi => h' i (List.mem_flatMap.2 ⟨y, hy, hi⟩)
    rw [List.map_congr_left (fun i hi => hy' i (List.mem_append_right _ hi)), List.map_congr_left (fun i hi => hy' i (List.mem_append_left _ hi))]

theorem lineOf_accepted {o : OSI} {fmt : Rational → Str} {letter : Index → Char} {t : Tensor} {q : Equation}
    (hne : q.rhs.tensors ≠ []) (hinj : ∀ i ∈ rhsIdx q, ∀ j ∈ rhsIdx q, letter i = letter j → i = j)
    (hal : ∀ i ∈ rhsIdx q, isAlpha (letter i) = true) (hnd : (t.upper ++ t.lower).Nodup) (hmem : ∀ i ∈ t.upper ++ t.lower, i ∈ rhsIdx q) :
    (lineOf o fmt letter t q).Accepted where
  some := by simpa [lineOf] using hne
  operands := by simp [lineOf]
  ranks := by
    rw [lineOf_zip]
    intro p hp
    obtain ⟨y, _, rfl⟩ := List.mem_map.1 hp
    simp [spaceText]
  letters := by
    rw [lineOf_axes]
    intro p hp
    obtain ⟨i, hi, rfl⟩ := List.mem_map.1 hp
    exact hal i hi
  same := by
    rw [lineOf_axes]
    intro p hp p' hp' h
    obtain ⟨i, hi, rfl⟩ := List.mem_map.1 hp
    obtain ⟨j, hj, rfl⟩ := List.mem_map.1 hp'
    rw [hinj i hi j hj h]
  out_nodup := by
    apply List.Nodup.map_on _ hnd
    intro i hi j hj h
    exact hinj i (hmem i hi) j (hmem j hj) h
  out_mem := by
    rw [lineOf_axes, List.map_map]
    intro c hc
    obtain ⟨i, hi, rfl⟩ := List.mem_map.1 hc
    exact List.mem_map_of_mem (f := fun i => letter i) (hmem i hi)

/-- **C61**: after any history of registry calls (with the condition of C13 on the index names, and letters as space
labels), for every equation over the registered spaces with at most 52 different indices, tensor labels made of letters,
digits and underscores, at least one tensor on the right, and different indices on the left that all occur on the
right: the text that `compile("einsum")` returns is a line of Python that increments the variable named after the tensor on the
left; numpy accepts the call, and for all orbitals and tensors stored under the names used by the line it computes, element by element,
the sum over the orbitals of all indices that are not on the left of the product of the tensors. The sum is multiplied by
the literal that the text contains. Missing with respect to the full claim: the literal is the coefficient rounded to nine
decimals (`C61_rounded_factor`). -/
theorem C61_einsum_computes_partial (ops : List RegOp) (fmt : Rational → Str) (q : Equation) (t : Tensor) (ts : List Tensor) :
    let o := runReg OSI.empty ops
    (∀ s ∈ o.spaces, ∀ name ∈ s.indices, ∀ (c : Char) (n : Int), name ≠ c :: '_' :: '{' :: (intStr n ++ ['}'])) →
    (∀ s ∈ o.spaces, isAlpha s.label = true) →
    q.lhs.tensors = t :: ts → (∀ i ∈ einsumIndices t q, i.Registered o) → (einsumIndices t q).toFinset.card ≤ 52 →
    (∀ y ∈ t :: q.rhs.tensors, ∀ c ∈ y.label, isWord c = true) → q.rhs.tensors ≠ [] → (t.upper ++ t.lower).Nodup →
    (∀ i ∈ t.upper ++ t.lower, ∃ y ∈ q.rhs.tensors, i ∈ y.upper ++ y.lower) → ' ' ∉ fmt q.factor →
    ∃ (text : Str) (L : EinsumLine), q.compileEinsum o fmt = .ok text ∧ readEinsum text = some L ∧
      L.target = t.label ++ spaceText o t ∧ L.factor = fmt q.factor ∧ L.Accepted ∧
      ∀ {Ω R A : Type} [Inhabited Ω] [DecidableEq Ω] [CommRing R] [Ring A] [Algebra R A] (v : OrbSystem Ω R A)
        (arr : Str → Str → List Ω → R) (dom : Char → Finset Ω), Stores o v q arr dom →
        ∀ x, L.element arr dom x = q.element v t x := by
  intro o hgen hsl hl hreg h52 hlab hne hnd hmem hfmt
  obtain ⟨letter, hc, hal, hinj⟩ := (C56_einsum_letters ops fmt q t ts hgen hl hreg).1 h52
  have hsub : ∀ i ∈ rhsIdx q, i ∈ einsumIndices t q := fun i hi => List.mem_append_left _ hi
  have hmem' : ∀ i ∈ t.upper ++ t.lower, i ∈ rhsIdx q := by
    intro i hi
    obtain ⟨y, hy, h⟩ := hmem i hi
    exact List.mem_flatMap.2 ⟨y, hy, h⟩
  have hinj' : ∀ i ∈ rhsIdx q, ∀ j ∈ rhsIdx q, letter i = letter j → i = j := fun i hi j hj => hinj i (hsub i hi) j (hsub j hj)
  refine ⟨_, lineOf o fmt letter t q, hc, readEinsum_text hne hlab ?_ hal hfmt, rfl, rfl,
    lineOf_accepted hne hinj' (fun i hi => hal i (hsub i hi)) hnd hmem', ?_⟩
  · intro y hy c hc
    have hyreg : ∀ i ∈ y.upper ++ y.lower, i.Registered o := by
      intro i hi
      rcases List.mem_cons.1 hy with rfl | hy
      · exact hreg i (List.mem_append_right _ hi)
      · exact hreg i (List.mem_append_left _ (List.mem_flatMap.2 ⟨y, hy, hi⟩))
    obtain ⟨i, hi, rfl⟩ := List.mem_map.1 hc
    have h1 := (hyreg i hi).2
    rw [List.getElem?_eq_getElem h1]
    exact alpha_word (hsl _ (List.getElem_mem h1))
  · intro Ω R A _ _ _ _ _ v arr dom hs x
    exact lineOf_element hinj' (fun i hi => hreg i (hsub i hi)) hmem' hs x

/-! ## the literal -/

theorem fixed_val {n : Nat} (hn : n ≠ 0) {s : Str} (h : IsFixed n s) : ∃ z : ℤ, decimalVal s = some ((z : ℚ) / 10 ^ n) := by
  obtain ⟨a, b, hs, ha, hb, hda, hdb⟩ := h
  have hbn : b ≠ [] := fun h => by rw [h] at hb; exact hn hb.symm
  have hpt : '.' ∉ a := fun h => absurd (hda _ h) (by decide)
  have hall : a ≠ [] ∧ b ≠ [] ∧ a.all isDigit = true ∧ b.all isDigit = true := ⟨ha, hbn, List.all_eq_true.2 hda, List.all_eq_true.2 hdb⟩
  have hbr : breakOn ['.'] (a ++ '.' :: b) = some (a, b) := by
    have := breakOn_app (c0 := '.') (sep := []) (a := a) (b := b) hpt
    rw [List.append_assoc] at this
    exact this
  have h10 : (10 : ℚ) ^ n ≠ 0 := by positivity
  rcases hs with rfl | rfl
  · obtain ⟨c, a', rfl⟩ := List.exists_cons_of_ne_nil ha
    have hc : c ≠ '-' := fun h => absurd (hda c (by simp)) (by rw [h]; decide)
    refine ⟨digitsVal (c :: a') * 10 ^ n + digitsVal b, ?_⟩
    unfold decimalVal
    have hh : ¬ ((c :: a' ++ '.' :: b).head? = some '-') := by simpa using hc
    rw [if_neg hh, hbr]
    dsimp only
    rw [if_pos hall, if_neg hh, hb]
    congr 1
    push_cast
    field_simp
  · refine ⟨-(digitsVal a * 10 ^ n + digitsVal b), ?_⟩
    unfold decimalVal
    rw [List.head?_cons, if_pos rfl, List.tail_cons, hbr]
    dsimp only
    rw [if_pos hall, if_pos rfl, hb]
    congr 1
    push_cast
    field_simp

/-- A literal with `n` decimals that approximates the coefficient by less than a unit of the last decimal has the value
of the coefficient iff the denominator of the coefficient divides `10^n`. -/
theorem fixed_exact_iff {n : Nat} (hn : n ≠ 0) {s : Str} (h : IsFixed n s) {c : Rational} (hc : Canon c) {x : ℚ} (hx : decimalVal s = some x)
    (hclose : |x - toRat c| < 1 / 10 ^ n) : x = toRat c ↔ c.den ∣ 10 ^ n := by
  obtain ⟨z, hz⟩ := fixed_val hn h
  rw [hz] at hx
  injection hx with hx
  have hd : (c.den : ℚ) ≠ 0 := by have := hc.1; exact_mod_cast this.ne'
  have h10 : (0 : ℚ) < 10 ^ n := by positivity
  constructor
  · intro he
    unfold toRat at he
    rw [← hx, div_eq_div_iff h10.ne' hd] at he
    have h1 : z * c.den = c.num * 10 ^ n := by exact_mod_cast he
    exact Int.dvd_of_dvd_mul_right_of_gcd_one ⟨z, by rw [← h1]; ring⟩ (by rw [Int.gcd_comm]; exact hc.2)
  · rintro ⟨k, hk⟩
    have hk' : (10 : ℚ) ^ n = c.den * k := by exact_mod_cast hk
    have e1 : toRat c = ((c.num * k : ℤ) : ℚ) / 10 ^ n := by
      unfold toRat
      rw [div_eq_div_iff hd h10.ne', hk']
      push_cast; ring
    rw [← hx, e1, ← sub_div, abs_div, abs_of_pos h10, div_lt_div_iff_of_pos_right h10] at hclose
    have h2 : |z - c.num * k| < 1 := by exact_mod_cast hclose
    have h3 : z = c.num * k := by rw [Int.abs_lt_one_iff] at h2; omega
    rw [← hx, e1, h3]

/-- **C61**: a literal with nine decimals has the value of the coefficient only if the denominator of the
coefficient divides `10^9`. -/
theorem C61_exact_factor {s : Str} (h : IsFixed9 s) {c : Rational} (hc : Canon c) (he : decimalVal s = some (toRat c)) : c.den ∣ 10 ^ 9 :=
  (fixed_exact_iff (by decide) h hc he (by simp)).1 rfl

/-- **C61**: and if it divides, every literal that is closer to the coefficient than a unit of the last decimal has the
value of the coefficient. -/
theorem C61_exact_factor_iff {s : Str} (h : IsFixed9 s) {c : Rational} (hc : Canon c) {x : ℚ} (hx : decimalVal s = some x)
    (hclose : |x - toRat c| < 1 / 10 ^ 9) : x = toRat c ↔ c.den ∣ 10 ^ 9 := fixed_exact_iff (by decide) h hc hx hclose

/-- **C61**, negation: for the coefficient `1/3` the line does not compute the equation. -/
theorem C61_rounded_factor {s : Str} (h : IsFixed9 s) : decimalVal s ≠ some (toRat ⟨1, 3⟩) := by
  intro he
  have := C61_exact_factor h (c := ⟨1, 3⟩) (by constructor <;> decide) he
  revert this; decide

-- the equation `exEq` of C56 meets the hypotheses, and the arrays exist
example : ∃ (text : Str) (L : EinsumLine), exEq.compileEinsum (runReg OSI.empty ccHistory) (fun _ => "0.250000000".toList) = .ok text ∧
    readEinsum text = some L ∧ L.Accepted ∧
    ∀ (v : OrbSystem ℤ ℚ ℚ) (dom : Char → Finset ℤ), (∀ (n : Nat) s, (runReg OSI.empty ccHistory).spaces[n]? = some s → dom s.label = v.dom n) →
      ∀ x, L.element (fun lab _ w => v.T lab (w.drop 2) (w.take 2)) dom x =
        exEq.element v ⟨['r'], [⟨0, 0⟩, ⟨0, 1⟩], [⟨1, 0⟩, ⟨1, 1⟩], .antisymmetric, false⟩ x := by
  obtain ⟨text, L, h1, h2, _, _, h3, h4⟩ := C61_einsum_computes_partial ccHistory (fun _ => "0.250000000".toList) exEq
    ⟨['r'], [⟨0, 0⟩, ⟨0, 1⟩], [⟨1, 0⟩, ⟨1, 1⟩], .antisymmetric, false⟩ [] (by
      intro s hs name hn c n he
      have hl : ∀ s ∈ (runReg OSI.empty ccHistory).spaces, ∀ name ∈ s.indices, name.length = 1 := by decide +kernel
      have := hl s hs name hn
      rw [he] at this
      simp at this) (by decide +kernel) rfl (by unfold Index.Registered; decide +kernel) (by decide +kernel) (by decide +kernel) (by decide) (by decide +kernel) (by decide +kernel) (by decide +kernel)
  refine ⟨text, L, h1, h2, h3, fun v dom hd x => h4 v _ dom ⟨?_, hd⟩ x⟩
  intro y hy l u hl hu
  have : y.upper.length = 2 := by
    have : ∀ y ∈ exEq.rhs.tensors, y.upper.length = 2 := by decide
    exact this y hy
  rw [this] at hu
  show v.T y.label ((u ++ l).drop 2) ((u ++ l).take 2) = _
  rw [← hu, List.drop_left, List.take_left]

-- the contribution of a ring diagram to a doubles residual
example : IsFixed9 "0.250000000".toList ∧ decimalVal "0.250000000".toList = some (1 / 4) := by
  refine ⟨⟨['0'], "250000000".toList, Or.inl rfl, by simp, by decide, by decide, by decide⟩, ?_⟩
  decide +kernel
example : (readEinsum "rvvoo += 0.25 * np.einsum(\"abic,cdbj->adij\",t[\"vvoo\"],v[\"ovvo\"],optimize=\"optimal\")".toList).map (fun L => (L.subs.map String.ofList, String.ofList L.out)) =
  some (["abic", "cdbj"], "adij") := by decide +kernel

end Wicked
