import Verif.Spec.Print
import Verif.Proofs.Latex
import Verif.Proofs.Parse
import Verif.Props.OpMake
import Verif.Props.Einsum
/-! # Printed operators (lemmas for C76) -/
namespace Wicked
open CppLt Rational

/-- label of space number `i` -/
def labAt (o : OSI) (i : Nat) : Char := ((o.spaces[i]?).map (·.label)).getD ' '

theorem label_labAt {o : OSI} {i : Nat} (h : i < o.spaces.length) : o.label i = .ok (labAt o i) := by
  simp [OSI.label, OSI.space, labAt, h, bind, Except.bind, pure, Except.pure]

/-- the operators of `p` as a component: creation operators by increasing space, annihilation operators by decreasing space -/
def compOf (o : OSI) (p : Operator) : Component :=
  (List.range o.spaces.length).flatMap (fun i => List.replicate (p.gm.cre i).toNat (labAt o i, true)) ++
    (List.range o.spaces.length).reverse.flatMap (fun i => List.replicate (p.gm.ann i).toNat (labAt o i, false))

theorem creTokens_eq (o : OSI) (p : Operator) : creTokens o p.gm =
    .ok (((List.range o.spaces.length).flatMap (fun i => List.replicate (p.gm.cre i).toNat (labAt o i, true))).map (fun x => tokenText x '+')) := by
  unfold creTokens
  rw [mapM_ok (g := fun i => List.replicate (p.gm.cre i).toNat [labAt o i, '+'])]
  · simp only [bind, Except.bind, pure, Except.pure, List.map_flatMap, List.map_replicate, tokenText, if_true]
    rfl
  · intro i hi
    rw [label_labAt (List.mem_range.mp hi)]; rfl

theorem annTokens_eq (o : OSI) (p : Operator) : annTokens o p.gm =
    .ok (((List.range o.spaces.length).reverse.flatMap (fun i => List.replicate (p.gm.ann i).toNat (labAt o i, false))).map (fun x => tokenText x '+')) := by
  unfold annTokens
  rw [mapM_ok (g := fun i => List.replicate (p.gm.ann i).toNat [labAt o i])]
  · simp only [bind, Except.bind, pure, Except.pure, List.map_flatMap, List.map_replicate, tokenText, Bool.false_eq_true, if_false]
    rfl
  · intro i hi
    rw [List.mem_reverse] at hi
    rw [label_labAt (List.mem_range.mp hi)]; rfl

/-- the printed factor of an operator -/
def facToks (ns : Nat) (p : Operator) : List Str :=
  if Rational.eq (p.factor ns) (Rational.ofInt 1) then [] else [(p.factor ns).str false]

theorem tokens_eq {o : OSI} (h8 : o.spaces.length ≤ 8) (p : Operator) : p.tokens o =
    .ok (facToks o.spaces.length p ++ p.label :: ['{'] :: ((compOf o p).map (fun x => tokenText x '+') ++ [['}']])) := by
  unfold Operator.tokens
  rw [if_neg (by change ¬ 8 < _; omega), creTokens_eq, annTokens_eq]
  simp only [bind, Except.bind, pure, Except.pure, compOf, List.map_append, facToks]
  simp

/-! ## The component determines the operator -/

theorem labelToSpace_labAt {o : OSI} (hl : ∀ (n : Nat) s, o.spaces[n]? = some s → o.labelToSpace s.label = .ok (n : Int)) {i : Nat}
    (h : i < o.spaces.length) : o.labelToSpace (labAt o i) = .ok (i : Int) := by
  have := hl i _ (List.getElem?_eq_getElem h)
  simpa [labAt, h] using this

theorem filter_flatMap_length {o : OSI} (hl : ∀ (n : Nat) s, o.spaces[n]? = some s → o.labelToSpace s.label = .ok (n : Int))
    (f : Nat → Nat) (b b' : Bool) (s : Nat) : ∀ l : List Nat, l.Nodup → (∀ i ∈ l, i < o.spaces.length) →
    ((l.flatMap (fun i => List.replicate (f i) (labAt o i, b))).filter (fun x => x.2 == b' && decide (o.labelToSpace x.1 = .ok (s : Int)))).length =
      if s ∈ l ∧ b = b' then f s else 0
  | [], _, _ => by simp
  | i :: l, hn, hlt => by
    have ih := filter_flatMap_length hl f b b' s l (List.nodup_cons.mp hn).2 (fun j hj => hlt j (by simp [hj]))
    rw [List.flatMap_cons, List.filter_append, List.length_append, ih]
    have hi := labelToSpace_labAt hl (hlt i (by simp))
    have hni := (List.nodup_cons.mp hn).1
    rw [List.filter_replicate, hi]
    by_cases hs : i = s
    · subst hs
      by_cases hb : b = b'
      · simp [hb, hni]
      · simp [hb]
    · have : ¬ ((i : Int) = (s : Int)) := by omega
      have hs' : ¬ s = i := fun h => hs h.symm
      simp [this, hs']

theorem compOf_count {o : OSI} (hl : ∀ (n : Nat) s, o.spaces[n]? = some s → o.labelToSpace s.label = .ok (n : Int)) {p : Operator}
    (hp : p.Valid o.spaces.length) (s : Nat) : (compOf o p).count o true s = p.gm.cre s ∧ (compOf o p).count o false s = p.gm.ann s := by
  obtain ⟨h1, h2, h3⟩ := hp s
  unfold Component.count compOf
  simp only [List.filter_append, List.length_append]
  rw [filter_flatMap_length hl (fun i => (p.gm.cre i).toNat) true true s _ List.nodup_range (by simp),
    filter_flatMap_length hl (fun i => (p.gm.cre i).toNat) true false s _ List.nodup_range (by simp),
    filter_flatMap_length hl (fun i => (p.gm.ann i).toNat) false true s _ (List.nodup_reverse.mpr List.nodup_range) (by simp),
    filter_flatMap_length hl (fun i => (p.gm.ann i).toNat) false false s _ (List.nodup_reverse.mpr List.nodup_range) (by simp)]
  by_cases hs : s < o.spaces.length
  · simp [hs, h1, h2]
  · have := h3 (by omega)
    simp [hs, this]

theorem compOf_operator {o : OSI} (hl : ∀ (n : Nat) s, o.spaces[n]? = some s → o.labelToSpace s.label = .ok (n : Int)) {p : Operator}
    (hp : p.Valid o.spaces.length) : Component.operator o p.label (compOf o p) = p := by
  obtain ⟨l, g⟩ := p
  unfold Component.operator
  congr 1
  apply gm_ext2
  · intro s hs
    have := (compOf_count hl hp s).1
    simp only [GraphMatrix.cre, gm_get_tab, if_pos hs] at this ⊢
    exact this
  · intro s hs
    have := (compOf_count hl hp s).2
    simp only [GraphMatrix.ann, gm_get_tab, if_pos hs] at this ⊢
    exact this

theorem compOf_mem {o : OSI} {p : Operator} {x : Char × Bool} (h : x ∈ compOf o p) : ∃ s ∈ o.spaces, s.label = x.1 := by
  have key : ∀ i, i < o.spaces.length → ∃ s ∈ o.spaces, s.label = labAt o i := by
    intro i hi
    exact ⟨o.spaces[i], List.getElem_mem hi, by simp [labAt, hi]⟩
  unfold compOf at h
  simp only [List.mem_append, List.mem_flatMap, List.mem_range, List.mem_reverse, List.mem_replicate] at h
  rcases h with ⟨i, hi, _, rfl⟩ | ⟨i, hi, _, rfl⟩ <;> exact key i hi

theorem compOf_registered {o : OSI} (hl : ∀ (n : Nat) s, o.spaces[n]? = some s → o.labelToSpace s.label = .ok (n : Int)) (p : Operator) :
    Component.Registered o (compOf o p) := by
  intro x hx
  obtain ⟨s, hs, hx⟩ := compOf_mem hx
  obtain ⟨n, hn, rfl⟩ := List.getElem_of_mem hs
  refine ⟨n, hn, ?_⟩
  rw [← hx]
  exact hl n _ (List.getElem?_eq_getElem hn)

/-! ## Splitting texts -/

theorem first_split' {α : Type} {c : α} {a b r r' : List α} (ha : c ∉ a) (hb : c ∉ b) (h : a ++ c :: r = b ++ c :: r') : a = b ∧ r = r' := by
  induction a generalizing b with
  | nil =>
    cases b with
    | nil => simpa using h
    | cons d b => simp at h; exact absurd h.1 (by rintro rfl; exact hb (by simp))
  | cons x a ih =>
    cases b with
    | nil => simp at h; exact absurd h.1.symm (by rintro rfl; exact ha (by simp))
    | cons d b =>
      simp only [List.cons_append, List.cons.injEq] at h
      obtain ⟨h1, h2⟩ := ih (fun hh => ha (by simp [hh])) (fun hh => hb (by simp [hh])) h.2
      exact ⟨by rw [h.1, h1], h2⟩

theorem last_split' {α : Type} {c : α} {a b r r' : List α} (ha : c ∉ r) (hb : c ∉ r') (h : a ++ c :: r = b ++ c :: r') : a = b ∧ r = r' := by
  have := congrArg List.reverse h
  simp only [List.reverse_append, List.reverse_cons, List.append_assoc, List.singleton_append] at this
  obtain ⟨h1, h2⟩ := first_split' (by simpa using ha) (by simpa using hb) this
  exact ⟨List.reverse_injective h2, List.reverse_injective h1⟩

theorem join_single_inj {c : Char} : ∀ {l l' : List Str}, l ≠ [] → l' ≠ [] → (∀ w ∈ l, c ∉ w) → (∀ w ∈ l', c ∉ w) → join [c] l = join [c] l' → l = l'
  | [a], [b], _, _, _, _, h => by simpa [join] using h
  | [a], b :: b' :: l', _, _, h1, _, h => by
    rw [join, join_cons (by simp)] at h
    exact absurd (by rw [h]; simp) (h1 a (by simp))
  | a :: a' :: l, [b], _, _, _, h2, h => by
    rw [join.eq_2 _ b, join_cons (by simp)] at h
    exact absurd (by rw [← h]; simp) (h2 b (by simp))
  | a :: a' :: l, b :: b' :: l', _, _, h1, h2, h => by
    rw [join_cons (l := a' :: l) (by simp), join_cons (l := b' :: l') (by simp), List.append_assoc, List.append_assoc, List.singleton_append, List.singleton_append] at h
    obtain ⟨e1, e2⟩ := first_split' (h1 a (by simp)) (h2 b (by simp)) h
    rw [e1, join_single_inj (l := a' :: l) (l' := b' :: l') (by simp) (by simp) (fun w hw => h1 w (by simp [hw])) (fun w hw => h2 w (by simp [hw])) e2]

theorem join_append {sep : Str} : ∀ {l l' : List Str}, l ≠ [] → l' ≠ [] → join sep (l ++ l') = join sep l ++ sep ++ join sep l'
  | [a], l', _, h => by rw [List.singleton_append, join_cons h]; rfl
  | a :: b :: l, l', _, h => by
    rw [List.cons_append, join_cons (by simp), join_cons (l := b :: l) (by simp), join_append (l := b :: l) (by simp) h]
    simp

/-! ## Printed rationals -/

theorem str_true_inj {r r' : Rational} (hc : Canon r) (hc' : Canon r') (h0 : r.num ≠ 0) (h0' : r'.num ≠ 0)
    (h : r.str true = r'.str true) : r = r' := by
  have hslash : ∀ z : Int, '/' ∉ intStr z := by
    intro z hz
    obtain ⟨sg, hs, hsg⟩ := intStr_split z
    rw [hs] at hz
    rcases List.mem_append.mp hz with hz | hz
    · rcases hsg with ⟨rfl, _⟩ | ⟨rfl, _⟩ <;> simp at hz
    · exact absurd (natStr_digits _ _ hz) (by decide)
  -- sign and number
  have hnum : ∀ a b : Int, a ≠ 0 → b ≠ 0 → (if decide (a > 0) then ['+'] else []) ++ intStr a = (if decide (b > 0) then ['+'] else []) ++ intStr b → a = b := by
    intro a b ha hb hh
    have plus : ∀ z : Int, '+' ∉ intStr z := by
      intro z hz
      obtain ⟨sg, hs, hsg⟩ := intStr_split z
      rw [hs] at hz
      rcases List.mem_append.mp hz with hz | hz
      · rcases hsg with ⟨rfl, _⟩ | ⟨rfl, _⟩ <;> simp at hz
      · exact absurd (natStr_digits _ _ hz) (by decide)
    by_cases h1 : a > 0 <;> by_cases h2 : b > 0 <;> simp only [h1, h2, decide_true, decide_false, if_true, if_false, Bool.false_eq_true, List.nil_append, List.cons_append, List.cons.injEq, true_and] at hh
    · exact intStr_inj hh
    · exact absurd (by rw [← hh]; simp) (plus b)
    · exact absurd (by rw [hh]; simp) (plus a)
    · exact intStr_inj hh
  have hlen : ∀ z : Int, intStr z ≠ [] := by
    intro z hz
    obtain ⟨sg, hs, hsg⟩ := intStr_split z
    rw [hs] at hz
    exact natStr_ne_nil _ (List.append_eq_nil_iff.mp hz).2
  -- the text of an integer
  have hint : ∀ r : Rational, r.num ≠ 0 → r.den = 1 → '/' ∉ r.str true := by
    intro r h0 h1
    unfold Rational.str
    simp only [h1, beq_self_eq_true, if_true, Bool.true_and]
    have : (r.num == 0) = false := by simpa using h0
    simp only [this, Bool.false_eq_true, if_false]
    split
    · split <;> simp
    · split
      · have := hslash r.num
        split <;> simp [this]
      · split <;> simp
  have hfrac : ∀ r : Rational, r.num ≠ 0 → r.den ≠ 1 → r.str true = ((if decide (r.num > 0) then ['+'] else []) ++ intStr r.num) ++ '/' :: intStr r.den := by
    intro r h0 h1
    unfold Rational.str
    have e0 : (r.num == 0) = false := by simpa using h0
    have e1 : (r.den == 1) = false := by simpa using h1
    simp only [e0, e1, Bool.false_eq_true, if_false, Bool.true_and]
    simp
  obtain ⟨n, d⟩ := r
  obtain ⟨n', d'⟩ := r'
  by_cases h1 : d = 1 <;> by_cases h2 : d' = 1
  · subst h1; subst h2
    congr 1
    unfold Rational.str at h
    simp only [] at h0 h0'
    have e0 : (n == 0) = false := by simpa using h0
    have e1 : (n' == 0) = false := by simpa using h0'
    simp only [e0, e1, Bool.false_eq_true, if_false, Bool.true_and, beq_self_eq_true, if_true, beq_iff_eq, bne_iff_ne, ne_eq, ite_not] at h
    by_cases a1 : n = -1
    · by_cases b1 : n' = -1
      · rw [a1, b1]
      · exfalso
        subst a1
        by_cases b2 : n' = 1
        · subst b2; simp at h
        · simp only [b1, b2, if_false, if_true] at h
          by_cases hp : n' > 0
          · simp [hp] at h
          · simp only [hp, decide_false, Bool.false_eq_true, if_false, List.nil_append] at h
            have e : intStr n' = '-' :: natStr n'.natAbs := by unfold intStr; rw [if_pos (by omega)]
            rw [e] at h
            simp at h
            exact natStr_ne_nil _ h
    · by_cases b1 : n' = -1
      · exfalso
        subst b1
        by_cases a2 : n = 1
        · subst a2; simp at h
        · simp only [a1, a2, if_false, if_true] at h
          by_cases hp : n > 0
          · simp [hp] at h
          · simp only [hp, decide_false, Bool.false_eq_true, if_false, List.nil_append] at h
            have e : intStr n = '-' :: natStr n.natAbs := by unfold intStr; rw [if_pos (by omega)]
            rw [e] at h
            simp at h
            exact natStr_ne_nil _ h
      · by_cases a2 : n = 1
        · by_cases b2 : n' = 1
          · rw [a2, b2]
          · exfalso
            subst a2
            simp only [b1, b2, if_false, if_true] at h
            by_cases hp : n' > 0
            · simp [hp, hlen] at h
            · simp only [hp, decide_false, Bool.false_eq_true, if_false, List.nil_append] at h
              have e : intStr n' = '-' :: natStr n'.natAbs := by unfold intStr; rw [if_pos (by omega)]
              rw [e] at h
              simp at h
        · by_cases b2 : n' = 1
          · exfalso
            subst b2
            simp only [a1, a2, if_false, if_true] at h
            by_cases hp : n > 0
            · simp [hp, hlen] at h
            · simp only [hp, decide_false, Bool.false_eq_true, if_false, List.nil_append] at h
              have e : intStr n = '-' :: natStr n.natAbs := by unfold intStr; rw [if_pos (by omega)]
              rw [e] at h
              simp at h
          · simp only [a1, a2, b1, b2, if_false] at h
            exact hnum n n' h0 h0' h
  · exfalso
    apply hint ⟨n, d⟩ h0 h1
    rw [h, hfrac ⟨n', d'⟩ h0' h2]
    simp
  · exfalso
    apply hint ⟨n', d'⟩ h0' h2
    rw [← h, hfrac ⟨n, d⟩ h0 h1]
    simp
  · rw [hfrac ⟨n, d⟩ h0 h1, hfrac ⟨n', d'⟩ h0' h2] at h
    have sl : ∀ z : Int, '/' ∉ (if decide (z > 0) then ['+'] else []) ++ intStr z := by
      intro z hz
      rcases List.mem_append.mp hz with hz | hz
      · split at hz <;> simp at hz
      · exact hslash z hz
    obtain ⟨e1, e2⟩ := first_split' (sl n) (sl n') h
    have e3 := hnum n n' h0 h0' e1
    have e4 : d = d' := intStr_inj e2
    rw [e3, e4]

end Wicked
