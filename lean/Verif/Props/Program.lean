import Verif.Spec.Program
import Verif.Props.ManybodyValue
import Mathlib.Data.List.Sort
import Verif.Props.AmbitSem
import Verif.Props.Linked
/-! # C78: the generated program computes the expression -/
namespace Wicked
open CppLt CppEq Rational

section
variable {Ω A : Type} [Inhabited Ω] [DecidableEq Ω] [AddCommMonoid A]

theorem sumTuples_append (ds es : List (Finset Ω)) (F : List Ω → A) :
    sumTuples (ds ++ es) F = sumTuples ds (fun u => sumTuples es (fun l => F (u ++ l))) := by
  induction ds generalizing F with
  | nil => rfl
  | cons d ds ih =>
    simp only [List.cons_append, sumTuples]
    exact Finset.sum_congr rfl (fun a _ => ih _)

theorem sumTuples_congr {ds : List (Finset Ω)} {F G : List Ω → A} (h : ∀ l, l.length = ds.length → F l = G l) : sumTuples ds F = sumTuples ds G := by
  induction ds generalizing F G with
  | nil => exact h [] rfl
  | cons d ds ih =>
    simp only [sumTuples]
    exact Finset.sum_congr rfl (fun a _ => ih (fun l hl => h _ (by simp [hl])))

theorem sumTuples_add (ds : List (Finset Ω)) (F G : List Ω → A) : sumTuples ds (fun l => F l + G l) = sumTuples ds F + sumTuples ds G := by
  induction ds generalizing F G with
  | nil => rfl
  | cons d ds ih =>
    simp only [sumTuples, ← Finset.sum_add_distrib]
    exact Finset.sum_congr rfl (fun a _ => ih _ _)

theorem sumTuples_zero (ds : List (Finset Ω)) : sumTuples ds (fun _ => (0 : A)) = 0 := by
  induction ds with
  | nil => rfl
  | cons d ds ih => simp only [sumTuples, ih, Finset.sum_const_zero]

theorem sumTuples_smul {S : Type} [Semiring S] [Module S A] (c : S) (ds : List (Finset Ω)) (F : List Ω → A) : sumTuples ds (fun l => c • F l) = c • sumTuples ds F := by
  induction ds generalizing F with
  | nil => rfl
  | cons d ds ih => simp only [sumTuples, ih, Finset.smul_sum]

theorem sumOver_insert {ι : Type} [DecidableEq ι] (i : ι) (S : Finset ι) (hi : i ∉ S) (d : ι → Finset Ω) (F : (ι → Ω) → A) :
    sumOver (insert i S) d F = ∑ a ∈ d i, sumOver S d (fun σ => F (fun j => if j = i then a else σ j)) := by
  unfold sumOver
  rw [← Finset.sum_product']
  symm
  refine Finset.sum_nbij' (i := fun p => fun k => if h : k.1 = i then p.1 else p.2 ⟨k.1, (Finset.mem_insert.1 k.2).resolve_left h⟩)
    (j := fun σ => (σ ⟨i, Finset.mem_insert_self _ _⟩, fun k => σ ⟨k.1, Finset.mem_insert_of_mem k.2⟩)) ?_ ?_ ?_ ?_ ?_
  · rintro ⟨a, σ⟩ h
    rw [Finset.mem_product, Fintype.mem_piFinset] at h
    rw [Fintype.mem_piFinset]
    rintro ⟨k, hk⟩
    dsimp only
    split
    · next he => subst he; exact h.1
    · exact h.2 _
  · intro σ h
    rw [Fintype.mem_piFinset] at h
    rw [Finset.mem_product, Fintype.mem_piFinset]
    exact ⟨h _, fun k => h _⟩
  · rintro ⟨a, σ⟩ _
    refine Prod.ext ?_ ?_
    · simp
    · funext k
      have : k.1 ≠ i := fun h => hi (h ▸ k.2)
      simp [this]
  · intro σ _
    funext k
    dsimp only
    split
    · next he =>
      congr 1
      exact Subtype.ext he.symm
    · rfl
  · rintro ⟨a, σ⟩ _
    dsimp only
    congr 1
    funext j
    by_cases hj : j = i
    · subst hj; simp
    · by_cases hjS : j ∈ S <;> simp [hj, hjS]

/-- the sum over assignments of orbitals to different indices is a sum over tuples -/
theorem sumOver_tuples {ι : Type} [DecidableEq ι] (l : List ι) (hl : l.Nodup) (d : ι → Finset Ω) (F : List Ω → A) :
    sumOver l.toFinset d (fun σ => F (l.map σ)) = sumTuples (l.map d) F := by
  induction l generalizing F with
  | nil =>
    simp only [List.toFinset_nil, List.map_nil, sumTuples]
    unfold sumOver
    rw [Finset.sum_const, Fintype.card_piFinset]
    simp
  | cons i l ih =>
    rw [List.nodup_cons] at hl
    rw [List.toFinset_cons, sumOver_insert i _ (by simpa using hl.1)]
    simp only [List.map_cons, sumTuples]
    apply Finset.sum_congr rfl
    intro a _
    rw [← ih hl.2 (fun l => F (a :: l))]
    congr 1
    funext σ
    simp only [if_true]
    congr 2
    apply List.map_congr_left
    intro j hj
    have hne : j ≠ i := fun h => hl.1 (h ▸ hj)
    rw [if_neg hne]
end

/-! ## the key of a term -/

/-- the label of the space of an index -/
def labelOf (o : OSI) (i : Index) : Char := ((o.spaces[i.space.toNat]?).map (·.label)).getD ' '

theorem sorted_spaces {o : OSI} (l : List Index) (hs : l.Pairwise (fun i j => i.space ≤ j.space))
    (hr : ∀ i ∈ l, 0 ≤ i.space ∧ i.space < o.spaces.length) :
    l.map (labelOf o) = repeatLabels o (fun s => l.countP (fun i => decide (i.space = (s : Int)))) := by
  have h1 : l.map (fun i => i.space.toNat) = (List.range o.spaces.length).flatMap (fun s : Nat => List.replicate (l.countP (fun i => decide (i.space = (s : Int)))) s) := by
    apply List.Perm.eq_of_pairwise (le := fun a b : Nat => a ≤ b) (fun a b _ _ h h' => Nat.le_antisymm h h')
    · rw [List.pairwise_map]
      exact hs.imp (fun h => by omega)
    · rw [List.pairwise_flatMap]
      refine ⟨fun a _ => List.pairwise_replicate.2 (Or.inr le_rfl), ?_⟩
      refine List.pairwise_lt_range.imp ?_
      intro a b hab x hx y hy
      rw [(List.mem_replicate.1 hx).2, (List.mem_replicate.1 hy).2]
      omega
    · rw [List.perm_iff_count]
      intro a
      rw [List.count_flatMap]
      have hz : (List.map (List.count a ∘ fun s : Nat => List.replicate (l.countP (fun i => decide (i.space = (s : Int)))) s) (List.range o.spaces.length)).sum =
          if a < o.spaces.length then l.countP (fun i => decide (i.space = (a : Int))) else 0 := by
        generalize o.spaces.length = n
        induction n with
        | zero => simp
        | succ n ih =>
          rw [List.range_succ, List.map_append, List.sum_append, ih]
          simp only [List.map_cons, List.map_nil, Function.comp, List.count_replicate, List.sum_cons, List.sum_nil, Nat.add_zero]
          by_cases h1 : a < n
          · have : ¬ n = a := by omega
            simp [h1, this, Nat.lt_succ_of_lt h1]
          · by_cases h2 : n = a
            · subst h2; simp
            · have : ¬ a < n + 1 := by omega
              simp [h1, h2, this]
      rw [hz]
      have hc : List.count a (l.map (fun i => i.space.toNat)) = l.countP (fun i => decide (i.space = (a : Int))) := by
        rw [List.count, List.countP_map]
        apply List.countP_congr
        intro i hi
        have := hr i hi
        simp only [Function.comp, beq_iff_eq, decide_eq_true_eq]
        omega
      rw [hc]
      split
      · rfl
      · rw [List.countP_eq_zero]
        intro i hi
        have := hr i hi
        simp only [decide_eq_true_eq]
        omega
  have h2 : l.map (labelOf o) = (l.map (fun i => i.space.toNat)).map (fun s => ((o.spaces[s]?).map (·.label)).getD ' ') := by
    rw [List.map_map]; rfl
  rw [h2, h1, List.map_flatMap]
  unfold repeatLabels
  have h3 : o.spaces.zipIdx = (List.range o.spaces.length).map (fun s => ((o.spaces[s]?).getD ⟨' ', .fermion, .occupied, [], []⟩, s)) := by
    apply List.ext_getElem
    · simp
    · intro n h1 h2
      simp at h1 h2 ⊢
      simp [h1]
  rw [h3, List.flatMap_map]
  apply List.flatMap_congr
  intro s hs
  rw [List.map_replicate]
  have := List.mem_range.1 hs
  simp [this]

theorem index_not_lt {i j : Index} (h : lt i j = false) : j.space ≤ i.space := by
  have h : Index.lt i j = false := h
  unfold Index.lt at h
  by_contra hc
  simp at h
  omega

theorem sorted_blocks {t : STerm} (hs : t.ops.Pairwise (fun a b => SQOp.ltB b a = false)) :
    (t.ops.filter (·.isCre)).Pairwise (fun a b => a.index.space ≤ b.index.space) ∧
      (t.ops.filter (fun a => !a.isCre)).Pairwise (fun a b => b.index.space ≤ a.index.space) := by
  constructor
  · rw [List.pairwise_filter]
    refine hs.imp ?_
    intro a b hab ha hb
    unfold SQOp.ltB at hab
    rw [ha, hb] at hab
    exact index_not_lt (by simpa using hab)
  · rw [List.pairwise_filter]
    refine hs.imp ?_
    intro a b hab ha hb
    simp only [Bool.not_eq_true'] at ha hb
    unfold SQOp.ltB at hab
    rw [ha, hb] at hab
    exact index_not_lt (by simpa using hab)

/-- the spaces in the key of a term with sorted operators are those of the indices of the tensor on the left -/
theorem key_labels {o : OSI} (hbar : ∀ s ∈ o.spaces, s.label ≠ '|') (label : Str) {t : STerm} (hcr : (t.ops.filter (·.isCre)).Pairwise (fun a b => a.index.space ≤ b.index.space))
    (han : (t.ops.filter (fun a => !a.isCre)).Pairwise (fun a b => b.index.space ≤ a.index.space)) (hr : OpsRegistered o t) :
    keyUpper (manybodyKey o t) = (lhsOf label t).upper.map (labelOf o) ∧ keyLower (manybodyKey o t) = (lhsOf label t).lower.map (labelOf o) := by
  have hn : ∀ n, '|' ∉ repeatLabels o n := fun n hm => by
    obtain ⟨x, hx, hc⟩ := mem_repeatLabels hm
    exact hbar x hx hc
  have hb : breakOn ['|'] (manybodyKey o t) = some (repeatLabels o (opCount t false), (repeatLabels o (opCount t true)).reverse) := by
    have := breakOn_app (c0 := '|') (sep := []) (a := repeatLabels o (opCount t false)) (b := (repeatLabels o (opCount t true)).reverse) (hn _)
    rw [List.append_assoc] at this
    exact this
  have hu : (lhsOf label t).upper.map (labelOf o) = repeatLabels o (opCount t false) := by
    rw [sorted_spaces]
    · congr 1
      funext s
      unfold opCount lhsOf
      dsimp only
      rw [List.countP_reverse, List.countP_map, List.countP_filter]
      apply List.countP_congr
      intro a _
      simp only [Function.comp, Bool.and_eq_true, decide_eq_true_eq]
      cases a.isCre <;> simp
    · show List.Pairwise _ (List.reverse _)
      rw [List.pairwise_reverse, List.pairwise_map]
      exact han
    · intro i hi
      obtain ⟨a, ha, rfl⟩ := List.mem_map.1 (List.mem_reverse.1 hi)
      exact hr a (List.mem_filter.1 ha).1
  have hl : (lhsOf label t).lower.map (labelOf o) = repeatLabels o (opCount t true) := by
    rw [sorted_spaces]
    · congr 1
      funext s
      unfold opCount lhsOf
      dsimp only
      rw [List.countP_map, List.countP_filter]
      apply List.countP_congr
      intro a _
      simp only [Function.comp, Bool.and_eq_true, decide_eq_true_eq]
      cases a.isCre <;> simp
    · show List.Pairwise _ (List.map _ _)
      rw [List.pairwise_map]
      exact hcr
    · intro i hi
      obtain ⟨a, ha, rfl⟩ := List.mem_map.1 hi
      exact hr a (List.mem_filter.1 ha).1
  unfold keyUpper keyLower
  rw [hb, hu, hl]
  simp

section
variable {Ω R A : Type} [Inhabited Ω] [DecidableEq Ω] [CommRing R] [Ring A] [Algebra R A]

theorem labelOf_dom {o : OSI} {v : OrbSystem Ω R A} {dom : Char → Finset Ω} (hd : ∀ (n : Nat) s, o.spaces[n]? = some s → dom s.label = v.dom n)
    {i : Index} (h0 : 0 ≤ i.space) (h1 : i.space < o.spaces.length) : dom (labelOf o i) = v.dom i.space := by
  have hlt : i.space.toNat < o.spaces.length := by omega
  have := hd i.space.toNat _ (List.getElem?_eq_getElem hlt)
  unfold labelOf
  rw [List.getElem?_eq_getElem hlt]
  simp only [Option.map_some, Option.getD_some]
  rw [this]
  congr 1
  omega

/-- the operator of an equation is that of the array of its elements, filed under its key -/
theorem operatorValue_key {o : OSI} (hbar : ∀ s ∈ o.spaces, s.label ≠ '|') (label : Str) {t : STerm} (hcr : (t.ops.filter (·.isCre)).Pairwise (fun a b => a.index.space ≤ b.index.space))
    (han : (t.ops.filter (fun a => !a.isCre)).Pairwise (fun a b => b.index.space ≤ a.index.space)) (hr : OpsRegistered o t) (hnd : ((lhsOf label t).upper ++ (lhsOf label t).lower).Nodup) {v : OrbSystem Ω R A} {dom : Char → Finset Ω}
    (hd : ∀ (n : Nat) s, o.spaces[n]? = some s → dom s.label = v.dom n) (N : List (SQType × Ω) → A) (q : Equation) :
    q.operatorValue v N (lhsOf label t) = keyOperator dom N (manybodyKey o t) (fun x => q.element v (lhsOf label t) x) := by
  obtain ⟨hu, hl⟩ := key_labels hbar label hcr han hr
  unfold keyOperator Equation.operatorValue
  have hdom : ∀ l : List Index, (∀ i ∈ l, ∃ a ∈ t.ops, a.index = i) → (l.map (labelOf o)).map dom = l.map (fun i => v.dom i.space) := by
    intro l hl
    rw [List.map_map]
    apply List.map_congr_left
    intro i hi
    obtain ⟨a, ha, rfl⟩ := hl i hi
    exact labelOf_dom hd (hr a ha).1 (hr a ha).2
  rw [hu, hl, hdom _ (fun i hi => by
      obtain ⟨a, ha, rfl⟩ := List.mem_map.1 (List.mem_reverse.1 hi)
      exact ⟨a, (List.mem_filter.1 ha).1, rfl⟩), hdom _ (fun i hi => by
      obtain ⟨a, ha, rfl⟩ := List.mem_map.1 hi
      exact ⟨a, (List.mem_filter.1 ha).1, rfl⟩)]
  have key := sumOver_tuples ((lhsOf label t).upper ++ (lhsOf label t).lower) hnd (fun i : Index => v.dom i.space)
    (fun x => q.element v (lhsOf label t) x • N ((x.drop (lhsOf label t).upper.length).map (fun y => (SQType.creation, y)) ++
        (x.take (lhsOf label t).upper.length).reverse.map (fun y => (SQType.annihilation, y))))
  refine Eq.trans ?_ (key.trans ?_)
  · congr 1
    funext σ
    congr 2
    rw [List.map_append, List.drop_left' (by simp), List.take_left' (by simp)]
    simp [Function.comp_def]
  rw [List.map_append, sumTuples_append]
  apply sumTuples_congr
  intro u hu
  apply sumTuples_congr
  intro l hl
  rw [List.length_map] at hu
  rw [List.drop_left' hu, List.take_left' hu]

theorem keyOperator_add (dom : Char → Finset Ω) (N : List (SQType × Ω) → A) (key : Str) (r r' : List Ω → R) :
    keyOperator dom N key (fun x => r x + r' x) = keyOperator dom N key r + keyOperator dom N key r' := by
  unfold keyOperator
  simp only [add_smul, sumTuples_add]

theorem keyOperator_zero (dom : Char → Finset Ω) (N : List (SQType × Ω) → A) (key : Str) :
    keyOperator dom N key (fun _ => (0 : R)) = 0 := by
  unfold keyOperator
  simp only [zero_smul, sumTuples_zero]

theorem keyOperator_smul [Algebra ℚ R] [Algebra ℚ A] [IsScalarTower ℚ R A] (c : ℚ) (dom : Char → Finset Ω) (N : List (SQType × Ω) → A) (key : Str) (r : List Ω → R) :
    keyOperator dom N key (fun x => algebraMap ℚ R c * r x) = c • keyOperator dom N key r := by
  unfold keyOperator
  simp only [mul_smul, algebraMap_smul, sumTuples_smul]

theorem keyOperator_sum {α : Type} (dom : Char → Finset Ω) (N : List (SQType × Ω) → A) (key : Str) (l : List α) (r : α → List Ω → R) :
    keyOperator dom N key (fun x => (l.map (fun a => r a x)).sum) = (l.map (fun a => keyOperator dom N key (r a))).sum := by
  induction l with
  | nil => simp [keyOperator_zero]
  | cons a l ih =>
    simp only [List.map_cons, List.sum_cons]
    rw [keyOperator_add, ih]

theorem lhs_nodup {t : STerm} (label : Str) (hc : t.ops = t.ops.filter (·.isCre) ++ t.ops.filter (fun a => !a.isCre)) (hn : (t.ops.map SQOp.index).Nodup) :
    ((lhsOf label t).upper ++ (lhsOf label t).lower).Nodup := by
  have : ((lhsOf label t).upper ++ (lhsOf label t).lower).Perm (t.ops.map SQOp.index) := by
    conv_rhs => rw [hc, List.map_append]
    exact ((List.reverse_perm _).append_right _).trans List.perm_append_comm
  exact this.nodup_iff.2 hn

theorem einsumIndices_allIdx (label : Str) (t : STerm) (c : Rational) (i : Index) :
    i ∈ einsumIndices (lhsOf label t) (manybodyEquation label t c) ↔ i ∈ t.allIdx := by
  have hops : i ∈ t.ops.map SQOp.index ↔ i ∈ (lhsOf label t).upper ++ (lhsOf label t).lower := by
    show _ ↔ i ∈ ((t.ops.filter (fun a => !a.isCre)).map (·.index)).reverse ++ (t.ops.filter (·.isCre)).map (·.index)
    simp only [List.mem_append, List.mem_reverse, List.mem_map, List.mem_filter]
    constructor
    · rintro ⟨a, ha, rfl⟩
      cases h : a.isCre
      · left; exact ⟨a, ⟨ha, by simp [h]⟩, rfl⟩
      · right; exact ⟨a, ⟨ha, h⟩, rfl⟩
    · rintro (⟨a, ha, rfl⟩ | ⟨a, ha, rfl⟩) <;> exact ⟨a, ha.1, rfl⟩
  simp only [einsumIndices, STerm.allIdx, List.mem_append, List.mem_flatMap] at hops ⊢
  rw [hops]
  constructor
  · rintro (⟨y, hy, hi⟩ | hi)
    · right; exact ⟨y, hy, hi.symm⟩
    · left; exact hi
  · rintro (hi | ⟨y, hy, hi⟩)
    · right; exact hi
    · left; exact ⟨y, hy, hi.symm⟩

theorem spaceText_key {o : OSI} (hbar : ∀ s ∈ o.spaces, s.label ≠ '|') (label : Str) {t : STerm} (hC : t.Compilable o) (hr : OpsRegistered o t) :
    spaceText o (lhsOf label t) = keyUpper (manybodyKey o t) ++ keyLower (manybodyKey o t) := by
  obtain ⟨h1, h2⟩ := key_labels hbar label hC.cre hC.ann hr
  rw [h1, h2, ← List.map_append]
  rfl

/-- running the lines of terms that share a target adds up the elements of their equations -/
theorem runs_lines [Algebra ℚ R] {o : OSI} {fmt : Rational → Str} {label : Str} {v : OrbSystem Ω R A} {arr : Str → Str → List Ω → R} {dom : Char → Finset Ω}
    (val : Rational → ℚ) (target : Str) (l : Expr) (hl : ∀ p ∈ l, ∃ text L, (manybodyEquation label p.1 p.2).compileEinsum o fmt = .ok text ∧ readEinsum text = some L ∧
      L.target = target ∧ L.Accepted ∧ decimalVal L.factor = some (val p.2) ∧ ∀ x, L.element arr dom x = (manybodyEquation label p.1 p.2).element v (lhsOf label p.1) x) :
    ∃ lines, (l.map (fun p => manybodyEquation label p.1 p.2)).mapM (m := Except Fault) (fun q => q.compileEinsum o fmt) = .ok lines ∧
      ∀ s, Runs arr dom lines s (fun name x => if name = target then
        s name x + (l.map (fun p => algebraMap ℚ R (val p.2) * (manybodyEquation label p.1 p.2).element v (lhsOf label p.1) x)).sum else s name x) := by
  induction l with
  | nil => exact ⟨[], rfl, fun s => by funext name x; simp⟩
  | cons p l ih =>
    obtain ⟨lines, h1, h2⟩ := ih (fun q hq => hl q (by simp [hq]))
    obtain ⟨text, L, hc, hr, ht, ha, hf, he⟩ := hl p (by simp)
    refine ⟨text :: lines, ?_, fun s => ?_⟩
    · rw [List.map_cons, List.mapM_cons, hc, h1]; rfl
    · refine ⟨L, val p.2, hr, ha, hf, ?_⟩
      have := h2 (fun name x => if name = L.target then s name x + algebraMap ℚ R (val p.2) * L.element arr dom x else s name x)
      convert this using 1
      funext name x
      by_cases hn : name = target
      · simp only [hn, ht, if_true, List.map_cons, List.sum_cons, he, add_assoc]
      · simp [hn, ht]

/-- a coefficient whose denominator divides `10^9` is printed exactly -/
theorem litVal_exact {fmt : Rational → Str} (hfmt : PrintsNine fmt) {c : Rational} (hc : Canon c) (hd : c.den ∣ 10 ^ 9) : litVal fmt c = toRat c := by
  obtain ⟨hfix, x, hx, hclose⟩ := hfmt c hc
  unfold litVal
  rw [hx]
  exact (C61_exact_factor_iff hfix hc hx hclose).2 hd

/-- the arrays that hold, for every key, the sum over its equations of a number `val c` depending on the coefficient `c` times the contraction, stand for the expression with the coefficients `val c` -/
theorem manybody_arrays_value [Algebra ℚ R] [Algebra ℚ A] [IsScalarTower ℚ R A] {o : OSI} (hbar : ∀ s ∈ o.spaces, s.label ≠ '|') {label : Str} {e : Expr} (hC : ∀ p ∈ e, p.1.Compilable o)
    (hreg : ∀ p ∈ e, OpsRegistered o p.1) (val : Rational → ℚ) (v : OrbSystem Ω R A) (dom : Char → Finset Ω) (N : List (SQType × Ω) → A)
    (hdom : ∀ (n : Nat) s, o.spaces[n]? = some s → dom s.label = v.dom n) {m} (hm : e.toManybody o label = .ok m) :
    (m.map (fun q => keyOperator dom N q.1 (fun x => (q.2.map (fun eq => algebraMap ℚ R (val eq.factor) * (eq.lhs.tensors.map (fun t => eq.element v t x)).sum)).sum))).sum =
      (e.map (fun p => val p.2 • v.valueWith N p.1)).sum := by
  obtain ⟨m', hm', hnd, hk, hq, hperm⟩ := C55_partition label hreg
  rw [hm] at hm'
  cases hm'
  have hv : (e.map (fun p => val p.2 • v.valueWith N p.1)).sum =
      ((m.flatMap Prod.snd).map (fun q => val q.factor • (q.lhs.tensors.map (fun t => q.operatorValue v N t)).sum)).sum := by
    rw [(hperm.map _).sum_eq, List.map_map]
    congr 1
    apply List.map_congr_left
    intro p hp
    show _ = val p.2 • ((manybodyEquation label p.1 p.2).operatorValue v N (lhsOf label p.1) + 0)
    rw [add_zero, termEquation_value v N label p.1 p.2 (hC p hp).creFirst]
  rw [hv, List.map_flatMap, List.flatMap, List.sum_flatten, List.map_map]
  congr 1
  apply List.map_congr_left
  intro q hqm
  rw [keyOperator_sum]
  simp only [Function.comp]
  rw [hq q hqm, List.map_map, List.map_map]
  congr 1
  apply List.map_congr_left
  intro p hp
  obtain ⟨hp, hpk⟩ := List.mem_filter.1 hp
  have hpk := of_decide_eq_true hpk
  show keyOperator dom N q.1 (fun x => algebraMap ℚ R (val p.2) * ((manybodyEquation label p.1 p.2).element v (lhsOf label p.1) x + 0)) =
    val p.2 • ((manybodyEquation label p.1 p.2).operatorValue v N (lhsOf label p.1) + 0)
  simp only [add_zero]
  rw [keyOperator_smul, operatorValue_key hbar label (hC p hp).cre (hC p hp).ann (hreg p hp) (lhs_nodup label (hC p hp).creFirst (hC p hp).own) hdom N, hpk]

/-- **C78**, for arbitrary coefficients: after any history of registry calls (index names as in C13, letters as space labels), for every expression of terms that
can be compiled, every label of letters, digits and underscores and every printer with nine decimals: `to_manybody_equation` succeeds; for every
key all its equations compile, and the Python program made of their lines, run from zero arrays, changes only one variable, named after the label and the spaces of the key,
and leaves in it the sum over the equations of the key of the printed literal times the contraction that the equation denotes. The sum over the keys of the operators that these arrays stand for is
the expression with every coefficient replaced by the number printed for it, which differs from it by less than `10^-9` -- for all
orbitals, all tensors stored under the names used by the program, and every way `N` to multiply operators. -/
theorem C78_program_rounded [Algebra ℚ R] [Algebra ℚ A] [IsScalarTower ℚ R A] (hist : List RegOp) {fmt : Rational → Str} {label : Str} {e : Expr} :
    let o := runReg OSI.empty hist
    (∀ s ∈ o.spaces, ∀ name ∈ s.indices, ∀ (c : Char) (n : Int), name ≠ c :: '_' :: '{' :: (intStr n ++ ['}'])) →
    (∀ s ∈ o.spaces, isAlpha s.label = true) → (∀ c ∈ label, isWord c = true) → PrintsNine fmt →
    (∀ p ∈ e, p.1.Compilable o) → (∀ p ∈ e, Canon p.2) →
    ∀ (v : OrbSystem Ω R A) (arr : Str → Str → List Ω → R) (dom : Char → Finset Ω) (N : List (SQType × Ω) → A),
    (∀ p ∈ e, ∀ y ∈ p.1.tensors, ∀ l u, l.length = y.lower.length → u.length = y.upper.length → arr y.label (spaceText o y) (u ++ l) = v.T y.label l u) →
    (∀ (n : Nat) s, o.spaces[n]? = some s → dom s.label = v.dom n) →
    (∀ p ∈ e, |litVal fmt p.2 - toRat p.2| < 1 / 10 ^ 9) ∧
    ∃ m, e.toManybody o label = .ok m ∧ ∃ arrays : Str → List Ω → R,
      (∀ q ∈ m, (∃ lines, q.2.mapM (m := Except Fault) (fun q => q.compileEinsum o fmt) = .ok lines ∧
        Runs arr dom lines (fun _ _ => 0) (fun name x => if name = label ++ keyUpper q.1 ++ keyLower q.1 then arrays q.1 x else 0)) ∧
        ∀ x, arrays q.1 x = (q.2.map (fun eq => algebraMap ℚ R (litVal fmt eq.factor) * (eq.lhs.tensors.map (fun t => eq.element v t x)).sum)).sum) ∧
      (m.map (fun q => keyOperator dom N q.1 (arrays q.1))).sum = (e.map (fun p => litVal fmt p.2 • v.valueWith N p.1)).sum := by
  intro o hgen hal hlab hfmt hC hcoef v arr dom N harr hdom
  have hbar : ∀ s ∈ o.spaces, s.label ≠ '|' := fun s hs h => absurd (hal s hs) (by rw [h]; decide)
  have hreg : ∀ p ∈ e, OpsRegistered o p.1 := by
    intro p hp a ha
    have := (hC p hp).registered a.index (List.mem_append_left _ (List.mem_map_of_mem ha))
    unfold Index.Registered at this
    unfold OSI.numSpaces
    omega
  obtain ⟨m, hm, hnd, hk, hq, hperm⟩ := C55_partition label hreg
  refine ⟨?_, m, hm, fun key x => ((e.filter (fun p => decide (manybodyKey o p.1 = key))).map (fun p =>
    algebraMap ℚ R (litVal fmt p.2) * (manybodyEquation label p.1 p.2).element v (lhsOf label p.1) x)).sum, ?_, ?_⟩
  · intro p hp
    obtain ⟨_, x, hx, h⟩ := hfmt p.2 (hcoef p hp)
    unfold litVal
    rw [hx]; exact h
  · intro q hqm
    have key : ∀ p ∈ e.filter (fun p => decide (manybodyKey o p.1 = q.1)), ∃ text L, (manybodyEquation label p.1 p.2).compileEinsum o fmt = .ok text ∧ readEinsum text = some L ∧
        L.target = label ++ keyUpper q.1 ++ keyLower q.1 ∧ L.Accepted ∧ decimalVal L.factor = some (litVal fmt p.2) ∧
        ∀ x, L.element arr dom x = (manybodyEquation label p.1 p.2).element v (lhsOf label p.1) x := by
      intro p hp
      obtain ⟨hp, hpk⟩ := List.mem_filter.1 hp
      have hpk := of_decide_eq_true hpk
      have hCp := hC p hp
      obtain ⟨text, L, h1, h2, h3, h4, h5, h6⟩ := C61_einsum_computes_partial hist fmt (manybodyEquation label p.1 p.2) (lhsOf label p.1) [] hgen hal rfl
        (fun i hi => hCp.registered i ((einsumIndices_allIdx label p.1 p.2 i).1 hi))
        (by
          rw [show (einsumIndices (lhsOf label p.1) (manybodyEquation label p.1 p.2)).toFinset = p.1.allIdx.toFinset from by
            ext i; rw [List.mem_toFinset, List.mem_toFinset]; exact einsumIndices_allIdx label p.1 p.2 i]
          exact hCp.letters)
        (by
          intro y hy
          rcases List.mem_cons.1 hy with rfl | hy
          · exact hlab
          · exact hCp.words y hy)
        hCp.some (lhs_nodup label hCp.creFirst hCp.own)
        (by
          intro i hi
          have : ∃ a ∈ p.1.ops, a.index = i := by
            rcases List.mem_append.1 hi with hi | hi
            · obtain ⟨a, ha, rfl⟩ := List.mem_map.1 (List.mem_reverse.1 hi)
              exact ⟨a, (List.mem_filter.1 ha).1, rfl⟩
            · obtain ⟨a, ha, rfl⟩ := List.mem_map.1 hi
              exact ⟨a, (List.mem_filter.1 ha).1, rfl⟩
          obtain ⟨a, ha, rfl⟩ := this
          exact hCp.covered a ha)
        (by
          obtain ⟨⟨a, b, hab, _, _, ha, hb⟩, _⟩ := hfmt p.2 (hcoef p hp)
          intro hsp
          have hd : ∀ s : Str, (∀ x ∈ s, isDigit x = true) → ' ' ∉ s := fun s hs h => absurd (hs _ h) (by decide)
          have hsp : ' ' ∈ fmt p.2 := hsp
          rcases hab with hab | hab
          · rw [hab] at hsp
            simp at hsp
            rcases hsp with h | h
            · exact hd a ha h
            · exact hd b hb h
          · rw [hab] at hsp
            simp at hsp
            rcases hsp with h | h
            · exact hd a ha h
            · exact hd b hb h)
      refine ⟨text, L, h1, h2, ?_, h5, ?_, fun x => h6 v arr dom ⟨fun y hy => harr p hp y hy, hdom⟩ x⟩
      · rw [h3, ← hpk, List.append_assoc, ← spaceText_key hbar label hCp (hreg p hp)]
        rfl
      · obtain ⟨_, x, hx, _⟩ := hfmt p.2 (hcoef p hp)
        rw [h4]
        show decimalVal (fmt p.2) = some (litVal fmt p.2)
        unfold litVal
        rw [hx]; rfl
    obtain ⟨lines, hl, hr⟩ := runs_lines (litVal fmt) _ _ key
    refine ⟨⟨lines, by rw [hq q hqm]; exact hl, ?_⟩, fun x => ?_⟩
    · have := hr (fun _ _ => 0)
      simpa only [zero_add] using this
    · rw [hq q hqm, List.map_map]
      show List.sum _ = List.sum _
      congr 1
      apply List.map_congr_left
      intro p hp
      show _ = algebraMap ℚ R (litVal fmt p.2) * ((manybodyEquation label p.1 p.2).element v (lhsOf label p.1) x + 0)
      rw [add_zero]
  · have hv : (e.map (fun p => litVal fmt p.2 • v.valueWith N p.1)).sum =
        ((m.flatMap Prod.snd).map (fun q => litVal fmt q.factor • (q.lhs.tensors.map (fun t => q.operatorValue v N t)).sum)).sum := by
      rw [(hperm.map _).sum_eq, List.map_map]
      congr 1
      apply List.map_congr_left
      intro p hp
      show _ = litVal fmt p.2 • ((manybodyEquation label p.1 p.2).operatorValue v N (lhsOf label p.1) + 0)
      rw [add_zero, termEquation_value v N label p.1 p.2 (hC p hp).creFirst]
    rw [hv]
    rw [List.map_flatMap, List.flatMap, List.sum_flatten, List.map_map]
    congr 1
    apply List.map_congr_left
    intro q hqm
    rw [keyOperator_sum]
    simp only [Function.comp]
    rw [hq q hqm, List.map_map]
    congr 1
    apply List.map_congr_left
    intro p hp
    obtain ⟨hp, hpk⟩ := List.mem_filter.1 hp
    have hpk := of_decide_eq_true hpk
    rw [keyOperator_smul]
    show _ = litVal fmt p.2 • ((manybodyEquation label p.1 p.2).operatorValue v N (lhsOf label p.1) + 0)
    rw [add_zero, operatorValue_key hbar label (hC p hp).cre (hC p hp).ann (hreg p hp) (lhs_nodup label (hC p hp).creFirst (hC p hp).own) hdom N, hpk]

/-- **C78**: after any history of registry calls (index names as in C13, letters as space labels), for every expression of terms that can be
compiled, every label of letters, digits and underscores and every printer with nine decimals; if the denominators of the coefficients
divide `10^9` (so that the literals are exact, C61): `to_manybody_equation` succeeds; for every key all its equations compile, and the Python program made
of their lines, run from zero arrays in which only the variables are present that it uses, changes only one variable, named after the label and the spaces of the key; and the sum over the keys of
the operators that these arrays stand for is the expression -- for all orbitals, all tensors stored under the names used by the program, and
every way `N` to multiply operators. Missing with respect to the full claim: coefficients that are not a multiple of `10^-9` (`C61_rounded_factor`). -/
theorem C78_program_partial [Algebra ℚ R] [Algebra ℚ A] [IsScalarTower ℚ R A] (hist : List RegOp) {fmt : Rational → Str} {label : Str} {e : Expr} :
    let o := runReg OSI.empty hist
    (∀ s ∈ o.spaces, ∀ name ∈ s.indices, ∀ (c : Char) (n : Int), name ≠ c :: '_' :: '{' :: (intStr n ++ ['}'])) →
    (∀ s ∈ o.spaces, isAlpha s.label = true) → (∀ c ∈ label, isWord c = true) → PrintsNine fmt →
    (∀ p ∈ e, p.1.Compilable o) → (∀ p ∈ e, Canon p.2 ∧ p.2.den ∣ 10 ^ 9) →
    ∀ (v : OrbSystem Ω R A) (arr : Str → Str → List Ω → R) (dom : Char → Finset Ω) (N : List (SQType × Ω) → A),
    (∀ p ∈ e, ∀ y ∈ p.1.tensors, ∀ l u, l.length = y.lower.length → u.length = y.upper.length → arr y.label (spaceText o y) (u ++ l) = v.T y.label l u) →
    (∀ (n : Nat) s, o.spaces[n]? = some s → dom s.label = v.dom n) →
    ∃ m, e.toManybody o label = .ok m ∧ ∃ arrays : Str → List Ω → R,
      (∀ q ∈ m, ∃ lines, q.2.mapM (m := Except Fault) (fun q => q.compileEinsum o fmt) = .ok lines ∧
        Runs arr dom lines (fun _ _ => 0) (fun name x => if name = label ++ keyUpper q.1 ++ keyLower q.1 then arrays q.1 x else 0)) ∧
      (m.map (fun q => keyOperator dom N q.1 (arrays q.1))).sum = Lin.eval (v.valueWith N) e := by
  intro o hgen hal hlab hfmt hC hcoef v arr dom N harr hdom
  obtain ⟨_, m, hm, arrays, h1, h2⟩ := C78_program_rounded hist hgen hal hlab hfmt hC (fun p hp => (hcoef p hp).1) v arr dom N harr hdom
  refine ⟨m, hm, arrays, fun q hq => (h1 q hq).1, ?_⟩
  rw [h2]
  unfold Lin.eval
  congr 1
  apply List.map_congr_left
  intro p hp
  rw [litVal_exact hfmt (hcoef p hp).1 (hcoef p hp).2]

/-- a sum with coefficients that are off by less than `ε` -/
theorem abv_rounded_sum {S ι : Type} [Field S] [LinearOrder S] [IsStrictOrderedRing S] [Algebra ℚ R] (abv : AbsoluteValue R S)
    (habv : ∀ c : ℚ, abv (algebraMap ℚ R c) = ((|c| : ℚ) : S)) {ε : ℚ} (l : List ι) (c c' : ι → ℚ) (h : ∀ i ∈ l, |c' i - c i| < ε) (x : ι → R) :
    abv ((l.map (fun i => algebraMap ℚ R (c' i) * x i)).sum - (l.map (fun i => algebraMap ℚ R (c i) * x i)).sum) ≤ (ε : S) * (l.map (fun i => abv (x i))).sum := by
  induction l with
  | nil => simp
  | cons a l ih =>
    have ih := ih (fun i hi => h i (by simp [hi]))
    simp only [List.map_cons, List.sum_cons, mul_add]
    have h1 : algebraMap ℚ R (c' a) * x a + (l.map (fun i => algebraMap ℚ R (c' i) * x i)).sum - (algebraMap ℚ R (c a) * x a + (l.map (fun i => algebraMap ℚ R (c i) * x i)).sum) =
        algebraMap ℚ R (c' a - c a) * x a + ((l.map (fun i => algebraMap ℚ R (c' i) * x i)).sum - (l.map (fun i => algebraMap ℚ R (c i) * x i)).sum) := by
      rw [map_sub]; ring
    rw [h1]
    refine (abv.add_le _ _).trans (add_le_add ?_ ih)
    rw [abv.map_mul, habv]
    apply mul_le_mul_of_nonneg_right _ (abv.nonneg _)
    exact_mod_cast (h a (by simp)).le

/-- **C78**, the error of the program: under the hypotheses of `C78_program_rounded`, for arrays of numbers with an absolute value (real or complex
numbers): every element of every array that the program computes differs from what the equations of its key say by at most `10^-9` times the sum of
the absolute values of the contractions of these equations. -/
theorem C78_program_error {S : Type} [Field S] [LinearOrder S] [IsStrictOrderedRing S] [Algebra ℚ R] (abv : AbsoluteValue R S)
    (habv : ∀ c : ℚ, abv (algebraMap ℚ R c) = ((|c| : ℚ) : S)) (hist : List RegOp) {fmt : Rational → Str} {label : Str} {e : Expr} :
    let o := runReg OSI.empty hist
    (∀ s ∈ o.spaces, ∀ name ∈ s.indices, ∀ (c : Char) (n : Int), name ≠ c :: '_' :: '{' :: (intStr n ++ ['}'])) →
    (∀ s ∈ o.spaces, isAlpha s.label = true) → (∀ c ∈ label, isWord c = true) → PrintsNine fmt →
    (∀ p ∈ e, p.1.Compilable o) → (∀ p ∈ e, Canon p.2) →
    ∀ (v : OrbSystem Ω R A) (arr : Str → Str → List Ω → R) (dom : Char → Finset Ω),
    (∀ p ∈ e, ∀ y ∈ p.1.tensors, ∀ l u, l.length = y.lower.length → u.length = y.upper.length → arr y.label (spaceText o y) (u ++ l) = v.T y.label l u) →
    (∀ (n : Nat) s, o.spaces[n]? = some s → dom s.label = v.dom n) →
    ∃ m, e.toManybody o label = .ok m ∧ ∀ q ∈ m, ∃ (lines : List Str) (array : List Ω → R), q.2.mapM (m := Except Fault) (fun q => q.compileEinsum o fmt) = .ok lines ∧
        Runs arr dom lines (fun _ _ => 0) (fun name x => if name = label ++ keyUpper q.1 ++ keyLower q.1 then array x else 0) ∧
        ∀ x, abv (array x - (q.2.map (fun eq => algebraMap ℚ R (toRat eq.factor) * (eq.lhs.tensors.map (fun t => eq.element v t x)).sum)).sum) ≤
          1 / 10 ^ 9 * (q.2.map (fun eq => abv (eq.lhs.tensors.map (fun t => eq.element v t x)).sum)).sum := by
  intro o hgen hal hlab hfmt hC hcoef v arr dom harr hdom
  have hreg : ∀ p ∈ e, OpsRegistered o p.1 := by
    intro p hp a ha
    have := (hC p hp).registered a.index (List.mem_append_left _ (List.mem_map_of_mem ha))
    unfold Index.Registered at this
    unfold OSI.numSpaces
    omega
  obtain ⟨m, hm, _, _, hq, _⟩ := C55_partition label hreg
  obtain ⟨hclose, m', hm', arrays, h1, _⟩ := C78_program_rounded hist hgen hal hlab hfmt hC hcoef
    (⟨v.dom, v.T, fun _ _ => 0⟩ : OrbSystem Ω R R) arr dom (fun _ => (0 : R)) harr hdom
  rw [hm] at hm'
  cases hm'
  refine ⟨m, hm, fun q hqm => ?_⟩
  obtain ⟨⟨lines, hl, hr⟩, hx⟩ := h1 q hqm
  refine ⟨lines, arrays q.1, hl, hr, fun x => ?_⟩
  rw [hx x]
  have := abv_rounded_sum abv habv (ε := 1 / 10 ^ 9) q.2 (fun eq => toRat eq.factor) (fun eq => litVal fmt eq.factor) (by
    intro eq he
    rw [hq q hqm] at he
    obtain ⟨p, hp, rfl⟩ := List.mem_map.1 he
    exact hclose p (List.mem_filter.1 hp).1) (fun eq => (eq.lhs.tensors.map (fun t => eq.element v t x)).sum)
  have h9 : (((1 / 10 ^ 9 : ℚ)) : S) = 1 / 10 ^ 9 := by push_cast; rfl
  rw [h9] at this
  exact this
end

/-! ## the terms of `contract` can be compiled -/

namespace Wick
theorem layTensors_labels (ns : Nat) (I : Slot → Index) (k : Nat) (ops : OperatorProduct) :
    (layTensors ns I k ops).map Tensor.label = ops.map Operator.label := by
  induction ops generalizing k with
  | nil => rfl
  | cons p ops ih => simp [layTensors, ih]

theorem bTensors_labels (o : OSI) (L : List Slot) (I : Slot → Index) (b : Block) : ∀ y ∈ bTensors o L I b, IsDensityLabel y.label := by
  intro y hy
  unfold bTensors at hy
  split at hy
  · rw [List.mem_singleton] at hy
    subst hy
    split
    · split
      · exact Or.inl rfl
      · exact Or.inr (Or.inl rfl)
    · exact Or.inr (Or.inr ⟨_, rfl⟩)
  · simp at hy

theorem canonicalize_labels {o : OSI} {t t' : STerm} {f : Rational} (h : t.canonicalize o = .ok (t', f)) :
    (t'.tensors.map Tensor.label).Perm (t.tensors.map Tensor.label) := by
  obtain ⟨ρ, tensors, ts, hs⟩ := canonicalize_shape h
  obtain ⟨_, _, l, hl, hF⟩ := canonicalize_renamed hs
  have h1 : t'.tensors.map Tensor.label = l.map Tensor.label := by
    clear hl hs
    generalize t'.tensors = l' at hF
    induction hF with
    | nil => rfl
    | cons h _ ih => rw [List.map_cons, List.map_cons, h.1, ih]
  rw [h1]
  refine (hl.map Tensor.label).trans (List.Perm.of_eq ?_)
  simp [STerm.subst, Function.comp_def]

/-- **C49** (tensors): for all operators and ranks, every term returned by `contract` has exactly one tensor for every operator of the
product, with its label; all other tensors are densities and cumulants. -/
theorem C49_one_tensor_per_operator {o : OSI} {cfg : WickCfg} {ops : OperatorProduct} (h8 : o.spaces.length ≤ 8)
    (hv : ∀ p ∈ ops, p.Valid o.spaces.length) {f : Rational} (hf : Canon f) {minr maxr : Int} {e : Expr}
    (h : contract o cfg f ops minr maxr = .ok e) {p : STerm × Rational} (hp : p ∈ e) :
    ∃ extra : List Str, (∀ s ∈ extra, IsDensityLabel s) ∧ (p.1.tensors.map Tensor.label).Perm (ops.map Operator.label ++ extra) := by
  obtain ⟨el, L, hel, hL, hn, hm, rs, hrs, rfl⟩ := contract_inv h8 hv hf h
  refine Lin.mem_fold_add (fun k : STerm => ∃ extra : List Str, (∀ s ∈ extra, IsDensityLabel s) ∧ (k.tensors.map Tensor.label).Perm (ops.map Operator.label ++ extra))
    Prod.fst (fun r => Rational.mul f r.2) rs [] (by simp) ?_ p hp
  intro r hr
  obtain ⟨cv, hcv, hpo⟩ := forall₂_right ((mapM_ok_iff _ _ _).1 hrs) r hr
  have hc := (hm cv).1 hcv
  have hE := composite_evalList h8 hv hel hc
  obtain ⟨⟨gp, gc⟩, s, hA, hs, hE', hl, hpr⟩ := processOne_eq (cfg := cfg) h8 hv hE
  rw [hpr] at hpo
  simp only [bind, Except.bind] at hpo
  split at hpo
  · cases hpo
  rename_i c hcn
  simp only [pure, Except.pure] at hpo
  injection hpo with hpo
  have hlab := canonicalize_labels hcn
  rw [← hpo]
  refine ⟨((blocksOf o (graphOps ops (gp, gc)) (graphContr (pickAt el cv) (gp, gc))).flatMap (bTensors o (slots o.spaces.length (graphOps ops (gp, gc)))
    (slotIdx (slots o.spaces.length (graphOps ops (gp, gc)))))).map Tensor.label, ?_, hlab.trans ?_⟩
  · intro s hs
    obtain ⟨y, hy, rfl⟩ := List.mem_map.1 hs
    obtain ⟨b, _, hy⟩ := List.mem_flatMap.1 hy
    exact bTensors_labels _ _ _ _ y hy
  · unfold listTerm STerm.reindex
    dsimp only
    rw [List.map_map]
    have : (Tensor.label ∘ Tensor.reindex (pairMap (slots o.spaces.length (graphOps ops (gp, gc))) ((blocksOf o (graphOps ops (gp, gc)) (graphContr (pickAt el cv) (gp, gc))).flatMap (bPairs o)))) = Tensor.label := rfl
    rw [this, List.map_append, layTensors_labels]
    exact ((perm_graphOps hA.ops).map _).append_right _

theorem densityLabel_word {s : Str} (h : IsDensityLabel s) : ∀ c ∈ s, isWord c = true := by
  rcases h with rfl | rfl | ⟨n, rfl⟩
  · decide
  · decide
  · intro c hc
    rcases List.mem_append.1 hc with hc | hc
    · have : ∀ c ∈ "lambda".toList, isWord c = true := by decide
      exact this c hc
    · unfold intStr at hc
      rw [if_neg (by omega)] at hc
      have := natStr_digits _ _ hc
      simp [isWord, isAlnum, this]

/-- the terms of `contract` can be compiled if they do not have more than 52 indices -/
theorem contract_compilable {o : OSI} {cfg : WickCfg} {ops : OperatorProduct} (h8 : o.spaces.length ≤ 8)
    (hvo : ∀ p ∈ ops, p.Valid o.spaces.length) (hne : ops ≠ []) (hw : ∀ p ∈ ops, ∀ c ∈ p.label, isWord c = true) {f : Rational} (hf : Canon f) {minr maxr : Int} {e : Expr}
    (h : contract o cfg f ops minr maxr = .ok e) {p : STerm × Rational} (hp : p ∈ e) (h52 : p.1.allIdx.toFinset.card ≤ 52) : p.1.Compilable o := by
  obtain ⟨extra, hex, hperm⟩ := C49_one_tensor_per_operator h8 hvo hf h hp
  obtain ⟨t, hc, hpair, _, _, f', hcn⟩ := contract_mem h8 hvo hf h hp
  have hc' := canonicalize_covered hc hcn
  have hp' := (canonicalize_pair hc hpair hcn).1
  have hop := canonicalize_ops hcn
  have hsort : p.1.ops.Pairwise (fun a b => SQOp.ltB b a = false) := by
    obtain ⟨ρ, tensors, ts, hs⟩ := canonicalize_shape hcn
    rw [hs.res]
    exact sorted_fst (stdSort_sorted (enumFrom 0 _))
  have hnd : (p.1.ops.map SQOp.index).Nodup := by
    have : ((lhsOf [] p.1).upper ++ (lhsOf [] p.1).lower).Perm (p.1.ops.map SQOp.index) := by
      conv_rhs => rw [hop.1, List.map_append]
      exact ((List.reverse_perm _).append_right _).trans List.perm_append_comm
    exact this.nodup_iff.1 (pair_nodup hc' hp' [])
  refine ⟨?_, ?_, ?_, h52, hop.1, (sorted_blocks hsort).1, (sorted_blocks hsort).2, hnd, ?_⟩
  · intro h0
    rw [h0] at hperm
    have := hperm.length_eq
    rw [List.map_nil, List.length_nil, List.length_append, List.length_map] at this
    exact hne (List.length_eq_zero_iff.1 (by omega))
  · intro y hy
    have := hperm.mem_iff.1 (List.mem_map_of_mem (f := Tensor.label) hy)
    rcases List.mem_append.1 this with h | h
    · obtain ⟨q, hq, he⟩ := List.mem_map.1 h
      rw [← he]; exact hw q hq
    · exact densityLabel_word (hex _ h)
  · intro i hi
    rcases List.mem_append.1 hi with hi | hi
    · obtain ⟨a, ha, rfl⟩ := List.mem_map.1 hi
      have := hop.2 a ha
      unfold OSI.numSpaces at this
      unfold Index.Registered
      omega
    · exact canonicalize_tensors hcn i hi
  · intro a ha
    obtain ⟨x, hx, hi⟩ := hc' a ha
    exact ⟨x, hx, List.mem_append.2 (List.mem_append.1 hi).symm⟩

/-- every term of the contraction of an expression is a term of the contraction of one of its products -/
theorem contractExpr_mem {o : OSI} {cfg : WickCfg} {E : OpExpr} {f : Rational} {minr maxr : Int} {e : Expr}
    (h : contractExpr o cfg f E minr maxr = .ok e) : ∀ p ∈ e, ∃ q ∈ E, ∃ e', contract o cfg (Rational.mul f q.2) q.1 minr maxr = .ok e' ∧ ∃ p' ∈ e', p'.1 = p.1 := by
  rw [contractExpr_eq] at h
  cases hm : E.mapM (m := Except Fault) (fun p => contract o cfg (Rational.mul f p.2) p.1 minr maxr) with
  | error err => rw [hm] at h; cases h
  | ok es =>
    rw [hm] at h
    simp only [bind, Except.bind, pure, Except.pure, Except.ok.injEq] at h
    have hF := (mapM_ok_iff _ _ _).1 hm
    rw [← h]
    have key : ∀ (P : STerm → Prop) (es : List Expr) (m : Expr), (∀ p ∈ m, P p.1) → (∀ e ∈ es, ∀ p ∈ e, P p.1) →
        ∀ p ∈ es.foldl (fun r e => Lin.plus r e) m, P p.1 := by
      intro P es
      induction es with
      | nil => intro m hm _; exact hm
      | cons e es ih =>
        intro m hm hes
        refine ih (Lin.plus m e) ?_ (fun e' he' => hes e' (by simp [he']))
        exact Lin.mem_fold_add P (fun q : STerm × Rational => q.1) Prod.snd e m hm (hes e (by simp))
    refine key (fun k => ∃ q ∈ E, ∃ e', contract o cfg (Rational.mul f q.2) q.1 minr maxr = .ok e' ∧ ∃ p' ∈ e', p'.1 = k) es [] (by simp) ?_
    intro e' he' p hp
    obtain ⟨q, hq, hr⟩ := forall₂_right hF e' he'
    exact ⟨q, hq, e', hr, p, hp, rfl⟩

variable {Ω R A : Type} [Inhabited Ω] [DecidableEq Ω] [CommRing R] [Ring A] [Algebra R A] [Algebra ℚ R] [Algebra ℚ A] [IsScalarTower ℚ R A]

/-- **C78**, from the operators to the numbers: after any history of registry calls (at most eight spaces, index names as in C13, letters as labels),
let `E` be an operator expression whose products are not empty, with labels made of letters, digits and underscores, let `contract` return `e` for it
(any ranks, any settings), with at most 52 indices in every term and denominators that divide `10^9`. Then the program generated from the
many-body equations of `e` computes, for all orbitals and tensors, arrays that stand for `e`, in every algebra and for every product `N`. -/
theorem C78_contract_program_partial (hist : List RegOp) {fmt : Rational → Str} {label : Str} {cfg : WickCfg} {E : OpExpr} {f : Rational} {minr maxr : Int} {e : Expr} :
    let o := runReg OSI.empty hist
    (∀ s ∈ o.spaces, ∀ name ∈ s.indices, ∀ (c : Char) (n : Int), name ≠ c :: '_' :: '{' :: (intStr n ++ ['}'])) →
    (∀ s ∈ o.spaces, isAlpha s.label = true) → (∀ c ∈ label, isWord c = true) → PrintsNine fmt →
    o.spaces.length ≤ 8 → (∀ q ∈ E, q.1 ≠ [] ∧ Canon q.2 ∧ ∀ p ∈ q.1, p.Valid o.spaces.length ∧ ∀ c ∈ p.label, isWord c = true) → Canon f →
    contractExpr o cfg f E minr maxr = .ok e → (∀ p ∈ e, p.1.allIdx.toFinset.card ≤ 52 ∧ p.2.den ∣ 10 ^ 9) →
    ∀ (v : OrbSystem Ω R A) (arr : Str → Str → List Ω → R) (dom : Char → Finset Ω) (N : List (SQType × Ω) → A),
    (∀ p ∈ e, ∀ y ∈ p.1.tensors, ∀ l u, l.length = y.lower.length → u.length = y.upper.length → arr y.label (spaceText o y) (u ++ l) = v.T y.label l u) →
    (∀ (n : Nat) s, o.spaces[n]? = some s → dom s.label = v.dom n) →
    ∃ m, e.toManybody o label = .ok m ∧ ∃ arrays : Str → List Ω → R,
      (∀ q ∈ m, ∃ lines, q.2.mapM (m := Except Fault) (fun q => q.compileEinsum o fmt) = .ok lines ∧
        Runs arr dom lines (fun _ _ => 0) (fun name x => if name = label ++ keyUpper q.1 ++ keyLower q.1 then arrays q.1 x else 0)) ∧
      (m.map (fun q => keyOperator dom N q.1 (arrays q.1))).sum = Lin.eval (v.valueWith N) e := by
  intro o hgen hal hlab hfmt h8 hE hf hc hb v arr dom N harr hdom
  refine C78_program_partial hist hgen hal hlab hfmt ?_ ?_ v arr dom N harr hdom
  · intro p hp
    obtain ⟨q, hq, e', hc', p', hp', he⟩ := contractExpr_mem hc p hp
    rw [← he]
    refine contract_compilable h8 (fun r hr => ((hE q hq).2.2 r hr).1) (hE q hq).1 (fun r hr => ((hE q hq).2.2 r hr).2) (canon_mul hf (hE q hq).2.1) hc' hp' ?_
    rw [he]
    exact (hb p hp).1
  · intro p hp
    exact ⟨(contractExpr_spec hf (fun q hq => (hE q hq).2.1) hc).2.1.toOk.canon p hp, (hb p hp).2⟩

/-- **C78**, from the operators to the numbers, for arbitrary coefficients: the same without the hypothesis on the denominators. The arrays stand for
the terms of `e` with the numbers that are printed for their coefficients (off by less than `10^-9`), and every element of an array differs from what the equations
of its key say by at most `10^-9` times the sum of the absolute values of their contractions. -/
theorem C78_contract_rounded {S : Type} [Field S] [LinearOrder S] [IsStrictOrderedRing S] (abv : AbsoluteValue R S) (habv : ∀ c : ℚ, abv (algebraMap ℚ R c) = ((|c| : ℚ) : S))
    (hist : List RegOp) {fmt : Rational → Str} {label : Str} {cfg : WickCfg} {E : OpExpr} {f : Rational} {minr maxr : Int} {e : Expr} :
    let o := runReg OSI.empty hist
    (∀ s ∈ o.spaces, ∀ name ∈ s.indices, ∀ (c : Char) (n : Int), name ≠ c :: '_' :: '{' :: (intStr n ++ ['}'])) →
    (∀ s ∈ o.spaces, isAlpha s.label = true) → (∀ c ∈ label, isWord c = true) → PrintsNine fmt →
    o.spaces.length ≤ 8 → (∀ q ∈ E, q.1 ≠ [] ∧ Canon q.2 ∧ ∀ p ∈ q.1, p.Valid o.spaces.length ∧ ∀ c ∈ p.label, isWord c = true) → Canon f →
    contractExpr o cfg f E minr maxr = .ok e → (∀ p ∈ e, p.1.allIdx.toFinset.card ≤ 52) →
    ∀ (v : OrbSystem Ω R A) (arr : Str → Str → List Ω → R) (dom : Char → Finset Ω) (N : List (SQType × Ω) → A),
    (∀ p ∈ e, ∀ y ∈ p.1.tensors, ∀ l u, l.length = y.lower.length → u.length = y.upper.length → arr y.label (spaceText o y) (u ++ l) = v.T y.label l u) →
    (∀ (n : Nat) s, o.spaces[n]? = some s → dom s.label = v.dom n) →
    (∀ p ∈ e, |litVal fmt p.2 - toRat p.2| < 1 / 10 ^ 9) ∧
    ∃ m, e.toManybody o label = .ok m ∧ ∃ arrays : Str → List Ω → R,
      (∀ q ∈ m, (∃ lines, q.2.mapM (m := Except Fault) (fun q => q.compileEinsum o fmt) = .ok lines ∧
        Runs arr dom lines (fun _ _ => 0) (fun name x => if name = label ++ keyUpper q.1 ++ keyLower q.1 then arrays q.1 x else 0)) ∧
        ∀ x, abv (arrays q.1 x - (q.2.map (fun eq => algebraMap ℚ R (toRat eq.factor) * (eq.lhs.tensors.map (fun t => eq.element v t x)).sum)).sum) ≤
          1 / 10 ^ 9 * (q.2.map (fun eq => abv (eq.lhs.tensors.map (fun t => eq.element v t x)).sum)).sum) ∧
      (m.map (fun q => keyOperator dom N q.1 (arrays q.1))).sum = (e.map (fun p => litVal fmt p.2 • v.valueWith N p.1)).sum := by
  intro o hgen hal hlab hfmt h8 hE hf hc hb v arr dom N harr hdom
  have hC : ∀ p ∈ e, p.1.Compilable o := by
    intro p hp
    obtain ⟨q, hq, e', hc', p', hp', he⟩ := contractExpr_mem hc p hp
    rw [← he]
    refine contract_compilable h8 (fun r hr => ((hE q hq).2.2 r hr).1) (hE q hq).1 (fun r hr => ((hE q hq).2.2 r hr).2) (canon_mul hf (hE q hq).2.1) hc' hp' ?_
    rw [he]
    exact hb p hp
  have hcan := (contractExpr_spec hf (fun q hq => (hE q hq).2.1) hc).2.1.toOk.canon
  obtain ⟨h0, m, hm, arrays, h1, h2⟩ := C78_program_rounded hist hgen hal hlab hfmt hC hcan v arr dom N harr hdom
  have hreg : ∀ p ∈ e, OpsRegistered o p.1 := by
    intro p hp a ha
    have := (hC p hp).registered a.index (List.mem_append_left _ (List.mem_map_of_mem ha))
    unfold Index.Registered at this
    unfold OSI.numSpaces
    omega
  obtain ⟨m', hm', _, _, hq, _⟩ := C55_partition label hreg
  rw [hm] at hm'
  cases hm'
  refine ⟨h0, m, hm, arrays, fun q hqm => ⟨(h1 q hqm).1, fun x => ?_⟩, h2⟩
  rw [(h1 q hqm).2 x]
  have := abv_rounded_sum abv habv (ε := 1 / 10 ^ 9) q.2 (fun eq => toRat eq.factor) (fun eq => litVal fmt eq.factor) (by
    intro eq he
    rw [hq q hqm] at he
    obtain ⟨p, hp, rfl⟩ := List.mem_map.1 he
    exact h0 p (List.mem_filter.1 hp).1) (fun eq => (eq.lhs.tensors.map (fun t => eq.element v t x)).sum)
  have h9 : (((1 / 10 ^ 9 : ℚ)) : S) = 1 / 10 ^ 9 := by push_cast; rfl
  rw [h9] at this
  exact this

/-- **C78** and **C53**: if moreover every space is occupied or unoccupied, no three alike contractions are possible and the window contains all ranks,
then in every algebra with the canonical anticommutation relations and for all orbitals and antisymmetric tensors, the arrays that the generated
program computes, summed against normal products of operators, are `f` times the operator expression itself. -/
theorem C78_product_program_partial (hist : List RegOp) {fmt : Rational → Str} {label : Str} {cfg : WickCfg} {E : OpExpr} {f : Rational} {minr maxr : Int} {e : Expr} :
    let o := runReg OSI.empty hist
    (∀ s ∈ o.spaces, ∀ name ∈ s.indices, ∀ (c : Char) (n : Int), name ≠ c :: '_' :: '{' :: (intStr n ++ ['}'])) →
    (∀ s ∈ o.spaces, isAlpha s.label = true) → (∀ c ∈ label, isWord c = true) → PrintsNine fmt →
    o.spaces.length ≤ 8 → (∀ q ∈ E, q.1 ≠ [] ∧ Canon q.2 ∧ ∀ p ∈ q.1, p.Valid o.spaces.length ∧ ∀ c ∈ p.label, isWord c = true) → Canon f →
    contractExpr o cfg f E minr maxr = .ok e → (∀ p ∈ e, p.1.allIdx.toFinset.card ≤ 52 ∧ p.2.den ∣ 10 ^ 9) →
    (∀ q ∈ E, NoTriples o q.1) → minr ≤ 0 → (∀ q ∈ E, totalOps o.spaces.length q.1 ≤ maxr) →
    ∀ (v : OrbSystem Ω R A) (arr : Str → Str → List Ω → R) (dom : Char → Finset Ω) (hole : Ω → Bool), v.Antisymmetric → IsCAR v.op → v.Vacuum o hole →
    (∀ p ∈ e, ∀ y ∈ p.1.tensors, ∀ l u, l.length = y.lower.length → u.length = y.upper.length → arr y.label (spaceText o y) (u ++ l) = v.T y.label l u) →
    (∀ (n : Nat) s, o.spaces[n]? = some s → dom s.label = v.dom n) →
    ∃ m, e.toManybody o label = .ok m ∧ ∃ arrays : Str → List Ω → R,
      (∀ q ∈ m, ∃ lines, q.2.mapM (m := Except Fault) (fun q => q.compileEinsum o fmt) = .ok lines ∧
        Runs arr dom lines (fun _ _ => 0) (fun name x => if name = label ++ keyUpper q.1 ++ keyLower q.1 then arrays q.1 x else 0)) ∧
      (m.map (fun q => keyOperator dom (normalProd hole v.op) q.1 (arrays q.1))).sum =
        toRat f • (E.map (fun q => toRat q.2 • (q.1.map (v.opValue hole o.spaces.length)).prod)).sum := by
  intro o hgen hal hlab hfmt h8 hE hf hc hb h2 hmin hmax v arr dom hole hv hcar hvac harr hdom
  obtain ⟨m, hm, arrays, h1, h3⟩ := C78_contract_program_partial hist hgen hal hlab hfmt h8 hE hf hc hb v arr dom (normalProd hole v.op) harr hdom
  refine ⟨m, hm, arrays, h1, h3.trans ?_⟩
  exact C53_operator_product_expr_partial h8 (fun q hq p hp => ((hE q hq).2.2 p hp).1) h2 (fun q hq => (hE q hq).2.1) hf hc hmin hmax hv hcar hvac

/-! ## a printer with nine decimals exists -/

/-- `n` written with at least `k` digits -/
def padTo (k n : Nat) : Str := List.replicate (k - (natStr n).length) '0' ++ natStr n

/-- the coefficient cut after `k` decimals -/
def cutAt (k : Nat) (c : Rational) : Str :=
  if c.num < 0 then '-' :: (natStr (c.num.natAbs * 10 ^ k / c.den.natAbs / 10 ^ k) ++ '.' :: padTo k (c.num.natAbs * 10 ^ k / c.den.natAbs % 10 ^ k))
  else natStr (c.num.natAbs * 10 ^ k / c.den.natAbs / 10 ^ k) ++ '.' :: padTo k (c.num.natAbs * 10 ^ k / c.den.natAbs % 10 ^ k)

theorem digitsVal_zeros (k : Nat) (s : Str) : digitsVal (List.replicate k '0' ++ s) = digitsVal s := by
  induction k with
  | zero => rfl
  | succ k ih =>
    rw [List.replicate_succ, List.cons_append]
    rw [← ih]
    rfl

theorem natStrAux_length_le (fuel : Nat) : ∀ {n k : Nat}, 0 < k → n < 10 ^ k → (natStrAux fuel n).length ≤ k := by
  induction fuel with
  | zero => intro n k _ _; simp [natStrAux]
  | succ fuel ih =>
    intro n k hk h
    rw [natStrAux]
    split
    · simp; omega
    · next h10 =>
      obtain ⟨k, rfl⟩ : ∃ j, k = j + 1 := ⟨k - 1, by omega⟩
      have hk0 : 0 < k := by
        rcases Nat.eq_zero_or_pos k with rfl | h0
        · simp at h; omega
        · exact h0
      rw [List.length_append]
      have := ih hk0 (n := n / 10) (by rw [Nat.pow_succ] at h; omega)
      simp
      omega

theorem natStr_length_le {n k : Nat} (hk : 0 < k) (h : n < 10 ^ k) : (natStr n).length ≤ k := natStrAux_length_le _ hk h

theorem padTo_spec {k : Nat} (hk : 0 < k) {n : Nat} (h : n < 10 ^ k) : (padTo k n).length = k ∧ (∀ x ∈ padTo k n, isDigit x = true) ∧ digitsVal (padTo k n) = n := by
  have hl := natStr_length_le hk h
  refine ⟨?_, ?_, ?_⟩
  · simp [padTo]; omega
  · intro x hx
    rcases List.mem_append.1 hx with hx | hx
    · rw [(List.mem_replicate.1 hx).2]; decide
    · exact natStr_digits _ _ hx
  · unfold padTo
    rw [digitsVal_zeros, digitsVal_natStr]

theorem cutAt_prints {k : Nat} (hk : 0 < k) (c : Rational) (hc : Canon c) :
    (∃ a b : Str, (cutAt k c = a ++ '.' :: b ∨ cutAt k c = '-' :: (a ++ '.' :: b)) ∧ a ≠ [] ∧ b.length = k ∧ (∀ x ∈ a, isDigit x = true) ∧
      ∀ x ∈ b, isDigit x = true) ∧
    ∃ x, decimalVal (cutAt k c) = some x ∧ |x - toRat c| < 1 / 10 ^ k := by
  have hlt : (c.num.natAbs * 10 ^ k / c.den.natAbs) % 10 ^ k < 10 ^ k := Nat.mod_lt _ (Nat.pow_pos (by decide))
  obtain ⟨p1, p2, p3⟩ := padTo_spec hk hlt
  set n := c.num.natAbs * 10 ^ k / c.den.natAbs with hn
  have hdig : ∀ x ∈ natStr (n / 10 ^ k), isDigit x = true := natStr_digits _
  have hpt : '.' ∉ natStr (n / 10 ^ k) := fun h => absurd (hdig _ h) (by decide)
  have hmin : (natStr (n / 10 ^ k) ++ '.' :: padTo k (n % 10 ^ k)).head? ≠ some '-' := by
    cases hs : natStr (n / 10 ^ k) with
    | nil => simp
    | cons x l =>
      intro h
      simp at h
      exact absurd (hdig x (by rw [hs]; simp)) (by rw [h]; decide)
  have hbr : breakOn ['.'] (natStr (n / 10 ^ k) ++ '.' :: padTo k (n % 10 ^ k)) = some (natStr (n / 10 ^ k), padTo k (n % 10 ^ k)) := by
    have := breakOn_app (c0 := '.') (sep := []) (a := natStr (n / 10 ^ k)) (b := padTo k (n % 10 ^ k)) hpt
    rw [List.append_assoc] at this
    exact this
  have hok : natStr (n / 10 ^ k) ≠ [] ∧ padTo k (n % 10 ^ k) ≠ [] ∧ (natStr (n / 10 ^ k)).all isDigit = true ∧ (padTo k (n % 10 ^ k)).all isDigit = true := by
    refine ⟨natStr_ne_nil _, ?_, List.all_eq_true.2 hdig, List.all_eq_true.2 p2⟩
    intro h; rw [h] at p1; simp at p1; omega
  have hval : ((digitsVal (natStr (n / 10 ^ k)) : ℚ) + (digitsVal (padTo k (n % 10 ^ k)) : ℚ) / 10 ^ (padTo k (n % 10 ^ k)).length) = (n : ℚ) / 10 ^ k := by
    rw [p1, p3, digitsVal_natStr]
    have : (n : ℚ) = ((n / 10 ^ k : Nat) : ℚ) * 10 ^ k + ((n % 10 ^ k : Nat) : ℚ) := by
      have := Nat.div_add_mod n (10 ^ k)
      have h2 : ((10 ^ k * (n / 10 ^ k) + n % 10 ^ k : Nat) : ℚ) = (n : ℚ) := by rw [this]
      rw [← h2]; push_cast; ring
    rw [this]; field_simp
  have hd0 : 0 < c.den.natAbs := by have := hc.1; omega
  have hdq : (c.den : ℚ) = (c.den.natAbs : ℚ) := by
    have := hc.1
    rw [show (c.den : ℚ) = ((c.den.natAbs : ℤ) : ℚ) by congr 1; omega]
    simp
  have hclose : |(n : ℚ) / 10 ^ k - (c.num.natAbs : ℚ) / (c.den.natAbs : ℚ)| < 1 / 10 ^ k := by
    have hdp : (0 : ℚ) < c.den.natAbs := by exact_mod_cast hd0
    have h1 : (n : ℚ) * c.den.natAbs ≤ c.num.natAbs * 10 ^ k := by
      have := Nat.div_mul_le_self (c.num.natAbs * 10 ^ k) c.den.natAbs
      rw [← hn] at this
      exact_mod_cast this
    have h2 : (c.num.natAbs : ℚ) * 10 ^ k < ((n : ℚ) + 1) * c.den.natAbs := by
      have := Nat.lt_mul_div_succ (c.num.natAbs * 10 ^ k) hd0
      rw [← hn, Nat.mul_comm c.den.natAbs] at this
      exact_mod_cast this
    have e : (n : ℚ) / 10 ^ k - (c.num.natAbs : ℚ) / (c.den.natAbs : ℚ) = ((n : ℚ) * c.den.natAbs - c.num.natAbs * 10 ^ k) / (10 ^ k * c.den.natAbs) := by
      field_simp
    rw [e, abs_div, abs_of_pos (by positivity : (0 : ℚ) < 10 ^ k * c.den.natAbs), div_lt_div_iff₀ (by positivity) (by positivity)]
    have h3 : |(n : ℚ) * (c.den.natAbs : ℚ) - (c.num.natAbs : ℚ) * 10 ^ k| < (c.den.natAbs : ℚ) := by
      rw [abs_lt]; constructor <;> linarith
    rw [one_mul, mul_comm]
    exact mul_lt_mul_of_pos_left h3 (by positivity)
  by_cases hneg : c.num < 0
  · have hcut : cutAt k c = '-' :: (natStr (n / 10 ^ k) ++ '.' :: padTo k (n % 10 ^ k)) := by
      unfold cutAt; rw [if_pos hneg]
    rw [hcut]
    refine ⟨⟨_, _, Or.inr rfl, hok.1, p1, hdig, p2⟩, -((n : ℚ) / 10 ^ k), ?_, ?_⟩
    · unfold decimalVal
      simp only [List.head?_cons, if_true, List.tail_cons, hbr]
      rw [if_pos hok, hval]
      simp
    · have : toRat c = -((c.num.natAbs : ℚ) / (c.den.natAbs : ℚ)) := by
        unfold toRat
        rw [hdq, ← neg_div]
        congr 1
        have h5 : c.num = -(c.num.natAbs : ℤ) := by omega
        have h6 : ((c.num : ℤ) : ℚ) = ((-(c.num.natAbs : ℤ) : ℤ) : ℚ) := congrArg _ h5
        rw [h6, Int.cast_neg, Int.cast_natCast]
      rw [this, neg_sub_neg, abs_sub_comm]
      exact hclose
  · have hcut : cutAt k c = natStr (n / 10 ^ k) ++ '.' :: padTo k (n % 10 ^ k) := by
      unfold cutAt; rw [if_neg hneg]
    rw [hcut]
    refine ⟨⟨_, _, Or.inl rfl, hok.1, p1, hdig, p2⟩, (n : ℚ) / 10 ^ k, ?_, ?_⟩
    · unfold decimalVal
      rw [if_neg hmin, hbr]
      simp only
      rw [if_pos hok, hval, if_neg hmin, one_mul]
    · have : toRat c = (c.num.natAbs : ℚ) / (c.den.natAbs : ℚ) := by
        unfold toRat
        rw [hdq]
        congr 1
        have h5 : c.num = (c.num.natAbs : ℤ) := by omega
        have h6 : ((c.num : ℤ) : ℚ) = ((c.num.natAbs : ℤ) : ℚ) := congrArg _ h5
        rw [h6, Int.cast_natCast]
      rw [this]
      exact hclose

/-- the hypothesis on the printer in C78 can be met -/
theorem cut9_prints : PrintsNine (cutAt 9) := fun c hc => cutAt_prints (by decide) c hc

/-! ## an instance: `1/2 f t` in the Jordan-Wigner representation -/

/-- a history with an occupied and an unoccupied space -/
def srHistory : List RegOp := [.add 'o' .fermion .occupied [] [], .add 'v' .fermion .unoccupied [] []]

/-- the registry after `srHistory` -/
abbrev srReg : OSI := runReg OSI.empty srHistory

theorem srReg_vacuum : jwSys.Vacuum srReg id := by
  refine ⟨?_, ?_⟩
  · intro s hs
    have hs : s < 2 := hs
    interval_cases s
    · left; exact ⟨by decide +kernel, by simp [jwSys]⟩
    · right; exact ⟨by decide +kernel, by simp [jwSys]⟩
  · intro s s' hs hs' hne
    have hs : s < 2 := hs
    have hs' : s' < 2 := hs'
    interval_cases s <;> interval_cases s' <;> simp_all [jwSys]

-- all hypotheses hold for `1/2 f t`; there are four equations under three keys, and the arrays of the program stand for the product
example : ∃ e m, contractExpr srReg {} ⟨1, 2⟩ (oneProd jwOps) 0 4 = .ok e ∧ e.toManybody srReg ['r'] = .ok m ∧ (m.flatMap Prod.snd).length = 4 ∧
    ∃ arrays : Str → List Bool → ℚ,
      (∀ q ∈ m, ∃ lines, q.2.mapM (m := Except Fault) (fun q => q.compileEinsum srReg (cutAt 9)) = .ok lines ∧
        Runs (fun _ _ _ => 1) (fun c => if c = 'o' then {true} else {false}) lines (fun _ _ => 0)
          (fun name x => if name = 'r' :: (keyUpper q.1 ++ keyLower q.1) then arrays q.1 x else 0)) ∧
      (m.map (fun q => keyOperator (fun c => if c = 'o' then {true} else {false}) (normalProd id jwSys.op) q.1 (arrays q.1))).sum =
        ((1 : ℚ) / 2) • (jwOps.map (jwSys.opValue id 2)).prod := by
  obtain ⟨e, he, h1⟩ := ok_of_check (x := contractExpr srReg {} ⟨1, 2⟩ (oneProd jwOps) 0 4) (fun e =>
    decide (e.length = 4 ∧ (∀ p ∈ e, p.1.allIdx.toFinset.card ≤ 52 ∧ p.2.den ∣ 10 ^ 9) ∧ ∀ p ∈ e, ∀ y ∈ p.1.tensors, y.lower.length ≤ 1 ∧ y.upper.length ≤ 1)) (by decide +kernel)
  obtain ⟨h4, hb, ht⟩ := of_decide_eq_true h1
  have hone : (oneProd jwOps) = [(jwOps, ⟨1, 1⟩)] := by decide +kernel
  have hcan : ∀ q ∈ oneProd jwOps, Canon q.2 := by
    rw [hone]
    intro q hq
    rw [List.mem_singleton] at hq
    subst hq
    constructor <;> decide
  have := C78_product_program_partial (Ω := Bool) (R := ℚ) (A := Matrix (Fin 4) (Fin 4) ℚ) srHistory (fmt := (cutAt 9)) (label := ['r']) (cfg := {}) (E := oneProd jwOps) (f := ⟨1, 2⟩) (minr := 0) (maxr := 4) (e := e)
  obtain ⟨m, hm, arrays, hr, hs⟩ := this (by
      intro s hs name hn
      have h0 : ∀ s ∈ srReg.spaces, s.indices = [] := by decide
      rw [h0 s hs] at hn
      cases hn) (by decide) (by decide) cut9_prints (by decide)
    (by
      intro q hq
      have hq1 := mem_oneProd hq
      refine ⟨by rw [hq1]; decide, hcan q hq, fun p hp => ⟨?_, ?_⟩⟩
      · rw [hq1] at hp; exact jwOps_valid p hp
      · rw [hq1] at hp; revert p; decide)
    (by constructor <;> decide) he hb (fun q hq => by rw [mem_oneProd hq]; exact noTriples_of_two jwOps_two) (by decide)
    (fun q hq => by rw [mem_oneProd hq]; decide +kernel) jwSys (fun _ _ _ => 1) (fun c => if c = 'o' then {true} else {false}) id jw_anti jw_car srReg_vacuum
    (by
      intro p hp y hy l u hl hu
      have := ht p hp y hy
      show (1 : ℚ) = if l.length ≤ 1 ∧ u.length ≤ 1 then 1 else 0
      rw [if_pos ⟨by omega, by omega⟩])
    (by
      intro n s hs
      match n with
      | 0 => cases hs; decide
      | 1 => cases hs; decide
      | n + 2 => cases hs)
  refine ⟨e, m, he, hm, ?_, arrays, hr, ?_⟩
  · have hp := (C55_partition (o := srReg) ['r'] (e := e) (by
      intro p hp
      obtain ⟨q, hq, e', hc', p', hp', hpe⟩ := contractExpr_mem he p hp
      rw [← hpe]
      have := mem_oneProd hq
      exact (contract_ops (by decide) (by rw [this]; exact jwOps_valid) (canon_mul (by constructor <;> decide) (hcan q hq)) hc' p' hp').2))
    obtain ⟨m', hm', _, _, _, hperm⟩ := hp
    rw [hm] at hm'
    cases hm'
    rw [hperm.length_eq, List.length_map, h4]
  · rw [hs]
    rw [hone]
    norm_num [toRat]
    rfl

-- all hypotheses hold for `1/3 f t`, whose coefficients are not printed exactly
example : ∃ e m, contractExpr srReg {} ⟨1, 3⟩ (oneProd jwOps) 0 4 = .ok e ∧ e.toManybody srReg ['r'] = .ok m ∧ (∃ p ∈ e, ¬ p.2.den ∣ 10 ^ 9) ∧
    ∃ arrays : Str → List Bool → ℚ,
      (∀ q ∈ m, (∃ lines, q.2.mapM (m := Except Fault) (fun q => q.compileEinsum srReg (cutAt 9)) = .ok lines ∧
        Runs (fun _ _ _ => 1) (fun c => if c = 'o' then {true} else {false}) lines (fun _ _ => 0)
          (fun name x => if name = 'r' :: (keyUpper q.1 ++ keyLower q.1) then arrays q.1 x else 0)) ∧
        ∀ x, |arrays q.1 x - (q.2.map (fun eq => toRat eq.factor * (eq.lhs.tensors.map (fun t => eq.element jwSys t x)).sum)).sum| ≤
          1 / 10 ^ 9 * (q.2.map (fun eq => |(eq.lhs.tensors.map (fun t => eq.element jwSys t x)).sum|)).sum) := by
  obtain ⟨e, he, h1⟩ := ok_of_check (x := contractExpr srReg {} ⟨1, 3⟩ (oneProd jwOps) 0 4) (fun e =>
    decide ((∃ p ∈ e, ¬ p.2.den ∣ 10 ^ 9) ∧ (∀ p ∈ e, p.1.allIdx.toFinset.card ≤ 52) ∧ ∀ p ∈ e, ∀ y ∈ p.1.tensors, y.lower.length ≤ 1 ∧ y.upper.length ≤ 1)) (by decide +kernel)
  obtain ⟨h4, hb, ht⟩ := of_decide_eq_true h1
  have hone : (oneProd jwOps) = [(jwOps, ⟨1, 1⟩)] := by decide +kernel
  have hcan : ∀ q ∈ oneProd jwOps, Canon q.2 := by
    rw [hone]
    intro q hq
    rw [List.mem_singleton] at hq
    subst hq
    constructor <;> decide
  have := C78_contract_rounded (Ω := Bool) (R := ℚ) (A := Matrix (Fin 4) (Fin 4) ℚ) (AbsoluteValue.abs : AbsoluteValue ℚ ℚ) (by intro c; simp) srHistory (fmt := (cutAt 9)) (label := ['r']) (cfg := {}) (E := oneProd jwOps) (f := ⟨1, 3⟩) (minr := 0) (maxr := 4) (e := e)
  obtain ⟨_, m, hm, arrays, hr, hs⟩ := this (by
      intro s hs name hn
      have h0 : ∀ s ∈ srReg.spaces, s.indices = [] := by decide
      rw [h0 s hs] at hn
      cases hn) (by decide) (by decide) cut9_prints (by decide)
    (by
      intro q hq
      have hq1 := mem_oneProd hq
      refine ⟨by rw [hq1]; decide, hcan q hq, fun p hp => ⟨?_, ?_⟩⟩
      · rw [hq1] at hp; exact jwOps_valid p hp
      · rw [hq1] at hp; revert p; decide)
    (by constructor <;> decide) he hb jwSys (fun _ _ _ => 1) (fun c => if c = 'o' then {true} else {false}) (normalProd id jwSys.op)
    (by
      intro p hp y hy l u hl hu
      have := ht p hp y hy
      show (1 : ℚ) = if l.length ≤ 1 ∧ u.length ≤ 1 then 1 else 0
      rw [if_pos ⟨by omega, by omega⟩])
    (by
      intro n s hs
      match n with
      | 0 => cases hs; decide
      | 1 => cases hs; decide
      | n + 2 => cases hs)
  exact ⟨e, m, he, hm, h4, arrays, hr⟩

end Wick
end Wicked
